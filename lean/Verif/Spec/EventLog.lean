import Mathlib.Data.Finset.Card
import Mathlib.Data.Finset.Prod
import Mathlib.Data.List.DropRight
/- Specification of the event log operations on activity sequences; independent of the model. -/
namespace Prolothar.Spec.EventLog
variable {A : Type} [DecidableEq A]

/-- number of positions with activity `b` that have an earlier position with activity `a` -/
def followCount (a b : A) (acts : List A) : Nat :=
  ((Finset.range acts.length).filter fun j => acts[j]? = some b ∧ ∃ i < j, acts[i]? = some a).card

/-- the documented count: pairs of positions `a, ?, b` with no `a` in between -/
def documentedCount (a b : A) (acts : List A) : Nat :=
  ((Finset.range acts.length ×ˢ Finset.range acts.length).filter fun p =>
    p.1 < p.2 ∧ acts[p.1]? = some a ∧ acts[p.2]? = some b ∧
      ∀ k < p.2, p.1 < k → acts[k]? ≠ some a).card

/-- `long` is `short` with every element repeated at least once -/
def Expands (short long : List A) : Prop :=
  ∃ counts : List Nat, counts.length = short.length ∧ (∀ c ∈ counts, 0 < c) ∧
    long = (List.zipWith List.replicate counts short).flatten

end Prolothar.Spec.EventLog
