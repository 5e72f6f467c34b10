import Verif.Spec.Dfg
import Mathlib.Algebra.Order.Ring.Rat
/- Specification of the dissimilarity of activities; independent of the model. -/
namespace Prolothar.Spec.ActivityKMedoid
open Prolothar.Spec.Dfg
variable {A : Type} [DecidableEq A]

/-- how often `b` immediately follows `a` in the traces -/
def follows (traces : List (List A)) (a b : A) : Nat := (traces.map fun t => adjacentCount a b t).sum

/-- `M` is how often the most frequent pair of consecutive activities occurs -/
def MaxFollows (traces : List (List A)) (M : Nat) : Prop :=
  (∃ a b, follows traces a b = M) ∧ ∀ a b, follows traces a b ≤ M

/-- two activities are the more similar the more often they follow each other, in any order -/
def similarity (traces : List (List A)) (M : Nat) (a b : A) : Rat :=
  if a = b then 1 else ((follows traces a b + follows traces b a + 1 : Nat) : Rat) / ((2 * M + 1 : Nat) : Rat)

end Prolothar.Spec.ActivityKMedoid
