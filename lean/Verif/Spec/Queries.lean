import Verif.Model.Queries
/-
What a query means, and which queries are well behaved.
-/
namespace Prolothar.Spec.Queries
open Prolothar Prolothar.EventLog Prolothar.Queries

variable {I A V : Type}

/-- the trace satisfies the query -/
def Sat (t : Trace I A V) : Query I A V → Prop
  | .containsNone (.container l) | .containsNone (.iterator l) => ∀ a ∈ l, ∀ e ∈ t.events, e.activity ≠ a
  | .contains a => ∃ e ∈ t.events, e.activity = a
  | .containsWith a m => ∃ e ∈ t.events, e.activity = a ∧ m e.attributes = .ok true
  | .containsAll (.container l) | .containsAll (.iterator l) => ∀ a ∈ l, ∃ e ∈ t.events, e.activity = a
  | .subsequence l => ∃ before after, t.events.map Event.activity = before ++ l ++ after
  | .custom m => m t = .ok true
  | .and l r => Sat t l ∧ Sat t r
  | .or l r => Sat t l ∨ Sat t r
  | .invert q => ¬ Sat t q

/-- the query can be used any number of times: it holds no iterator -/
def Reusable : Query I A V → Prop
  | .containsNone (.iterator _) | .containsAll (.iterator _) => False
  | .and l r | .or l r => Reusable l ∧ Reusable r
  | .invert q => Reusable q
  | _ => True

/-- the user's functions do not raise -/
def Total : Query I A V → Prop
  | .containsWith _ m => ∀ d, ∃ b, m d = .ok b
  | .custom m => ∀ t, ∃ b, m t = .ok b
  | .and l r | .or l r => Total l ∧ Total r
  | .invert q => Total q
  | _ => True

end Prolothar.Spec.Queries
