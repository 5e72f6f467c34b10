/-
What the transition system of a set of sequences is.
-/
namespace Prolothar.Spec.Lts

/-- some added sequence goes from a prefix with state `s` by the event `e` to a prefix with state `s'` -/
def Step {S E : Type} (f : List E → S) (seqs : List (List E)) (s : S) (e : E) (s' : S) : Prop :=
  ∃ seq ∈ seqs, ∃ p, p ++ [e] <+: seq ∧ f p = s ∧ f (p ++ [e]) = s'

/-- the state after an event depends on the state before it and the event only -/
def Compositional {S E : Type} (f : List E → S) : Prop :=
  ∀ p q e, f p = f q → f (p ++ [e]) = f (q ++ [e])

/-- `w` can be replayed from `s` to `s'` with the partial function `next` -/
inductive Run {S E : Type} (next : S → E → Option S) : S → List E → S → Prop
  | nil (s) : Run next s [] s
  | cons {s e s1 w s'} (h : next s e = some s1) (hr : Run next s1 w s') : Run next s (e :: w) s'

end Prolothar.Spec.Lts
