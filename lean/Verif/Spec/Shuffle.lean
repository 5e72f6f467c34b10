import Mathlib.Data.Fintype.Perm
/-
What it means to shuffle a list fairly: each of the n! permutations of the positions is equally likely.
-/
namespace Prolothar.Spec.Shuffle

/-- the list in the order given by a permutation of its positions -/
def arranged {α : Type} (l : List α) (σ : Equiv.Perm (Fin l.length)) : List α := List.ofFn fun i => l.get (σ i)

end Prolothar.Spec.Shuffle
