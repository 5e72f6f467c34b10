import Verif.Spec.ParallelState
/-
What a user of the ray engine can rely on if the functions have side effects: calls with the number of the element of the list they belong to.
-/
namespace Prolothar.RayState
open Prolothar.Parallel
variable {α O : Type}

/-- the number of the element of a call of the filter function -/
def filterIdx : Nat × Call α O × Except O O → Option Nat
  | (i, .filter _, _) => some i
  | _ => none

/-- the number of the element of a call of the map function -/
def mapIdx : Nat × Call α O × Except O O → Option Nat
  | (i, .map _, _) => some i
  | _ => none

/-- the elements with their numbers -/
def numbered {β : Type} (l : List β) : List (Nat × β) := l.zipIdx.map Prod.swap

example : numbered ['a', 'b'] = [(0, 'a'), (1, 'b')] := rfl

end Prolothar.RayState
