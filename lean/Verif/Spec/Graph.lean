import Mathlib.Logic.Relation
import Mathlib.Data.List.Chain
/- Specification of reachability in a directed graph given by its edge relation. -/
namespace Prolothar.Spec.Graph
variable {α : Type}

/-- `y` can be reached from `x` by following zero or more edges -/
abbrev Reach (edge : α → α → Prop) (x y : α) : Prop := Relation.ReflTransGen edge x y

/-- each can be reached from the other -/
def Mutual (edge : α → α → Prop) (x y : α) : Prop := Reach edge x y ∧ Reach edge y x

/-- `path` is a walk along edges from `x` to `y`; it lists all its nodes including `x` and `y` -/
def IsWalk (edge : α → α → Prop) (x y : α) (path : List α) : Prop :=
  path.head? = some x ∧ path.getLast? = some y ∧ path.IsChain edge

theorem Reach.imp {r s : α → α → Prop} (h : ∀ a b, r a b → s a b) {x y : α} (hr : Reach r x y) :
    Reach s x y := by
  induction hr with
  | refl => exact .refl
  | tail _ hab ih => exact ih.tail (h _ _ hab)

end Prolothar.Spec.Graph
