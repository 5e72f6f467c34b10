import Verif.Model.ListUtils
/-
Specification for nested lists: the written form of a nested list, e.g. `[1, [2]]`, as a
sequence of tokens.
-/
namespace Prolothar.Spec
open Prolothar.ListUtils

/-- tokens of the written form of a nested list -/
inductive Tok (α : Type) where
  | opening
  | closing
  | item (a : α)

/-- the written form of a nested list -/
def written {α : Type} : Nested α → List (Tok α)
  | .leaf a => [.item a]
  | .list xs => [.opening] ++ xs.attach.flatMap (fun x => written x.1) ++ [.closing]
termination_by x => sizeOf x
decreasing_by
  have := List.sizeOf_lt_of_mem x.2
  simp only [Nested.list.sizeOf_spec]
  omega

/-- the items of a token sequence, in order -/
def items {α : Type} : List (Tok α) → List α
  | [] => []
  | .item a :: ts => a :: items ts
  | .opening :: ts => items ts
  | .closing :: ts => items ts

end Prolothar.Spec
