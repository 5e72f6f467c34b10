/-
Specification: contiguous occurrences of a list in another one.
-/
namespace Prolothar.Spec

/-- `s` occurs contiguously in `l` starting at position `i`. -/
def OccursAt {α : Type} (s l : List α) (i : Nat) : Prop :=
  ∃ a b, l = a ++ s ++ b ∧ a.length = i

end Prolothar.Spec
