import Mathlib.Data.List.Basic
/- Specification for small utilities; independent of the model. -/
namespace Prolothar.Spec.Utils

/-- the first batches of an endless sequence of batches, one after the other -/
def concat {α : Type} (batch : Nat → List α) : Nat → List α
  | 0 => []
  | k + 1 => concat batch k ++ batch k

end Prolothar.Spec.Utils
