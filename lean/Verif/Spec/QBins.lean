import Mathlib.Data.Rat.Defs
import Mathlib.Data.List.Chain
/-
Specification of learned bins: left-open intervals that follow each other without gaps.
-/
namespace Prolothar.Spec.QBins

/-- the interval (lo, hi] -/
structure Ival where
  lo : Rat
  hi : Rat
deriving DecidableEq

/-- `q` lies in the interval -/
def Ival.Has (b : Ival) (q : Rat) : Prop := b.lo < q ∧ q ≤ b.hi

/-- consecutive intervals, in ascending order -/
def Consecutive (bs : List Ival) : Prop := (∀ b ∈ bs, b.lo < b.hi) ∧ bs.IsChain (fun a b => a.hi = b.lo)

end Prolothar.Spec.QBins
