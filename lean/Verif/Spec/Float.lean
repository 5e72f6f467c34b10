import Mathlib.Algebra.Order.Field.Rat
import Mathlib.Algebra.Order.Ring.Abs
/-
Floating point numbers with `p` significant bits.
-/
namespace Prolothar.Spec.Float

/-- `y` is an integer of at most `p` bits times a power of two -/
def Representable (p : Nat) (y : ℚ) : Prop := ∃ k m : Int, |k| < 2 ^ p ∧ y = (k : ℚ) * (2 : ℚ) ^ m

/-- `y` is a float with `p` significant bits and no other one is nearer to `x` -/
def IsNearest (p : Nat) (x y : ℚ) : Prop := Representable p y ∧ ∀ z, Representable p z → |y - x| ≤ |z - x|

end Prolothar.Spec.Float
