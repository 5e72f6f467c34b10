import Mathlib.Algebra.Order.Archimedean.Real.Basic
import Mathlib.Data.Sign.Basic
import Mathlib.Analysis.SpecialFunctions.Pow.Real
/-
A real number written down with a given precision: what a code for real numbers has to tell apart.
-/
namespace Prolothar.Spec.RealCode

/-- moving the decimal point of `x` by `s` places to the right gives a number with `p + 1` digits before it -/
def Moves (p : Int) (x : ℝ) (s : Int) : Prop := (10 : ℝ) ^ p ≤ |x| * 10 ^ s ∧ |x| * (10 : ℝ) ^ s < 10 ^ (p + 1)

/-- the number is written with `d` digits after the decimal point; the last one is rounded away from zero -/
noncomputable def rounded (d : Nat) (x : ℝ) : ℝ := SignType.sign x * (⌈|x| * 10 ^ d⌉ / 10 ^ d)

/-- `y` is `x` written with the precision `p`: with the digits after the decimal point, if any, that are needed to have at least `p + 1`
significant digits in all -/
def Written (p : Int) (x y : ℝ) : Prop := (x = 0 ∧ y = 0) ∨ (x ≠ 0 ∧ ∃ s, Moves p x s ∧ y = rounded s.toNat x)

/-- the numbers that are considered: zero and the magnitudes of doubles -/
def InRange (x : ℝ) : Prop := x = 0 ∨ ((2 : ℝ) ^ (-1074 : ℤ) ≤ |x| ∧ |x| ≤ (2 : ℝ) ^ (1024 : ℤ))

end Prolothar.Spec.RealCode
