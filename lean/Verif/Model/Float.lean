import Mathlib.Data.Int.Log
import Mathlib.Data.Rat.Floor
import Mathlib.Algebra.Order.Field.Rat
/-
Rounding of IEEE 754 binary floating point numbers: round to nearest, ties to even, with `p` significant bits. Nothing in this file
models repository code; it models the arithmetic of the machine. Simplification: the exponent is not bounded, so there are
no subnormal numbers, no overflow, no infinities and no nan.
-/
namespace Prolothar.Float

/-- the integer nearest to `x`; of two nearest ones the even one -/
def roundEven (x : ℚ) : Int :=
  if x - ⌊x⌋ < 1 / 2 then ⌊x⌋
  else if 1 / 2 < x - ⌊x⌋ then ⌊x⌋ + 1
  else if ⌊x⌋ % 2 = 0 then ⌊x⌋ else ⌊x⌋ + 1

/-- the distance of the numbers with `p` significant bits in the binade of `x` -/
def ulp (p : Nat) (x : ℚ) : ℚ := (2 : ℚ) ^ (Int.log 2 |x| - (p : Int) + 1)

/-- the value of the float with `p` significant bits that represents `x`: 53 for the type `float` of python and `double` of C, 24 for
the type `float` of C -/
def rnd (p : Nat) (x : ℚ) : ℚ := if x = 0 then 0 else roundEven (x / ulp p x) * ulp p x

end Prolothar.Float
