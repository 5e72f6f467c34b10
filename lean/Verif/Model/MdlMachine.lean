import Verif.Model.Mdl
import Verif.Model.CInt
/-
Model of /repo/prolothar_common/mdl_utils.pyx with the C integers of mdl_utils.pxd. Doubles are still exact. Signed overflow is
undefined in C: the result is then given by an unspecified function `ov`.
-/
namespace Prolothar.MdlMachine
open Prolothar.Mdl Prolothar.CInt

/-- `L_N`, mdl_utils.pyx 35-57, called from Python: the argument is converted to a C `int` -/
noncomputable def LN (fuel : Nat) (n : Int) : Py ℝ := do
  let n ← toInt n
  Mdl.LN fuel n

/-- a C `double` without rounding: NaN, the infinities and the real numbers; used for mdl_utils.pyx 60-70 -/
inductive Dbl where
  | nan
  | negInf
  | posInf
  | fin (x : ℝ)

/-- `-x`; used for mdl_utils.pyx 70 -/
noncomputable def Dbl.neg : Dbl → Dbl
  | .nan => .nan
  | .negInf => .posInf
  | .posInf => .negInf
  | .fin x => .fin (-x)

/-- `x - y`: the difference of equal infinities is NaN; used for mdl_utils.pyx 70 -/
noncomputable def Dbl.sub : Dbl → Dbl → Dbl
  | .nan, _ => .nan
  | _, .nan => .nan
  | .fin x, .fin y => .fin (x - y)
  | .fin _, .posInf => .negInf
  | .fin _, .negInf => .posInf
  | .posInf, .posInf => .nan
  | .posInf, _ => .posInf
  | .negInf, .negInf => .nan
  | .negInf, _ => .negInf

/-- `x / y` for a positive number `y`; used for mdl_utils.pyx 70 -/
noncomputable def Dbl.divPos : Dbl → ℝ → Dbl
  | .fin x, y => .fin (x / y)
  | x, _ => x

/-- `cln` of a C `int`: NaN for negative numbers, minus infinity for 0; used for mdl_utils.pyx 60-70 -/
noncomputable def cln (x : Int) : Dbl := if x < 0 then .nan else if x = 0 then .negInf else .fin (Real.log x)

/-- `clog2` of a C `int`; used for mdl_utils.pyx 68 -/
noncomputable def clog2 (x : Int) : Dbl := if x < 0 then .nan else if x = 0 then .negInf else .fin (Real.logb 2 x)

/-- `betaln` of scipy for integers (function `lbeta_negint` of the library cephes): at a pole the result is infinity, unless the beta function
is continued by `B(a, b) = ± B(1 - a - b, b)`; used for mdl_utils.pyx 70 -/
noncomputable def betalnPole (a b : Int) : Dbl :=
  if 1 - a - b > 0 then if b ≤ 0 then .posInf else .fin (betaln ((1 - a - b : Int) : ℝ) (b : ℝ)) else .posInf

/-- `betaln` of scipy for integers; used for mdl_utils.pyx 70 -/
noncomputable def betalnC (a b : Int) : Dbl :=
  if a ≤ 0 then betalnPole a b else if b ≤ 0 then betalnPole b a else .fin (betaln (a : ℝ) (b : ℝ))

/-- the body of `log2binom`, mdl_utils.pyx 60-70, for C integers -/
noncomputable def log2binomC (ov : Int → Int) (n k : Int) : Dbl :=
  if k = 0 then .fin 0
  else if k = 1 then clog2 n
  else (((betalnC (cint ov (cint ov (1 + n) - k)) (cint ov (1 + k))).neg).sub (cln (cint ov (n + 1)))).divPos (Real.log 2)

/-- `log2binom`, mdl_utils.pyx 60-70, called from Python -/
noncomputable def log2binom (ov : Int → Int) (n k : Int) : Py Dbl := do
  let n ← toInt n
  let k ← toInt k
  return log2binomC ov n k

/-- `L_U`, mdl_utils.pyx 81-88, called from Python -/
noncomputable def LU (ov : Int → Int) (m n : Int) : Py Dbl := do
  let m ← toInt m
  let n ← toInt n
  return if m = 0 ∧ n = 0 then .fin 0 else log2binomC ov (cint ov (m - 1)) (cint ov (n - 1))

/-- the loop over the counts, mdl_utils.pyx 108-110: every count is converted, the sum is a C `int` -/
def sumCounts (ov : Int → Int) : List Nat → Int → Py Int
  | [], total => .ok total
  | i :: rest, total => do
    let i ← toInt i
    sumCounts ov rest (cint ov (total + i))

/-- `prequential_coding_length`, mdl_utils.pyx 91-121; the argument lists `counts.values()` -/
noncomputable def prequentialCodingLength (ov : Int → Int) (counts : List Nat) (epsilon : ℝ) : Py ℝ := do
  let lengthOfSequence ← sumCounts ov counts 0
  if counts.length ≤ 1 ∨ lengthOfSequence = 0 then return 0
  else
    let total := lgamma (epsilon * counts.length + (lengthOfSequence : ℝ))
    let total := total - lgamma (epsilon * counts.length)
    let total := counts.foldl (fun total (u : Nat) => total - (lgamma (epsilon + u) - lgamma epsilon)) total
    return total / Real.log 2

/-- `10**shift` for a positive C `int`, mdl_utils.pyx 168: the result is a C `long` if `cpow` is set (cython before version 3, where the
power of two C integers is a C integer), and a double otherwise -/
noncomputable def tenPow (cpow : Bool) (ov : Int → Int) (shift : Int) : ℝ :=
  if cpow then
    if (10 : Int) ^ shift.toNat ≤ 9223372036854775807 then (((10 : Int) ^ shift.toNat : Int) : ℝ) else ((ov (10 ^ shift.toNat) : Int) : ℝ)
  else (10 : ℝ) ^ shift

/-- `L_R`, mdl_utils.pyx 155-174; `<int>` of a double that does not fit is undefined in C -/
noncomputable def LR (cpow : Bool) (ov : Int → Int) (fuel : Nat) (realNumber : ℝ) (precision : Int) : Py ℝ := do
  let precision ← toInt precision
  if realNumber = 0 then .ok (Real.logb 2 3)
  else
    let x := if realNumber < 0 then -realNumber else realNumber
    let shift ← toInt ⌈(precision : ℝ) - Real.logb 10 x⌉
    if shift > 0 then do
      let a ← Mdl.LN fuel shift
      let b ← Mdl.LN fuel (max (cint ov ⌈x * tenPow cpow ov shift⌉) 1)
      .ok (Real.logb 2 3 * 2 + (a + b))
    else if shift < 0 then do
      let a ← Mdl.LN fuel (cint ov (-shift))
      let b ← Mdl.LN fuel (max 1 (cint ov ⌈x⌉))
      .ok (Real.logb 2 3 * 2 + (a + b))
    else do
      let a ← Mdl.LN fuel (cint ov ⌈x⌉)
      .ok (Real.logb 2 3 * 2 + a)

end Prolothar.MdlMachine
