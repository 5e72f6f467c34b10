import Verif.Model.Py
import Mathlib.Analysis.SpecialFunctions.Log.Base
/-
Model of `L_N` of /repo/prolothar_common/mdl_utils.pyx with the rounding of the machine: `lg` is the
function `log2` of the C library, `r` rounds the result of an addition, `c0` is the double nearest to
the literal 2.8565064. Nothing is assumed about them here. The exact version is in `Mdl.lean`.
-/
namespace Prolothar.MdlRounded

/-- the loop `while summand > 0`, mdl_utils.pyx 54-57 -/
noncomputable def LNLoop (lg r : ℝ → ℝ) : Nat → ℝ → ℝ → Py ℝ
  | 0, _, _ => .error .diverge
  | fuel + 1, codeLength, summand =>
    if summand > 0 then LNLoop lg r fuel (r (codeLength + summand)) (lg summand)
    else .ok codeLength

/-- `L_N`, mdl_utils.pyx 35-57, with the global `_PRECOMPUTED_LN` as argument. The conversion of the
C `int` to a `double` is exact. -/
noncomputable def LNWith (lg r : ℝ → ℝ) (c0 : ℝ) (table : List ℝ) (fuel : Nat) (n : Int) : Py ℝ :=
  if n < 1 then .error .value
  else match table[(n - 1).toNat]? with
    | some v => .ok v
    | none => LNLoop lg r fuel (lg c0) (lg n)

/-- `[L_N(n) for n in range(1, 101)]`, mdl_utils.pyx 176: evaluated while the global is still the
empty list of mdl_utils.pyx 31. -/
noncomputable def LNTable (lg r : ℝ → ℝ) (c0 : ℝ) (fuel : Nat) : Py (List ℝ) :=
  (List.range 100).mapM fun (i : Nat) => LNWith lg r c0 [] fuel ((i : Int) + 1)

/-- `L_N` as called by users, after the module has been loaded, mdl_utils.pyx 35-57, 176. -/
noncomputable def LN (lg r : ℝ → ℝ) (c0 : ℝ) (fuel : Nat) (n : Int) : Py ℝ := do
  let table ← LNTable lg r c0 fuel
  LNWith lg r c0 table fuel n

end Prolothar.MdlRounded
