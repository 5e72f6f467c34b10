import Verif.Model.Py
import Mathlib.Analysis.SpecialFunctions.Log.Base
import Mathlib.Analysis.SpecialFunctions.Gamma.Basic
/-
Model of /repo/prolothar_common/mdl_utils.pyx over the real numbers (no rounding, no overflow of C
integers, for which see `MdlMachine.lean`). `clog2` is `Real.logb 2`, `cln`/`ln` is `Real.log`, `gammaln` is `log |Γ|`.
-/
namespace Prolothar.Mdl

/-- `scipy.special.gammaln`; used for mdl_utils.pyx 72-79 -/
noncomputable def lgamma (x : ℝ) : ℝ := Real.log |Real.Gamma x|

/-- `scipy.special.betaln(a, b) = log |B(a, b)|`, `B(a, b) = Γ(a) Γ(b) / Γ(a + b)`; used for mdl_utils.pyx 60-70 -/
noncomputable def betaln (a b : ℝ) : ℝ :=
  Real.log |Real.Gamma a * Real.Gamma b / Real.Gamma (a + b)|

/-- the loop `while summand > 0`, mdl_utils.pyx 54-57 -/
noncomputable def LNLoop : Nat → ℝ → ℝ → Py ℝ
  | 0, _, _ => .error .diverge
  | fuel + 1, codeLength, summand =>
    if summand > 0 then LNLoop fuel (codeLength + summand) (Real.logb 2 summand)
    else .ok codeLength

/-- `L_N`, mdl_utils.pyx 35-57, with the global `_PRECOMPUTED_LN` as argument. -/
noncomputable def LNWith (table : List ℝ) (fuel : Nat) (n : Int) : Py ℝ :=
  if n < 1 then .error .value
  else match table[(n - 1).toNat]? with
    | some v => .ok v
    | none => LNLoop fuel (Real.logb 2 2.8565064) (Real.logb 2 n)

/-- `[L_N(n) for n in range(1, 101)]`, mdl_utils.pyx 176: evaluated while the global is still the
empty list of mdl_utils.pyx 31. -/
noncomputable def LNTable (fuel : Nat) : Py (List ℝ) :=
  (List.range 100).mapM fun (i : Nat) => LNWith [] fuel ((i : Int) + 1)

/-- `L_N` as called by users, after the module has been loaded. Used for mdl_utils.pyx 155-174. -/
noncomputable def LN (fuel : Nat) (n : Int) : Py ℝ := do
  let table ← LNTable fuel
  LNWith table fuel n

/-- `log2binom`, mdl_utils.pyx 60-70. -/
noncomputable def log2binom (n k : Int) : ℝ :=
  if k = 0 then 0
  else if k = 1 then Real.logb 2 n
  else (- betaln (1 + n - k) (1 + k) - Real.log (n + 1)) / Real.log 2

/-- `log2multinom`, mdl_utils.pyx 72-79. -/
noncomputable def log2multinom (n : Int) (ks : List Int) : Py ℝ :=
  if n ≠ ks.sum then .error .value
  else .ok ((ks.foldl (fun result (k : Int) => result - lgamma ((k : ℝ) + 1)) (lgamma ((n : ℝ) + 1))) / Real.log 2)

/-- `L_U`, mdl_utils.pyx 81-88. -/
noncomputable def LU (m n : Int) : ℝ :=
  if m = 0 ∧ n = 0 then 0 else log2binom (m - 1) (n - 1)

/-- `prequential_coding_length`, mdl_utils.pyx 91-121; the argument lists `counts.values()`.
`cached_lgamma` is replaced by `lgamma`, justified by `C19_cache_transparent`. -/
noncomputable def prequentialCodingLength (counts : List Nat) (epsilon : ℝ) : ℝ :=
  let nrOfSymbols := counts.length
  let lengthOfSequence : Nat := counts.foldl (· + ·) 0
  if nrOfSymbols ≤ 1 ∨ lengthOfSequence = 0 then 0
  else
    let total := lgamma (epsilon * nrOfSymbols + (lengthOfSequence : ℝ))
    let total := total - lgamma (epsilon * nrOfSymbols)
    let total := counts.foldl
      (fun total (u : Nat) => total - (lgamma (epsilon + u) - lgamma epsilon)) total
    total / Real.log 2

/-- `sum_log_i_from_1_to_n`, mdl_utils.pyx 134-153, with the global table as argument. -/
noncomputable def sumLogWith (table : List ℝ) (n : Int) : Py ℝ :=
  if n < 1 then .error .value
  else match table[(n - 1).toNat]? with
    | some v => .ok v
    | none => .ok (lgamma (n + 1) / Real.log 2)

/-- the table of mdl_utils.pyx 177-179 -/
noncomputable def sumLogTable : Py (List ℝ) :=
  (List.range 100).mapM fun (i : Nat) => sumLogWith [] ((i : Int) + 1)

/-- `sum_log_i_from_1_to_n` after the module has been loaded; used for mdl_utils.pyx 134-179 -/
noncomputable def sumLog (n : Int) : Py ℝ := do
  let table ← sumLogTable
  sumLogWith table n

/-- `L_R`, mdl_utils.pyx 155-174. The C casts to `int` are exact (no overflow). -/
noncomputable def LR (fuel : Nat) (realNumber : ℝ) (precision : Int) : Py ℝ :=
  let encodedLength := Real.logb 2 3
  if realNumber = 0 then .ok encodedLength
  else
    let x := if realNumber < 0 then -realNumber else realNumber
    let shift : Int := ⌈(precision : ℝ) - Real.logb 10 x⌉
    let encodedLength := encodedLength * 2
    if shift > 0 then do
      let a ← LN fuel shift
      let b ← LN fuel (max ⌈x * (10 : ℝ) ^ shift⌉ 1)
      .ok (encodedLength + (a + b))
    else if shift < 0 then do
      let a ← LN fuel (-shift)
      let b ← LN fuel (max 1 ⌈x⌉)
      .ok (encodedLength + (a + b))
    else do
      let a ← LN fuel ⌈x⌉
      .ok (encodedLength + a)

end Prolothar.Mdl
