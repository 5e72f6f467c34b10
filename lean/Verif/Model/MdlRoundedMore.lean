import Verif.Model.Py
import Mathlib.Data.Real.Basic
/-
Model of the remaining functions of /repo/prolothar_common/mdl_utils.pyx with the rounding of the machine: `gl` is `gammaln` and `bl` is
`betaln` of scipy, `lg` is `log2` and `ln` is `log` of the C library, `r` rounds the result of an arithmetic operation. Nothing is assumed
about them here. The integers of the type `int` are converted to `double` without rounding. The exact versions are in `Mdl.lean`.
-/
namespace Prolothar.MdlRounded

/-- `log2binom`, mdl_utils.pyx 60-70 -/
noncomputable def log2binom (bl : ℝ → ℝ → ℝ) (lg ln r : ℝ → ℝ) (n k : Int) : ℝ :=
  if k = 0 then 0
  else if k = 1 then lg n
  else r (r (- bl ((1 + n - k : Int) : ℝ) ((1 + k : Int) : ℝ) - ln ((n + 1 : Int) : ℝ)) / ln 2)

/-- `log2multinom`, mdl_utils.pyx 72-79 -/
noncomputable def log2multinom (gl ln r : ℝ → ℝ) (n : Int) (ks : List Int) : Py ℝ :=
  if n ≠ ks.sum then .error .value
  else .ok (r (ks.foldl (fun result (k : Int) => r (result - gl ((k + 1 : Int) : ℝ))) (gl ((n + 1 : Int) : ℝ)) / ln 2))

/-- `L_U`, mdl_utils.pyx 81-88 -/
noncomputable def LU (bl : ℝ → ℝ → ℝ) (lg ln r : ℝ → ℝ) (m n : Int) : ℝ :=
  if m = 0 ∧ n = 0 then 0 else log2binom bl lg ln r (m - 1) (n - 1)

/-- `prequential_coding_length`, mdl_utils.pyx 91-121; the argument lists `counts.values()`. `cached_lgamma` is replaced by `gl`, justified
by `C19_cache_transparent`. -/
noncomputable def prequentialCodingLength (gl ln r : ℝ → ℝ) (counts : List Nat) (epsilon : ℝ) : ℝ :=
  let nrOfSymbols := counts.length
  let lengthOfSequence : Nat := counts.foldl (· + ·) 0
  if nrOfSymbols ≤ 1 ∨ lengthOfSequence = 0 then 0
  else
    let total := gl (r (r (epsilon * nrOfSymbols) + (lengthOfSequence : ℝ)))
    let total := r (total - gl (r (epsilon * nrOfSymbols)))
    let total := counts.foldl (fun total (u : Nat) => r (total - r (gl (r (epsilon + u)) - gl epsilon))) total
    r (total / ln 2)

/-- `sum_log_i_from_1_to_n`, mdl_utils.pyx 134-153, with the global table as argument -/
noncomputable def sumLogWith (gl ln r : ℝ → ℝ) (table : List ℝ) (n : Int) : Py ℝ :=
  if n < 1 then .error .value
  else match table[(n - 1).toNat]? with
    | some v => .ok v
    | none => .ok (r (gl ((n + 1 : Int) : ℝ) / ln 2))

/-- the table of mdl_utils.pyx 177-179 -/
noncomputable def sumLogTable (gl ln r : ℝ → ℝ) : Py (List ℝ) :=
  (List.range 100).mapM fun (i : Nat) => sumLogWith gl ln r [] ((i : Int) + 1)

/-- `sum_log_i_from_1_to_n` after the module has been loaded; used for mdl_utils.pyx 134-179 -/
noncomputable def sumLog (gl ln r : ℝ → ℝ) (n : Int) : Py ℝ := do
  let table ← sumLogTable gl ln r
  sumLogWith gl ln r table n

end Prolothar.MdlRounded
