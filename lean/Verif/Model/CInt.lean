import Verif.Model.Levenshtein
import Verif.Model.LCS
import Verif.Model.ListUtils
/-
The dynamic programs of /repo/prolothar_common/levenshtein.pyx, longest_common_subsequence.pyx and collections/list_utils.pyx
as they are compiled: with variables and matrices of the C type `int` (`cdef int`, `int[:,:]`, `np.intc`), which has 32 bits on all
supported platforms.
-/
namespace Prolothar.CInt
open Prolothar.Grid
variable {α : Type} [DecidableEq α]

/-- the values of the C type `int`; used for levenshtein.pyx 83-86 -/
def isInt (x : Int) : Bool := decide (-2147483648 ≤ x) && decide (x ≤ 2147483647)

/-- the value of a C `int` expression whose mathematical value is `x`: signed overflow is undefined in C, so the value is then given
by an unspecified function `ov`; used for levenshtein.pyx 83-86 -/
def cint (ov : Int → Int) (x : Int) : Int := if isInt x then x else ov x

/-- two's complement, which is what gcc and clang compute with `-fwrapv`; used for levenshtein.pyx 83-86 -/
def wrap (x : Int) : Int := (x + 2147483648) % 4294967296 - 2147483648

/-- cython's conversion of a python int to a C `int`: OverflowError if the value does not fit; used for levenshtein.pyx 42-55 -/
def toInt (x : Int) : Py Int := if isInt x then .ok x else .error .overflow

/-- `np.zeros((rows, columns))`: ValueError for negative dimensions; used for levenshtein.pyx 42-55 -/
def zeros (rows columns : Int) : Py Unit := if rows < 0 ∨ columns < 0 then .error .value else .ok ()

/-- body of the loops of `compute_cost_matrix` with C arithmetic, levenshtein.pyx 83-86 -/
def levBody (ov : Int → Int) (s1 s2 : List α) (insC delC subC : Int) (i j : Nat) (M : Matrix) : Int :=
  let insertions := cint ov (M (i + 1) j + insC)
  let deletions := cint ov (M i (j + 1) + delC)
  let substitutions := cint ov (M i j + (if s1[i]? ≠ s2[j]? then subC else 0))
  min (min insertions deletions) substitutions

/-- `compute_cost_matrix` with C arithmetic, levenshtein.pyx 59-91. The loop counters, which run up to one more than the
lengths, are natural numbers. -/
def levMatrix (ov : Int → Int) (s1 s2 : List α) (insC delC subC : Int) : Matrix :=
  fill (levBody ov s1 s2 insC delC subC) s1.length s2.length Levenshtein.borders

/-- `levenshtein_with_backtrace` with C arithmetic, levenshtein.pyx 42-55: the costs are converted when the function is called, the
lengths in 63-64 -/
def levenshtein (ov : Int → Int) (fuel : Nat) (s1 s2 : List α) (insC delC subC : Int) : Py (Int × List Levenshtein.EditOperation) := do
  let insC ← toInt insC
  let delC ← toInt delC
  let subC ← toInt subC
  let n ← toInt s1.length
  let m ← toInt s2.length
  zeros (cint ov (n + 1)) (cint ov (m + 1))
  let M := levMatrix ov s1 s2 insC delC subC
  let edits ← Levenshtein.backtrace fuel s1 s2 M
  return (M s1.length s2.length, edits)

/-- body of the loops of `compute_lcs_matrix` with C arithmetic, longest_common_subsequence.pyx 39-42 -/
def lcsBody (ov : Int → Int) (x y : List α) (i j : Nat) (C : Matrix) : Int :=
  if x[i]? = y[j]? then cint ov (C i j + 1) else max (C (i + 1) j) (C i (j + 1))

/-- `compute_lcs_matrix` with C arithmetic, longest_common_subsequence.pyx 32-44 -/
def lcsMatrix (ov : Int → Int) (x y : List α) : Matrix := fill (lcsBody ov x y) x.length y.length (fun _ _ => 0)

/-- `length_of_common_subsequence` with C arithmetic, longest_common_subsequence.pyx 46-47 -/
def lengthOfCommonSubsequence (ov : Int → Int) (x y : List α) : Int := lcsMatrix ov x y x.length y.length

/-- `lcs_with_backtrace` with C arithmetic, longest_common_subsequence.pyx 51-72: the lengths are converted in 60-61 -/
def lcsWithBacktrace (ov : Int → Int) (x y : List α) : Py (Int × List (Nat × Nat)) := do
  let C := lcsMatrix ov x y
  let _ ← toInt x.length
  let _ ← toInt y.length
  let bt ← LCS.backtraceLoop x y C x.length y.length []
  return (C x.length y.length, bt.reverse)

/-- loop body of `longest_common_sublists` with C arithmetic, list_utils.pyx 213-222 -/
def sublistBody (ov : Int → Int) (a b : List α) (i j : Nat) (st : ListUtils.LcsState) : ListUtils.LcsState :=
  if a[i]? = b[j]? then
    let v : Int := if i = 0 ∨ j = 0 then 1 else cint ov (st.matrix (i - 1) (j - 1) + 1)
    let m : Nat → Nat → Int := fun x y => if x = i ∧ y = j then v else st.matrix x y
    if m i j > st.length then
      { matrix := m, length := m i j, indices := [((i : Int), (j : Int))] }
    else if m i j = st.length then
      { matrix := m, length := st.length, indices := st.indices ++ [((i : Int), (j : Int))] }
    else { st with matrix := m }
  else st

/-- `longest_common_sublists` with C arithmetic, list_utils.pyx 187-224: the lengths are converted in 202-203. The indices that are
returned are computed with python integers. -/
def longestCommonSublists (ov : Int → Int) (a b : List α) : Py (Int × List (Int × Int)) := do
  let _ ← toInt a.length
  let _ ← toInt b.length
  let st := (List.range a.length).foldl
    (fun st i => (List.range b.length).foldl (fun st j => sublistBody ov a b i j st) st)
    { matrix := fun _ _ => 0, length := 0, indices := [] }
  return (st.length, st.indices.map (fun p => (p.1 - st.length + 1, p.2 - st.length + 1)))

end Prolothar.CInt
