import Verif.Model.Py
import Verif.Model.Grid
/-
Model of /repo/prolothar_common/longest_common_subsequence.pyx.
Lengths are unbounded integers here; Model/CInt.lean has the program with C `int`s.
-/
namespace Prolothar.LCS
open Prolothar.Grid
variable {α : Type} [DecidableEq α]

/-- body of the loops of `compute_lcs_matrix`, longest_common_subsequence.pyx 39-42: the value
assigned to `C[i+1,j+1]`. -/
def body (x y : List α) (i j : Nat) (C : Matrix) : Int :=
  if x[i]? = y[j]? then C i j + 1 else max (C (i + 1) j) (C i (j + 1))

/-- `compute_lcs_matrix`, longest_common_subsequence.pyx 32-44. -/
def lcsMatrix (x y : List α) : Matrix := fill (body x y) x.length y.length (fun _ _ => 0)

/-- `length_of_common_subsequence`, longest_common_subsequence.pyx 46-47. -/
def lengthOfCommonSubsequence (x y : List α) : Int := lcsMatrix x y x.length y.length

/-- loop of `lcs_with_backtrace`, longest_common_subsequence.pyx 63-71. `x_list[i-1]` is a
python index (IndexError if out of range). -/
def backtraceLoop (x y : List α) (C : Matrix) (i j : Nat) (bt : List (Nat × Nat)) :
    Py (List (Nat × Nat)) :=
  match i, j with
  | 0, _ => .ok bt
  | _ + 1, 0 => .ok bt
  | i + 1, j + 1 => do
    let a ← pyGet x ((i : Nat) : Int)
    let b ← pyGet y ((j : Nat) : Int)
    if a = b then backtraceLoop x y C i j (bt ++ [(i, j)])
    else if C i (j + 1) > C (i + 1) j then backtraceLoop x y C i (j + 1) bt
    else backtraceLoop x y C (i + 1) j bt
termination_by i + j

/-- `lcs_with_backtrace`, longest_common_subsequence.pyx 51-72. -/
def lcsWithBacktrace (x y : List α) : Py (Int × List (Nat × Nat)) := do
  let C := lcsMatrix x y
  let bt ← backtraceLoop x y C x.length y.length []
  return (C x.length y.length, bt.reverse)

end Prolothar.LCS
