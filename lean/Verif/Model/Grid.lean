/-
Numpy style integer matrices as functions of two indices, and the nested fill loop
`for i in range(n): for j in range(m): M[i+1,j+1] = ...` used by the dynamic programs of
/repo/prolothar_common/longest_common_subsequence.pyx and levenshtein.pyx.
-/
namespace Prolothar.Grid

/-- a matrix; used for levenshtein.pyx 83-86 -/
abbrev Matrix := Nat → Nat → Int

/-- item assignment `M[i,j] = v`; used for levenshtein.pyx 59-91 -/
def setCell (M : Matrix) (i j : Nat) (v : Int) : Matrix :=
  fun x y => if x = i ∧ y = j then v else M x y

/-- inner loop: fills row `i+1`, columns `1..m` in order; used for levenshtein.pyx 59-91 -/
def fillRow (body : Nat → Nat → Matrix → Int) (i m : Nat) (M : Matrix) : Matrix :=
  (List.range m).foldl (fun M j => setCell M (i + 1) (j + 1) (body i j M)) M

/-- outer loop: fills rows `1..n` in order; used for levenshtein.pyx 59-91 -/
def fill (body : Nat → Nat → Matrix → Int) (n m : Nat) (M : Matrix) : Matrix :=
  (List.range n).foldl (fun M i => fillRow body i m M) M

end Prolothar.Grid
