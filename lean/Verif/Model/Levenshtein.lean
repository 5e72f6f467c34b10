import Verif.Model.Py
import Verif.Model.Grid
/-
Model of /repo/prolothar_common/levenshtein.pyx. Integers are unbounded here; Model/CInt.lean has the program with C `int`s.
-/
namespace Prolothar.Levenshtein
open Prolothar.Grid
variable {α : Type} [DecidableEq α]

/-- `MAX_COST`, levenshtein.pyx 23. -/
def maxCost : Int := 100000

/-- `EditOperationType`, levenshtein.pxd 18-21 -/
inductive OpType where
  | insert
  | delete
  | substitute
  deriving DecidableEq, Repr

/-- `EditOperation`, levenshtein.pyx 25-39. -/
structure EditOperation where
  i : Nat
  j : Nat
  type : OpType
  deriving DecidableEq, Repr

/-- body of the loops of `compute_cost_matrix`, levenshtein.pyx 83-86, for cell `(i+1, j+1)`. -/
def body (s1 s2 : List α) (insC delC subC : Int) (i j : Nat) (M : Matrix) : Int :=
  let insertions := M (i + 1) j + insC
  let deletions := M i (j + 1) + delC
  let substitutions := M i j + (if s1[i]? ≠ s2[j]? then subC else 0)
  min (min insertions deletions) substitutions

/-- the matrix after the two border loops, levenshtein.pyx 65-75. -/
def borders : Matrix := fun x y => if y = 0 then (x : Int) else if x = 0 then (y : Int) else 0

/-- `compute_cost_matrix`, levenshtein.pyx 59-91. -/
def costMatrix (s1 s2 : List α) (insC delC subC : Int) : Matrix :=
  fill (body s1 s2 insC delC subC) s1.length s2.length borders

/-- one iteration of the `while` loop of `backtrace`, levenshtein.pyx 107-129, including the
`edits.reverse()` at its end. The indices are Int because the first branch can make them
negative. With `wraparound(False)` a negative index would be an out of bounds access; it is
modelled by cell value 0 and is unreachable in the theorems. -/
def btStep (M : Matrix) (i j : Int) (edits : List EditOperation) :
    Int × Int × List EditOperation :=
  let cell (a b : Int) : Int := if a < 0 ∨ b < 0 then 0 else M a.toNat b.toNat
  let m0 := maxCost
  let m1 := if i ≠ 0 ∧ j ≠ 0 then min m0 (cell (i - 1) (j - 1)) else m0
  let m2 := if i ≠ 0 then min m1 (cell (i - 1) j) else m1
  let m3 := if j ≠ 0 then min m2 (cell i (j - 1)) else m2
  if m3 = cell i j then (i - 1, j - 1, edits.reverse)
  else if i ≠ 0 ∧ j ≠ 0 ∧ m3 = cell (i - 1) (j - 1) then
    (i - 1, j - 1, (edits ++ [EditOperation.mk (i - 1).toNat (j - 1).toNat OpType.substitute]).reverse)
  else if i ≠ 0 ∧ m3 = cell (i - 1) j then
    (i - 1, j, (edits ++ [EditOperation.mk (i - 1).toNat j.toNat OpType.delete]).reverse)
  else if j ≠ 0 ∧ m3 = cell i (j - 1) then
    (i, j - 1, (edits ++ [EditOperation.mk i.toNat (j - 1).toNat OpType.insert]).reverse)
  else (i, j, edits.reverse)

/-- the `while` loop of `backtrace`, levenshtein.pyx 107-131. The first argument bounds the
number of iterations. -/
def btLoop (M : Matrix) : Nat → Int → Int → List EditOperation → Py (List EditOperation)
  | 0, _, _, _ => .error .diverge
  | fuel + 1, i, j, edits =>
    if i ≠ 0 ∨ j ≠ 0 then
      let (i', j', edits') := btStep M i j edits
      btLoop M fuel i' j' edits'
    else .ok edits

/-- `backtrace`, levenshtein.pyx 95-131, with a bound on the number of iterations. -/
def backtrace (fuel : Nat) (s1 s2 : List α) (M : Matrix) : Py (List EditOperation) :=
  btLoop M fuel s1.length s2.length []

/-- first component of `levenshtein_with_backtrace`, levenshtein.pyx 42-55. -/
def distance (s1 s2 : List α) (insC delC subC : Int) : Int :=
  costMatrix s1 s2 insC delC subC s1.length s2.length

/-- `levenshtein_with_backtrace`, levenshtein.pyx 42-55, with a bound on the number of loop
iterations of the backtrace. -/
def levenshteinWithBacktrace (fuel : Nat) (s1 s2 : List α) (insC delC subC : Int) :
    Py (Int × List EditOperation) := do
  let M := costMatrix s1 s2 insC delC subC
  let edits ← backtrace fuel s1 s2 M
  return (M s1.length s2.length, edits)

end Prolothar.Levenshtein
