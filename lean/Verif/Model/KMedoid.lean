import Verif.Model.Py
import Mathlib.Algebra.Order.Ring.Rat
/-
Model of prolothar_common/clustering/k_medoid.py. Dissimilarities are taken from any linear order `K`, and `tot` is any function
that sums a list of them: rationals with the exact sum, or doubles other than NaN (with -0.0 and 0.0 taken as one) with the rounded sum of numpy in whatever order it
adds them. The shuffled list of indices is an arbitrary input.
-/
namespace Prolothar.KMedoid

variable {α K : Type} [LinearOrder K] [Zero K]

/-- `dissimilarity_matrix`, k_medoid.py 90-92: row for each x2, column for each x1 -/
def matrix (f : α → α → K) (objects : List α) : List (List K) := objects.map fun x2 => objects.map fun x1 => f x1 x2

/-- `np.argmin` (for `lt a b = a < b`) or `np.argmax` (for `lt a b = b < a`) of a row: the first best position; used for k_medoid.py 57-64 -/
def argBest {K : Type} (lt : K → K → Bool) (l : List K) : Nat :=
  match l with
  | [] => 0
  | x :: l => (l.foldl (fun (s : (K × Nat) × Nat) v => (if lt v s.1.1 then (v, s.2) else s.1, s.2 + 1)) ((x, 0), 1)).1.2

/-- the comparison of the mode, k_medoid.py 57-64 -/
def cmp (dissimilarityMode : Bool) (a b : K) : Bool := if dissimilarityMode then a < b else b < a

/-- `memberships`, k_medoid.py 57-64 -/
def memberships (mode : Bool) (m : List (List K)) (centers : List Nat) : List Nat :=
  m.map fun row => argBest (cmp mode) (centers.map fun c => row.getD c 0)

/-- `np.sum(dissimilarity_matrix[:, j])`; used for k_medoid.py 100-107 -/
def colSum (tot : List K → K) (m : List (List K)) (j : Nat) : K := tot (m.map fun row => row.getD j 0)

/-- the new center of cluster `i`, k_medoid.py 100-107 -/
def recomputeOne (tot : List K → K) (m : List (List K)) (members : List Nat) (c i : Nat) : Nat :=
  (((List.range members.length).filter fun p => members[p]? = some i).foldl
    (fun (s : K × Nat) p => if colSum tot m p < s.1 then (colSum tot m p, p) else s) (colSum tot m c, c)).2

/-- `__recompute_cluster_centers`, k_medoid.py 94-109 -/
def recompute (tot : List K → K) (m : List (List K)) (members : List Nat) (centers : List Nat) : List Nat :=
  centers.zipIdx.map fun e => recomputeOne tot m members e.1 e.2

/-- the loop of `cluster`, k_medoid.py 56-70 -/
def loop (tot : List K → K) (mode : Bool) (m : List (List K)) : Nat → List Nat → Py (List Nat × List Nat)
  | 0, _ => .error .diverge
  | fuel + 1, centers =>
    let members := memberships mode m centers
    let new := recompute tot m members centers
    if new = centers then .ok (members, centers) else loop tot mode m fuel new

/-- `__randomly_select_cluster_centers`, k_medoid.py 73-88; `shuffled` is the shuffled list of indices -/
def selectCenters (n : Nat) (k : Option Int) (shuffled : List Nat) : Py (List Nat) :=
  let k := k.getD n
  if k ≤ 0 then .error .value
  else if n < k then .error .value
  else .ok (shuffled.take k.toNat)

/-- `cluster`, k_medoid.py 49-71 -/
def cluster (tot : List K → K) (f : α → α → K) (mode : Bool) (objects : List α) (k : Option Int) (shuffled : List Nat) (fuel : Nat) : Py (List Nat × List Nat) := do
  let centers ← selectCenters objects.length k shuffled
  loop tot mode (matrix f objects) fuel centers

end Prolothar.KMedoid
