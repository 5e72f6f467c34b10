import Verif.Model.KMedoid
import Mathlib.Data.Real.Basic
/-
Model of prolothar_common/clustering/fuzzy_k_medoid.py over the reals. The exponential function is a parameter, as in
floating point arithmetic it is 0 for arguments below about -745; dividing by a zero sum of such values raises.
-/
namespace Prolothar.FuzzyKMedoid
open Prolothar.KMedoid

variable {α : Type}

/-- `dissimilarity_matrix`, fuzzy_k_medoid.py 99-101 -/
noncomputable def matrix (f : α → α → ℝ) (objects : List α) : List (List ℝ) := objects.map fun x2 => objects.map fun x1 => f x1 x2

open Classical in
/-- `compute_u` for one object, fuzzy_k_medoid.py 90-93; `d` are the dissimilarities of the object to the centers -/
noncomputable def memberRow (exp : ℝ → ℝ) (coefficient : ℝ) (d : List ℝ) : Py (List ℝ) :=
  let s := (d.map fun v => exp (-v / coefficient)).sum
  d.mapM fun v => if s = 0 then .error .zeroDivision else .ok (exp (-v / coefficient) / s)

/-- `__compute_degree_of_membership_matrix`, fuzzy_k_medoid.py 87-97 -/
noncomputable def memberMatrix (exp : ℝ → ℝ) (coefficient : ℝ) (m : List (List ℝ)) (centers : List Nat) : Py (List (List ℝ)) :=
  m.mapM fun row => memberRow exp coefficient (centers.map fun c => row.getD c 0)

/-- `np.sum(np.multiply(membership_matrix, dissimilarity_matrix[:, cluster_center_indices]))`, fuzzy_k_medoid.py 59-61 -/
noncomputable def objective (u m : List (List ℝ)) (centers : List Nat) : ℝ :=
  (List.zipWith (fun ur row => (List.zipWith (fun a c => a * row.getD c 0) ur centers).sum) u m).sum

/-- row `j` of `Q`, fuzzy_k_medoid.py 106: the weighted dissimilarities for all candidates -/
noncomputable def weighted (u m : List (List ℝ)) (n j : Nat) : List ℝ :=
  (List.range n).map fun q => (List.zipWith (fun ur row => ur.getD j 0 * row.getD q 0) u m).sum

open Classical in
/-- `__recompute_cluster_centers`, fuzzy_k_medoid.py 103-107 -/
noncomputable def recompute (u m : List (List ℝ)) (k : Nat) : List Nat :=
  (List.range k).map fun j => argBest (fun a b => decide (a < b)) (weighted u m m.length j)

open Classical in
/-- the loop of `cluster`, fuzzy_k_medoid.py 55-68, with `np.isclose` in its default tolerances -/
noncomputable def loop (exp : ℝ → ℝ) (coefficient : ℝ) (m : List (List ℝ)) : Nat → List Nat → Option ℝ → Py (List (List ℝ) × List Nat)
  | 0, _, _ => .error .diverge
  | fuel + 1, centers, p => do
    let u ← memberMatrix exp coefficient m centers
    let pNew := objective u m centers
    if (match p with | some p => |pNew - p| ≤ 1 / 100000000 + 1 / 100000 * |p| | none => False) then .ok (u, centers)
    else loop exp coefficient m fuel (recompute u m centers.length) (some pNew)

/-- `cluster`, fuzzy_k_medoid.py 48-68 -/
noncomputable def cluster (exp : ℝ → ℝ) (coefficient : ℝ) (f : α → α → ℝ) (objects : List α) (k : Option Int) (shuffled : List Nat) (fuel : Nat) :
    Py (List (List ℝ) × List Nat) := do
  let centers ← selectCenters objects.length k shuffled
  loop exp coefficient (matrix f objects) fuel centers none

end Prolothar.FuzzyKMedoid
