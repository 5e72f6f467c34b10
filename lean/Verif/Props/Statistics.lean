import Verif.Lemmas.Statistics
/-
Properties C22, C23 of /repo/prolothar_common/experiments/statistics.pyx.
The specification is `Verif/Spec/Moments.lean`.
-/
namespace Prolothar.Statistics
open Prolothar.Moments
variable {K : Type} [Field K] [LinearOrder K] [IsStrictOrderedRing K]

/-- C22: after pushing any non-empty sequence of values, count, mean, minimum, maximum and the
accumulated second to fourth moments are those of the batch. -/
theorem C22_push_equals_batch (xs : List K) (hx : xs ≠ []) :
    let s := pushAll new xs
    s.count = xs.length ∧ s.mean = Moments.mean xs ∧
    (∃ m, s.min = some m ∧ IsMinOf m xs) ∧ (∃ m, s.max = some m ∧ IsMaxOf m xs) ∧
    s.rho = centralSum 2 xs ∧ s.tau = centralSum 3 xs ∧ s.phi = centralSum 4 xs := by
  obtain ⟨h1, h2, h3, h4, h5, h6, h7⟩ := (repr_pushAll repr_new xs).batch (by simpa using hx)
  exact ⟨by simpa using h1, by simpa using h2, by simpa using h6, by simpa using h7,
    by simpa using h3, by simpa using h4, by simpa using h5⟩

/-- C22: `variance(ddof)` is `Σ(x-mean)²/(n-ddof)`, and NaN exactly if `ddof ≥ n` (in particular
for the empty object). -/
theorem C22_variance (xs : List K) (ddof : Nat) :
    variance (pushAll new xs) ddof =
      if xs.length ≤ ddof then none
      else some (centralSum 2 xs / ((xs.length : K) - ddof)) := by
  have hr := repr_pushAll (K := K) repr_new xs
  have hc : (pushAll new xs).count = xs.length := by simpa using hr.count
  unfold variance
  rw [hc]
  by_cases h : xs.length ≤ ddof
  · simp [h]
  · have hx : xs ≠ [] := by rintro rfl; simp at h
    obtain ⟨_, _, _, _, h5, _⟩ := C22_push_equals_batch xs hx
    simp only [ge_iff_le, h5]

/-- C22: the standard deviation is the square root of the variance. -/
theorem C22_stddev (xs : List ℝ) (ddof : Nat) :
    stddev (pushAll new xs) ddof =
      if xs.length ≤ ddof then none
      else some (Real.sqrt (centralSum 2 xs / ((xs.length : ℝ) - ddof))) := by
  have hr := repr_pushAll (K := ℝ) repr_new xs
  have hc : (pushAll new xs).count = xs.length := by simpa using hr.count
  unfold stddev
  rw [hc]
  by_cases h : xs.length ≤ ddof
  · simp [h]
  · have hx : xs ≠ [] := by rintro rfl; simp at h
    obtain ⟨_, _, _, _, h5, _⟩ := C22_push_equals_batch xs hx
    simp only [ge_iff_le, h5]

/-- C22: the order of pushing does not matter. -/
theorem C22_order_irrelevant (xs ys : List K) (h : xs.Perm ys) :
    pushAll new xs = pushAll new ys :=
  Repr.unique (repr_pushAll repr_new xs) (repr_pushAll repr_new ys) (by simpa using h)

/-- C23: merging two objects gives exactly the state of one object into which all values were
pushed; empty objects included. -/
theorem C23_merge_equals_push (xs ys : List K) :
    merge (pushAll new xs) (pushAll new ys) = pushAll new (xs ++ ys) := by
  refine Repr.unique (repr_merge (repr_pushAll repr_new xs) (repr_pushAll repr_new ys))
    (repr_pushAll repr_new _) (by simp)

/-- any way of building an object: fresh, push a value, merge another object into it -/
inductive Build (K : Type) where
  | fresh : Build K
  | push : Build K → K → Build K
  | merge : Build K → Build K → Build K

/-- executing a build -/
def Build.run : Build K → Stats K
  | .fresh => new
  | .push b x => Statistics.push b.run x
  | .merge a b => Statistics.merge a.run b.run

/-- the values that went into a build -/
def Build.values : Build K → List K
  | .fresh => []
  | .push b x => b.values ++ [x]
  | .merge a b => a.values ++ b.values

/-- C23: for every tree of pushes and merges the final state is that of pushing all the values, in
any order, into one fresh object. -/
theorem C23_merge_trees (b : Build K) (xs : List K) (h : xs.Perm b.values) :
    b.run = pushAll new xs := by
  have : Repr b.run b.values := by
    induction b generalizing xs with
    | fresh => exact repr_new
    | push b x ih => exact repr_push (ih b.values (List.Perm.refl _)) x
    | merge a b iha ihb =>
      exact repr_merge (iha a.values (List.Perm.refl _)) (ihb b.values (List.Perm.refl _))
  exact Repr.unique this (repr_pushAll repr_new xs) (by simpa using h.symm)

example : (pushAll new [1, 2, 3, 4, 10] : Stats Rat) = ⟨5, 4, 50, 180, 1394, some 1, some 10⟩ := by
  decide +kernel
example : merge (pushAll new [1, 2, 3]) (pushAll new [4, 10]) =
    (⟨5, 4, 50, 180, 1394, some 1, some 10⟩ : Stats Rat) := by decide +kernel

end Prolothar.Statistics
