import Verif.Model.StatisticsCounter
import Verif.Props.Statistics
import Verif.Props.CInt
/-
C151: running statistics with the unsigned counter of the compiled class.
-/
namespace Prolothar.StatisticsCounter
open Prolothar.Statistics (Stats ltNaN minNaN maxNaN new Build)
open Prolothar.CInt (toInt toInt_ok toInt_error ok_bind)
open Prolothar.Moments
variable {K : Type} [Field K] [LinearOrder K]

theorem ulong_eq {x : Int} (h : 0 ≤ x) (h' : x < 18446744073709551616) : ulong x = x := Int.emod_eq_of_lt h h'

/-- executing a build with the compiled class -/
def run : Build K → Stats K
  | .fresh => new
  | .push b x => push (run b) x
  | .merge a b => merge (run a) (run b)

/-- the results of `len`, `mean`, `minimum` and `maximum`, and the sum that `variance` and `stddev` divide, are the same -/
def SameResults (s t : Stats K) : Prop := s.count = t.count ∧ s.mean = t.mean ∧ s.rho = t.rho ∧ s.min = t.min ∧ s.max = t.max

theorem push_same {s t : Stats K} (h : SameResults s t) (x : K) (hc : t.count + 1 < 18446744073709551616) :
    SameResults (push s x) (Statistics.push t x) := by
  obtain ⟨h1, h2, h3, h4, h5⟩ := h
  have hu : ulong ((t.count : Int) + 1) = (t.count : Int) + 1 := ulong_eq (by omega) (by omega)
  unfold push Statistics.push SameResults
  dsimp only
  rw [h1, h2, h3, h4, h5, hu]
  refine ⟨by omega, by push_cast; rfl, by push_cast; rfl, rfl, rfl⟩

theorem merge_same {s t s' t' : Stats K} (h : SameResults s s') (g : SameResults t t') (hc : s'.count + t'.count < 18446744073709551616) :
    SameResults (merge s t) (Statistics.merge s' t') := by
  have h0 := h
  have g0 := g
  obtain ⟨h1, h2, h3, h4, h5⟩ := h
  obtain ⟨g1, g2, g3, g4, g5⟩ := g
  have hu : ulong ((s'.count : Int) + t'.count) = (s'.count : Int) + t'.count := ulong_eq (by omega) (by omega)
  unfold merge Statistics.merge
  rw [g1, h1]
  split
  · split
    · exact g0
    · unfold SameResults
      dsimp only
      rw [h2, h3, h4, h5, g2, g3, g4, g5, hu]
      refine ⟨by omega, by push_cast; rfl, by push_cast; rfl, rfl, rfl⟩
  · exact h0

/-- C151: for every tree of pushes and merges with fewer than 2^64 values, all that the methods of the compiled class can return is what
the class with unbounded integers returns. -/
theorem C151_counter [IsStrictOrderedRing K] (b : Build K) (h : b.values.length < 18446744073709551616) : SameResults (run b) b.run := by
  have key : ∀ b : Build K, b.run.count = b.values.length := by
    intro b
    rw [Statistics.C23_merge_trees b b.values (List.Perm.refl _)]
    by_cases hv : b.values = []
    · rw [hv]; rfl
    · exact (Statistics.C22_push_equals_batch b.values hv).1
  induction b with
  | fresh => exact ⟨rfl, rfl, rfl, rfl, rfl⟩
  | push b x ih =>
    have hl : b.values.length + 1 < 18446744073709551616 := by simpa [Build.values] using h
    exact push_same (ih (by omega)) x (by rw [key]; exact hl)
  | merge a b iha ihb =>
    have hl : a.values.length + b.values.length < 18446744073709551616 := by simpa [Build.values] using h
    exact merge_same (iha (by omega)) (ihb (by omega)) (by rw [key, key]; exact hl)

/-- C151: hence, for every such tree, the length, mean, minimum and maximum are those of the values, and so is the variance for every number
of degrees of freedom that fits into a C `int`. -/
theorem C151_batch [IsStrictOrderedRing K] (b : Build K) (h : b.values.length < 18446744073709551616) (hv : b.values ≠ []) :
    (run b).count = b.values.length ∧ (run b).mean = Moments.mean b.values ∧
    (∃ m, (run b).min = some m ∧ IsMinOf m b.values) ∧ (∃ m, (run b).max = some m ∧ IsMaxOf m b.values) ∧
    ∀ ddof : Int, ddof ≤ 2147483647 → 0 ≤ ddof →
      variance (run b) ddof = .ok (if (b.values.length : Int) ≤ ddof then none else some (centralSum 2 b.values / ((b.values.length : K) - ddof))) := by
  obtain ⟨h1, h2, h3, h4, h5⟩ := C151_counter b h
  have e := Statistics.C23_merge_trees b b.values (List.Perm.refl _)
  obtain ⟨e1, e2, e3, e4, e5, _⟩ := Statistics.C22_push_equals_batch b.values hv
  rw [e] at h1 h2 h3 h4 h5
  refine ⟨by rw [h1, e1], by rw [h2, e2], by rw [h4]; exact e3, by rw [h5]; exact e4, fun ddof hd hd' => ?_⟩
  unfold variance
  rw [toInt_ok (by omega) hd, ok_bind, ulong_eq hd' (by omega), h1, e1, h3, e5]
  by_cases hc : (b.values.length : Int) ≤ ddof
  · rw [if_pos hc, if_pos hc]
  · rw [if_neg hc, if_neg hc, ulong_eq (by omega) (by omega)]
    push_cast
    rfl

omit [LinearOrder K] in
/-- C151: a number of degrees of freedom that does not fit into a C `int` is an error. -/
theorem C151_ddof_overflow (s : Stats K) (ddof : Int) (h : ddof < -2147483648 ∨ 2147483647 < ddof) : variance s ddof = .error .overflow := by
  unfold variance
  rw [toInt_error h]
  rfl

omit [LinearOrder K] in
/-- C151 (disagreement): for a negative number of degrees of freedom the variance is NaN, however many values there are (fewer than 2^63),
because the number is compared as an unsigned one; dividing by `n - ddof` would be possible. -/
theorem C151_negative_ddof (s : Stats K) (hs : s.count < 9223372036854775808) (ddof : Int) (h : ddof < 0) (h' : -2147483648 ≤ ddof) :
    variance s ddof = .ok none := by
  unfold variance
  rw [toInt_ok h' (by omega), ok_bind]
  have : ulong ddof = ddof + 18446744073709551616 := by unfold ulong; omega
  rw [this, if_pos (by omega)]

/-- C151: the third and fourth moments, which no method returns, are right as well after pushing fewer than 2^32 values. -/
theorem C151_moments [IsStrictOrderedRing K] (xs : List K) (h : xs.length < 4294967296) : xs.foldl push new = Statistics.pushAll new xs := by
  induction xs using List.reverseRecOn with
  | nil => rfl
  | append_singleton xs x ih =>
    rw [List.length_append, List.length_singleton] at h
    have e : Statistics.pushAll (new : Stats K) (xs ++ [x]) = Statistics.push (Statistics.pushAll new xs) x := by
      unfold Statistics.pushAll; rw [List.foldl_append]; rfl
    rw [List.foldl_append, ih (by omega), e]
    show push _ x = _
    have hc : (Statistics.pushAll (new : Stats K) xs).count = xs.length := by
      by_cases hv : xs = []
      · rw [hv]; rfl
      · exact (Statistics.C22_push_equals_batch xs hv).1
    unfold push Statistics.push
    dsimp only
    rw [hc]
    generalize hn : xs.length = n at *
    have u1 : ulong ((n : Int) + 1) = (n : Int) + 1 := ulong_eq (by omega) (by omega)
    have u2 : ulong (((n : Int) + 1) ^ 2 - 3 * ((n : Int) + 1) + 3) = ((n : Int) + 1) ^ 2 - 3 * ((n : Int) + 1) + 3 := by
      apply ulong_eq
      · nlinarith [sq_nonneg (2 * (n : Int) - 1)]
      · have : (n : Int) ≤ 4294967294 := by omega
        nlinarith
    rw [u1, u2]
    have htau : ∀ t d : K, t * (n : K) * d * ((ulong ((n : Int) + 1 - 2) : Int) : K) = t * (n : K) * d * ((n : K) + 1 - 2) := by
      intro t d
      by_cases h0 : n = 0
      · subst h0; simp
      · rw [ulong_eq (by omega) (by omega)]
        push_cast
        rfl
    rw [htau]
    push_cast
    congr 1

/-- C151: merging an object into one with at least as many values keeps the third and fourth moments right, too, if there are fewer than
2^32 values. -/
theorem C151_merge_moments [IsStrictOrderedRing K] (xs ys : List K) (hle : ys.length ≤ xs.length) (h : xs.length + ys.length < 4294967296) :
    merge (xs.foldl push new) (ys.foldl push new) = Statistics.pushAll new (xs ++ ys) := by
  have hcount : ∀ zs : List K, (Statistics.pushAll (new : Stats K) zs).count = zs.length := by
    intro zs
    by_cases hv : zs = []
    · rw [hv]; rfl
    · exact (Statistics.C22_push_equals_batch zs hv).1
  rw [C151_moments xs (by omega), C151_moments ys (by omega)]
  have hm : Statistics.merge (Statistics.pushAll new xs) (Statistics.pushAll new ys) = Statistics.pushAll (new : Stats K) (xs ++ ys) :=
    Statistics.C23_merge_equals_push xs ys
  rw [← hm]
  have h1 := hcount xs
  have h2 := hcount ys
  generalize Statistics.pushAll (new : Stats K) xs = s at *
  generalize Statistics.pushAll (new : Stats K) ys = t at *
  rw [← h1, ← h2] at hle h
  unfold merge Statistics.merge
  have u1 : ulong ((s.count : Int) + t.count) = ((s.count + t.count : Nat) : Int) := by rw [ulong_eq (by omega) (by omega)]; push_cast; rfl
  have u2 : ulong ((s.count : Int) - t.count) = (s.count : Int) - t.count := ulong_eq (by omega) (by omega)
  have hs : (s.count : Int) < 4294967296 := by omega
  have ht : (t.count : Int) < 4294967296 := by omega
  have hs0 : (0 : Int) ≤ s.count := by omega
  have ht0 : (0 : Int) ≤ t.count := by omega
  have hst : (t.count : Int) ≤ s.count := by omega
  have u3 : ulong ((s.count : Int) * s.count) = (s.count : Int) * s.count := ulong_eq (by positivity) (by nlinarith)
  have u4 : ulong ((t.count : Int) * t.count) = (t.count : Int) * t.count := ulong_eq (by positivity) (by nlinarith)
  have u5 : ulong ((s.count : Int) ^ 2 - s.count * t.count + (t.count : Int) ^ 2) = (s.count : Int) ^ 2 - s.count * t.count + (t.count : Int) ^ 2 :=
    ulong_eq (by nlinarith [sq_nonneg ((s.count : Int) - t.count)]) (by nlinarith)
  split
  · split
    · rfl
    · dsimp only
      rw [u1, u2, u3, u4, u5]
      push_cast
      rfl
  · rfl

/-- C151 (disagreement): merging a larger object into a smaller one spoils the third moment: `self._count - other._count` is negative, but
unsigned. No method returns this field, and no other field depends on it, except the fourth moment. -/
theorem C151_merge_third_moment_wrong :
    (merge ([0].foldl push new) ([1, 2].foldl push new) : Stats ℚ).tau ≠ ((Statistics.pushAll new [0, 1, 2] : Stats ℚ)).tau := by
  decide +kernel

example : (merge ([0, 3].foldl push new) ([1].foldl push new) : Stats ℚ).tau = 20 / 9 := by decide +kernel

-- the hypotheses can be met, and the results are not trivial
example : (run (.merge (.push .fresh 0) (.push (.push .fresh 1) 2)) : Stats ℚ).mean = 1 := by decide +kernel
example : (variance (run (.merge (.push .fresh 0) (.push (.push .fresh 1) 5))) 1 : Py (Option ℚ)) = .ok (some 7) := by decide +kernel
example : (variance (run (.merge (.push .fresh 0) (.push (.push .fresh 1) 5))) (-1) : Py (Option ℚ)) = .ok none := by decide +kernel

end Prolothar.StatisticsCounter
