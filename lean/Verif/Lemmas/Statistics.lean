import Verif.Model.Statistics
import Verif.Spec.Moments
import Mathlib.Algebra.Order.Ring.Cast
import Mathlib.Algebra.BigOperators.Ring.List
import Mathlib.Tactic.FieldSimp
import Mathlib.Tactic.Ring
import Mathlib.Tactic.Linarith
set_option linter.unusedSectionVars false
set_option linter.unusedSimpArgs false
/- Helper lemmas for `Verif/Props/Statistics.lean`. -/
namespace Prolothar.Statistics
open Prolothar.Moments
variable {K : Type} [Field K] [LinearOrder K] [IsStrictOrderedRing K]

/-- power sum -/
def P (k : Nat) (xs : List K) : K := (xs.map (· ^ k)).sum

theorem P_append (k : Nat) (xs ys : List K) : P k (xs ++ ys) = P k xs + P k ys := by simp [P]
theorem P_cons (k : Nat) (x : K) (xs : List K) : P k (x :: xs) = x ^ k + P k xs := by simp [P]

theorem P_one (xs : List K) : P 1 xs = xs.sum := by simp [P]

theorem shift_sums (c : K) (xs : List K) :
    (xs.map fun x => (x - c) ^ 2).sum = P 2 xs - 2 * c * P 1 xs + xs.length * c ^ 2 ∧
    (xs.map fun x => (x - c) ^ 3).sum
      = P 3 xs - 3 * c * P 2 xs + 3 * c ^ 2 * P 1 xs - xs.length * c ^ 3 ∧
    (xs.map fun x => (x - c) ^ 4).sum
      = P 4 xs - 4 * c * P 3 xs + 6 * c ^ 2 * P 2 xs - 4 * c ^ 3 * P 1 xs + xs.length * c ^ 4 := by
  induction xs with
  | nil => simp [P]
  | cons x xs ih =>
    obtain ⟨h2, h3, h4⟩ := ih
    simp only [List.map_cons, List.sum_cons, h2, h3, h4, P_cons, List.length_cons, Nat.cast_add,
      Nat.cast_one]
    refine ⟨by ring, by ring, by ring⟩

/-- the state `s` represents the pushed values `xs` -/
structure Repr (s : Stats K) (xs : List K) : Prop where
  count : s.count = xs.length
  mean : s.mean * xs.length = P 1 xs
  rho : s.rho = P 2 xs - xs.length * s.mean ^ 2
  tau : s.tau = P 3 xs - 3 * s.mean * P 2 xs + 2 * xs.length * s.mean ^ 3
  phi : s.phi = P 4 xs - 4 * s.mean * P 3 xs + 6 * s.mean ^ 2 * P 2 xs - 3 * xs.length * s.mean ^ 4
  min : (xs = [] → s.min = none ∧ s.mean = 0) ∧ (xs ≠ [] → ∃ m, s.min = some m ∧ IsMinOf m xs)
  max : (xs = [] → s.max = none) ∧ (xs ≠ [] → ∃ m, s.max = some m ∧ IsMaxOf m xs)

theorem repr_new : Repr (new : Stats K) [] := by
  constructor <;> simp [new, P]

theorem ltNaN_some (a b : K) : ltNaN (some a) (some b) ↔ a < b := by
  simp [ltNaN]

theorem repr_push {s : Stats K} {xs : List K} (h : Repr s xs) (x : K) :
    Repr (push s x) (xs ++ [x]) := by
  have hn : ((xs.length : K) + 1) ≠ 0 := by
    have : (0 : K) ≤ xs.length := Nat.cast_nonneg _
    linarith
  obtain ⟨hc, hm, hr, ht, hp, hmin, hmax⟩ := h
  have hx1 : P 1 [x] = x := by simp [P]
  have hx2 : P 2 [x] = x ^ 2 := by simp [P]
  have hx3 : P 3 [x] = x ^ 3 := by simp [P]
  have hx4 : P 4 [x] = x ^ 4 := by simp [P]
  refine ⟨by simp [push, hc], ?_, ?_, ?_, ?_, ⟨by simp, fun _ => ?_⟩, ⟨by simp, fun _ => ?_⟩⟩
  · simp only [push, hc, P_append, hx1, ← hm, List.length_append, List.length_singleton, Nat.cast_add,
      Nat.cast_one]
    field_simp; ring
  · simp only [push, hc, P_append, hx2, hr, List.length_append, List.length_singleton, Nat.cast_add,
      Nat.cast_one]
    field_simp; ring
  · simp only [push, hc, P_append, hx2, hx3, hr, ht, List.length_append, List.length_singleton,
      Nat.cast_add, Nat.cast_one]
    field_simp; ring
  · simp only [push, hc, P_append, hx2, hx3, hx4, hr, ht, hp, List.length_append,
      List.length_singleton, Nat.cast_add, Nat.cast_one]
    field_simp; ring
  · by_cases h0 : xs = []
    · subst h0
      refine ⟨x, by simp [push, hc], by simp [IsMinOf]⟩
    · obtain ⟨m, hm1, hm2, hm3⟩ := hmin.2 h0
      have hc0 : s.count ≠ 0 := by rw [hc]; simpa using h0
      simp only [push, if_neg hc0, hm1, ltNaN_some]
      by_cases hlt : x < m
      · refine ⟨x, by simp [hlt], by simp, ?_⟩
        intro y hy
        rcases List.mem_append.1 hy with hy | hy
        · exact hlt.le.trans (hm3 y hy)
        · rw [List.mem_singleton.1 hy]
      · refine ⟨m, by simp [hlt], by simp [hm2], ?_⟩
        intro y hy
        rcases List.mem_append.1 hy with hy | hy
        · exact hm3 y hy
        · rw [List.mem_singleton.1 hy]; exact not_lt.1 hlt
  · by_cases h0 : xs = []
    · subst h0
      refine ⟨x, by simp [push, hc], by simp [IsMaxOf]⟩
    · obtain ⟨m, hm1, hm2, hm3⟩ := hmax.2 h0
      have hc0 : s.count ≠ 0 := by rw [hc]; simpa using h0
      simp only [push, if_neg hc0, hm1, ltNaN_some]
      by_cases hlt : m < x
      · refine ⟨x, by simp [hlt], by simp, ?_⟩
        intro y hy
        rcases List.mem_append.1 hy with hy | hy
        · exact (hm3 y hy).trans hlt.le
        · rw [List.mem_singleton.1 hy]
      · refine ⟨m, by simp [hlt], by simp [hm2], ?_⟩
        intro y hy
        rcases List.mem_append.1 hy with hy | hy
        · exact hm3 y hy
        · rw [List.mem_singleton.1 hy]; exact not_lt.1 hlt

theorem repr_merge {s t : Stats K} {xs ys : List K} (h : Repr s xs) (g : Repr t ys) :
    Repr (merge s t) (xs ++ ys) := by
  by_cases hy : ys = []
  · subst hy
    have : ¬ t.count > 0 := by rw [g.count]; simp
    rw [merge, if_neg this, List.append_nil]; exact h
  by_cases hx : xs = []
  · subst hx
    have h1 : t.count > 0 := by rw [g.count]; exact List.length_pos_iff.2 hy
    have h2 : s.count = 0 := by rw [h.count]; rfl
    rw [merge, if_pos h1, if_pos h2]; exact g
  have hnx : (0 : K) < xs.length := by exact_mod_cast List.length_pos_iff.2 hx
  have hny : (0 : K) < ys.length := by exact_mod_cast List.length_pos_iff.2 hy
  have hn : ((xs.length : K) + ys.length) ≠ 0 := by linarith
  obtain ⟨hc, hm, hr, ht, hp, hmin, hmax⟩ := h
  obtain ⟨gc, gm, gr, gt, gp, gmin, gmax⟩ := g
  have h1 : t.count > 0 := by rw [gc]; exact List.length_pos_iff.2 hy
  have h2 : s.count ≠ 0 := by rw [hc]; simpa using hx
  rw [merge, if_pos h1, if_neg h2]
  refine ⟨by simp [hc, gc], ?_, ?_, ?_, ?_, ⟨by simp [hx], fun _ => ?_⟩, ⟨by simp [hx], fun _ => ?_⟩⟩
  · simp only [hc, gc, P_append, ← hm, ← gm, List.length_append, Nat.cast_add]
    field_simp
  · simp only [hc, gc, P_append, hr, gr, List.length_append, Nat.cast_add]
    field_simp; ring
  · simp only [hc, gc, P_append, hr, gr, ht, gt, List.length_append, Nat.cast_add]
    field_simp; ring
  · simp only [hc, gc, P_append, hr, gr, ht, gt, hp, gp, List.length_append, Nat.cast_add]
    field_simp; ring
  · obtain ⟨m, hm1, hm2, hm3⟩ := hmin.2 hx
    obtain ⟨l, gm1, gm2, gm3⟩ := gmin.2 hy
    simp only [minNaN, hm1, gm1, ltNaN_some]
    by_cases hlt : l < m
    · refine ⟨l, by simp [hlt], by simp [gm2], ?_⟩
      intro y hy
      rcases List.mem_append.1 hy with hy | hy
      · exact hlt.le.trans (hm3 y hy)
      · exact gm3 y hy
    · refine ⟨m, by simp [hlt], by simp [hm2], ?_⟩
      intro y hy
      rcases List.mem_append.1 hy with hy | hy
      · exact hm3 y hy
      · exact (not_lt.1 hlt).trans (gm3 y hy)
  · obtain ⟨m, hm1, hm2, hm3⟩ := hmax.2 hx
    obtain ⟨l, gm1, gm2, gm3⟩ := gmax.2 hy
    simp only [maxNaN, hm1, gm1, ltNaN_some]
    by_cases hlt : m < l
    · refine ⟨l, by simp [hlt], by simp [gm2], ?_⟩
      intro y hy
      rcases List.mem_append.1 hy with hy | hy
      · exact (hm3 y hy).trans hlt.le
      · exact gm3 y hy
    · refine ⟨m, by simp [hlt], by simp [hm2], ?_⟩
      intro y hy
      rcases List.mem_append.1 hy with hy | hy
      · exact hm3 y hy
      · exact (gm3 y hy).trans (not_lt.1 hlt)

theorem repr_pushAll {s : Stats K} {xs : List K} (h : Repr s xs) (ys : List K) :
    Repr (pushAll s ys) (xs ++ ys) := by
  induction ys generalizing s xs with
  | nil => simpa [pushAll] using h
  | cons y ys ih =>
    have := ih (repr_push h y)
    simpa [pushAll] using this

/-- a state is determined by the multiset of represented values -/
theorem Repr.unique {s t : Stats K} {xs ys : List K} (h : Repr s xs) (g : Repr t ys)
    (hp : xs.Perm ys) : s = t := by
  have hP : ∀ k, P k xs = P k ys := fun k => (hp.map _).sum_eq
  have hlen := hp.length_eq
  have hmean : s.mean = t.mean := by
    by_cases hx : xs = []
    · have hy : ys = [] := by subst hx; exact hp.nil_eq.symm
      rw [(h.min.1 hx).2, (g.min.1 hy).2]
    · have hnx : (xs.length : K) ≠ 0 := by
        have : (0 : K) < xs.length := by exact_mod_cast List.length_pos_iff.2 hx
        exact this.ne'
      have h1 := h.mean
      rw [hP 1, ← g.mean, ← hlen] at h1
      exact mul_right_cancel₀ hnx h1
  have hmin : s.min = t.min := by
    by_cases hx : xs = []
    · have hy : ys = [] := by subst hx; exact hp.nil_eq.symm
      rw [(h.min.1 hx).1, (g.min.1 hy).1]
    · have hy : ys ≠ [] := by rintro rfl; exact hx hp.eq_nil
      obtain ⟨m, h1, h2, h3⟩ := h.min.2 hx
      obtain ⟨l, g1, g2, g3⟩ := g.min.2 hy
      rw [h1, g1, le_antisymm (h3 l (hp.mem_iff.2 g2)) (g3 m (hp.mem_iff.1 h2))]
  have hmax : s.max = t.max := by
    by_cases hx : xs = []
    · have hy : ys = [] := by subst hx; exact hp.nil_eq.symm
      rw [h.max.1 hx, g.max.1 hy]
    · have hy : ys ≠ [] := by rintro rfl; exact hx hp.eq_nil
      obtain ⟨m, h1, h2, h3⟩ := h.max.2 hx
      obtain ⟨l, g1, g2, g3⟩ := g.max.2 hy
      rw [h1, g1, le_antisymm (g3 m (hp.mem_iff.1 h2)) (h3 l (hp.mem_iff.2 g2))]
  have hcount : s.count = t.count := by rw [h.count, g.count, hlen]
  have hrho : s.rho = t.rho := by rw [h.rho, g.rho, hmean, hP, hlen]
  have htau : s.tau = t.tau := by rw [h.tau, g.tau, hmean, hP, hP, hlen]
  have hphi : s.phi = t.phi := by rw [h.phi, g.phi, hmean, hP, hP, hP, hlen]
  cases s; cases t; simp_all

/-- the represented values have the state's fields as batch statistics -/
theorem Repr.batch {s : Stats K} {xs : List K} (h : Repr s xs) (hx : xs ≠ []) :
    s.count = xs.length ∧ s.mean = Moments.mean xs ∧ s.rho = centralSum 2 xs ∧ s.tau = centralSum 3 xs ∧
    s.phi = centralSum 4 xs ∧ (∃ m, s.min = some m ∧ IsMinOf m xs) ∧
    (∃ m, s.max = some m ∧ IsMaxOf m xs) := by
  have hnx : (xs.length : K) ≠ 0 := by
    have : (0 : K) < xs.length := by exact_mod_cast List.length_pos_iff.2 hx
    exact this.ne'
  have hmean : s.mean = Moments.mean xs := by
    rw [Moments.mean, ← P_one, ← h.mean, mul_div_assoc, div_self hnx, mul_one]
  obtain ⟨e2, e3, e4⟩ := shift_sums (Moments.mean xs) xs
  have h1 : P 1 xs = Moments.mean xs * xs.length := by rw [← hmean, h.mean]
  refine ⟨h.count, hmean, ?_, ?_, ?_, h.min.2 hx, h.max.2 hx⟩
  · rw [centralSum, e2, h.rho, h1, hmean]; ring
  · rw [centralSum, e3, h.tau, h1, hmean]; ring
  · rw [centralSum, e4, h.phi, h1, hmean]; ring

end Prolothar.Statistics
