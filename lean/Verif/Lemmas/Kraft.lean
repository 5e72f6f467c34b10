import Verif.Lemmas.Mdl
import Mathlib.Algebra.BigOperators.Intervals
import Mathlib.Algebra.Order.Field.GeomSum
import Mathlib.Tactic.NormNum
import Mathlib.Tactic.IntervalCases
/- Helper lemmas for `Verif/Props/Kraft.lean`. -/
namespace Prolothar.Mdl
open Finset

/-- `1 / (t * log2 t * log2 log2 t * ...)`, factors greater than 1 only, at most `k` of them -/
noncomputable def weight : Nat → ℝ → ℝ
  | 0, _ => 1
  | k + 1, t => if t ≤ 1 then 1 else weight k (Real.logb 2 t) / t

/-- the antiderivative of `weight k` -/
noncomputable def area : Nat → ℝ → ℝ
  | 0, t => t
  | k + 1, t => if t ≤ 1 then t else 1 + Real.log 2 * area k (Real.logb 2 t)

theorem weight_of_le {k : Nat} {t : ℝ} (h : t ≤ 1) : weight k t = 1 := by
  cases k with
  | zero => rfl
  | succ k => simp [weight, h]

theorem area_of_le {k : Nat} {t : ℝ} (h : t ≤ 1) : area k t = t := by
  cases k with
  | zero => rfl
  | succ k => simp [area, h]

theorem weight_succ {k : Nat} {t : ℝ} (h : 1 < t) :
    weight (k + 1) t = weight k (Real.logb 2 t) / t := by
  simp [weight, not_le.2 h]

/-- also true at `t = 1` -/
theorem area_succ {k : Nat} {t : ℝ} (h : 1 ≤ t) :
    area (k + 1) t = 1 + Real.log 2 * area k (Real.logb 2 t) := by
  rcases h.eq_or_lt with h | h
  · subst h
    rw [area_of_le le_rfl, Real.logb_one, area_of_le (by norm_num), mul_zero, add_zero]
  · simp [area, not_le.2 h]

theorem weight_pos (k : Nat) (t : ℝ) : 0 < weight k t := by
  induction k generalizing t with
  | zero => exact one_pos
  | succ k ih =>
    rcases le_or_gt t 1 with h | h
    · rw [weight_of_le h]; exact one_pos
    · rw [weight_succ h]; exact div_pos (ih _) (by linarith)

theorem weight_anti (k : Nat) {a b : ℝ} (hab : a ≤ b) : weight k b ≤ weight k a := by
  induction k generalizing a b with
  | zero => exact le_rfl
  | succ k ih =>
    rcases le_or_gt a 1 with ha | ha
    · rw [weight_of_le ha]
      rcases le_or_gt b 1 with hb | hb
      · rw [weight_of_le hb]
      · rw [weight_succ hb, div_le_one (by linarith)]
        have h1 := ih (Real.logb_nonneg (b := 2) (by norm_num) hb.le)
        rw [weight_of_le zero_le_one] at h1
        linarith
    · rw [weight_succ ha, weight_succ (by linarith)]
      exact div_le_div₀ (weight_pos k _).le
        (ih (Real.logb_le_logb_of_le (by norm_num) (by linarith) hab)) (by linarith) hab

theorem area_bounds (k : Nat) {a b : ℝ} (hab : a ≤ b) :
    weight k b * (b - a) ≤ area k b - area k a ∧ area k b - area k a ≤ weight k a * (b - a) := by
  induction k generalizing a b with
  | zero => simp [weight, area]
  | succ k ih =>
    have key : ∀ a b : ℝ, 1 ≤ a → a ≤ b →
        weight (k + 1) b * (b - a) ≤ area (k + 1) b - area (k + 1) a ∧
        area (k + 1) b - area (k + 1) a ≤ weight (k + 1) a * (b - a) := by
      intro a b ha hab
      have ha0 : 0 < a := by linarith
      have hb0 : 0 < b := by linarith
      have wa : weight (k + 1) a = weight k (Real.logb 2 a) / a := by
        rcases ha.eq_or_lt with h | h
        · subst h
          rw [weight_of_le le_rfl, Real.logb_one, weight_of_le (by norm_num), div_one]
        · exact weight_succ h
      have wb : weight (k + 1) b = weight k (Real.logb 2 b) / b := by
        rcases (ha.trans hab).eq_or_lt with h | h
        · rw [← h, weight_of_le le_rfl, Real.logb_one, weight_of_le (by norm_num), div_one]
        · exact weight_succ h
      obtain ⟨h1, h2⟩ := ih (Real.logb_le_logb_of_le (b := 2) (by norm_num) ha0 hab)
      have hd : Real.log 2 * (Real.logb 2 b - Real.logb 2 a) = Real.log b - Real.log a := by
        unfold Real.logb; have := log2_pos.ne'; field_simp
      have hup : Real.log b - Real.log a ≤ (b - a) / a := by
        rw [← Real.log_div hb0.ne' ha0.ne']
        have := Real.log_le_sub_one_of_pos (div_pos hb0 ha0)
        rw [sub_div, div_self ha0.ne']; exact this
      have hlo : (b - a) / b ≤ Real.log b - Real.log a := by
        rw [← Real.log_div hb0.ne' ha0.ne']
        have := Real.one_sub_inv_le_log_of_pos (div_pos hb0 ha0)
        rw [sub_div, div_self hb0.ne']; rwa [inv_div] at this
      rw [area_succ ha, area_succ (ha.trans hab), wa, wb]
      have e : 1 + Real.log 2 * area k (Real.logb 2 b) - (1 + Real.log 2 * area k (Real.logb 2 a))
          = Real.log 2 * (area k (Real.logb 2 b) - area k (Real.logb 2 a)) := by ring
      rw [e]
      constructor
      · calc weight k (Real.logb 2 b) / b * (b - a) = weight k (Real.logb 2 b) * ((b - a) / b) := by
              ring
          _ ≤ weight k (Real.logb 2 b) * (Real.log b - Real.log a) :=
              mul_le_mul_of_nonneg_left hlo (weight_pos _ _).le
          _ = Real.log 2 * (weight k (Real.logb 2 b) * (Real.logb 2 b - Real.logb 2 a)) := by
              rw [← hd]; ring
          _ ≤ _ := mul_le_mul_of_nonneg_left h1 log2_pos.le
      · calc Real.log 2 * (area k (Real.logb 2 b) - area k (Real.logb 2 a))
            ≤ Real.log 2 * (weight k (Real.logb 2 a) * (Real.logb 2 b - Real.logb 2 a)) :=
              mul_le_mul_of_nonneg_left h2 log2_pos.le
          _ = weight k (Real.logb 2 a) * (Real.log b - Real.log a) := by rw [← hd]; ring
          _ ≤ weight k (Real.logb 2 a) * ((b - a) / a) :=
              mul_le_mul_of_nonneg_left hup (weight_pos _ _).le
          _ = _ := by ring
    rcases le_or_gt 1 a with ha | ha
    · exact key a b ha hab
    · rcases le_or_gt b 1 with hb | hb
      · rw [weight_of_le hb, weight_of_le ha.le, area_of_le hb, area_of_le ha.le]
        simp
      · obtain ⟨h1, h2⟩ := key 1 b le_rfl hb.le
        rw [weight_of_le le_rfl, area_of_le le_rfl] at h2
        rw [area_of_le le_rfl] at h1
        rw [weight_of_le ha.le, area_of_le ha.le]
        have hw : weight (k + 1) b ≤ 1 := by
          have := weight_anti (k + 1) hb.le
          rwa [weight_of_le le_rfl] at this
        constructor
        · nlinarith
        · linarith

/-- the code length gives the weight -/
theorem weight_eq {x s : ℝ} (h : IterLogSum x s) :
    ∃ K, ∀ k, K ≤ k → ∀ t : ℝ, 0 < t → Real.logb 2 t = x → weight k t = (2 : ℝ) ^ (-s) := by
  induction h with
  | stop hx =>
    refine ⟨0, fun k _ t ht htx => ?_⟩
    have : t ≤ 1 := (Real.logb_nonpos_iff (b := 2) (by norm_num) ht).1 (by rw [htx]; exact hx)
    rw [weight_of_le this, neg_zero, Real.rpow_zero]
  | @step x s hx _ ih =>
    obtain ⟨K, hK⟩ := ih
    refine ⟨K + 1, fun k hk t ht htx => ?_⟩
    obtain ⟨k, rfl⟩ := Nat.exists_eq_succ_of_ne_zero (by omega : k ≠ 0)
    have h1 : 1 < t := (Real.logb_pos_iff (b := 2) (by norm_num) ht).1 (by rw [htx]; exact hx)
    rw [weight_succ h1, htx, hK k (by omega) x hx rfl, neg_add, Real.rpow_add (by norm_num),
      Real.rpow_neg (x := 2) (by norm_num) x, ← htx, Real.rpow_logb (by norm_num) (by norm_num) ht]
    rw [div_eq_inv_mul]

/-! ### the sum over `16, 17, ...` -/

theorem sum_weight_ge (k a n : Nat) :
    area k (a + n : ℕ) - area k a ≤ ∑ i ∈ range n, weight k (a + i : ℕ) := by
  induction n with
  | zero => simp
  | succ n ih =>
    rw [sum_range_succ]
    have h := (area_bounds k (a := ((a + n : ℕ) : ℝ)) (b := ((a + (n + 1) : ℕ) : ℝ))
      (by exact_mod_cast (by omega))).2
    have e : ((a + (n + 1) : ℕ) : ℝ) - ((a + n : ℕ) : ℝ) = 1 := by push_cast; ring
    rw [e, mul_one] at h
    linarith

theorem sum_weight_le (k a n : Nat) :
    ∑ i ∈ range n, weight k (a + 1 + i : ℕ) ≤ area k (a + n : ℕ) - area k a := by
  induction n with
  | zero => simp
  | succ n ih =>
    rw [sum_range_succ]
    have h := (area_bounds k (a := ((a + n : ℕ) : ℝ)) (b := ((a + 1 + n : ℕ) : ℝ))
      (by exact_mod_cast (by omega))).1
    have e : ((a + 1 + n : ℕ) : ℝ) - ((a + n : ℕ) : ℝ) = 1 := by push_cast; ring
    rw [e, mul_one] at h
    have e2 : a + (n + 1) = a + 1 + n := by omega
    rw [e2]
    linarith

/-- `1, 2, 4, 16, 65536, ...` -/
def tower : Nat → Nat
  | 0 => 1
  | n + 1 => 2 ^ tower n

theorem tower_pos (m : Nat) : 1 ≤ tower m := by
  cases m with
  | zero => exact le_rfl
  | succ m => exact Nat.one_le_two_pow

theorem logb_tower (m : Nat) : Real.logb 2 (tower (m + 1) : ℝ) = tower m := by
  have : ((tower (m + 1) : ℕ) : ℝ) = (2 : ℝ) ^ (tower m) := by
    rw [tower]; push_cast; rfl
  rw [this, Real.logb_pow, Real.logb_self_eq_one (by norm_num), mul_one]

theorem area_tower (m k : Nat) :
    area (m + k) (tower m : ℝ) = ∑ i ∈ range (m + 1), Real.log 2 ^ i := by
  induction m with
  | zero => simp [tower, area_of_le]
  | succ m ih =>
    have e : m + 1 + k = (m + k) + 1 := by omega
    rw [e, area_succ (by exact_mod_cast tower_pos _), logb_tower, ih, sum_range_succ' _ (m + 1),
      mul_sum, pow_zero, add_comm]
    congr 1
    apply sum_congr rfl
    intro i _
    rw [pow_succ]; ring

theorem area_mono (k : Nat) {a b : ℝ} (hab : a ≤ b) : area k a ≤ area k b := by
  have h := (area_bounds k hab).1
  have := mul_nonneg (weight_pos k b).le (sub_nonneg.2 hab)
  linarith

/-! ### the sum over `1, ..., 15` -/

theorem logb_le_of_pow {x : ℝ} {p q : Nat} (hx : 0 < x) (hq : 0 < q) (h : x ^ q ≤ 2 ^ p) :
    Real.logb 2 x ≤ p / q := by
  have hq' : (0 : ℝ) < q := by exact_mod_cast hq
  rw [le_div_iff₀ hq', mul_comm, ← Real.logb_pow]
  calc Real.logb 2 (x ^ q) ≤ Real.logb 2 (2 ^ p) :=
        Real.logb_le_logb_of_le (by norm_num) (pow_pos hx _) h
    _ = p := by rw [Real.logb_pow, Real.logb_self_eq_one (by norm_num), mul_one]

theorem le_logb_of_pow {x : ℝ} {p q : Nat} (hq : 0 < q) (h : 2 ^ p ≤ x ^ q) :
    (p / q : ℝ) ≤ Real.logb 2 x := by
  have hq' : (0 : ℝ) < q := by exact_mod_cast hq
  rw [div_le_iff₀ hq', mul_comm, ← Real.logb_pow]
  calc (p : ℝ) = Real.logb 2 (2 ^ p) := by
        rw [Real.logb_pow, Real.logb_self_eq_one (by norm_num), mul_one]
    _ ≤ Real.logb 2 (x ^ q) := Real.logb_le_logb_of_le (by norm_num) (pow_pos (by norm_num) _) h

/-- between 1 and 2 the weight is `1 / t` -/
theorem weight_one_two {k : Nat} {t : ℝ} (h1 : 1 ≤ t) (h2 : t ≤ 2) : weight (k + 1) t = 1 / t := by
  rcases h1.eq_or_lt with h | h
  · rw [← h, weight_of_le le_rfl, div_one]
  · rw [weight_succ h, weight_of_le]
    calc Real.logb 2 t ≤ Real.logb 2 2 := Real.logb_le_logb_of_le (by norm_num) (by linarith) h2
      _ = 1 := Real.logb_self_eq_one (by norm_num)

theorem weight_lower {k n a b q : Nat} (hq : 0 < q) (hn : 2 ≤ n) (ha : n ^ q ≤ 2 ^ a)
    (hb : a ^ q ≤ 2 ^ b * q ^ q) (haq : q < a) (hbq : q ≤ b) (hb2 : b ≤ 2 * q) :
    (q : ℝ) ^ 2 / (n * a * b) ≤ weight (k + 3) (n : ℝ) := by
  have hq' : (0 : ℝ) < q := by exact_mod_cast hq
  have hn' : (2 : ℝ) ≤ n := by exact_mod_cast hn
  have ha' : (0 : ℝ) < a := by exact_mod_cast (by omega : 0 < a)
  have hb' : (0 : ℝ) < b := by exact_mod_cast (by omega : 0 < b)
  have h1 : Real.logb 2 (n : ℝ) ≤ a / q :=
    logb_le_of_pow (by linarith) hq (by exact_mod_cast ha)
  have h2 : Real.logb 2 ((a : ℝ) / q) ≤ b / q := by
    refine logb_le_of_pow (by positivity) hq ?_
    rw [div_pow, div_le_iff₀ (by positivity)]
    exact_mod_cast hb
  rw [weight_succ (by linarith)]
  have h3 : weight (k + 2) ((a : ℝ) / q) ≤ weight (k + 2) (Real.logb 2 (n : ℝ)) := weight_anti _ h1
  rw [weight_succ (by rw [lt_div_iff₀ hq', one_mul]; exact_mod_cast haq)] at h3
  have h4 := weight_anti (k + 1) h2
  rw [weight_one_two (by rw [le_div_iff₀ hq', one_mul]; exact_mod_cast hbq)
    (by rw [div_le_iff₀ hq']; exact_mod_cast hb2)] at h4
  have h5 : 1 / ((b : ℝ) / q) / ((a : ℝ) / q) ≤ weight (k + 2) (Real.logb 2 (n : ℝ)) :=
    le_trans (div_le_div_of_nonneg_right h4 (by positivity)) h3
  calc (q : ℝ) ^ 2 / (n * a * b) = 1 / ((b : ℝ) / q) / ((a : ℝ) / q) / n := by
        field_simp
    _ ≤ _ := div_le_div_of_nonneg_right h5 (by linarith)

theorem weight_upper {k n a b q : Nat} (hq : 0 < q) (hn : 2 ≤ n) (ha : 2 ^ a ≤ n ^ q)
    (hb : 2 ^ b * q ^ q ≤ a ^ q) (haq : q < a) (hbq : q ≤ b) (hb2 : b ≤ 2 * q) :
    weight (k + 3) (n : ℝ) ≤ (q : ℝ) ^ 2 / (n * a * b) := by
  have hq' : (0 : ℝ) < q := by exact_mod_cast hq
  have hn' : (2 : ℝ) ≤ n := by exact_mod_cast hn
  have ha' : (0 : ℝ) < a := by exact_mod_cast (by omega : 0 < a)
  have hb' : (0 : ℝ) < b := by exact_mod_cast (by omega : 0 < b)
  have h1 : (a / q : ℝ) ≤ Real.logb 2 (n : ℝ) :=
    le_logb_of_pow hq (by exact_mod_cast ha)
  have h2 : (b / q : ℝ) ≤ Real.logb 2 ((a : ℝ) / q) := by
    refine le_logb_of_pow hq ?_
    rw [div_pow, le_div_iff₀ (by positivity)]
    exact_mod_cast hb
  rw [weight_succ (by linarith)]
  have h3 : weight (k + 2) (Real.logb 2 (n : ℝ)) ≤ weight (k + 2) ((a : ℝ) / q) := weight_anti _ h1
  rw [weight_succ (t := (a : ℝ) / q) (by rw [lt_div_iff₀ hq', one_mul]; exact_mod_cast haq)] at h3
  have h4 := weight_anti (k + 1) h2
  rw [weight_one_two (t := (b : ℝ) / q) (by rw [le_div_iff₀ hq', one_mul]; exact_mod_cast hbq)
    (by rw [div_le_iff₀ hq']; exact_mod_cast hb2)] at h4
  have h5 : weight (k + 2) (Real.logb 2 (n : ℝ)) ≤ 1 / ((b : ℝ) / q) / ((a : ℝ) / q) :=
    le_trans h3 (div_le_div_of_nonneg_right h4 (by positivity))
  calc _ ≤ 1 / ((b : ℝ) / q) / ((a : ℝ) / q) / n := div_le_div_of_nonneg_right h5 (by linarith)
    _ = (q : ℝ) ^ 2 / (n * a * b) := by field_simp

set_option exponentiation.threshold 1000 in
/-- bounds for the weights of 5, ..., 15 -/
theorem weight_table (k : Nat) :
    ((200 : ℝ) ^ 2 / (5 * 465 * 244) ≤ weight (k + 3) 5 ∧ weight (k + 3) 5 ≤ (200 : ℝ) ^ 2 / (5 * 464 * 242)) ∧
    ((200 : ℝ) ^ 2 / (6 * 517 * 275) ≤ weight (k + 3) 6 ∧ weight (k + 3) 6 ≤ (200 : ℝ) ^ 2 / (6 * 516 * 273)) ∧
    ((200 : ℝ) ^ 2 / (7 * 562 * 299) ≤ weight (k + 3) 7 ∧ weight (k + 3) 7 ≤ (200 : ℝ) ^ 2 / (7 * 561 * 297)) ∧
    ((200 : ℝ) ^ 2 / (8 * 600 * 317) ≤ weight (k + 3) 8 ∧ weight (k + 3) 8 ≤ (200 : ℝ) ^ 2 / (8 * 600 * 316)) ∧
    ((200 : ℝ) ^ 2 / (9 * 634 * 333) ≤ weight (k + 3) 9 ∧ weight (k + 3) 9 ≤ (200 : ℝ) ^ 2 / (9 * 633 * 332)) ∧
    ((200 : ℝ) ^ 2 / (10 * 665 * 347) ≤ weight (k + 3) 10 ∧ weight (k + 3) 10 ≤ (200 : ℝ) ^ 2 / (10 * 664 * 346)) ∧
    ((200 : ℝ) ^ 2 / (11 * 692 * 359) ≤ weight (k + 3) 11 ∧ weight (k + 3) 11 ≤ (200 : ℝ) ^ 2 / (11 * 691 * 357)) ∧
    ((200 : ℝ) ^ 2 / (12 * 717 * 369) ≤ weight (k + 3) 12 ∧ weight (k + 3) 12 ≤ (200 : ℝ) ^ 2 / (12 * 716 * 367)) ∧
    ((200 : ℝ) ^ 2 / (13 * 741 * 378) ≤ weight (k + 3) 13 ∧ weight (k + 3) 13 ≤ (200 : ℝ) ^ 2 / (13 * 740 * 377)) ∧
    ((200 : ℝ) ^ 2 / (14 * 762 * 386) ≤ weight (k + 3) 14 ∧ weight (k + 3) 14 ≤ (200 : ℝ) ^ 2 / (14 * 761 * 385)) ∧
    ((200 : ℝ) ^ 2 / (15 * 782 * 394) ≤ weight (k + 3) 15 ∧ weight (k + 3) 15 ≤ (200 : ℝ) ^ 2 / (15 * 781 * 393)) := by
  refine ⟨⟨?_, ?_⟩, ⟨?_, ?_⟩, ⟨?_, ?_⟩, ⟨?_, ?_⟩, ⟨?_, ?_⟩, ⟨?_, ?_⟩, ⟨?_, ?_⟩, ⟨?_, ?_⟩, ⟨?_, ?_⟩, ⟨?_, ?_⟩, ⟨?_, ?_⟩⟩
  · exact_mod_cast weight_lower (k := k) (n := 5) (a := 465) (b := 244) (q := 200) (by norm_num) (by norm_num)
      (by norm_num) (by norm_num) (by norm_num) (by norm_num) (by norm_num)
  · exact_mod_cast weight_upper (k := k) (n := 5) (a := 464) (b := 242) (q := 200) (by norm_num) (by norm_num)
      (by norm_num) (by norm_num) (by norm_num) (by norm_num) (by norm_num)
  · exact_mod_cast weight_lower (k := k) (n := 6) (a := 517) (b := 275) (q := 200) (by norm_num) (by norm_num)
      (by norm_num) (by norm_num) (by norm_num) (by norm_num) (by norm_num)
  · exact_mod_cast weight_upper (k := k) (n := 6) (a := 516) (b := 273) (q := 200) (by norm_num) (by norm_num)
      (by norm_num) (by norm_num) (by norm_num) (by norm_num) (by norm_num)
  · exact_mod_cast weight_lower (k := k) (n := 7) (a := 562) (b := 299) (q := 200) (by norm_num) (by norm_num)
      (by norm_num) (by norm_num) (by norm_num) (by norm_num) (by norm_num)
  · exact_mod_cast weight_upper (k := k) (n := 7) (a := 561) (b := 297) (q := 200) (by norm_num) (by norm_num)
      (by norm_num) (by norm_num) (by norm_num) (by norm_num) (by norm_num)
  · exact_mod_cast weight_lower (k := k) (n := 8) (a := 600) (b := 317) (q := 200) (by norm_num) (by norm_num)
      (by norm_num) (by norm_num) (by norm_num) (by norm_num) (by norm_num)
  · exact_mod_cast weight_upper (k := k) (n := 8) (a := 600) (b := 316) (q := 200) (by norm_num) (by norm_num)
      (by norm_num) (by norm_num) (by norm_num) (by norm_num) (by norm_num)
  · exact_mod_cast weight_lower (k := k) (n := 9) (a := 634) (b := 333) (q := 200) (by norm_num) (by norm_num)
      (by norm_num) (by norm_num) (by norm_num) (by norm_num) (by norm_num)
  · exact_mod_cast weight_upper (k := k) (n := 9) (a := 633) (b := 332) (q := 200) (by norm_num) (by norm_num)
      (by norm_num) (by norm_num) (by norm_num) (by norm_num) (by norm_num)
  · exact_mod_cast weight_lower (k := k) (n := 10) (a := 665) (b := 347) (q := 200) (by norm_num) (by norm_num)
      (by norm_num) (by norm_num) (by norm_num) (by norm_num) (by norm_num)
  · exact_mod_cast weight_upper (k := k) (n := 10) (a := 664) (b := 346) (q := 200) (by norm_num) (by norm_num)
      (by norm_num) (by norm_num) (by norm_num) (by norm_num) (by norm_num)
  · exact_mod_cast weight_lower (k := k) (n := 11) (a := 692) (b := 359) (q := 200) (by norm_num) (by norm_num)
      (by norm_num) (by norm_num) (by norm_num) (by norm_num) (by norm_num)
  · exact_mod_cast weight_upper (k := k) (n := 11) (a := 691) (b := 357) (q := 200) (by norm_num) (by norm_num)
      (by norm_num) (by norm_num) (by norm_num) (by norm_num) (by norm_num)
  · exact_mod_cast weight_lower (k := k) (n := 12) (a := 717) (b := 369) (q := 200) (by norm_num) (by norm_num)
      (by norm_num) (by norm_num) (by norm_num) (by norm_num) (by norm_num)
  · exact_mod_cast weight_upper (k := k) (n := 12) (a := 716) (b := 367) (q := 200) (by norm_num) (by norm_num)
      (by norm_num) (by norm_num) (by norm_num) (by norm_num) (by norm_num)
  · exact_mod_cast weight_lower (k := k) (n := 13) (a := 741) (b := 378) (q := 200) (by norm_num) (by norm_num)
      (by norm_num) (by norm_num) (by norm_num) (by norm_num) (by norm_num)
  · exact_mod_cast weight_upper (k := k) (n := 13) (a := 740) (b := 377) (q := 200) (by norm_num) (by norm_num)
      (by norm_num) (by norm_num) (by norm_num) (by norm_num) (by norm_num)
  · exact_mod_cast weight_lower (k := k) (n := 14) (a := 762) (b := 386) (q := 200) (by norm_num) (by norm_num)
      (by norm_num) (by norm_num) (by norm_num) (by norm_num) (by norm_num)
  · exact_mod_cast weight_upper (k := k) (n := 14) (a := 761) (b := 385) (q := 200) (by norm_num) (by norm_num)
      (by norm_num) (by norm_num) (by norm_num) (by norm_num) (by norm_num)
  · exact_mod_cast weight_lower (k := k) (n := 15) (a := 782) (b := 394) (q := 200) (by norm_num) (by norm_num)
      (by norm_num) (by norm_num) (by norm_num) (by norm_num) (by norm_num)
  · exact_mod_cast weight_upper (k := k) (n := 15) (a := 781) (b := 393) (q := 200) (by norm_num) (by norm_num)
      (by norm_num) (by norm_num) (by norm_num) (by norm_num) (by norm_num)

theorem weight_two (k : Nat) : weight (k + 1) 2 = 1 / 2 := weight_one_two (by norm_num) le_rfl

theorem weight_four (k : Nat) : weight (k + 2) 4 = 1 / 8 := by
  have e : Real.logb 2 (4 : ℝ) = 2 := by
    have := logb_tower 1
    simpa [tower, show (2 : ℝ) ^ 2 = 4 by norm_num] using this
  rw [weight_succ (by norm_num), e, weight_two]; norm_num

theorem weight_sixteen (k : Nat) : weight (k + 3) 16 = 1 / 128 := by
  have e : Real.logb 2 (16 : ℝ) = 4 := by
    have := logb_tower 2
    simpa [tower, show (2 : ℝ) ^ 2 ^ 2 = 16 by norm_num, show (2 : ℝ) ^ 2 = 4 by norm_num] using this
  rw [weight_succ (by norm_num), e, weight_four]; norm_num

set_option exponentiation.threshold 1000 in
theorem weight_three (k : Nat) :
    200 / (3 * 317) ≤ weight (k + 3) 3 ∧ weight (k + 3) 3 ≤ 200 / (3 * 316) := by
  have h1 : Real.logb 2 (3 : ℝ) ≤ (317 : ℕ) / (200 : ℕ) :=
    logb_le_of_pow (by norm_num) (by norm_num) (by norm_num)
  have h2 : ((316 : ℕ) / (200 : ℕ) : ℝ) ≤ Real.logb 2 (3 : ℝ) :=
    le_logb_of_pow (by norm_num) (by norm_num)
  norm_num at h1 h2
  rw [weight_succ (by norm_num), weight_one_two (k := k + 1) (by linarith) (by linarith)]
  have h0 : 0 < Real.logb 2 (3 : ℝ) := by linarith
  rw [div_div]
  constructor
  · rw [div_le_div_iff₀ (by norm_num) (by positivity)]; linarith
  · rw [div_le_div_iff₀ (by positivity) (by norm_num)]; linarith

/-- the sum of the first 15 weights -/
theorem head_sum (k : Nat) :
    2.1079 ≤ ∑ i ∈ range 15, weight (k + 3) ((1 + i : ℕ) : ℝ) ∧
      ∑ i ∈ range 15, weight (k + 3) ((1 + i : ℕ) : ℝ) ≤ 2.1107 := by
  obtain ⟨⟨a5, b5⟩, ⟨a6, b6⟩, ⟨a7, b7⟩, ⟨a8, b8⟩, ⟨a9, b9⟩, ⟨a10, b10⟩, ⟨a11, b11⟩, ⟨a12, b12⟩,
    ⟨a13, b13⟩, ⟨a14, b14⟩, ⟨a15, b15⟩⟩ := weight_table k
  obtain ⟨a3, b3⟩ := weight_three k
  have h1 : weight (k + 3) 1 = 1 := weight_of_le le_rfl
  have h2 := weight_two (k + 2)
  have h4 := weight_four (k + 1)
  simp only [sum_range_succ, sum_range_zero]
  norm_num at *
  constructor <;> linarith

/-- split off the first 15 weights -/
theorem sum_split (k n : Nat) :
    ∑ i ∈ range (15 + n), weight k ((1 + i : ℕ) : ℝ) =
      ∑ i ∈ range 15, weight k ((1 + i : ℕ) : ℝ) + ∑ i ∈ range n, weight k ((16 + i : ℕ) : ℝ) := by
  rw [sum_range_add]
  congr 1
  apply sum_congr rfl
  intro i _
  rw [← add_assoc]

/-- `2.8565064` times the Kraft sum, from above -/
theorem sum_upper (k m N : Nat) (hk : 3 ≤ k) (hm : 3 ≤ m) (hmk : m ≤ k) (hN : N ≤ tower m) :
    ∑ i ∈ range N, weight k ((1 + i : ℕ) : ℝ) ≤
      2.1107 + 1 / 128 + ∑ i ∈ range (m - 3), Real.log 2 ^ (4 + i) := by
  obtain ⟨k, rfl⟩ := Nat.exists_eq_add_of_le' hk
  have hL := log2_pos
  have hpos : 0 ≤ ∑ i ∈ range (m - 3), Real.log 2 ^ (4 + i) :=
    sum_nonneg fun i _ => (pow_pos hL _).le
  rcases le_or_gt N 16 with h | h
  · calc ∑ i ∈ range N, weight (k + 3) ((1 + i : ℕ) : ℝ)
        ≤ ∑ i ∈ range 16, weight (k + 3) ((1 + i : ℕ) : ℝ) :=
          sum_le_sum_of_subset_of_nonneg (range_mono h) fun i _ _ => (weight_pos _ _).le
      _ ≤ _ := by
          rw [sum_range_succ]
          have h1 := (head_sum k).2
          have h2 := weight_sixteen k
          norm_num at h1 h2 ⊢
          linarith
  · obtain ⟨n, rfl⟩ := Nat.exists_eq_add_of_lt h
    have e : 16 + n + 1 = 15 + (n + 1 + 1) := by omega
    have h3 : 16 ≤ tower m := by omega
    have h1 := (head_sum k).2
    have h2 := weight_sixteen k
    have h4 := sum_weight_le (k + 3) 16 (n + 1)
    have h5 : area (k + 3) ((16 + (n + 1) : ℕ) : ℝ) ≤ area (k + 3) (tower m : ℝ) :=
      area_mono _ (by exact_mod_cast hN)
    have h6 : area (k + 3) (tower m : ℝ) = ∑ i ∈ range (m + 1), Real.log 2 ^ i := by
      have := area_tower m (k + 3 - m)
      rwa [Nat.add_sub_cancel' hmk] at this
    have h7 : area (k + 3) ((16 : ℕ) : ℝ) = ∑ i ∈ range 4, Real.log 2 ^ i := by
      have := area_tower 3 k
      rw [add_comm 3 k] at this
      simpa [tower] using this
    have h8 : ∑ i ∈ range (m + 1), Real.log 2 ^ i =
        ∑ i ∈ range 4, Real.log 2 ^ i + ∑ i ∈ range (m - 3), Real.log 2 ^ (4 + i) := by
      rw [← sum_range_add]; congr 2; omega
    have h9 : ∑ i ∈ range (n + 1), weight (k + 3) ((16 + (i + 1) : ℕ) : ℝ) =
        ∑ i ∈ range (n + 1), weight (k + 3) ((16 + 1 + i : ℕ) : ℝ) :=
      sum_congr rfl fun i _ => by rw [add_assoc, add_comm 1 i]
    rw [e, sum_split, sum_range_succ' _ (n + 1), h9]
    norm_num only [Nat.add_zero, Nat.cast_ofNat] at *
    linarith

/-- `2.8565064` times the Kraft sum, from below -/
theorem sum_lower (k m : Nat) (hk : 3 ≤ k) (hm : 3 ≤ m) (hmk : m ≤ k) :
    2.1079 + ∑ i ∈ range (m - 3), Real.log 2 ^ (4 + i) ≤
      ∑ i ∈ range (tower m), weight k ((1 + i : ℕ) : ℝ) := by
  obtain ⟨k, rfl⟩ := Nat.exists_eq_add_of_le' hk
  have h3 : 16 ≤ tower m := by
    have : ∀ j, 16 ≤ tower (3 + j) := by
      intro j
      induction j with
      | zero => exact (by decide : 16 ≤ tower 3)
      | succ j ih =>
        have : tower (3 + j) < 2 ^ tower (3 + j) := Nat.lt_two_pow_self
        show 16 ≤ 2 ^ tower (3 + j)
        omega
    have h := this (m - 3)
    rwa [Nat.add_sub_cancel' hm] at h
  obtain ⟨n, hn⟩ := Nat.exists_eq_add_of_le h3
  have e : tower m = 15 + (n + 1) := by omega
  have h1 := (head_sum k).1
  have h4 := sum_weight_ge (k + 3) 16 n
  rw [← hn] at h4
  have h6 : area (k + 3) (tower m : ℝ) = ∑ i ∈ range (m + 1), Real.log 2 ^ i := by
    have := area_tower m (k + 3 - m)
    rwa [Nat.add_sub_cancel' hmk] at this
  have h7 : area (k + 3) ((16 : ℕ) : ℝ) = ∑ i ∈ range 4, Real.log 2 ^ i := by
    have := area_tower 3 k
    rw [add_comm 3 k] at this
    simpa [tower] using this
  have h8 : ∑ i ∈ range (m + 1), Real.log 2 ^ i =
      ∑ i ∈ range 4, Real.log 2 ^ i + ∑ i ∈ range (m - 3), Real.log 2 ^ (4 + i) := by
    rw [← sum_range_add]; congr 2; omega
  have h9 := (weight_pos (k + 3) ((16 + n : ℕ) : ℝ)).le
  rw [e, sum_split, sum_range_succ _ n]
  linarith

theorem geom_tail_eq (n : Nat) :
    (1 - Real.log 2) * ∑ i ∈ range n, Real.log 2 ^ (4 + i) =
      Real.log 2 ^ 4 * (1 - Real.log 2 ^ n) := by
  have : ∑ i ∈ range n, Real.log 2 ^ (4 + i) = Real.log 2 ^ 4 * ∑ i ∈ range n, Real.log 2 ^ i := by
    rw [mul_sum]; exact sum_congr rfl fun i _ => pow_add _ _ _
  rw [this, ← mul_neg_geom_sum (Real.log 2) n]; ring

theorem geom_tail_lt (n : Nat) : ∑ i ∈ range n, Real.log 2 ^ (4 + i) < 0.75227 := by
  have h4 : Real.log 2 < 0.6931471808 := Real.log_two_lt_d9
  have hL := log2_pos
  have h := geom_tail_eq n
  have hp : 0 < Real.log 2 ^ n := pow_pos hL n
  have h5 : Real.log 2 ^ 4 < 0.6931471808 ^ 4 := pow_lt_pow_left₀ h4 hL.le (by norm_num)
  have h6 : 0 < Real.log 2 ^ 4 := pow_pos hL 4
  by_contra hc
  push Not at hc
  have h7 : (1 - Real.log 2) * 0.75227 ≤ (1 - Real.log 2) * ∑ i ∈ range n, Real.log 2 ^ (4 + i) :=
    mul_le_mul_of_nonneg_left hc (by linarith)
  have h8 : Real.log 2 ^ 4 * (1 - Real.log 2 ^ n) < Real.log 2 ^ 4 := by nlinarith
  norm_num at h5 h7 h4
  linarith

theorem geom_tail_16 : 0.7488 < ∑ i ∈ range 16, Real.log 2 ^ (4 + i) := by
  have h3 : (0.6931471803 : ℝ) < Real.log 2 := Real.log_two_gt_d9
  have hL := log2_pos
  calc (0.7488 : ℝ) < ∑ i ∈ range 16, 0.6931471803 ^ (4 + i) := by
        simp only [sum_range_succ, sum_range_zero]; norm_num
    _ ≤ _ := sum_le_sum fun i _ => pow_le_pow_left₀ (by norm_num) h3.le _

theorem geom_tail_2 : ∑ i ∈ range 2, Real.log 2 ^ (4 + i) < 0.4 := by
  have h4 : Real.log 2 < 0.6931471808 := Real.log_two_lt_d9
  have hL := log2_pos
  calc ∑ i ∈ range 2, Real.log 2 ^ (4 + i) ≤ ∑ i ∈ range 2, 0.6931471808 ^ (4 + i) :=
        sum_le_sum fun i _ => pow_le_pow_left₀ hL.le h4.le _
    _ < 0.4 := by simp only [sum_range_succ, sum_range_zero]; norm_num

end Prolothar.Mdl
