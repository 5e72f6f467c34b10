import Verif.Model.StatisticsFloat
import Verif.Props.Statistics
import Verif.Lemmas.Float
/-
C150: running statistics with floating point numbers.
-/
namespace Prolothar.StatisticsFloat
open Prolothar.Statistics (Stats ltNaN minNaN maxNaN new)
open Prolothar.Float Prolothar.Spec.Float Prolothar.Moments

/-- the doubles -/
def Double (x : ℚ) : Prop := Representable 53 x

/-- the rounding of doubles -/
def r53 (x : ℚ) : ℚ := rnd 53 x

theorem r_mono {x y : ℚ} (h : x ≤ y) : r53 x ≤ r53 y := rnd_mono 53 (by norm_num) h
theorem r_exact {x : ℚ} (h : Double x) : r53 x = x := rnd_representable 53 (by norm_num) h
theorem r_double (x : ℚ) : Double (r53 x) := (rnd_nearest 53 (by norm_num) x).1
theorem r_zero : r53 0 = 0 := rnd_zero 53
theorem r_nat {n : Nat} (h : n ≤ 2 ^ 53) : r53 (n : ℚ) = n := rnd_nat 53 (by norm_num) h
theorem r_nonneg {x : ℚ} (h : 0 ≤ x) : 0 ≤ r53 x := by rw [← r_zero]; exact r_mono h
theorem r_nonpos {x : ℚ} (h : x ≤ 0) : r53 x ≤ 0 := by rw [← r_zero]; exact r_mono h
theorem r_err (x : ℚ) : |r53 x - x| ≤ |x| / 2 ^ 53 := by
  rw [le_div_iff₀ (by positivity)]
  exact rnd_err 53 x

theorem double_neg {x : ℚ} (h : Double x) : Double (-x) := by
  obtain ⟨k, m, h1, h2⟩ := h
  exact ⟨-k, m, by rwa [abs_neg], by rw [h2]; push_cast; ring⟩

/-- the running mean of the program after one more value -/
def step (m v : ℚ) (n : Nat) : ℚ := r53 (m + r53 (r53 (v - m) / r53 ((n + 1 : Nat) : ℚ)))

theorem two_le_r {n : Nat} (hn : n ≠ 0) : 2 ≤ r53 ((n + 1 : Nat) : ℚ) := by
  have : r53 ((2 : Nat) : ℚ) = ((2 : Nat) : ℚ) := r_nat (by norm_num)
  have h2 : ((2 : Nat) : ℚ) ≤ ((n + 1 : Nat) : ℚ) := by exact_mod_cast (by omega)
  have := r_mono h2
  rw [r_nat (n := 2) (by norm_num)] at this
  exact_mod_cast this

/-- the quotient that is added to the mean lies between zero and the difference -/
theorem delta_between {d N : ℚ} (hN : 2 ≤ N) :
    (0 ≤ d → 0 ≤ r53 (r53 d / N) ∧ r53 (r53 d / N) ≤ d) ∧ (d ≤ 0 → r53 (r53 d / N) ≤ 0 ∧ d ≤ r53 (r53 d / N)) := by
  have e1 := abs_le.1 (r_err d)
  have e2 := abs_le.1 (r_err (r53 d / N))
  have hNpos : 0 < N := by linarith
  constructor
  · intro hd
    have h1 := r_nonneg hd
    have h2 : 0 ≤ r53 d / N := div_nonneg h1 hNpos.le
    refine ⟨r_nonneg h2, ?_⟩
    rw [abs_of_nonneg hd] at e1
    rw [abs_of_nonneg h2] at e2
    have h3 : r53 d / N ≤ r53 d / 2 := div_le_div_of_nonneg_left h1 (by norm_num) hN
    norm_num at e1 e2
    linarith [e1.1, e1.2, e2.1, e2.2]
  · intro hd
    have h1 := r_nonpos hd
    have h2 : r53 d / N ≤ 0 := div_nonpos_of_nonpos_of_nonneg h1 hNpos.le
    refine ⟨r_nonpos h2, ?_⟩
    rw [abs_of_nonpos hd] at e1
    rw [abs_of_nonpos h2] at e2
    have h3 : r53 d / 2 ≤ r53 d / N := by
      have := div_le_div_of_nonneg_left (a := -r53 d) (by linarith) (by norm_num) hN
      rw [neg_div, neg_div] at this
      linarith
    norm_num at e1 e2
    linarith [e1.1, e1.2, e2.1, e2.2]

theorem step_between {m v : ℚ} (hm : Double m) (hv : Double v) {n : Nat} (hn : n ≠ 0) :
    min m v ≤ step m v n ∧ step m v n ≤ max m v := by
  have hN := two_le_r hn
  unfold step
  rcases le_total m v with h | h
  · obtain ⟨h1, h2⟩ := (delta_between (d := v - m) hN).1 (by linarith)
    rw [min_eq_left h, max_eq_right h]
    constructor
    · calc m = r53 m := (r_exact hm).symm
        _ ≤ _ := r_mono (by linarith)
    · calc _ ≤ r53 v := r_mono (by linarith)
        _ = v := r_exact hv
  · obtain ⟨h1, h2⟩ := (delta_between (d := v - m) hN).2 (by linarith)
    rw [min_eq_right h, max_eq_left h]
    constructor
    · calc v = r53 v := (r_exact hv).symm
        _ ≤ _ := r_mono (by linarith)
    · calc _ ≤ r53 m := r_mono (by linarith)
        _ = m := r_exact hm

theorem r_one : r53 ((1 : Nat) : ℚ) = 1 := by rw [r_nat (by norm_num)]; norm_num

/-- the first value becomes the mean -/
theorem step_first {v : ℚ} (hv : Double v) : step 0 v 0 = v := by
  unfold step
  rw [sub_zero, r_exact hv, zero_add, r_one, div_one, r_exact hv, r_exact hv]

theorem pushAll_concat (r : ℚ → ℚ) (s : Stats ℚ) (xs : List ℚ) (x : ℚ) : pushAll r s (xs ++ [x]) = push r (pushAll r s xs) x := by
  unfold pushAll; rw [List.foldl_append]; rfl

theorem pushAll_count (r : ℚ → ℚ) (xs : List ℚ) : (pushAll r new xs).count = xs.length := by
  induction xs using List.reverseRecOn with
  | nil => rfl
  | append_singleton xs x ih => rw [pushAll_concat]; simp [push, ih]

/-- the extrema do not depend on the arithmetic -/
theorem pushAll_extrema (r : ℚ → ℚ) (xs : List ℚ) :
    (pushAll r new xs).min = (Statistics.pushAll new xs).min ∧ (pushAll r new xs).max = (Statistics.pushAll new xs).max := by
  induction xs using List.reverseRecOn with
  | nil => exact ⟨rfl, rfl⟩
  | append_singleton xs x ih =>
    rw [pushAll_concat]
    have hc := pushAll_count r xs
    have hc' : (Statistics.pushAll (new : Stats ℚ) xs).count = xs.length := by
      have := Statistics.C22_push_equals_batch (K := ℚ) xs
      by_cases hx : xs = []
      · subst hx; rfl
      · exact (this hx).1
    have e : Statistics.pushAll (new : Stats ℚ) (xs ++ [x]) = Statistics.push (Statistics.pushAll new xs) x := by
      unfold Statistics.pushAll; rw [List.foldl_append]; rfl
    rw [e]
    unfold push Statistics.push
    dsimp only
    rw [hc, hc', ih.1, ih.2]
    exact ⟨rfl, rfl⟩

theorem pushAll_mean (xs : List ℚ) (x : ℚ) :
    (pushAll r53 new (xs ++ [x])).mean = step (pushAll r53 new xs).mean x xs.length := by
  rw [pushAll_concat]
  unfold push
  dsimp only
  rw [pushAll_count]
  rfl

theorem mean_double (xs : List ℚ) : Double (pushAll r53 new xs).mean := by
  induction xs using List.reverseRecOn with
  | nil => exact ⟨0, 0, by norm_num, by simp [pushAll, new]⟩
  | append_singleton xs x ih => rw [pushAll_mean]; exact r_double _

theorem mean_between (xs : List ℚ) (hd : ∀ x ∈ xs, Double x) (hx : xs ≠ []) (a b : ℚ) (hab : ∀ x ∈ xs, a ≤ x ∧ x ≤ b) :
    a ≤ (pushAll r53 new xs).mean ∧ (pushAll r53 new xs).mean ≤ b := by
  induction xs using List.reverseRecOn with
  | nil => exact absurd rfl hx
  | append_singleton xs x ih =>
    rw [pushAll_mean]
    have hvx := hd x (by simp)
    have hbx := hab x (by simp)
    by_cases hxs : xs = []
    · subst hxs
      show a ≤ step 0 x 0 ∧ step 0 x 0 ≤ b
      rw [step_first hvx]
      exact hbx
    · obtain ⟨i1, i2⟩ := ih (fun y hy => hd y (by simp [hy])) hxs (fun y hy => hab y (by simp [hy]))
      obtain ⟨s1, s2⟩ := step_between (mean_double xs) hvx (n := xs.length) (by simpa using hxs)
      exact ⟨le_trans (le_min i1 hbx.1) s1, le_trans s2 (max_le i2 hbx.2)⟩

/-- C150: for any non-empty sequence of doubles the minimum and the maximum are exact and the mean lies between them, in spite of the
rounding of every operation. -/
theorem C150_mean_between (xs : List ℚ) (hd : ∀ x ∈ xs, Double x) (hx : xs ≠ []) :
    ∃ a b, (pushAll r53 new xs).min = some a ∧ (pushAll r53 new xs).max = some b ∧ IsMinOf a xs ∧ IsMaxOf b xs ∧
      a ≤ (pushAll r53 new xs).mean ∧ (pushAll r53 new xs).mean ≤ b := by
  obtain ⟨_, _, ⟨a, a1, a2⟩, ⟨b, b1, b2⟩, _⟩ := Statistics.C22_push_equals_batch (K := ℚ) xs hx
  obtain ⟨e1, e2⟩ := pushAll_extrema r53 xs
  refine ⟨a, b, by rw [e1, a1], by rw [e2, b1], a2, b2, ?_⟩
  exact mean_between xs hd hx a b fun x hx => ⟨a2.2 x hx, b2.2 x hx⟩

theorem rho_nonneg (xs : List ℚ) : 0 ≤ (pushAll r53 new xs).rho := by
  induction xs using List.reverseRecOn with
  | nil => exact le_refl _
  | append_singleton xs x ih =>
    rw [pushAll_concat]
    unfold push
    dsimp only
    apply r_nonneg
    refine add_nonneg ih (r_nonneg (mul_nonneg (r_nonneg ?_) (r_nonneg (by positivity))))
    generalize r53 (x - (pushAll r53 new xs).mean) = d
    have hN : 0 ≤ r53 (((pushAll r53 new xs).count + 1 : Nat) : ℚ) := r_nonneg (by positivity)
    rcases le_total 0 d with h | h
    · exact mul_nonneg h (r_nonneg (div_nonneg h hN))
    · exact mul_nonneg_of_nonpos_of_nonpos h (r_nonpos (div_nonpos_of_nonpos_of_nonneg h hN))

/-- C150: the variance is never negative, so the standard deviation is defined whenever there are more values than degrees of freedom. -/
theorem C150_variance_nonneg (xs : List ℚ) (ddof : Nat) (h : ddof < xs.length) :
    ∃ v, variance r53 (pushAll r53 new xs) ddof = some v ∧ 0 ≤ v := by
  unfold variance
  rw [pushAll_count, if_neg (by omega)]
  exact ⟨_, rfl, r_nonneg (div_nonneg (rho_nonneg xs) (r_nonneg (by positivity)))⟩

/-- C150: a value that is pushed any number of times is the exact mean, and the variance is zero. -/
theorem C150_constant (v : ℚ) (hv : Double v) (n ddof : Nat) (hn : ddof < n) :
    (pushAll r53 new (List.replicate n v)).mean = v ∧ variance r53 (pushAll r53 new (List.replicate n v)) ddof = some 0 := by
  have key : ∀ n : Nat, n ≠ 0 → (pushAll r53 new (List.replicate n v)).mean = v ∧ (pushAll r53 new (List.replicate n v)).rho = 0 := by
    intro n
    induction n with
    | zero => intro h; exact absurd rfl h
    | succ n ih =>
      intro _
      rw [List.replicate_succ']
      by_cases h0 : n = 0
      · subst h0
        refine ⟨by rw [pushAll_mean]; exact step_first hv, ?_⟩
        show (push r53 new v).rho = 0
        unfold push
        simp only [new, Nat.cast_zero, r_zero, mul_zero, add_zero]
      · obtain ⟨i1, i2⟩ := ih h0
        constructor
        · rw [pushAll_mean, i1]
          unfold step
          rw [sub_self, r_zero, zero_div, r_zero, add_zero, r_exact hv]
        · rw [pushAll_concat]
          unfold push
          simp only [i1, i2, sub_self, r_zero, zero_div, zero_mul, add_zero]
  obtain ⟨k1, k2⟩ := key n (by omega)
  refine ⟨k1, ?_⟩
  unfold variance
  rw [pushAll_count, List.length_replicate, if_neg (by omega), k2, zero_div, r_zero]

theorem step_error {B m v : ℚ} (hmB : |m| ≤ B) (hvB : |v| ≤ B) {n : Nat} (hn : n ≠ 0) (hN : n + 1 ≤ 2 ^ 53) :
    |step m v n - (m + (v - m) / ((n + 1 : Nat) : ℚ))| ≤ 4 * B / 2 ^ 53 := by
  have h2 := two_le_r hn
  rw [r_nat hN] at h2
  unfold step
  rw [r_nat hN]
  generalize ((n + 1 : Nat) : ℚ) = N at *
  have hNpos : 0 < N := by linarith
  -- the three roundings
  have e1 := r_err (v - m)
  have e2 := r_err (r53 (v - m) / N)
  have e3 := r_err (m + r53 (r53 (v - m) / N))
  have hb : |m + r53 (r53 (v - m) / N)| ≤ B := by
    rw [abs_le] at hmB hvB ⊢
    rcases le_total 0 (v - m) with h | h
    · obtain ⟨a, b⟩ := (delta_between (d := v - m) h2).1 h
      constructor <;> linarith [hmB.1, hmB.2, hvB.1, hvB.2]
    · obtain ⟨a, b⟩ := (delta_between (d := v - m) h2).2 h
      constructor <;> linarith [hmB.1, hmB.2, hvB.1, hvB.2]
  have hd : |v - m| ≤ 2 * B := by
    rw [abs_le] at hmB hvB ⊢
    constructor <;> linarith [hmB.1, hmB.2, hvB.1, hvB.2]
  have hdiv : |r53 (v - m) / N - (v - m) / N| ≤ B / 2 ^ 53 := by
    rw [← sub_div, abs_div, abs_of_pos hNpos, div_le_iff₀ hNpos]
    have : B / 2 ^ 53 * 2 ≤ B / 2 ^ 53 * N := by
      apply mul_le_mul_of_nonneg_left h2
      have := abs_nonneg m
      apply div_nonneg <;> linarith
    have : |v - m| / 2 ^ 53 ≤ 2 * B / 2 ^ 53 := div_le_div_of_nonneg_right hd (by positivity)
    have e : 2 * B / 2 ^ 53 = B / 2 ^ 53 * 2 := by ring
    linarith
  have hq : |r53 (v - m) / N| ≤ B + B / 2 ^ 53 := by
    have h3 : |(v - m) / N| ≤ B := by
      rw [abs_div, abs_of_pos hNpos, div_le_iff₀ hNpos]
      have := abs_nonneg m
      nlinarith
    calc |r53 (v - m) / N| = |(r53 (v - m) / N - (v - m) / N) + (v - m) / N| := by ring_nf
      _ ≤ |r53 (v - m) / N - (v - m) / N| + |(v - m) / N| := abs_add_le _ _
      _ ≤ _ := by linarith
  have e2' : |r53 (r53 (v - m) / N) - r53 (v - m) / N| ≤ (B + B / 2 ^ 53) / 2 ^ 53 :=
    le_trans e2 (div_le_div_of_nonneg_right hq (by positivity))
  have e3' : |r53 (m + r53 (r53 (v - m) / N)) - (m + r53 (r53 (v - m) / N))| ≤ B / 2 ^ 53 :=
    le_trans e3 (div_le_div_of_nonneg_right hb (by positivity))
  have hB : 0 ≤ B := le_trans (abs_nonneg m) hmB
  rw [abs_le] at hdiv e2' e3' ⊢
  have hsmall : (B + B / 2 ^ 53) / 2 ^ 53 ≤ 2 * B / 2 ^ 53 := by
    apply div_le_div_of_nonneg_right _ (by positivity)
    have : B / 2 ^ 53 ≤ B := div_le_self hB (by norm_num)
    linarith
  have e4 : 4 * B / 2 ^ 53 = B / 2 ^ 53 + 2 * B / 2 ^ 53 + B / 2 ^ 53 := by ring
  constructor <;> linarith [hdiv.1, hdiv.2, e2'.1, e2'.2, e3'.1, e3'.2]

/-- C150: the mean of `n` doubles is computed up to an error of at most `n * 2 ^ -51` times the largest absolute value. -/
theorem C150_mean_error (xs : List ℚ) (hd : ∀ x ∈ xs, Double x) (hx : xs ≠ []) (hlen : xs.length ≤ 2 ^ 53) (B : ℚ) (hB : ∀ x ∈ xs, |x| ≤ B) :
    |(pushAll r53 new xs).mean - xs.sum / xs.length| ≤ xs.length * (B / 2 ^ 51) := by
  induction xs using List.reverseRecOn with
  | nil => exact absurd rfl hx
  | append_singleton xs x ih =>
    rw [pushAll_mean]
    have hvx := hd x (by simp)
    have hB0 : 0 ≤ B := le_trans (abs_nonneg x) (hB x (by simp))
    by_cases hxs : xs = []
    · subst hxs
      show |step 0 x 0 - _| ≤ _
      rw [step_first hvx]
      simp
      positivity
    · have i := ih (fun y hy => hd y (by simp [hy])) hxs (by simp at hlen; omega) (fun y hy => hB y (by simp [hy]))
      have hb := mean_between xs (fun y hy => hd y (by simp [hy])) hxs (-B) B (fun y hy => abs_le.1 (hB y (by simp [hy])))
      have hn : xs.length ≠ 0 := by simpa using hxs
      have s := step_error (abs_le.2 hb) (hB x (by simp)) hn (by simp at hlen; omega)
      generalize (pushAll r53 new xs).mean = m at *
      generalize hk : xs.length = k at *
      rw [List.sum_append, List.length_append, hk]
      simp only [List.sum_cons, List.sum_nil, add_zero, List.length_cons, List.length_nil, zero_add]
      have hk0 : (0 : ℚ) < k := by exact_mod_cast Nat.pos_of_ne_zero hn
      have hk1 : (0 : ℚ) < ((k + 1 : Nat) : ℚ) := by positivity
      have e : m + (x - m) / ((k + 1 : Nat) : ℚ) - (xs.sum + x) / ((k + 1 : Nat) : ℚ) = (m - xs.sum / k) * (k / ((k + 1 : Nat) : ℚ)) := by
        push_cast
        field_simp
        ring
      have hfrac : |(m - xs.sum / k) * (k / ((k + 1 : Nat) : ℚ))| ≤ k * (B / 2 ^ 51) := by
        rw [abs_mul]
        have h1 : |(k : ℚ) / ((k + 1 : Nat) : ℚ)| ≤ 1 := by
          rw [abs_of_nonneg (by positivity), div_le_one hk1]
          push_cast
          linarith
        calc _ ≤ |m - xs.sum / k| * 1 := mul_le_mul_of_nonneg_left h1 (abs_nonneg _)
          _ ≤ _ := by rw [mul_one]; exact i
      rw [← e] at hfrac
      have e5 : 4 * B / 2 ^ 53 = B / 2 ^ 51 := by ring
      rw [e5] at s
      have : ((k + 1 : Nat) : ℚ) * (B / 2 ^ 51) = k * (B / 2 ^ 51) + B / 2 ^ 51 := by push_cast; ring
      rw [this]
      rw [abs_le] at s hfrac ⊢
      constructor <;> linarith [s.1, s.2, hfrac.1, hfrac.2]

theorem merge_eq (s t : Stats ℚ) (hs : s.count ≠ 0) (ht : t.count ≠ 0) :
    (merge r53 s t).count = s.count + t.count ∧
    (merge r53 s t).mean = r53 (r53 (r53 (r53 s.count * s.mean) + r53 (r53 t.count * t.mean)) / r53 ((s.count + t.count : Nat) : ℚ)) ∧
    (merge r53 s t).rho = r53 (r53 (s.rho + t.rho) +
      r53 (r53 (r53 (r53 (r53 (t.mean - s.mean) ^ 2) * r53 s.count) * r53 t.count) / r53 ((s.count + t.count : Nat) : ℚ))) ∧
    (merge r53 s t).min = minNaN s.min t.min ∧ (merge r53 s t).max = maxNaN s.max t.max := by
  unfold merge
  rw [if_pos (Nat.pos_of_ne_zero ht), if_neg hs]
  exact ⟨rfl, rfl, rfl, rfl, rfl⟩

theorem merge_error {B n1 n2 m1 m2 : ℚ} (h1 : 1 ≤ n1) (h2 : 1 ≤ n2) (b1 : |m1| ≤ B) (b2 : |m2| ≤ B) :
    |r53 (r53 (r53 (n1 * m1) + r53 (n2 * m2)) / (n1 + n2)) - (n1 * m1 + n2 * m2) / (n1 + n2)| ≤ B / 2 ^ 51 := by
  have hB : 0 ≤ B := le_trans (abs_nonneg _) b1
  have hN : 0 < n1 + n2 := by linarith
  have p1 : |n1 * m1| ≤ n1 * B := by
    rw [abs_mul, abs_of_nonneg (by linarith : 0 ≤ n1)]
    exact mul_le_mul_of_nonneg_left b1 (by linarith)
  have p2 : |n2 * m2| ≤ n2 * B := by
    rw [abs_mul, abs_of_nonneg (by linarith : 0 ≤ n2)]
    exact mul_le_mul_of_nonneg_left b2 (by linarith)
  have e1 := le_trans (r_err (n1 * m1)) (div_le_div_of_nonneg_right p1 (by positivity))
  have e2 := le_trans (r_err (n2 * m2)) (div_le_div_of_nonneg_right p2 (by positivity))
  generalize n1 * m1 = x1 at *
  generalize n2 * m2 = x2 at *
  generalize r53 x1 = y1 at *
  generalize r53 x2 = y2 at *
  have e3 := r_err (y1 + y2)
  generalize r53 (y1 + y2) = z at *
  have e4 := r_err (z / (n1 + n2))
  generalize r53 (z / (n1 + n2)) = w at *
  have hNB : 0 ≤ (n1 + n2) * B := by positivity
  have hsum : (n1 + n2) * B = n1 * B + n2 * B := by ring
  rw [abs_le] at p1 p2 e1 e2
  norm_num at e1 e2 e3 e4 ⊢
  have q3 : |y1 + y2| ≤ (n1 + n2) * B * (1 + 1 / 9007199254740992) := by
    rw [abs_le]
    constructor <;> linarith [e1.1, e1.2, e2.1, e2.2, p1.1, p1.2, p2.1, p2.2]
  have e3' := abs_le.1 (le_trans e3 (div_le_div_of_nonneg_right q3 (by norm_num)))
  have d : |z - (x1 + x2)| ≤ (n1 + n2) * (B * (2 + 1 / 9007199254740992) / 9007199254740992) := by
    rw [abs_le]
    constructor <;> linarith [e1.1, e1.2, e2.1, e2.2, e3'.1, e3'.2]
  have d' : |z / (n1 + n2) - (x1 + x2) / (n1 + n2)| ≤ B * (2 + 1 / 9007199254740992) / 9007199254740992 := by
    rw [← sub_div, abs_div, abs_of_pos hN, div_le_iff₀ hN]
    linarith
  have q : |(x1 + x2) / (n1 + n2)| ≤ B := by
    rw [abs_div, abs_of_pos hN, div_le_iff₀ hN, abs_le]
    constructor <;> linarith [p1.1, p1.2, p2.1, p2.2]
  have q' : |z / (n1 + n2)| ≤ B * (1 + (2 + 1 / 9007199254740992) / 9007199254740992) := by
    rw [abs_le] at d' q ⊢
    constructor <;> linarith [d'.1, d'.2, q.1, q.2]
  have e4' := abs_le.1 (le_trans e4 (div_le_div_of_nonneg_right q' (by norm_num)))
  rw [abs_le] at d' ⊢
  constructor <;> linarith [d'.1, d'.2, e4'.1, e4'.2]

/-- C150: the mean of the merged statistics of two sequences has an error of at most `n * 2 ^ -51` times the largest absolute value,
where `n` is the total number of values, like the mean of one sequence. -/
theorem C150_merge_error (xs ys : List ℚ) (hd : ∀ x ∈ xs ++ ys, Double x) (hx : xs ≠ []) (hy : ys ≠ [])
    (hlen : xs.length + ys.length ≤ 2 ^ 53) (B : ℚ) (hB : ∀ x ∈ xs ++ ys, |x| ≤ B) :
    |(merge r53 (pushAll r53 new xs) (pushAll r53 new ys)).mean - (xs ++ ys).sum / (xs ++ ys).length| ≤ (xs ++ ys).length * (B / 2 ^ 51) := by
  have hdx : ∀ x ∈ xs, Double x := fun x h => hd x (by simp [h])
  have hdy : ∀ x ∈ ys, Double x := fun x h => hd x (by simp [h])
  have hBx : ∀ x ∈ xs, |x| ≤ B := fun x h => hB x (by simp [h])
  have hBy : ∀ x ∈ ys, |x| ≤ B := fun x h => hB x (by simp [h])
  have k1 : xs.length ≠ 0 := by simpa using hx
  have k2 : ys.length ≠ 0 := by simpa using hy
  obtain ⟨_, hm, _⟩ := merge_eq (pushAll r53 new xs) (pushAll r53 new ys) (by rwa [pushAll_count]) (by rwa [pushAll_count])
  rw [hm, pushAll_count, pushAll_count]
  have ex := C150_mean_error xs hdx hx (by omega) B hBx
  have ey := C150_mean_error ys hdy hy (by omega) B hBy
  have bx := abs_le.2 (mean_between xs hdx hx (-B) B fun y h => abs_le.1 (hBx y h))
  have by' := abs_le.2 (mean_between ys hdy hy (-B) B fun y h => abs_le.1 (hBy y h))
  rw [r_nat hlen, r_nat (n := xs.length) (by omega), r_nat (n := ys.length) (by omega), List.sum_append, List.length_append]
  generalize (pushAll r53 new xs).mean = m1 at *
  generalize (pushAll r53 new ys).mean = m2 at *
  have hB0 : 0 ≤ B := le_trans (abs_nonneg _) bx
  have l1 : (1 : ℚ) ≤ xs.length := by exact_mod_cast Nat.pos_of_ne_zero k1
  have l2 : (1 : ℚ) ≤ ys.length := by exact_mod_cast Nat.pos_of_ne_zero k2
  have em := merge_error l1 l2 bx by'
  push_cast
  generalize (xs.length : ℚ) = a at *
  generalize (ys.length : ℚ) = b at *
  generalize xs.sum = X at *
  generalize ys.sum = Y at *
  have hN : 0 < a + b := by linarith
  have hu : 0 ≤ B / 2 ^ 51 := by positivity
  generalize B / 2 ^ 51 = u at *
  have ew : |(a * m1 + b * m2) / (a + b) - (X + Y) / (a + b)| ≤ (a + b - 1) * u := by
    have e : (a * m1 + b * m2) / (a + b) - (X + Y) / (a + b) = (a * (m1 - X / a) + b * (m2 - Y / b)) / (a + b) := by
      have : a ≠ 0 := by linarith
      have : b ≠ 0 := by linarith
      field_simp
      ring
    rw [e, abs_div, abs_of_pos hN, div_le_iff₀ hN]
    calc |a * (m1 - X / a) + b * (m2 - Y / b)| ≤ |a * (m1 - X / a)| + |b * (m2 - Y / b)| := abs_add_le _ _
      _ = a * |m1 - X / a| + b * |m2 - Y / b| := by rw [abs_mul, abs_mul, abs_of_nonneg (by linarith : 0 ≤ a), abs_of_nonneg (by linarith : 0 ≤ b)]
      _ ≤ a * (a * u) + b * (b * u) := add_le_add (mul_le_mul_of_nonneg_left ex (by linarith)) (mul_le_mul_of_nonneg_left ey (by linarith))
      _ ≤ (a + b - 1) * u * (a + b) := by
        have : a * a + b * b ≤ (a + b - 1) * (a + b) := by nlinarith
        calc a * (a * u) + b * (b * u) = (a * a + b * b) * u := by ring
          _ ≤ ((a + b - 1) * (a + b)) * u := mul_le_mul_of_nonneg_right this hu
          _ = _ := by ring
  rw [abs_le] at em ew ⊢
  constructor <;> linarith [em.1, em.2, ew.1, ew.2]

/-- statistics that come about by pushing doubles and by merging, in any order -/
inductive Built : Stats ℚ → List ℚ → Prop
  | new : Built new []
  | push {s : Stats ℚ} {xs : List ℚ} (v : ℚ) (hv : Double v) : Built s xs → Built (push r53 s v) (xs ++ [v])
  | merge {s t : Stats ℚ} {xs ys : List ℚ} : Built s xs → Built t ys → Built (merge r53 s t) (xs ++ ys)

theorem ltNaN_some (x y : ℚ) : ltNaN (some x) (some y) ↔ x < y := by
  simp [ltNaN]

theorem push_rho_nonneg (s : Stats ℚ) (x : ℚ) (h : 0 ≤ s.rho) : 0 ≤ (push r53 s x).rho := by
  unfold push
  dsimp only
  apply r_nonneg
  refine add_nonneg h (r_nonneg (mul_nonneg (r_nonneg ?_) (r_nonneg (by positivity))))
  generalize r53 (x - s.mean) = d
  have hN : 0 ≤ r53 ((s.count + 1 : Nat) : ℚ) := r_nonneg (by positivity)
  rcases le_total 0 d with h | h
  · exact mul_nonneg h (r_nonneg (div_nonneg h hN))
  · exact mul_nonneg_of_nonpos_of_nonpos h (r_nonpos (div_nonpos_of_nonpos_of_nonneg h hN))

theorem built_inv {s : Stats ℚ} {xs : List ℚ} (h : Built s xs) :
    s.count = xs.length ∧ 0 ≤ s.rho ∧ (xs ≠ [] → (∃ a, s.min = some a ∧ IsMinOf a xs) ∧ ∃ b, s.max = some b ∧ IsMaxOf b xs) := by
  induction h with
  | new => exact ⟨rfl, le_refl _, fun h => absurd rfl h⟩
  | @push s xs v hv hb ih =>
    obtain ⟨h1, h2, h3⟩ := ih
    refine ⟨by simp [push, h1], push_rho_nonneg s v h2, fun _ => ?_⟩
    unfold push
    dsimp only
    by_cases h0 : xs = []
    · subst h0
      rw [h1]
      simp [IsMinOf, IsMaxOf]
    · obtain ⟨⟨a, a1, a2⟩, b, b1, b2⟩ := h3 h0
      have hc0 : ¬ s.count = 0 := by rw [h1]; simpa using h0
      simp only [if_neg hc0, a1, b1, ltNaN_some]
      constructor
      · by_cases hc : v < a
        · rw [if_pos hc]
          refine ⟨v, rfl, by simp, fun x hx => ?_⟩
          rcases List.mem_append.1 hx with hx | hx
          · exact le_trans hc.le (a2.2 x hx)
          · rw [List.mem_singleton.1 hx]
        · rw [if_neg hc]
          refine ⟨a, rfl, by simp [a2.1], fun x hx => ?_⟩
          rcases List.mem_append.1 hx with hx | hx
          · exact a2.2 x hx
          · rw [List.mem_singleton.1 hx]; exact not_lt.1 hc
      · by_cases hc : b < v
        · rw [if_pos hc]
          refine ⟨v, rfl, by simp, fun x hx => ?_⟩
          rcases List.mem_append.1 hx with hx | hx
          · exact le_trans (b2.2 x hx) hc.le
          · rw [List.mem_singleton.1 hx]
        · rw [if_neg hc]
          refine ⟨b, rfl, by simp [b2.1], fun x hx => ?_⟩
          rcases List.mem_append.1 hx with hx | hx
          · exact b2.2 x hx
          · rw [List.mem_singleton.1 hx]; exact not_lt.1 hc
  | @merge s t xs ys hs ht ih1 ih2 =>
    obtain ⟨c1, r1, m1⟩ := ih1
    obtain ⟨c2, r2, m2⟩ := ih2
    by_cases h2 : ys = []
    · subst h2
      rw [List.append_nil]
      unfold merge
      rw [if_neg (by rw [c2]; simp)]
      exact ⟨c1, r1, m1⟩
    by_cases h1 : xs = []
    · subst h1
      unfold merge
      rw [if_pos (by rw [c2]; exact List.length_pos_of_ne_nil h2), if_pos (by rw [c1]; rfl)]
      exact ⟨c2, r2, m2⟩
    obtain ⟨e1, _, e3, e4, e5⟩ := merge_eq s t (by rw [c1]; simpa using h1) (by rw [c2]; simpa using h2)
    refine ⟨by rw [e1, c1, c2, List.length_append], ?_, fun _ => ?_⟩
    · rw [e3]
      refine r_nonneg (add_nonneg (r_nonneg (add_nonneg r1 r2)) (r_nonneg (div_nonneg (r_nonneg (mul_nonneg (r_nonneg (mul_nonneg ?_ ?_)) ?_)) ?_)))
      · exact r_nonneg (by positivity)
      · exact r_nonneg (by positivity)
      · exact r_nonneg (by positivity)
      · exact r_nonneg (by positivity)
    · obtain ⟨⟨a, a1, a2⟩, b, b1, b2⟩ := m1 h1
      obtain ⟨⟨a', a1', a2'⟩, b', b1', b2'⟩ := m2 h2
      rw [e4, e5, a1, a1', b1, b1']
      constructor
      · have : minNaN (some a) (some a') = some (min a a') := by
          simp only [minNaN, ltNaN_some, min_def]
          split_ifs <;> first | rfl | (congr 1; linarith)
        refine ⟨min a a', this, ?_, fun x hx => ?_⟩
        · rcases min_choice a a' with h | h <;> rw [h] <;> simp [a2.1, a2'.1]
        · rcases List.mem_append.1 hx with hx | hx
          · exact le_trans (min_le_left _ _) (a2.2 x hx)
          · exact le_trans (min_le_right _ _) (a2'.2 x hx)
      · have : maxNaN (some b) (some b') = some (max b b') := by
          simp only [maxNaN, ltNaN_some, max_def]
          split_ifs <;> first | rfl | (congr 1; linarith)
        refine ⟨max b b', this, ?_, fun x hx => ?_⟩
        · rcases max_choice b b' with h | h <;> rw [h] <;> simp [b2.1, b2'.1]
        · rcases List.mem_append.1 hx with hx | hx
          · exact le_trans (b2.2 x hx) (le_max_left _ _)
          · exact le_trans (b2'.2 x hx) (le_max_right _ _)

/-- C150: however statistics come about by pushing doubles and merging, the counter, the minimum and the maximum are exact and the
variance is not negative. -/
theorem C150_any_history {s : Stats ℚ} {xs : List ℚ} (h : Built s xs) (hx : xs ≠ []) :
    s.count = xs.length ∧ (∃ a, s.min = some a ∧ IsMinOf a xs) ∧ (∃ b, s.max = some b ∧ IsMaxOf b xs) ∧
      ∀ ddof, ddof < xs.length → ∃ v, variance r53 s ddof = some v ∧ 0 ≤ v := by
  obtain ⟨h1, h2, h3⟩ := built_inv h
  refine ⟨h1, (h3 hx).1, (h3 hx).2, fun ddof hd => ?_⟩
  unfold variance
  rw [h1, if_neg (by omega)]
  exact ⟨_, rfl, r_nonneg (div_nonneg h2 (r_nonneg (by positivity)))⟩

/-- the mean after one more value, if the old mean is known up to an error -/
theorem avg_push {B m x S : ℚ} {k : ℚ} (hk : 1 ≤ k) (h : |m - S / k| ≤ k * (B / 2 ^ 50)) :
    |m + (x - m) / (k + 1) - (S + x) / (k + 1)| ≤ k * (B / 2 ^ 50) := by
  have hk1 : 0 < k + 1 := by linarith
  have e : m + (x - m) / (k + 1) - (S + x) / (k + 1) = (m - S / k) * (k / (k + 1)) := by
    have : k ≠ 0 := by linarith
    field_simp
    ring
  rw [e, abs_mul]
  have h1 : |k / (k + 1)| ≤ 1 := by
    rw [abs_of_nonneg (div_nonneg (by linarith) hk1.le), div_le_one hk1]
    linarith
  calc _ ≤ |m - S / k| * 1 := mul_le_mul_of_nonneg_left h1 (abs_nonneg _)
    _ ≤ _ := by rw [mul_one]; exact h

theorem avg_merge {m1 m2 X Y a b u : ℚ} (ha : 1 ≤ a) (hb : 1 ≤ b) (hu : 0 ≤ u) (ex : |m1 - X / a| ≤ a * u) (ey : |m2 - Y / b| ≤ b * u) :
    |(a * m1 + b * m2) / (a + b) - (X + Y) / (a + b)| ≤ (a + b - 1) * u := by
  have hN : 0 < a + b := by linarith
  have e : (a * m1 + b * m2) / (a + b) - (X + Y) / (a + b) = (a * (m1 - X / a) + b * (m2 - Y / b)) / (a + b) := by
    have : a ≠ 0 := by linarith
    have : b ≠ 0 := by linarith
    field_simp
    ring
  rw [e, abs_div, abs_of_pos hN, div_le_iff₀ hN]
  calc |a * (m1 - X / a) + b * (m2 - Y / b)| ≤ |a * (m1 - X / a)| + |b * (m2 - Y / b)| := abs_add_le _ _
    _ = a * |m1 - X / a| + b * |m2 - Y / b| := by rw [abs_mul, abs_mul, abs_of_nonneg (by linarith : 0 ≤ a), abs_of_nonneg (by linarith : 0 ≤ b)]
    _ ≤ a * (a * u) + b * (b * u) := add_le_add (mul_le_mul_of_nonneg_left ex (by linarith)) (mul_le_mul_of_nonneg_left ey (by linarith))
    _ ≤ (a + b - 1) * u * (a + b) := by
      have : a * a + b * b ≤ (a + b - 1) * (a + b) := by nlinarith
      calc a * (a * u) + b * (b * u) = (a * a + b * b) * u := by ring
        _ ≤ ((a + b - 1) * (a + b)) * u := mul_le_mul_of_nonneg_right this hu
        _ = _ := by ring

theorem sum_abs_le (xs : List ℚ) (B : ℚ) (h : ∀ x ∈ xs, |x| ≤ B) : |xs.sum| ≤ xs.length * B := by
  induction xs with
  | nil => simp
  | cons x xs ih =>
    rw [List.sum_cons, List.length_cons]
    push_cast
    have := abs_add_le x xs.sum
    have := h x (by simp)
    have := ih fun y hy => h y (by simp [hy])
    linarith

/-- a mean with an error that is small enough is at most twice as large as the largest absolute value -/
theorem mean_le {xs : List ℚ} {m B : ℚ} (hx : xs ≠ []) (hlen : xs.length ≤ 2 ^ 50) (hB : ∀ x ∈ xs, |x| ≤ B)
    (h : |m - xs.sum / xs.length| ≤ xs.length * (B / 2 ^ 50)) : |m| ≤ 2 * B := by
  have hs := sum_abs_le xs B hB
  have hn : xs.length ≠ 0 := by simpa using hx
  have hk : (0 : ℚ) < xs.length := by exact_mod_cast Nat.pos_of_ne_zero hn
  have hk2 : (xs.length : ℚ) ≤ 2 ^ 50 := by exact_mod_cast hlen
  obtain ⟨x, hx⟩ := List.exists_mem_of_ne_nil xs hx
  have hB0 : 0 ≤ B := le_trans (abs_nonneg x) (hB x hx)
  have h1 : |xs.sum / xs.length| ≤ B := by
    rw [abs_div, abs_of_pos hk, div_le_iff₀ hk]
    linarith
  have h2 : (xs.length : ℚ) * (B / 2 ^ 50) ≤ B := by
    calc _ ≤ 2 ^ 50 * (B / 2 ^ 50) := mul_le_mul_of_nonneg_right hk2 (by positivity)
      _ = B := by ring
  calc |m| = |(m - xs.sum / xs.length) + xs.sum / xs.length| := by ring_nf
    _ ≤ |m - xs.sum / xs.length| + |xs.sum / xs.length| := abs_add_le _ _
    _ ≤ _ := by linarith

/-- C150: however statistics come about by pushing doubles and merging, their mean has an error of at most `n * 2 ^ -50` times the largest
absolute value, where `n` is the number of values. -/
theorem C150_history_error {s : Stats ℚ} {xs : List ℚ} (h : Built s xs) (hx : xs ≠ []) (hlen : xs.length ≤ 2 ^ 50) (B : ℚ)
    (hB : ∀ x ∈ xs, |x| ≤ B) : |s.mean - xs.sum / xs.length| ≤ xs.length * (B / 2 ^ 50) := by
  have key : (xs = [] → s.mean = 0) ∧ (xs ≠ [] → xs.length ≤ 2 ^ 50 → (∀ x ∈ xs, |x| ≤ B) → |s.mean - xs.sum / xs.length| ≤ xs.length * (B / 2 ^ 50)) := by
    clear hx hlen hB
    induction h with
    | new => exact ⟨fun _ => rfl, fun h => absurd rfl h⟩
    | @push s xs v hv hb ih =>
      refine ⟨by simp, fun _ hlen hB => ?_⟩
      have hc := (built_inv hb).1
      have hm : (push r53 s v).mean = step s.mean v xs.length := by rw [← hc]; rfl
      have hvB := hB v (by simp)
      have hB0 : 0 ≤ B := le_trans (abs_nonneg v) hvB
      have hu : 0 ≤ B / 2 ^ 50 := by positivity
      rw [hm]
      by_cases h0 : xs = []
      · rw [ih.1 h0]
        subst h0
        show |step 0 v 0 - _| ≤ _
        rw [step_first hv]
        simp
        positivity
      · have hBx : ∀ x ∈ xs, |x| ≤ B := fun x hx => hB x (by simp [hx])
        have hlen' : xs.length ≤ 2 ^ 50 := by simp at hlen; omega
        have i := ih.2 h0 hlen' hBx
        have hn : xs.length ≠ 0 := by simpa using h0
        have hb2 := mean_le h0 hlen' hBx i
        have st := step_error (B := 2 * B) (m := s.mean) (v := v) hb2 (by linarith) hn (by simp at hlen; norm_num at hlen ⊢; omega)
        have l1 : (1 : ℚ) ≤ xs.length := by exact_mod_cast Nat.pos_of_ne_zero hn
        have ap := avg_push (x := v) l1 i
        rw [List.sum_append, List.length_append]
        simp only [List.sum_cons, List.sum_nil, add_zero, List.length_cons, List.length_nil, zero_add]
        push_cast at st ⊢
        have e5 : 4 * (2 * B) / 2 ^ 53 = B / 2 ^ 50 := by ring
        rw [e5] at st
        generalize (xs.length : ℚ) = k at *
        rw [add_mul, one_mul]
        rw [abs_le] at st ap ⊢
        constructor <;> linarith [st.1, st.2, ap.1, ap.2]
    | @merge s t xs ys hs ht ih1 ih2 =>
      have c1 := (built_inv hs).1
      have c2 := (built_inv ht).1
      by_cases h2 : ys = []
      · subst h2
        rw [List.append_nil]
        have : merge r53 s t = s := by unfold merge; rw [if_neg (by rw [c2]; simp)]
        rw [this]
        exact ih1
      by_cases h1 : xs = []
      · subst h1
        have : merge r53 s t = t := by
          unfold merge
          rw [if_pos (by rw [c2]; exact List.length_pos_of_ne_nil h2), if_pos (by rw [c1]; rfl)]
        rw [this]
        exact ih2
      refine ⟨by simp [h1], fun _ hlen hB => ?_⟩
      have hBx : ∀ x ∈ xs, |x| ≤ B := fun x hx => hB x (by simp [hx])
      have hBy : ∀ x ∈ ys, |x| ≤ B := fun x hx => hB x (by simp [hx])
      rw [List.length_append] at hlen
      have k1 : xs.length ≠ 0 := by simpa using h1
      have k2 : ys.length ≠ 0 := by simpa using h2
      have ex := ih1.2 h1 (by omega) hBx
      have ey := ih2.2 h2 (by omega) hBy
      have bx := mean_le h1 (by omega) hBx ex
      have by' := mean_le h2 (by omega) hBy ey
      obtain ⟨_, hm, _⟩ := merge_eq s t (by rw [c1]; exact k1) (by rw [c2]; exact k2)
      have hp : (2 : Nat) ^ 50 ≤ 2 ^ 53 := by norm_num
      rw [hm, c1, c2, r_nat (n := xs.length + ys.length) (by omega), r_nat (n := xs.length) (by omega), r_nat (n := ys.length) (by omega), List.sum_append, List.length_append]
      have l1 : (1 : ℚ) ≤ xs.length := by exact_mod_cast Nat.pos_of_ne_zero k1
      have l2 : (1 : ℚ) ≤ ys.length := by exact_mod_cast Nat.pos_of_ne_zero k2
      have em := merge_error l1 l2 bx by'
      have hB0 : 0 ≤ 2 * B := le_trans (abs_nonneg _) bx
      have hu : 0 ≤ B / 2 ^ 50 := div_nonneg (by linarith) (by positivity)
      have ew := avg_merge l1 l2 hu ex ey
      have e5 : 2 * B / 2 ^ 51 = B / 2 ^ 50 := by ring
      rw [e5] at em
      push_cast
      generalize B / 2 ^ 50 = u at *
      rw [abs_le] at em ew ⊢
      constructor <;> linarith [em.1, em.2, ew.1, ew.2]
  exact key.2 hx hlen hB

/-- the double nearest to one tenth -/
def tenth : ℚ := 3602879701896397 / 36028797018963968

/-- C150 (disagreement): after a merge the mean can be greater than the maximum: merging the statistics of `[0.1]` and of `[0.1, 0.1]` yields a
mean above 0.1, whereas pushing `0.1` three times yields 0.1 exactly. -/
theorem C150_merge_wrong :
    let s := merge r53 (pushAll r53 new [tenth]) (pushAll r53 new [tenth, tenth])
    Double tenth ∧ s.max = some tenth ∧ tenth < s.mean ∧ (pushAll r53 new [tenth, tenth, tenth]).mean = tenth := by
  have ht : Double tenth := ⟨3602879701896397, -55, by norm_num, by norm_num [tenth]⟩
  have m1 := (C150_constant tenth ht 1 0 (by norm_num)).1
  have m2 := (C150_constant tenth ht 2 0 (by norm_num)).1
  have m3 := (C150_constant tenth ht 3 0 (by norm_num)).1
  refine ⟨ht, ?_, ?_, m3⟩
  · obtain ⟨_, _, _, _, e⟩ := merge_eq (pushAll r53 new [tenth]) (pushAll r53 new [tenth, tenth]) (by rw [pushAll_count]; decide) (by rw [pushAll_count]; decide)
    rw [e]
    decide +kernel
  · obtain ⟨_, e, _⟩ := merge_eq (pushAll r53 new [tenth]) (pushAll r53 new [tenth, tenth]) (by rw [pushAll_count]; decide) (by rw [pushAll_count]; decide)
    show tenth < _
    rw [e]
    change (pushAll r53 new [tenth]).mean = tenth at m1
    change (pushAll r53 new [tenth, tenth]).mean = tenth at m2
    rw [m1, m2]
    decide +kernel

-- the hypotheses of the theorems are met by [1, 2, 4]
example : ∀ x ∈ [(1 : ℚ), 2, 4], Double x := by
  intro x hx
  simp only [List.mem_cons, List.not_mem_nil, or_false] at hx
  rcases hx with rfl | rfl | rfl
  · exact ⟨1, 0, by norm_num, by norm_num⟩
  · exact ⟨2, 0, by norm_num, by norm_num⟩
  · exact ⟨4, 0, by norm_num, by norm_num⟩
-- rounding is not trivial there: the mean of 1, 2 and 4 is not a double
example : ¬ (pushAll r53 new [1, 2, 4]).mean = 7 / 3 := by decide +kernel
example : Built (merge r53 (push r53 new 1) (push r53 new 2)) ([] ++ [1] ++ ([] ++ [2])) :=
  .merge (.push 1 ⟨1, 0, by norm_num, by norm_num⟩ .new) (.push 2 ⟨2, 0, by norm_num, by norm_num⟩ .new)

end Prolothar.StatisticsFloat
