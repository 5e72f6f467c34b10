import Verif.Props.StatisticsFloat
/-
C150: the error of the variance of running statistics with floating point numbers.
-/
namespace Prolothar.StatisticsFloat
open Prolothar.Statistics (Stats ltNaN minNaN maxNaN new)
open Prolothar.Float Prolothar.Spec.Float Prolothar.Moments

/-- a rounding multiplies with a number near one -/
theorem r_rel (x : ℚ) : ∃ η : ℚ, |η| ≤ 1 / 2 ^ 53 ∧ r53 x = x * (1 + η) := by
  by_cases hx : x = 0
  · exact ⟨0, by simp, by rw [hx, r_zero]; simp⟩
  · refine ⟨(r53 x - x) / x, ?_, by field_simp; ring⟩
    rw [abs_div, div_le_iff₀ (abs_pos.2 hx)]
    have := r_err x
    have e : |x| / 2 ^ 53 = 1 / 2 ^ 53 * |x| := by ring
    linarith

/-- one more factor near one -/
theorem near_mul {a α η : ℚ} (h : |a - 1| ≤ α) (hα : α ≤ 1) (hη : |η| ≤ 1 / 2 ^ 53) : |a * (1 + η) - 1| ≤ α + 2 / 2 ^ 53 := by
  have e : a * (1 + η) - 1 = (a - 1) + a * η := by ring
  have h1 : |a| ≤ 2 := by
    have := abs_le.1 (le_trans h hα)
    rw [abs_le]; constructor <;> linarith [this.1, this.2]
  have h2 : |a * η| ≤ 2 * (1 / 2 ^ 53) := by
    rw [abs_mul]
    exact mul_le_mul h1 hη (abs_nonneg _) (by norm_num)
  rw [e]
  calc _ ≤ |a - 1| + |a * η| := abs_add_le _ _
    _ ≤ _ := by
      have : (2 : ℚ) * (1 / 2 ^ 53) = 2 / 2 ^ 53 := by ring
      linarith

theorem near_six {a b c d e : ℚ} (ha : |a| ≤ 1 / 2 ^ 53) (hb : |b| ≤ 1 / 2 ^ 53) (hc : |c| ≤ 1 / 2 ^ 53) (hd : |d| ≤ 1 / 2 ^ 53)
    (he : |e| ≤ 1 / 2 ^ 53) : |1 * (1 + a) * (1 + a) * (1 + b) * (1 + c) * (1 + d) * (1 + e) - 1| ≤ 1 / 2 ^ 49 := by
  have h0 : |(1 : ℚ) - 1| ≤ 0 := by simp
  have h1 := near_mul h0 (by norm_num) ha
  have h2 := near_mul h1 (by norm_num) ha
  have h3 := near_mul h2 (by norm_num) hb
  have h4 := near_mul h3 (by norm_num) hc
  have h5 := near_mul h4 (by norm_num) hd
  have h6 := near_mul h5 (by norm_num) he
  refine le_trans h6 (by norm_num)

/-- the sum that `push` adds to the squared deviations, up to rounding -/
theorem push_term (d k : ℚ) : ∃ P : ℚ, |P - 1| ≤ 1 / 2 ^ 49 ∧
    r53 (r53 (r53 d * r53 (r53 d / (k + 1))) * k) = d ^ 2 * (k / (k + 1)) * P := by
  obtain ⟨a, ha, e1⟩ := r_rel d
  obtain ⟨b, hb, e2⟩ := r_rel (r53 d / (k + 1))
  obtain ⟨c, hc, e3⟩ := r_rel (r53 d * r53 (r53 d / (k + 1)))
  obtain ⟨f, hf, e4⟩ := r_rel (r53 (r53 d * r53 (r53 d / (k + 1))) * k)
  refine ⟨_, near_six ha hb hc hf (e := 0) (by norm_num), ?_⟩
  rw [e4, e3, e2, e1]
  ring

/-- the sum that `merge` adds to the squared deviations, up to rounding -/
theorem merge_term (d n1 n2 : ℚ) : ∃ P : ℚ, |P - 1| ≤ 1 / 2 ^ 49 ∧
    r53 (r53 (r53 (r53 (r53 d ^ 2) * n1) * n2) / (n1 + n2)) = d ^ 2 * (n1 * n2 / (n1 + n2)) * P := by
  obtain ⟨a, ha, e1⟩ := r_rel d
  obtain ⟨b, hb, e2⟩ := r_rel (r53 d ^ 2)
  obtain ⟨c, hc, e3⟩ := r_rel (r53 (r53 d ^ 2) * n1)
  obtain ⟨f, hf, e4⟩ := r_rel (r53 (r53 (r53 d ^ 2) * n1) * n2)
  obtain ⟨g, hg, e5⟩ := r_rel (r53 (r53 (r53 (r53 d ^ 2) * n1) * n2) / (n1 + n2))
  refine ⟨_, near_six ha hb hc hf hg, ?_⟩
  rw [e5, e4, e3, e2, e1]
  ring

/-! ### the exact sums -/

theorem sum_sq_sub (xs : List ℚ) (m : ℚ) :
    (xs.map fun x => (x - m) ^ 2).sum = (xs.map fun x => x ^ 2).sum - 2 * m * xs.sum + xs.length * m ^ 2 := by
  induction xs with
  | nil => simp
  | cons x xs ih => simp only [List.map_cons, List.sum_cons, List.length_cons, ih]; push_cast; ring

theorem centralSum_two {xs : List ℚ} (hx : xs ≠ []) :
    centralSum 2 xs = (xs.map fun x => x ^ 2).sum - xs.sum ^ 2 / xs.length := by
  have : (xs.length : ℚ) ≠ 0 := by simpa using hx
  unfold centralSum mean
  rw [sum_sq_sub]
  field_simp
  ring

theorem centralSum_append {xs ys : List ℚ} (hx : xs ≠ []) (hy : ys ≠ []) :
    centralSum 2 (xs ++ ys) = centralSum 2 xs + centralSum 2 ys
      + (ys.sum / ys.length - xs.sum / xs.length) ^ 2 * ((xs.length : ℚ) * ys.length / (xs.length + ys.length)) := by
  rw [centralSum_two hx, centralSum_two hy, centralSum_two (by simp [hx]), List.map_append, List.sum_append, List.sum_append, List.length_append]
  have h1 : (0 : ℚ) < xs.length := by exact_mod_cast List.length_pos_of_ne_nil hx
  have h2 : (0 : ℚ) < ys.length := by exact_mod_cast List.length_pos_of_ne_nil hy
  push_cast
  generalize (xs.length : ℚ) = a at *
  generalize (ys.length : ℚ) = b at *
  have : a + b ≠ 0 := by linarith
  field_simp
  ring

theorem centralSum_le {xs : List ℚ} (hx : xs ≠ []) {B : ℚ} (hB : ∀ x ∈ xs, |x| ≤ B) : centralSum 2 xs ≤ xs.length * B ^ 2 := by
  rw [centralSum_two hx]
  have h1 : (0 : ℚ) < xs.length := by exact_mod_cast List.length_pos_of_ne_nil hx
  have h2 : 0 ≤ xs.sum ^ 2 / xs.length := by positivity
  have h3 : (xs.map fun x => x ^ 2).sum ≤ xs.length * B ^ 2 := by
    clear hx h1 h2
    induction xs with
    | nil => simp
    | cons x xs ih =>
      simp only [List.map_cons, List.sum_cons, List.length_cons]
      have := ih fun y hy => hB y (by simp [hy])
      have : x ^ 2 ≤ B ^ 2 := sq_le_sq' (by linarith [(abs_le.1 (hB x (by simp))).1]) (abs_le.1 (hB x (by simp))).2
      push_cast
      linarith
  linarith

theorem centralSum_nonneg (xs : List ℚ) : 0 ≤ centralSum 2 xs := by
  unfold centralSum
  apply List.sum_nonneg
  intro x hx
  obtain ⟨y, _, rfl⟩ := List.mem_map.1 hx
  positivity

/-! ### the steps -/

theorem mean_abs {xs : List ℚ} (hx : xs ≠ []) {B : ℚ} (hB : ∀ x ∈ xs, |x| ≤ B) : |xs.sum / xs.length| ≤ B := by
  have hk : (0 : ℚ) < xs.length := by exact_mod_cast List.length_pos_of_ne_nil hx
  rw [abs_div, abs_of_pos hk, div_le_iff₀ hk]
  have := sum_abs_le xs B hB
  linarith

/-- the error of a product of a square and a weight -/
theorem square_error {d d' w P B E : ℚ} (hw : 0 ≤ w) (_hB : 0 ≤ B) (hd : |d'| ≤ 4 * B) (hs : |d' + d| ≤ 6 * B) (he : |d' - d| ≤ E)
    (hP : |P - 1| ≤ 1 / 2 ^ 49) :
    |d' ^ 2 * w * P - d ^ 2 * w| ≤ w * (E * (6 * B) + B ^ 2 / 2 ^ 45) := by
  have hE : 0 ≤ E := le_trans (abs_nonneg _) he
  have e : d' ^ 2 * w * P - d ^ 2 * w = w * ((d' - d) * (d' + d) + d' ^ 2 * (P - 1)) := by ring
  rw [e, abs_mul, abs_of_nonneg hw]
  apply mul_le_mul_of_nonneg_left _ hw
  have h1 : |(d' - d) * (d' + d)| ≤ E * (6 * B) := by
    rw [abs_mul]
    exact mul_le_mul he hs (abs_nonneg _) hE
  have h2 : |d' ^ 2 * (P - 1)| ≤ (4 * B) ^ 2 * (1 / 2 ^ 49) := by
    rw [abs_mul, abs_pow]
    exact mul_le_mul (pow_le_pow_left₀ (abs_nonneg _) hd 2) hP (abs_nonneg _) (by positivity)
  have e2 : (4 * B) ^ 2 * (1 / 2 ^ 49) = B ^ 2 / 2 ^ 45 := by ring
  calc _ ≤ |(d' - d) * (d' + d)| + |d' ^ 2 * (P - 1)| := abs_add_le _ _
    _ ≤ _ := by linarith

/-- one more value -/
theorem push_var {k B R rho T t : ℚ} (hk : 1 ≤ k) (hk2 : k ≤ 2 ^ 45) (_hB : 0 ≤ B) (hR0 : 0 ≤ R) (hR : R ≤ k * B ^ 2)
    (hrho : |rho - R| ≤ k ^ 2 * (B ^ 2 / 2 ^ 45)) (hT : 0 ≤ T) (hTB : T ≤ 4 * B ^ 2)
    (ht : |t - T| ≤ k * B / 2 ^ 50 * (6 * B) + B ^ 2 / 2 ^ 45) :
    |r53 (rho + t) - (R + T)| ≤ (k + 1) ^ 2 * (B ^ 2 / 2 ^ 45) := by
  have hb : 0 ≤ B ^ 2 := by positivity
  have e1 := r_err (rho + t)
  have e2 : k * B / 2 ^ 50 * (6 * B) = k * (B ^ 2) * 6 / 2 ^ 50 := by ring
  rw [e2] at ht
  have hkb : 0 ≤ k * B ^ 2 := by positivity
  have hkB : B ^ 2 ≤ k * B ^ 2 := by nlinarith
  have hkk : k ^ 2 * (B ^ 2 / 2 ^ 45) ≤ k * B ^ 2 := by
    have : k * (k * B ^ 2) ≤ 2 ^ 45 * (k * B ^ 2) := mul_le_mul_of_nonneg_right hk2 hkb
    have e : k ^ 2 * (B ^ 2 / 2 ^ 45) = k * (k * B ^ 2) / 2 ^ 45 := by ring
    rw [e, div_le_iff₀ (by positivity)]
    linarith
  have hexp : (k + 1) ^ 2 * (B ^ 2 / 2 ^ 45) = k ^ 2 * (B ^ 2 / 2 ^ 45) + 2 * (k * B ^ 2) / 2 ^ 45 + B ^ 2 / 2 ^ 45 := by ring
  rw [hexp]
  generalize k ^ 2 * (B ^ 2 / 2 ^ 45) = X at *
  generalize k * B ^ 2 = Y at *
  generalize B ^ 2 = Z at *
  have hs : |rho + t| ≤ 10 * Y := by
    rw [abs_le] at hrho ht ⊢
    norm_num at hrho ht ⊢
    constructor <;> linarith [hrho.1, hrho.2, ht.1, ht.2]
  have e1' := le_trans e1 (div_le_div_of_nonneg_right hs (by positivity))
  rw [abs_le] at hrho ht e1' ⊢
  norm_num at hrho ht e1' ⊢
  constructor <;> linarith [hrho.1, hrho.2, ht.1, ht.2, e1'.1, e1'.2]

/-- merged statistics -/
theorem merge_var {a b B R1 R2 rho1 rho2 T t : ℚ} (ha : 1 ≤ a) (hb : 1 ≤ b) (hab : a + b ≤ 2 ^ 45) (_hB : 0 ≤ B)
    (h01 : 0 ≤ R1) (h02 : 0 ≤ R2) (hR1 : R1 ≤ a * B ^ 2) (hR2 : R2 ≤ b * B ^ 2)
    (hr1 : |rho1 - R1| ≤ a ^ 2 * (B ^ 2 / 2 ^ 45)) (hr2 : |rho2 - R2| ≤ b ^ 2 * (B ^ 2 / 2 ^ 45)) (hT : 0 ≤ T)
    (hTB : T ≤ 4 * B ^ 2 * (a * b)) (ht : |t - T| ≤ a * b * (B * B) * 6 / 2 ^ 50 + a * b * B ^ 2 / 2 ^ 45 / 2) :
    |r53 (r53 (rho1 + rho2) + t) - (R1 + R2 + T)| ≤ (a + b) ^ 2 * (B ^ 2 / 2 ^ 45) := by
  have e0 := r_err (rho1 + rho2)
  have e1 := r_err (r53 (rho1 + rho2) + t)
  have hZ : 0 ≤ B ^ 2 := by positivity
  have ka : a ^ 2 * (B ^ 2 / 2 ^ 45) ≤ a * B ^ 2 := by
    have : a * (a * B ^ 2) ≤ 2 ^ 45 * (a * B ^ 2) := mul_le_mul_of_nonneg_right (by linarith) (by positivity)
    have e : a ^ 2 * (B ^ 2 / 2 ^ 45) = a * (a * B ^ 2) / 2 ^ 45 := by ring
    rw [e, div_le_iff₀ (by positivity)]
    linarith
  have kb : b ^ 2 * (B ^ 2 / 2 ^ 45) ≤ b * B ^ 2 := by
    have : b * (b * B ^ 2) ≤ 2 ^ 45 * (b * B ^ 2) := mul_le_mul_of_nonneg_right (by linarith) (by positivity)
    have e : b ^ 2 * (B ^ 2 / 2 ^ 45) = b * (b * B ^ 2) / 2 ^ 45 := by ring
    rw [e, div_le_iff₀ (by positivity)]
    linarith
  have pa : a * B ^ 2 ≤ a * b * B ^ 2 := by
    have : a ≤ a * b := by nlinarith
    exact mul_le_mul_of_nonneg_right this hZ
  have pb : b * B ^ 2 ≤ a * b * B ^ 2 := by
    have : b ≤ a * b := by nlinarith
    exact mul_le_mul_of_nonneg_right this hZ
  have hexp : (a + b) ^ 2 * (B ^ 2 / 2 ^ 45) = a ^ 2 * (B ^ 2 / 2 ^ 45) + b ^ 2 * (B ^ 2 / 2 ^ 45) + 2 * (a * b * B ^ 2) / 2 ^ 45 := by ring
  have eT : 4 * B ^ 2 * (a * b) = 4 * (a * b * B ^ 2) := by ring
  have et : a * b * (B * B) = a * b * B ^ 2 := by ring
  rw [eT] at hTB
  rw [et] at ht
  rw [hexp]
  have hW : 0 ≤ a * b * B ^ 2 := by positivity
  generalize a * b * B ^ 2 = W at *
  generalize a ^ 2 * (B ^ 2 / 2 ^ 45) = X at *
  generalize b ^ 2 * (B ^ 2 / 2 ^ 45) = Y at *
  generalize a * B ^ 2 = A at *
  generalize b * B ^ 2 = C at *
  generalize r53 (rho1 + rho2) = q at *
  have hs : |rho1 + rho2| ≤ 4 * W := by
    rw [abs_le] at hr1 hr2 ⊢
    constructor <;> linarith [hr1.1, hr1.2, hr2.1, hr2.2]
  have e0' := le_trans e0 (div_le_div_of_nonneg_right hs (by positivity))
  have hs2 : |q + t| ≤ 10 * W := by
    rw [abs_le] at hs e0' ht ⊢
    norm_num at hs e0' ht ⊢
    constructor <;> linarith [hs.1, hs.2, e0'.1, e0'.2, ht.1, ht.2]
  have e1' := le_trans e1 (div_le_div_of_nonneg_right hs2 (by positivity))
  rw [abs_le] at hr1 hr2 ht e0' e1' ⊢
  norm_num at hr1 hr2 ht e0' e1' ⊢
  constructor <;> linarith [hr1.1, hr1.2, hr2.1, hr2.2, ht.1, ht.2, e0'.1, e0'.2, e1'.1, e1'.2]

theorem push_rho (s : Stats ℚ) (v : ℚ) : (push r53 s v).rho =
    r53 (s.rho + r53 (r53 (r53 (v - s.mean) * r53 (r53 (v - s.mean) / r53 ((s.count + 1 : Nat) : ℚ))) * r53 (s.count : ℚ))) := rfl

/-- the sum of the squared deviations is computed with an error of at most `n ^ 2 * 2 ^ -45` times the square of the largest
absolute value -/
theorem rho_error {s : Stats ℚ} {xs : List ℚ} (h : Built s xs) (hx : xs ≠ []) (hlen : xs.length ≤ 2 ^ 45) (B : ℚ)
    (hB : ∀ x ∈ xs, |x| ≤ B) : |s.rho - centralSum 2 xs| ≤ (xs.length : ℚ) ^ 2 * (B ^ 2 / 2 ^ 45) := by
  have key : (xs = [] → s.rho = 0) ∧ (xs ≠ [] → xs.length ≤ 2 ^ 45 → (∀ x ∈ xs, |x| ≤ B) →
      |s.rho - centralSum 2 xs| ≤ (xs.length : ℚ) ^ 2 * (B ^ 2 / 2 ^ 45)) := by
    clear hx hlen hB
    have hp45 : (2 : Nat) ^ 45 ≤ 2 ^ 50 := by norm_num
    have hp50 : (2 : Nat) ^ 50 < 2 ^ 53 := by norm_num
    induction h with
    | new => exact ⟨fun _ => rfl, fun h => absurd rfl h⟩
    | @push s xs v hv hb ih =>
      refine ⟨by simp, fun _ hlen hB => ?_⟩
      have hc := (built_inv hb).1
      have hvB := hB v (by simp)
      have hB0 : 0 ≤ B := le_trans (abs_nonneg v) hvB
      rw [List.length_append] at hlen
      simp only [List.length_cons, List.length_nil, zero_add] at hlen
      rw [push_rho, hc, r_nat (n := xs.length + 1) (by omega), r_nat (n := xs.length) (by omega)]
      by_cases h0 : xs = []
      · rw [ih.1 h0]
        subst h0
        simp only [List.length_nil, Nat.cast_zero, mul_zero, r_zero, add_zero, List.nil_append]
        have : centralSum 2 [v] = 0 := by simp [centralSum, mean]
        rw [this]
        simp
        positivity
      · have hBx : ∀ x ∈ xs, |x| ≤ B := fun x hx => hB x (by simp [hx])
        have i := ih.2 h0 (by omega) hBx
        have im := C150_history_error hb h0 (by omega) B hBx
        have hb2 := mean_le h0 (by omega) hBx im
        have ma := mean_abs h0 hBx
        have hn : xs.length ≠ 0 := by simpa using h0
        have l1 : (1 : ℚ) ≤ xs.length := by exact_mod_cast Nat.pos_of_ne_zero hn
        have l2 : (xs.length : ℚ) ≤ 2 ^ 45 := by exact_mod_cast (by omega : xs.length ≤ 2 ^ 45)
        have hR := centralSum_le h0 hBx
        have hR0 := centralSum_nonneg xs
        rw [centralSum_append h0 (by simp), List.length_append]
        have : centralSum 2 [v] = 0 := by simp [centralSum, mean]
        rw [this]
        simp only [List.sum_cons, List.sum_nil, add_zero, List.length_cons, List.length_nil, zero_add, Nat.cast_add, Nat.cast_one, div_one, mul_one]
        generalize (xs.length : ℚ) = k at *
        generalize xs.sum / k = m at *
        generalize s.mean = m' at *
        obtain ⟨P, hP, e⟩ := push_term (v - m') k
        have hw : 0 ≤ k / (k + 1) := div_nonneg (by linarith) (by linarith)
        have hw1 : k / (k + 1) ≤ 1 := by rw [div_le_one (by linarith)]; linarith
        have sq := square_error (d := v - m) (d' := v - m') (w := k / (k + 1)) (P := P) (B := B) (E := k * B / 2 ^ 50) hw hB0
          (by rw [abs_le] at hvB hb2 ⊢; constructor <;> linarith [hvB.1, hvB.2, hb2.1, hb2.2])
          (by rw [abs_le] at hvB hb2 ma ⊢; constructor <;> linarith [hvB.1, hvB.2, hb2.1, hb2.2, ma.1, ma.2])
          (by
            have e : v - m' - (v - m) = -(m' - m) := by ring
            rw [e, abs_neg]
            refine le_trans im (le_of_eq ?_)
            ring) hP
        rw [← e] at sq
        refine push_var l1 l2 hB0 hR0 hR i (by positivity) ?_ (le_trans sq ?_)
        · have : (v - m) ^ 2 ≤ (2 * B) ^ 2 := by
            rw [abs_le] at hvB ma
            exact sq_le_sq' (by linarith [hvB.1, hvB.2, ma.1, ma.2]) (by linarith [hvB.1, hvB.2, ma.1, ma.2])
          calc (v - m) ^ 2 * (k / (k + 1)) ≤ (2 * B) ^ 2 * 1 := mul_le_mul this hw1 hw (by positivity)
            _ = _ := by ring
        · have : 0 ≤ k * B / 2 ^ 50 * (6 * B) + B ^ 2 / 2 ^ 45 := by positivity
          calc _ ≤ 1 * (k * B / 2 ^ 50 * (6 * B) + B ^ 2 / 2 ^ 45) := mul_le_mul_of_nonneg_right hw1 this
            _ = _ := one_mul _
    | @merge s t xs ys hs ht ih1 ih2 =>
      have c1 := (built_inv hs).1
      have c2 := (built_inv ht).1
      by_cases h2 : ys = []
      · subst h2
        rw [List.append_nil]
        have : merge r53 s t = s := by unfold merge; rw [if_neg (by rw [c2]; simp)]
        rw [this]
        exact ih1
      by_cases h1 : xs = []
      · subst h1
        have : merge r53 s t = t := by
          unfold merge
          rw [if_pos (by rw [c2]; exact List.length_pos_of_ne_nil h2), if_pos (by rw [c1]; rfl)]
        rw [this]
        exact ih2
      refine ⟨by simp [h1], fun _ hlen hB => ?_⟩
      have hBx : ∀ x ∈ xs, |x| ≤ B := fun x hx => hB x (by simp [hx])
      have hBy : ∀ x ∈ ys, |x| ≤ B := fun x hx => hB x (by simp [hx])
      rw [List.length_append] at hlen
      have k1 : xs.length ≠ 0 := by simpa using h1
      have k2 : ys.length ≠ 0 := by simpa using h2
      have i1 := ih1.2 h1 (by omega) hBx
      have i2 := ih2.2 h2 (by omega) hBy
      have ex := C150_history_error hs h1 (by omega) B hBx
      have ey := C150_history_error ht h2 (by omega) B hBy
      have bx := mean_le h1 (by omega) hBx ex
      have by' := mean_le h2 (by omega) hBy ey
      have mx := mean_abs h1 hBx
      have my := mean_abs h2 hBy
      have hR1 := centralSum_le h1 hBx
      have hR2 := centralSum_le h2 hBy
      obtain ⟨_, _, hm, _⟩ := merge_eq s t (by rw [c1]; exact k1) (by rw [c2]; exact k2)
      rw [hm, c1, c2, r_nat (n := xs.length + ys.length) (by omega), r_nat (n := xs.length) (by omega), r_nat (n := ys.length) (by omega),
        centralSum_append h1 h2, List.length_append]
      have l1 : (1 : ℚ) ≤ xs.length := by exact_mod_cast Nat.pos_of_ne_zero k1
      have l2 : (1 : ℚ) ≤ ys.length := by exact_mod_cast Nat.pos_of_ne_zero k2
      have l3 : (xs.length : ℚ) + ys.length ≤ 2 ^ 45 := by exact_mod_cast hlen
      have hB0 : 0 ≤ B := le_trans (abs_nonneg _) mx
      have hR01 := centralSum_nonneg xs
      have hR02 := centralSum_nonneg ys
      push_cast
      generalize (xs.length : ℚ) = a at *
      generalize (ys.length : ℚ) = b at *
      generalize xs.sum / a = m1 at *
      generalize ys.sum / b = m2 at *
      generalize s.mean = m1' at *
      generalize t.mean = m2' at *
      obtain ⟨P, hP, e⟩ := merge_term (m2' - m1') a b
      have hab : 0 < a + b := by linarith
      have hw : 0 ≤ a * b / (a + b) := div_nonneg (mul_nonneg (by linarith) (by linarith)) hab.le
      have hw1 : a * b / (a + b) ≤ a * b / 2 := div_le_div_of_nonneg_left (mul_nonneg (by linarith) (by linarith)) (by norm_num) (by linarith)
      have sq := square_error (d := m2 - m1) (d' := m2' - m1') (w := a * b / (a + b)) (P := P) (B := B) (E := (a + b) * (B / 2 ^ 50)) hw hB0
        (by rw [abs_le] at bx by' ⊢; constructor <;> linarith [bx.1, bx.2, by'.1, by'.2])
        (by rw [abs_le] at bx by' mx my ⊢; constructor <;> linarith [bx.1, bx.2, by'.1, by'.2, mx.1, mx.2, my.1, my.2])
        (by
          rw [abs_le] at ex ey ⊢
          constructor <;> linarith [ex.1, ex.2, ey.1, ey.2]) hP
      rw [← e] at sq
      refine merge_var l1 l2 l3 hB0 hR01 hR02 hR1 hR2 i1 i2 (by positivity) ?_ (le_trans sq ?_)
      · have : (m2 - m1) ^ 2 ≤ (2 * B) ^ 2 := by
          rw [abs_le] at mx my
          exact sq_le_sq' (by linarith [mx.1, mx.2, my.1, my.2]) (by linarith [mx.1, mx.2, my.1, my.2])
        have h4 : a * b / (a + b) ≤ a * b := le_trans hw1 (by nlinarith)
        calc (m2 - m1) ^ 2 * (a * b / (a + b)) ≤ (2 * B) ^ 2 * (a * b) := mul_le_mul this h4 hw (by positivity)
          _ = _ := by ring
      · have e2 : a * b / (a + b) * ((a + b) * (B / 2 ^ 50) * (6 * B) + B ^ 2 / 2 ^ 45)
            = a * b * (B * B) * 6 / 2 ^ 50 + a * b / (a + b) * (B ^ 2 / 2 ^ 45) := by
          field_simp
        rw [e2]
        have : a * b / (a + b) * (B ^ 2 / 2 ^ 45) ≤ a * b / 2 * (B ^ 2 / 2 ^ 45) := mul_le_mul_of_nonneg_right hw1 (by positivity)
        have e3 : a * b / 2 * (B ^ 2 / 2 ^ 45) = a * b * B ^ 2 / 2 ^ 45 / 2 := by ring
        linarith
  exact key.2 hx hlen hB

/-- C150: however statistics come about by pushing at most `2 ^ 45` doubles and merging, the variance with any number of degrees of
freedom below the number `n` of values differs from the exact variance of the values by at most `n ^ 2 / (n - ddof) * 2 ^ -44` times
the square of the largest absolute value. -/
theorem C150_variance_error {s : Stats ℚ} {xs : List ℚ} (h : Built s xs) (hlen : xs.length ≤ 2 ^ 45) (B : ℚ)
    (hB : ∀ x ∈ xs, |x| ≤ B) (ddof : Nat) (hd : ddof < xs.length) :
    ∃ v, variance r53 s ddof = some v ∧
      |v - centralSum 2 xs / ((xs.length : ℚ) - ddof)| ≤ (xs.length : ℚ) ^ 2 / ((xs.length : ℚ) - ddof) * (B ^ 2 / 2 ^ 44) := by
  have hx : xs ≠ [] := by rintro rfl; simp at hd
  have hc := (built_inv h).1
  have e := rho_error h hx hlen B hB
  have hR := centralSum_le hx hB
  have hR0 := centralSum_nonneg xs
  unfold variance
  rw [hc, if_neg (by omega)]
  refine ⟨_, rfl, ?_⟩
  have hp45 : (2 : Nat) ^ 45 < 2 ^ 53 := by norm_num
  rw [r_nat (n := xs.length - ddof) (by omega), Nat.cast_sub hd.le]
  have hN : 0 < (xs.length : ℚ) - ddof := by
    have : (ddof : ℚ) < xs.length := by exact_mod_cast hd
    linarith
  have l1 : (1 : ℚ) ≤ xs.length := by exact_mod_cast (by omega : 1 ≤ xs.length)
  have l2 : (xs.length : ℚ) ≤ 2 ^ 45 := by exact_mod_cast hlen
  generalize (xs.length : ℚ) - ddof = N at *
  generalize (xs.length : ℚ) = k at *
  generalize centralSum 2 xs = R at *
  have e1 := r_err (s.rho / N)
  generalize r53 (s.rho / N) = v at *
  rw [abs_div, abs_of_pos hN] at e1
  have hZ : 0 ≤ B ^ 2 := by positivity
  have hk : k * B ^ 2 ≤ k ^ 2 * B ^ 2 := mul_le_mul_of_nonneg_right (by nlinarith) hZ
  have hs : |s.rho| ≤ 2 * (k ^ 2 * B ^ 2) := by
    have e' : k ^ 2 * (B ^ 2 / 2 ^ 45) = k ^ 2 * B ^ 2 / 2 ^ 45 := by ring
    rw [e'] at e
    have : 0 ≤ k ^ 2 * B ^ 2 := by positivity
    generalize k ^ 2 * B ^ 2 = W at *
    rw [abs_le] at e ⊢
    norm_num at e
    constructor <;> linarith [e.1, e.2]
  have key : |s.rho / N - R / N| ≤ k ^ 2 * (B ^ 2 / 2 ^ 45) / N := by
    rw [← sub_div, abs_div, abs_of_pos hN]
    exact div_le_div_of_nonneg_right e hN.le
  have e2 : |s.rho| / N / 2 ^ 53 ≤ k ^ 2 * (B ^ 2 / 2 ^ 45) / N := by
    rw [div_div, mul_comm N, ← div_div]
    apply div_le_div_of_nonneg_right _ hN.le
    refine le_trans (div_le_div_of_nonneg_right hs (by positivity)) ?_
    have : 0 ≤ k ^ 2 * B ^ 2 := by positivity
    have e' : k ^ 2 * (B ^ 2 / 2 ^ 45) = k ^ 2 * B ^ 2 / 2 ^ 45 := by ring
    rw [e']
    generalize k ^ 2 * B ^ 2 = W at *
    norm_num
    linarith
  have e3 : k ^ 2 / N * (B ^ 2 / 2 ^ 44) = k ^ 2 * (B ^ 2 / 2 ^ 45) / N + k ^ 2 * (B ^ 2 / 2 ^ 45) / N := by ring
  rw [e3]
  calc |v - R / N| = |(v - s.rho / N) + (s.rho / N - R / N)| := by ring_nf
    _ ≤ |v - s.rho / N| + |s.rho / N - R / N| := abs_add_le _ _
    _ ≤ _ := by linarith

/-- C150: the variance is undefined exactly if there are not more values than degrees of freedom. -/
theorem C150_variance_defined {s : Stats ℚ} {xs : List ℚ} (h : Built s xs) (ddof : Nat) :
    variance r53 s ddof = none ↔ xs.length ≤ ddof := by
  unfold variance
  rw [(built_inv h).1]
  by_cases hc : ddof ≥ xs.length
  · simp [hc]
  · simp [hc]

/-- the hypotheses are met: the statistics of 1, 2 and 4, the sample variance is 7/3 up to `72 * 2 ^ -44` -/
example : ∃ v, variance r53 (push r53 (push r53 (push r53 new 1) 2) 4) 1 = some v ∧ |v - 7 / 3| ≤ 72 / 2 ^ 44 := by
  have hb : Built (push r53 (push r53 (push r53 new 1) 2) 4) ([] ++ [1] ++ [2] ++ [4]) :=
    .push 4 ⟨4, 0, by norm_num, by norm_num⟩ (.push 2 ⟨2, 0, by norm_num, by norm_num⟩ (.push 1 ⟨1, 0, by norm_num, by norm_num⟩ .new))
  obtain ⟨v, h1, h2⟩ := C150_variance_error hb (by norm_num) 4
    (by intro x hx; simp at hx; rcases hx with rfl | rfl | rfl <;> norm_num) 1 (by norm_num)
  refine ⟨v, h1, ?_⟩
  norm_num [centralSum, mean] at h2 ⊢
  exact h2

end Prolothar.StatisticsFloat
