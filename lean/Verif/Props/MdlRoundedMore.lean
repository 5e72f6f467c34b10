import Verif.Model.MdlRoundedMore
import Verif.Props.Mdl
import Verif.Lemmas.FloatReal
import Mathlib.Analysis.Complex.Exponential
/-
Property C184: the description lengths with rounded arithmetic. The exact values are those of C18, C20, C76 and C78.
-/
namespace Prolothar.MdlRounded
open Prolothar.Mdl (lgamma betaln sequentialBits lgamma_nat foldl_sub log_prod_factorial exists_multinomial mapM_ok)

/-- `x'` is `x` with a relative error of at most `u`. In IEEE 754 double precision `u` is `2 ^ -53` for correctly rounded operations and
`2 ^ -52` for results that are off by less than one unit in the last place. -/
def Close (u x' x : ℝ) : Prop := |x' - x| ≤ u * |x|

/-- the result `x'` of up to `k` roundings, the exact result is `x`, and `A` bounds the terms of which it is the sum -/
structure Near (u : ℝ) (k : Nat) (x' x A : ℝ) : Prop where
  bound : |x| ≤ A
  err : |x' - x| ≤ ((1 + u) ^ k - 1) * A

theorem pow_ge {u : ℝ} (hu : 0 ≤ u) (k : Nat) : 1 ≤ (1 + u) ^ k := one_le_pow₀ (by linarith)

theorem Near.weaken {u : ℝ} (hu : 0 ≤ u) {k l : Nat} {x' x A B : ℝ} (h : Near u k x' x A) (hk : k ≤ l) (hA : A ≤ B) : Near u l x' x B := by
  have h1 : (1 + u) ^ k ≤ (1 + u) ^ l := pow_le_pow_right₀ (by linarith) hk
  have h2 := pow_ge hu k
  have h3 : 0 ≤ A := (abs_nonneg x).trans h.bound
  refine ⟨h.bound.trans hA, h.err.trans ?_⟩
  calc ((1 + u) ^ k - 1) * A ≤ ((1 + u) ^ l - 1) * A := mul_le_mul_of_nonneg_right (by linarith) h3
    _ ≤ ((1 + u) ^ l - 1) * B := mul_le_mul_of_nonneg_left hA (by linarith)

theorem Close.near {u x' x : ℝ} (h : Close u x' x) : Near u 1 x' x |x| := ⟨le_rfl, by rw [pow_one, add_sub_cancel_left]; exact h⟩

theorem Near.neg {u : ℝ} {k : Nat} {x' x A : ℝ} (h : Near u k x' x A) : Near u k (-x') (-x) A :=
  ⟨by rw [abs_neg]; exact h.bound, by rw [show -x' - -x = -(x' - x) by ring, abs_neg]; exact h.err⟩

theorem Near.sub {u : ℝ} {k : Nat} {x' x A y' y B : ℝ} (h : Near u k x' x A) (g : Near u k y' y B) : Near u k (x' - y') (x - y) (A + B) := by
  refine ⟨(abs_sub x y).trans (add_le_add h.bound g.bound), ?_⟩
  rw [show x' - y' - (x - y) = (x' - x) - (y' - y) by ring, mul_add]
  exact (abs_sub _ _).trans (add_le_add h.err g.err)

/-- a multiplication with a number near 1 -/
theorem Near.scale {u : ℝ} (hu : 0 ≤ u) {k j : Nat} {x' x A t : ℝ} (h : Near u k x' x A) (ht : |t - 1| ≤ (1 + u) ^ j - 1) :
    Near u (k + j) (x' * t) x A := by
  refine ⟨h.bound, ?_⟩
  have h2 := pow_ge hu k
  have h4 := pow_ge hu j
  have h3 : 0 ≤ A := (abs_nonneg x).trans h.bound
  have h5 : |x'| ≤ (1 + u) ^ k * A := by
    have := abs_add_le (x' - x) x
    rw [sub_add_cancel] at this
    have e := h.err
    have b := h.bound
    nlinarith
  rw [show x' * t - x = (x' - x) + x' * (t - 1) by ring, pow_add]
  refine (abs_add_le _ _).trans ?_
  rw [abs_mul]
  calc |x' - x| + |x'| * |t - 1| ≤ ((1 + u) ^ k - 1) * A + ((1 + u) ^ k * A) * ((1 + u) ^ j - 1) :=
        add_le_add h.err (mul_le_mul h5 ht (abs_nonneg _) (by positivity))
    _ = ((1 + u) ^ k * (1 + u) ^ j - 1) * A := by ring

theorem Near.round {u : ℝ} (hu : 0 ≤ u) {r : ℝ → ℝ} (hr : ∀ y, Close u (r y) y) {k : Nat} {x' x A : ℝ} (h : Near u k x' x A) :
    Near u (k + 1) (r x') x A := by
  by_cases h0 : x' = 0
  · have := hr x'
    rw [h0] at this
    unfold Close at this
    rw [abs_zero, mul_zero, sub_zero] at this
    have h1 : r x' = x' := by rw [h0]; exact abs_eq_zero.1 (le_antisymm this (abs_nonneg _))
    rw [h1]
    exact h.weaken hu (Nat.le_succ k) le_rfl
  · have h1 : r x' = x' * (r x' / x') := by field_simp
    rw [h1]
    refine h.scale hu ?_
    have := hr x'
    unfold Close at this
    rw [pow_one, add_sub_cancel_left, show r x' / x' - 1 = (r x' - x') / x' by field_simp, abs_div, div_le_iff₀ (abs_pos.2 h0)]
    exact this

theorem Near.div {u : ℝ} (hu : 0 ≤ u) (hu2 : u ≤ 1 / 2) {k : Nat} {x' x A d' d : ℝ} (h : Near u k x' x A) (hd : 0 < d) (hc : Close u d' d) :
    Near u (k + 2) (x' / d') (x / d) (A / d) := by
  unfold Close at hc
  rw [abs_of_pos hd] at hc
  have hc' := abs_le.1 hc
  have hd' : 0 < d' := by nlinarith
  have h1 : Near u (k + 2) (x' * (d / d')) x A := by
    refine h.scale hu ?_
    rw [show d / d' - 1 = (d - d') / d' by field_simp, abs_div, abs_of_pos hd', div_le_iff₀ hd', abs_sub_comm]
    refine hc.trans ?_
    have : (1 - u) * d ≤ d' := by linarith
    have h2 : 0 ≤ (1 + u) ^ 2 - 1 := by nlinarith
    calc u * d ≤ ((1 + u) ^ 2 - 1) * ((1 - u) * d) := by
          have : u ≤ ((1 + u) ^ 2 - 1) * (1 - u) := by nlinarith
          nlinarith
      _ ≤ ((1 + u) ^ 2 - 1) * d' := mul_le_mul_of_nonneg_left this h2
  refine ⟨?_, ?_⟩
  · rw [abs_div, abs_of_pos hd]; exact div_le_div_of_nonneg_right h1.bound hd.le
  · rw [show x' / d' - x / d = (x' * (d / d') - x) / d by field_simp, abs_div, abs_of_pos hd]
    exact (div_le_div_of_nonneg_right h1.err hd.le).trans_eq (mul_div_assoc _ _ _)

/-- a chain of rounded subtractions -/
theorem Near.foldl {β : Type} {u : ℝ} (hu : 0 ≤ u) {r : ℝ → ℝ} (hr : ∀ y, Close u (r y) y) {g' g w : β → ℝ} {j : Nat} :
    ∀ (l : List β) {k : Nat} {x' x A : ℝ}, j ≤ k → (∀ b ∈ l, Near u j (g' b) (g b) (w b)) → Near u k x' x A →
      Near u (k + l.length) (l.foldl (fun s b => r (s - g' b)) x') (x - (l.map g).sum) (A + (l.map w).sum)
  | [], k, x', x, A, _, _, h => by simpa using h
  | b :: l, k, x', x, A, hj, hb, h => by
    have h1 := (h.sub ((hb b (by simp)).weaken hu hj le_rfl)).round hu hr
    have h2 := Near.foldl hu hr l (by omega) (fun c hc => hb c (List.mem_cons_of_mem _ hc)) h1
    rw [List.foldl_cons, List.map_cons, List.sum_cons, List.map_cons, List.sum_cons, List.length_cons]
    rw [show x - (g b + (l.map g).sum) = x - g b - (l.map g).sum by ring, show A + (w b + (l.map w).sum) = A + w b + (l.map w).sum by ring,
      show k + (l.length + 1) = k + 1 + l.length by ring]
    exact h2

/-- `(1 + u) ^ k - 1` is about `k u` -/
theorem pow_sub_le {u : ℝ} (hu : 0 ≤ u) {k : Nat} (hk : k * u ≤ 1) : (1 + u) ^ k - 1 ≤ 2 * k * u := by
  have h1 : (1 + u) ^ k ≤ Real.exp (k * u) := by
    rw [Real.exp_nat_mul]
    exact pow_le_pow_left₀ (by linarith) (by linarith [Real.add_one_le_exp u]) k
  have h0 : (0 : ℝ) ≤ k * u := by positivity
  have h2 := Real.abs_exp_sub_one_le (x := k * u) (by rw [abs_of_nonneg h0]; exact hk)
  rw [abs_of_nonneg h0] at h2
  have := le_abs_self (Real.exp (k * u) - 1)
  linarith

theorem Near.linear {u : ℝ} (hu : 0 ≤ u) {k : Nat} (hk : k * u ≤ 1) {x' x A : ℝ} (h : Near u k x' x A) : |x' - x| ≤ 2 * k * u * A :=
  h.err.trans (mul_le_mul_of_nonneg_right (pow_sub_le hu hk) ((abs_nonneg _).trans h.bound))

theorem log_two_pos : 0 < Real.log 2 := Real.log_pos (by norm_num)

theorem sum_cast (ks : List Nat) : (ks.map (Nat.cast : Nat → Int)).sum = ((ks.sum : Nat) : Int) := by
  induction ks with
  | nil => rfl
  | cons k ks ih => rw [List.map_cons, List.sum_cons, ih, List.sum_cons, Nat.cast_add]

theorem log_factorial_nonneg (n : Nat) : 0 ≤ Real.log (n.factorial : ℝ) := Real.log_nonneg (by exact_mod_cast Nat.factorial_pos n)

/-- C184: `log2multinom` with rounded arithmetic. If the library functions and the arithmetic operations have a relative error of at most `u`,
then the error of the result is at most `4 (m + 4) u log2(n!)` bits, where `m` is the number of the `ks`. -/
theorem C184_log2multinom {gl ln r : ℝ → ℝ} {u : ℝ} (hu0 : 0 ≤ u) (hu : u ≤ 1 / 2) (hr : ∀ y, Close u (r y) y)
    (hln : Close u (ln 2) (Real.log 2)) (hgl : ∀ n : Nat, Close u (gl ((n : ℝ) + 1)) (Real.log (n.factorial : ℝ))) (n : Nat) (ks : List Nat) :
    (n ≠ ks.sum → log2multinom gl ln r n (ks.map Nat.cast) = .error .value) ∧
    (n = ks.sum → ((ks.length + 4 : Nat) : ℝ) * u ≤ 1 → ∃ (c : Nat) (v : ℝ), 0 < c ∧ c * (ks.map Nat.factorial).prod = n.factorial ∧
      log2multinom gl ln r n (ks.map Nat.cast) = .ok v ∧
      |v - Real.logb 2 c| ≤ 4 * ((ks.length + 4 : Nat) : ℝ) * u * Real.logb 2 n.factorial) := by
  refine ⟨fun h => ?_, fun h hk => ?_⟩
  · rw [log2multinom, if_pos]
    rw [sum_cast]; exact_mod_cast h
  · obtain ⟨c, hc, he⟩ := exists_multinomial ks
    subst h
    rw [log2multinom, if_neg (by rw [sum_cast]; simp), List.foldl_map]
    have e0 : ((((ks.sum : Nat) : Int) + 1 : Int) : ℝ) = ((ks.sum : Nat) : ℝ) + 1 := by
      rw [Int.cast_add, Int.cast_natCast, Int.cast_one]
    have e1 : ks.foldl (fun (x : ℝ) (k : Nat) => r (x - gl (((k : Int) + 1 : Int) : ℝ))) (gl ((((ks.sum : Nat) : Int) + 1 : Int) : ℝ)) =
        ks.foldl (fun (x : ℝ) (k : Nat) => r (x - gl ((k : ℝ) + 1))) (gl (((ks.sum : Nat) : ℝ) + 1)) := by
      rw [e0]
      congr 1
      funext x k
      push_cast
      rfl
    rw [e1]
    refine ⟨c, _, hc, he, rfl, ?_⟩
    have hprod : (ks.map Nat.factorial).prod ≠ 0 := by
      intro h0; rw [h0, mul_zero] at he; exact (Nat.factorial_ne_zero _) he.symm
    have hlogs : (ks.map fun k : Nat => Real.log (k.factorial : ℝ)).sum = Real.log (((ks.map Nat.factorial).prod : Nat) : ℝ) := by
      rw [← log_prod_factorial]
      exact congrArg List.sum (List.map_congr_left fun k _ => (lgamma_nat k).symm)
    have hsplit : Real.log (ks.sum.factorial : ℝ) = Real.log (c : ℝ) + Real.log (((ks.map Nat.factorial).prod : Nat) : ℝ) := by
      rw [← he, Nat.cast_mul, Real.log_mul (by exact_mod_cast hc.ne') (by exact_mod_cast hprod)]
    have hc0 : 0 ≤ Real.log (c : ℝ) := Real.log_nonneg (by exact_mod_cast hc)
    have n1 := Near.foldl hu0 hr ks (le_refl 1) (fun k _ => (hgl k).near) (hgl ks.sum).near
    have n2 := ((n1.div hu0 hu log_two_pos hln).round hu0 hr).linear hu0 (by
      rw [show 1 + ks.length + 2 + 1 = ks.length + 4 by ring]; exact hk)
    have habs : (ks.map fun k : Nat => |Real.log (k.factorial : ℝ)|) = ks.map fun k : Nat => Real.log (k.factorial : ℝ) :=
      List.map_congr_left fun k _ => abs_of_nonneg (log_factorial_nonneg k)
    rw [habs, hlogs, abs_of_nonneg (log_factorial_nonneg _), show 1 + ks.length + 2 + 1 = ks.length + 4 by ring] at n2
    have e2 : (Real.log (ks.sum.factorial : ℝ) - Real.log (((ks.map Nat.factorial).prod : Nat) : ℝ)) / Real.log 2 = Real.logb 2 c := by
      rw [hsplit, add_sub_cancel_right]; rfl
    rw [e2] at n2
    refine n2.trans ?_
    have h3 : (Real.log (ks.sum.factorial : ℝ) + Real.log (((ks.map Nat.factorial).prod : Nat) : ℝ)) / Real.log 2 ≤
        2 * Real.logb 2 (ks.sum.factorial : ℝ) := by
      rw [Real.logb, mul_div_assoc', div_le_div_iff_of_pos_right log_two_pos]
      linarith
    calc 2 * ((ks.length + 4 : Nat) : ℝ) * u * _ ≤ 2 * ((ks.length + 4 : Nat) : ℝ) * u * (2 * Real.logb 2 (ks.sum.factorial : ℝ)) :=
          mul_le_mul_of_nonneg_left h3 (by positivity)
      _ = _ := by ring

/-- C184: one class costs exactly nothing, also with rounding, as long as rounding leaves the results of `gammaln` as they are -/
theorem C184_one_class {gl ln r : ℝ → ℝ} {u : ℝ} (hr : ∀ y, Close u (r y) y) (hgl : ∀ n : Nat, Close u (gl ((n : ℝ) + 1)) (Real.log (n.factorial : ℝ)))
    (hrg : ∀ x, r (gl x) = gl x) (n a b : Nat) :
    log2multinom gl ln r n ((List.replicate a (0 : Int)) ++ (n : Int) :: List.replicate b (0 : Int)) = .ok 0 := by
  have hr0 : r 0 = 0 := by
    have := hr 0
    unfold Close at this
    rw [abs_zero, mul_zero, sub_zero] at this
    exact abs_eq_zero.1 (le_antisymm this (abs_nonneg _))
  have hg1 : gl 1 = 0 := by
    have := hgl 0
    unfold Close at this
    simpa using this
  have hzero : ∀ (k : Nat) (x : ℝ), r x = x →
      (List.replicate k (0 : Int)).foldl (fun result (k : Int) => r (result - gl ((k + 1 : Int) : ℝ))) x = x := by
    intro k
    induction k with
    | zero => intro x _; rfl
    | succ k ih =>
      intro x hx
      rw [List.replicate_succ, List.foldl_cons]
      have : r (x - gl (((0 : Int) + 1 : Int) : ℝ)) = x := by
        rw [show (((0 : Int) + 1 : Int) : ℝ) = 1 by norm_num, hg1, sub_zero, hx]
      rw [this, ih x hx]
  have hsum : (List.replicate a (0 : Int) ++ (n : Int) :: List.replicate b (0 : Int)).sum = n := by simp
  rw [log2multinom, if_neg (by rw [hsum]; simp), List.foldl_append, hzero a _ (hrg _), List.foldl_cons, sub_self, hr0, hzero b 0 hr0,
    zero_div, hr0]

/-- C184: `log2binom` with rounded arithmetic: exact for `k = 0`, and otherwise with an error of at most
`10 u (log2 binom(n, k) + 2 log2(n + 1))` bits. -/
theorem C184_log2binom {bl : ℝ → ℝ → ℝ} {lg ln r : ℝ → ℝ} {u : ℝ} (hu0 : 0 ≤ u) (hu : u ≤ 1 / 5) (hr : ∀ y, Close u (r y) y)
    (hlg : ∀ x, 0 < x → Close u (lg x) (Real.logb 2 x)) (hln : ∀ x, 0 < x → Close u (ln x) (Real.log x))
    (hbl : ∀ a b : Nat, 0 < a → 0 < b → Close u (bl a b) (betaln a b)) (n k : Nat) (hk : k ≤ n) :
    (k = 0 → log2binom bl lg ln r n k = 0) ∧
    |log2binom bl lg ln r n k - Real.logb 2 (n.choose k)| ≤ 10 * u * (Real.logb 2 (n.choose k) + 2 * Real.logb 2 ((n : ℝ) + 1)) := by
  have hC : 0 ≤ Real.logb 2 (n.choose k) := Real.logb_nonneg (by norm_num) (by exact_mod_cast Nat.choose_pos hk)
  have hN : 0 ≤ Real.logb 2 ((n : ℝ) + 1) := Real.logb_nonneg (by norm_num) (by simp)
  refine ⟨fun h => by subst h; simp [log2binom], ?_⟩
  by_cases h0 : k = 0
  · subst h0
    have : log2binom bl lg ln r n ((0 : Nat) : Int) = 0 := by simp [log2binom]
    rw [this]
    simp only [Nat.choose_zero_right, Nat.cast_one, Real.logb_one, sub_zero, abs_zero]
    positivity
  by_cases h1 : k = 1
  · subst h1
    have : log2binom bl lg ln r n ((1 : Nat) : Int) = lg n := by simp [log2binom]
    rw [this, Nat.choose_one_right]
    rw [Nat.choose_one_right] at hC
    have h2 := hlg n (by exact_mod_cast (by omega : 0 < n))
    unfold Close at h2
    rw [abs_of_nonneg hC] at h2
    refine h2.trans ?_
    nlinarith [mul_nonneg hu0 hC, mul_nonneg hu0 hN]
  have hex := Mdl.C18_log2binom n k hk
  rw [log2binom, if_neg (by exact_mod_cast h0), if_neg (by exact_mod_cast h1)]
  rw [Mdl.log2binom, if_neg (by exact_mod_cast h0), if_neg (by exact_mod_cast h1)] at hex
  have e1 : ((1 + (n : Int) - (k : Int) : Int) : ℝ) = ((1 + n - k : Nat) : ℝ) := by
    rw [Nat.cast_sub (by omega)]; push_cast; ring
  have e2 : ((1 + (k : Int) : Int) : ℝ) = ((1 + k : Nat) : ℝ) := by push_cast; ring
  have e3 : (((n : Int) + 1 : Int) : ℝ) = (n : ℝ) + 1 := by push_cast; ring
  have e4 : (1 + ((n : Int) : ℝ) - ((k : Int) : ℝ)) = ((1 + n - k : Nat) : ℝ) := by
    rw [Nat.cast_sub (by omega)]; push_cast; ring
  have e5 : (1 + ((k : Int) : ℝ)) = ((1 + k : Nat) : ℝ) := by push_cast; ring
  have e6 : (((n : Int) : ℝ) + 1) = (n : ℝ) + 1 := by push_cast; ring
  rw [e1, e2, e3]
  rw [e4, e5, e6] at hex
  have hb := (hbl (1 + n - k) (1 + k) (by omega) (by omega)).near.neg
  have hl := (hln ((n : ℝ) + 1) (by positivity)).near
  have n2 := ((((hb.sub hl).round hu0 hr).div hu0 (by linarith) log_two_pos (hln 2 (by norm_num))).round hu0 hr).linear hu0
    (by norm_num; linarith)
  rw [hex] at n2
  refine n2.trans (le_of_eq ?_)
  have hN' : 0 ≤ Real.log ((n : ℝ) + 1) := Real.log_nonneg (by simp)
  have hbeta : - betaln ((1 + n - k : Nat) : ℝ) ((1 + k : Nat) : ℝ) = Real.logb 2 (n.choose k) * Real.log 2 + Real.log ((n : ℝ) + 1) := by
    rw [← hex, div_mul_cancel₀ _ log_two_pos.ne']; ring
  have hbabs : |betaln ((1 + n - k : Nat) : ℝ) ((1 + k : Nat) : ℝ)| = Real.logb 2 (n.choose k) * Real.log 2 + Real.log ((n : ℝ) + 1) := by
    rw [← abs_neg, hbeta, abs_of_nonneg (add_nonneg (mul_nonneg hC log_two_pos.le) hN')]
  rw [hbabs, abs_of_nonneg hN']
  have : Real.log ((n : ℝ) + 1) = Real.logb 2 ((n : ℝ) + 1) * Real.log 2 := by
    rw [Real.logb, div_mul_cancel₀ _ log_two_pos.ne']
  rw [this]
  field_simp
  push_cast
  ring

/-- C184: `L_U(m, n)` with rounded arithmetic, for `1 ≤ n ≤ m` -/
theorem C184_LU {bl : ℝ → ℝ → ℝ} {lg ln r : ℝ → ℝ} {u : ℝ} (hu0 : 0 ≤ u) (hu : u ≤ 1 / 5) (hr : ∀ y, Close u (r y) y)
    (hlg : ∀ x, 0 < x → Close u (lg x) (Real.logb 2 x)) (hln : ∀ x, 0 < x → Close u (ln x) (Real.log x))
    (hbl : ∀ a b : Nat, 0 < a → 0 < b → Close u (bl a b) (betaln a b)) (m n : Nat) (hn : 1 ≤ n) (hm : n ≤ m) :
    |LU bl lg ln r m n - Real.logb 2 ((m - 1).choose (n - 1))| ≤ 10 * u * (Real.logb 2 ((m - 1).choose (n - 1)) + 2 * Real.logb 2 (m : ℝ)) := by
  have h := (C184_log2binom hu0 hu hr hlg hln hbl (m - 1) (n - 1) (by omega)).2
  have e1 : ((m - 1 : Nat) : Int) = (m : Int) - 1 := by omega
  have e2 : ((n - 1 : Nat) : Int) = (n : Int) - 1 := by omega
  have e3 : ((m - 1 : Nat) : ℝ) + 1 = m := by rw [Nat.cast_sub (by omega)]; push_cast; ring
  rw [e1, e2, e3] at h
  rw [LU, if_neg (by omega)]
  exact h

/-- C184: `prequential_coding_length` with rounded arithmetic. If the sums `ε m`, `ε m + n` and `ε + k` are exact (as for the default
`ε = 0.5`) and `gammaln` has a relative error of at most `u` there, then the error is at most `2 (m + 5) u` times the sum of the absolute
values of the logarithms of which the result consists. -/
theorem C184_prequential {σ : Type} [DecidableEq σ] {gl ln r : ℝ → ℝ} {u : ℝ} (hu0 : 0 ≤ u) (hu : u ≤ 1 / 2) (hr : ∀ y, Close u (r y) y)
    (hln : Close u (ln 2) (Real.log 2)) (ε : ℝ) (hε : 0 < ε) (alphabet : List σ) (hn : alphabet.Nodup) (xs : List σ)
    (hx : ∀ x ∈ xs, x ∈ alphabet) (hk : ((alphabet.length + 5 : Nat) : ℝ) * u ≤ 1)
    (hr1 : r (ε * alphabet.length) = ε * alphabet.length)
    (hr2 : r (ε * alphabet.length + xs.length) = ε * alphabet.length + xs.length)
    (hr3 : ∀ a ∈ alphabet, r (ε + xs.count a) = ε + xs.count a)
    (g1 : Close u (gl (ε * alphabet.length + xs.length)) (lgamma (ε * alphabet.length + xs.length)))
    (g2 : Close u (gl (ε * alphabet.length)) (lgamma (ε * alphabet.length)))
    (g3 : ∀ a ∈ alphabet, Close u (gl (ε + xs.count a)) (lgamma (ε + xs.count a))) (g4 : Close u (gl ε) (lgamma ε)) :
    |prequentialCodingLength gl ln r (alphabet.map fun a => xs.count a) ε - sequentialBits ε alphabet.length [] xs| ≤
      2 * ((alphabet.length + 5 : Nat) : ℝ) * u * ((|lgamma (ε * alphabet.length + xs.length)| + |lgamma (ε * alphabet.length)| +
        (alphabet.map fun a => |lgamma (ε + xs.count a)| + |lgamma ε|).sum) / Real.log 2) := by
  have hlen : (alphabet.map fun a => xs.count a).foldl (· + ·) 0 = xs.length := by
    have hfold : ∀ (l : List Nat) (a : Nat), l.foldl (· + ·) a = a + l.sum := by
      intro l; induction l with
      | nil => simp
      | cons b l ih => intro a; simp [ih]; omega
    rw [hfold, zero_add, Mdl.sum_counts alphabet hn xs hx]
  rw [← Mdl.C20_prequential ε hε alphabet hn xs hx]
  unfold prequentialCodingLength Mdl.prequentialCodingLength
  simp only [List.length_map, hlen]
  have hA : 0 ≤ (alphabet.map fun a => |lgamma (ε + xs.count a)| + |lgamma ε|).sum :=
    List.sum_nonneg (by
      intro y hy
      obtain ⟨a, -, rfl⟩ := List.mem_map.1 hy
      positivity)
  split
  · rw [sub_zero, abs_zero]
    have := log_two_pos
    positivity
  · next hcond =>
    clear hcond
    rw [List.foldl_map, List.foldl_map, hr1, hr2]
    have n1 := (g1.near.sub g2.near).round hu0 hr
    have n2 := Near.foldl hu0 hr alphabet (le_refl 2)
      (fun a ha => ((g3 a ha).near.sub g4.near).round hu0 hr) n1
    have e1 : alphabet.foldl (fun (x : ℝ) (a : σ) => r (x - r (gl (r (ε + ((xs.count a : Nat) : ℝ))) - gl ε)))
          (r (gl (ε * alphabet.length + xs.length) - gl (ε * alphabet.length))) =
        alphabet.foldl (fun (x : ℝ) (a : σ) => r (x - r (gl (ε + ((xs.count a : Nat) : ℝ)) - gl ε)))
          (r (gl (ε * alphabet.length + xs.length) - gl (ε * alphabet.length))) := by
      generalize r (gl (ε * alphabet.length + xs.length) - gl (ε * alphabet.length)) = y
      clear n1 n2 hlen hA hn hx g1 g2 g3 hr1 hr2 hk
      induction alphabet generalizing y with
      | nil => rfl
      | cons b l ih =>
        rw [List.foldl_cons, List.foldl_cons, hr3 b (by simp)]
        exact ih (fun a ha => hr3 a (List.mem_cons_of_mem _ ha)) _
    rw [e1, foldl_sub]
    have n3 := ((n2.div hu0 hu log_two_pos hln).round hu0 hr).linear hu0 (by
      rw [show 1 + 1 + alphabet.length + 2 + 1 = alphabet.length + 5 by ring]; exact hk)
    rw [show 1 + 1 + alphabet.length + 2 + 1 = alphabet.length + 5 by ring] at n3
    exact n3

/-- C184: `sum_log_i_from_1_to_n` with rounded arithmetic: ValueError for `n < 1`, and otherwise a result with a relative error of at most
`8 u`, which is the same whether it is taken from the table or computed. -/
theorem C184_sumLog {gl ln r : ℝ → ℝ} {u : ℝ} (hu0 : 0 ≤ u) (hu : u ≤ 1 / 4) (hr : ∀ y, Close u (r y) y)
    (hln : Close u (ln 2) (Real.log 2)) (hgl : ∀ n : Nat, Close u (gl ((n : ℝ) + 1)) (Real.log (n.factorial : ℝ))) (n : Int) :
    (n < 1 → sumLog gl ln r n = .error .value) ∧
    (1 ≤ n → ∃ v, sumLog gl ln r n = .ok v ∧ sumLogWith gl ln r [] n = .ok v ∧
      |v - Real.logb 2 (n.toNat.factorial : ℝ)| ≤ 8 * u * Real.logb 2 (n.toNat.factorial : ℝ)) := by
  have hW : ∀ m : Int, 1 ≤ m → sumLogWith gl ln r [] m = .ok (r (gl ((m + 1 : Int) : ℝ) / ln 2)) := by
    intro m hm
    rw [sumLogWith, if_neg (by omega)]
    simp
  have htab : sumLogTable gl ln r = .ok ((List.range 100).map fun i : Nat => r (gl ((((i : Int) + 1) + 1 : Int) : ℝ) / ln 2)) := by
    unfold sumLogTable
    exact mapM_ok _ _ _ fun i _ => hW _ (by omega)
  have hval : ∀ m : Int, 1 ≤ m → sumLog gl ln r m = .ok (r (gl ((m + 1 : Int) : ℝ) / ln 2)) := by
    intro m hm
    unfold sumLog
    rw [htab]
    show sumLogWith gl ln r _ m = _
    rw [sumLogWith, if_neg (by omega), List.getElem?_map]
    by_cases hl : (m - 1).toNat < 100
    · rw [List.getElem?_range hl]
      simp only [Option.map_some]
      rw [show (((m - 1).toNat : Int) + 1 + 1) = m + 1 by omega]
    · rw [List.getElem?_eq_none (by simpa using hl)]
      rfl
  refine ⟨fun h => ?_, fun h => ⟨_, hval n h, hW n h, ?_⟩⟩
  · unfold sumLog
    rw [htab]
    show sumLogWith gl ln r _ n = _
    rw [sumLogWith, if_pos h]
  · have e : ((n + 1 : Int) : ℝ) = ((n.toNat : Nat) : ℝ) + 1 := by
      have : (n : ℝ) = ((n.toNat : Nat) : ℝ) := by
        have := Int.toNat_of_nonneg (by omega : 0 ≤ n)
        exact_mod_cast this.symm
      push_cast
      rw [this]
    rw [e]
    have n2 := (((hgl n.toNat).near.div hu0 (by linarith) log_two_pos hln).round hu0 hr).linear hu0 (by norm_num; linarith)
    rw [abs_of_nonneg (log_factorial_nonneg _)] at n2
    refine n2.trans (le_of_eq ?_)
    unfold Real.logb
    push_cast
    ring

/-- correctly rounded operations with 53 significant bits meet the hypotheses -/
theorem close_rnd (y : ℝ) : Close (1 / 2 ^ 53) (FloatReal.rnd 53 y) y := by
  have := FloatReal.rnd_err 53 y
  unfold Close
  rw [div_mul_eq_mul_div, one_mul, le_div_iff₀ (by norm_num)]
  exact this

/-- with correctly rounded operations, the multinomial coefficient of 1000 classes is exact up to `4016 * 2 ^ -53 * log2(n!)` bits -/
example (ks : List Nat) (h : ks.length = 1000) : ∃ (c : Nat) (v : ℝ), c * (ks.map Nat.factorial).prod = ks.sum.factorial ∧
    log2multinom (fun x => FloatReal.rnd 53 (lgamma x)) (fun x => FloatReal.rnd 53 (Real.log x)) (FloatReal.rnd 53) ks.sum (ks.map Nat.cast) = .ok v ∧
    |v - Real.logb 2 c| ≤ 4016 * (1 / 2 ^ 53) * Real.logb 2 ks.sum.factorial := by
  obtain ⟨c, v, -, h2, h3, h4⟩ := (C184_log2multinom (gl := fun x => FloatReal.rnd 53 (lgamma x)) (ln := fun x => FloatReal.rnd 53 (Real.log x))
    (by norm_num) (by norm_num) close_rnd (close_rnd _) (fun n => by rw [← lgamma_nat]; exact close_rnd _) ks.sum ks).2 rfl
    (by rw [h]; norm_num)
  refine ⟨c, v, h2, h3, h4.trans (le_of_eq ?_)⟩
  rw [h]; norm_num

end Prolothar.MdlRounded
