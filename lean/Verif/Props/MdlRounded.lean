import Verif.Model.MdlRounded
import Verif.Lemmas.Kraft
import Verif.Lemmas.FloatReal
/-
Property C165 of /repo/prolothar_common/mdl_utils.pyx: `L_N` with rounded arithmetic.
The exact value is specified by `UniversalLength` in `Verif/Spec/Mdl.lean`.
-/
namespace Prolothar.MdlRounded
open Prolothar.Mdl (IterLogSum UniversalLength logb_le_of_pow log2_pos mapM_ok)

/-- `lg` is a logarithm to base 2 with relative error `u`, `r` rounds with relative error `u`, and
`c0` is 2.8565064 with relative error `u`. In IEEE 754 double precision `u` is `2 ^ -53` for correctly
rounded operations and `2 ^ -52` for results that are off by less than one unit in the last place. -/
structure Accurate (lg r : ℝ → ℝ) (c0 u : ℝ) : Prop where
  log : ∀ x, 0 < x → |lg x - Real.logb 2 x| ≤ u * |Real.logb 2 x|
  round : ∀ y, |r y - y| ≤ u * |y|
  const : |c0 - 2.8565064| ≤ u * 2.8565064

/-! ### the sum of the iterated logarithms is Lipschitz -/

/-- `0, 1, 2, 4, 16, ...` -/
noncomputable def depthBound : Nat → ℝ
  | 0 => 0
  | n + 1 => 2 ^ depthBound n

/-- Lipschitz constants -/
noncomputable def lip : Nat → ℝ
  | 0 => 0
  | n + 1 => 1 + 1.45 * lip n

theorem lip_nonneg (k : Nat) : 0 ≤ lip k := by
  induction k with
  | zero => exact le_rfl
  | succ k ih => unfold lip; positivity

/-- `log2` between `a` and `b`, both at least 1 -/
theorem logb_sub_le {a b : ℝ} (ha : 1 ≤ a) (hab : a ≤ b) :
    Real.logb 2 b - Real.logb 2 a ≤ 1.45 * (b - a) := by
  have ha0 : 0 < a := by linarith
  have hb0 : 0 < b := by linarith
  have h1 : Real.log b - Real.log a ≤ b - a := by
    rw [← Real.log_div hb0.ne' ha0.ne']
    have h := Real.log_le_sub_one_of_pos (div_pos hb0 ha0)
    have h2 : b / a - 1 ≤ b - a := by
      rw [div_sub_one ha0.ne', div_le_iff₀ ha0]
      nlinarith
    linarith
  have h3 : (0.6931471803 : ℝ) < Real.log 2 := Real.log_two_gt_d9
  unfold Real.logb
  rw [← sub_div, div_le_iff₀ log2_pos]
  nlinarith

theorem iterLogSum_lip (k : Nat) {x y s t : ℝ} (hx : IterLogSum x s) (hy : IterLogSum y t)
    (hxy : x ≤ y) (hk : y ≤ depthBound k) : t - s ≤ lip k * (y - x) := by
  induction k generalizing x y s t with
  | zero =>
    cases hy with
    | stop _ => have := hx.nonneg; unfold lip; linarith
    | step h _ => exact absurd hk (not_le.2 h)
  | succ k ih =>
    have hl := lip_nonneg k
    cases hy with
    | stop h =>
      have := hx.nonneg
      have := mul_nonneg (lip_nonneg (k + 1)) (sub_nonneg.2 hxy)
      linarith
    | @step _ t h hy' =>
      have hyk : Real.logb 2 y ≤ depthBound k :=
        (Real.logb_le_iff_le_rpow (by norm_num) h).2 hk
      -- the further terms of `y` exceed those of any point between 0 and `y`
      have key : ∀ z w : ℝ, IterLogSum (Real.logb 2 z) w → 0 < z → z ≤ y →
          t - w ≤ lip k * (1.45 * (y - z)) := by
        intro z w hz hz0 hzy
        rcases le_or_gt y 1 with hy1 | hy1
        · have h0 : t = 0 := by
            cases hy' with
            | stop _ => rfl
            | step h' _ =>
              exact absurd ((Real.logb_nonpos_iff (b := 2) (by norm_num) h).2 hy1) (not_le.2 h')
          have := hz.nonneg
          have : 0 ≤ lip k * (1.45 * (y - z)) :=
            mul_nonneg hl (by linarith)
          linarith
        · rcases le_or_gt 1 z with hz1 | hz1
          · have h2 := ih hz hy' (Real.logb_le_logb_of_le (by norm_num) hz0 hzy) hyk
            exact le_trans h2 (mul_le_mul_of_nonneg_left (logb_sub_le hz1 hzy) hl)
          · have h2 := ih (IterLogSum.stop le_rfl) hy' (Real.logb_nonneg (by norm_num) hy1.le) hyk
            have h3 := logb_sub_le (le_refl (1 : ℝ)) hy1.le
            rw [Real.logb_one] at h3
            have := hz.nonneg
            have h4 : lip k * (Real.logb 2 y - 0) ≤ lip k * (1.45 * (y - z)) :=
              mul_le_mul_of_nonneg_left (by linarith) hl
            linarith
      have e : lip (k + 1) = 1 + 1.45 * lip k := rfl
      rw [e]
      cases hx with
      | stop hx0 =>
        have h1 : t ≤ lip k * (1.45 * y) := by
          rcases le_or_gt y 1 with hy1 | hy1
          · have h0 : t = 0 := by
              cases hy' with
              | stop _ => rfl
              | step h' _ =>
                exact absurd ((Real.logb_nonpos_iff (b := 2) (by norm_num) h).2 hy1) (not_le.2 h')
            rw [h0]; positivity
          · have h2 := key 1 0 (IterLogSum.stop (by simp)) one_pos hy1.le
            have h3 : lip k * (1.45 * (y - 1)) ≤ lip k * (1.45 * y) :=
              mul_le_mul_of_nonneg_left (by linarith) hl
            linarith
        have h2 : 0 ≤ (1.45 * lip k) * (-x) := mul_nonneg (by positivity) (by linarith)
        nlinarith
      | @step _ s hx0 hx' =>
        have h1 := key x s hx' hx0 hxy
        nlinarith

/-- the sum is Lipschitz with constant 13 up to 65536 -/
theorem iterLogSum_dist {x y s t : ℝ} (hx : IterLogSum x s) (hy : IterLogSum y t)
    (hx2 : x ≤ 65536) (hy2 : y ≤ 65536) : |t - s| ≤ 13 * |y - x| := by
  have e : depthBound 5 = 65536 := by
    norm_num [depthBound]
  have hl : lip 5 ≤ 13 := by norm_num [lip]
  rcases le_total x y with h | h
  · have h1 := iterLogSum_lip 5 hx hy h (by rw [e]; exact hy2)
    have h2 := hx.mono hy h
    rw [abs_of_nonneg (by linarith), abs_of_nonneg (by linarith)]
    exact le_trans h1 (mul_le_mul_of_nonneg_right hl (by linarith))
  · have h1 := iterLogSum_lip 5 hy hx h (by rw [e]; exact hx2)
    have h2 := hy.mono hx h
    rw [abs_sub_comm, abs_sub_comm y, abs_of_nonneg (by linarith), abs_of_nonneg (by linarith)]
    exact le_trans h1 (mul_le_mul_of_nonneg_right hl (by linarith))

/-! ### the loop -/

/-- from a summand of at most `T` and a partial sum of at most `B` the loop needs at most `k`
rounds, and its result is `E` away from the exact one -/
def Good (lg r : ℝ → ℝ) (k : Nat) (T B E : ℝ) : Prop :=
  ∀ c x s, 0 ≤ c → c ≤ B → x ≤ T → IterLogSum x s →
    ∃ v, (∀ fuel, k + 1 ≤ fuel → LNLoop lg r fuel c x = .ok v) ∧ |v - (c + s)| ≤ E

theorem good_zero (lg r : ℝ → ℝ) (B : ℝ) : Good lg r 0 0 B 0 := by
  intro c x s _ _ hx hs
  refine ⟨c, fun fuel hf => ?_, ?_⟩
  · obtain ⟨fuel, rfl⟩ := Nat.exists_eq_succ_of_ne_zero (by omega : fuel ≠ 0)
    rw [LNLoop, if_neg (not_lt.2 hx)]
  · cases hs with
    | stop _ => simp
    | step h _ => exact absurd hx (not_le.2 h)

theorem good_step {lg r : ℝ → ℝ} {c0 u : ℝ} (h : Accurate lg r c0 u) (hu0 : 0 ≤ u) (hu : u ≤ 1 / 2 ^ 20)
    {k p q : Nat} {T B E T' B' E' : ℝ} (ih : Good lg r k T' B' E') (hT0 : 0 < T)
    (hT' : 0 ≤ T') (hq : 0 < q) (hpow : T ^ q ≤ 2 ^ p) (hpq : (p : ℝ) / q * (1 + 1 / 2 ^ 20) ≤ T')
    (hp6 : (p : ℝ) / q ≤ 6) (hBB : (B + T) * (1 + 1 / 2 ^ 20) ≤ B') (hB : B + T ≤ 52) (hE : E' + 130 * u ≤ E) :
    Good lg r (k + 1) T B E := by
  intro c x s hc hcB hxT hs
  cases hs with
  | stop hx =>
    refine ⟨c, fun fuel hf => ?_, ?_⟩
    · obtain ⟨fuel, rfl⟩ := Nat.exists_eq_succ_of_ne_zero (by omega : fuel ≠ 0)
      rw [LNLoop, if_neg (not_lt.2 hx)]
    · obtain ⟨v, _, hv⟩ := ih 0 0 0 le_rfl (le_trans (by
        have : 0 ≤ (B + T) * (1 + 1 / 2 ^ 20) := by
          apply mul_nonneg <;> [linarith; norm_num]
        exact this) hBB) hT' (.stop le_rfl)
      have := abs_nonneg (v - (0 + 0))
      have : 0 ≤ E := by linarith
      simpa using this
  | @step _ s hx hs =>
    have hcx : 0 ≤ c + x := by linarith
    have hr := h.round (c + x)
    rw [abs_of_nonneg hcx] at hr
    have hr' := abs_le.1 hr
    have hucx : u * (c + x) ≤ 1 / 2 ^ 20 * (c + x) := mul_le_mul_of_nonneg_right hu hcx
    have hlog : Real.logb 2 x ≤ p / q :=
      le_trans (Real.logb_le_logb_of_le (by norm_num) hx hxT) (logb_le_of_pow hT0 hq hpow)
    have hl := h.log x hx
    have hl' := abs_le.1 hl
    -- the next summand
    have hnext : lg x ≤ T' := by
      rcases le_or_gt (Real.logb 2 x) 0 with h0 | h0
      · rw [abs_of_nonpos h0] at hl'
        have : u * -Real.logb 2 x ≤ 1 * -Real.logb 2 x :=
          mul_le_mul_of_nonneg_right (by linarith [show (1 : ℝ) / 2 ^ 20 ≤ 1 by norm_num]) (by linarith)
        linarith
      · rw [abs_of_pos h0] at hl'
        have h1 : u * Real.logb 2 x ≤ 1 / 2 ^ 20 * Real.logb 2 x :=
          mul_le_mul_of_nonneg_right hu h0.le
        have h2 : Real.logb 2 x * (1 + 1 / 2 ^ 20) ≤ p / q * (1 + 1 / 2 ^ 20) :=
          mul_le_mul_of_nonneg_right hlog (by norm_num)
        linarith
    obtain ⟨w, hw⟩ := IterLogSum.total (lg x)
    have hcT : (c + x) * (1 + 1 / 2 ^ 20) ≤ (B + T) * (1 + 1 / 2 ^ 20) :=
      mul_le_mul_of_nonneg_right (by linarith) (by norm_num)
    have hrc0 : 0 ≤ r (c + x) := by
      have : u * (c + x) ≤ 1 * (c + x) :=
        mul_le_mul_of_nonneg_right (by linarith [show (1 : ℝ) / 2 ^ 20 ≤ 1 by norm_num]) hcx
      linarith
    obtain ⟨v, hv1, hv2⟩ := ih (r (c + x)) (lg x) w hrc0 (by linarith) hnext hw
    refine ⟨v, fun fuel hf => ?_, ?_⟩
    · obtain ⟨fuel, rfl⟩ := Nat.exists_eq_succ_of_ne_zero (by omega : fuel ≠ 0)
      rw [LNLoop, if_pos hx]
      exact hv1 fuel (by omega)
    · -- the exact and the rounded summand have nearly the same sum
      have hws : |w - s| ≤ 78 * u := by
        rcases le_or_gt (Real.logb 2 x) 0 with h0 | h0
        · have e1 : s = 0 := by
            cases hs with
            | stop _ => rfl
            | step h' _ => exact absurd h0 (not_le.2 h')
          have hlx : lg x ≤ 0 := by
            rw [abs_of_nonpos h0] at hl'
            have : u * -Real.logb 2 x ≤ 1 * -Real.logb 2 x :=
              mul_le_mul_of_nonneg_right (by linarith [show (1 : ℝ) / 2 ^ 20 ≤ 1 by norm_num]) (by linarith)
            linarith
          have e2 : w = 0 := by
            cases hw with
            | stop _ => rfl
            | step h' _ => exact absurd hlx (not_le.2 h')
          rw [e1, e2]; simp; positivity
        · rw [abs_of_pos h0] at hl
          have h6 : Real.logb 2 x ≤ 6 := by linarith
          have h7 : u * Real.logb 2 x ≤ u * 6 := mul_le_mul_of_nonneg_left h6 hu0
          have h8 : lg x ≤ 65536 := by
            have := (abs_le.1 hl).2
            have : u * 6 ≤ 1 / 2 ^ 20 * 6 := mul_le_mul_of_nonneg_right hu (by norm_num)
            norm_num at this
            linarith
          have h9 := iterLogSum_dist hs hw (by linarith) h8
          linarith
      have hsum : u * (c + x) ≤ u * 52 := mul_le_mul_of_nonneg_left (by linarith) hu0
      have hws' := abs_le.1 hws
      have hv' := abs_le.1 hv2
      rw [abs_le]
      constructor <;> linarith

set_option exponentiation.threshold 2000 in
/-- five rounds from a summand of at most 33 -/
theorem good_five {lg r : ℝ → ℝ} {c0 u : ℝ} (h : Accurate lg r c0 u) (hu0 : 0 ≤ u)
    (hu : u ≤ 1 / 2 ^ 20) : Good lg r 5 33 2 (650 * u) := by
  have g0 := good_zero lg r 60
  have g1 : Good lg r 1 0.7 50 (130 * u) :=
    good_step h hu0 hu (p := 0) (q := 1) g0 (by norm_num) le_rfl (by norm_num)
      (by norm_num) (by norm_num) (by norm_num) (by norm_num) (by norm_num) (by linarith)
  have g2 : Good lg r 2 1.6 47 (260 * u) :=
    good_step h hu0 hu (p := 69) (q := 100) g1 (by norm_num) (by norm_num) (by norm_num)
      (by norm_num) (by norm_num) (by norm_num) (by norm_num) (by norm_num) (by linarith)
  have g3 : Good lg r 3 3 43 (390 * u) :=
    good_step h hu0 hu (p := 159) (q := 100) g2 (by norm_num) (by norm_num) (by norm_num)
      (by norm_num) (by norm_num) (by norm_num) (by norm_num) (by norm_num) (by linarith)
  have g4 : Good lg r 4 6 36 (520 * u) :=
    good_step h hu0 hu (p := 26) (q := 10) g3 (by norm_num) (by norm_num) (by norm_num)
      (by norm_num) (by norm_num) (by norm_num) (by norm_num) (by norm_num) (by linarith)
  exact good_step h hu0 hu (p := 51) (q := 10) g4 (by norm_num) (by norm_num) (by norm_num)
      (by norm_num) (by norm_num) (by norm_num) (by norm_num) (by norm_num) (by linarith)

/-- the value that `L_N` computes, without and with the table -/
theorem LN_spec {lg r : ℝ → ℝ} {c0 u : ℝ} (h : Accurate lg r c0 u) (hu0 : 0 ≤ u)
    (hu : u ≤ 1 / 2 ^ 20) :
    ∃ f : Int → ℝ, ∀ n : Int, 1 ≤ n → n ≤ 2 ^ 31 →
      (∀ fuel, 6 ≤ fuel → LN lg r c0 fuel n = .ok (f n) ∧ LNWith lg r c0 [] fuel n = .ok (f n)) ∧
      ∀ w, UniversalLength n w → |f n - w| ≤ 2048 * u := by
  have hc := abs_le.1 h.const
  have hu1 : (u : ℝ) ≤ 1 := le_trans hu (by norm_num)
  have hc0 : 2.8565 ≤ c0 ∧ c0 ≤ 2.8566 := by
    norm_num at hu
    norm_num at hc ⊢
    constructor <;> linarith
  -- the constant
  have hlc : Real.logb 2 c0 ≤ 1.52 := by
    have := logb_le_of_pow (x := c0) (p := 38) (q := 25) (by linarith) (by norm_num)
      (le_trans (pow_le_pow_left₀ (by linarith) hc0.2 _) (by norm_num))
    norm_num at this ⊢
    exact this
  have hlc0 : 0 ≤ Real.logb 2 c0 := Real.logb_nonneg (by norm_num) (by linarith)
  have hcl := h.log c0 (by linarith)
  rw [abs_of_nonneg hlc0] at hcl
  have hcl' := abs_le.1 hcl
  have hu152 : u * Real.logb 2 c0 ≤ u * 1.52 := mul_le_mul_of_nonneg_left hlc hu0
  have hcd : |Real.logb 2 c0 - Real.logb 2 2.8565064| ≤ 4.2 * u := by
    norm_num at hc
    rcases le_total c0 2.8565064 with hh | hh
    · have := logb_sub_le (a := c0) (b := 2.8565064) (by linarith) hh
      have hm : Real.logb 2 c0 ≤ Real.logb 2 2.8565064 :=
        Real.logb_le_logb_of_le (by norm_num) (by linarith) hh
      rw [abs_sub_comm, abs_of_nonneg (by linarith)]
      norm_num at this hh ⊢
      linarith
    · have := logb_sub_le (a := 2.8565064) (b := c0) (by norm_num) hh
      have hm : Real.logb 2 2.8565064 ≤ Real.logb 2 c0 :=
        Real.logb_le_logb_of_le (by norm_num) (by norm_num) hh
      rw [abs_of_nonneg (by linarith)]
      norm_num at this hh ⊢
      linarith
  have hcd' := abs_le.1 hcd
  have hstart0 : 0 ≤ lg c0 := by
    have : u * Real.logb 2 c0 ≤ 1 * Real.logb 2 c0 := mul_le_mul_of_nonneg_right hu1 hlc0
    linarith
  have hstart2 : lg c0 ≤ 2 := by
    norm_num at hu
    norm_num at hu152 hlc
    linarith
  have g := good_five h hu0 hu
  -- every number separately
  have hone : ∀ n : Int, ∃ v, 1 ≤ n → n ≤ 2 ^ 31 →
      (∀ fuel, 6 ≤ fuel → LNWith lg r c0 [] fuel n = .ok v) ∧
      ∀ w, UniversalLength n w → |v - w| ≤ 2048 * u := by
    intro n
    rcases em (1 ≤ n ∧ n ≤ 2 ^ 31) with ⟨hn, hn2⟩ | hno
    · have hn0 : (0 : ℝ) < n := by exact_mod_cast hn
      have hn1 : (1 : ℝ) ≤ n := by exact_mod_cast hn
      have hx : Real.logb 2 n ≤ 31 := by
        have := logb_le_of_pow (x := (n : ℝ)) (p := 31) (q := 1) hn0 (by norm_num)
          (by rw [pow_one]; exact_mod_cast hn2)
        norm_num at this
        exact this
      have hx0 : 0 ≤ Real.logb 2 (n : ℝ) := Real.logb_nonneg (by norm_num) hn1
      have hl := h.log n hn0
      rw [abs_of_nonneg hx0] at hl
      have hl' := abs_le.1 hl
      have hu31 : u * Real.logb 2 n ≤ u * 31 := mul_le_mul_of_nonneg_left hx hu0
      have hlg : lg n ≤ 33 := by norm_num at hu; linarith
      obtain ⟨s, hs⟩ := IterLogSum.total (lg n)
      obtain ⟨v, hv1, hv2⟩ := g (lg c0) (lg n) s hstart0 hstart2 hlg hs
      refine ⟨v, fun _ _ => ⟨fun fuel hf => ?_, ?_⟩⟩
      · rw [LNWith, if_neg (by omega)]
        simpa using hv1 fuel (by omega)
      · rintro w ⟨t, ht, rfl⟩
        have h1 := iterLogSum_dist ht hs (by linarith) (by linarith)
        have h1' := abs_le.1 (le_trans h1 (mul_le_mul_of_nonneg_left hl (by norm_num)))
        have hv' := abs_le.1 hv2
        rw [abs_le]
        constructor <;> linarith
    · exact ⟨0, fun h1 h2 => absurd ⟨h1, h2⟩ hno⟩
  choose f hf using hone
  refine ⟨f, fun n hn hn2 => ⟨fun fuel hfu => ⟨?_, (hf n hn hn2).1 fuel hfu⟩, (hf n hn hn2).2⟩⟩
  have htab : LNTable lg r c0 fuel = .ok ((List.range 100).map fun m : Nat => f ((m : Int) + 1)) := by
    unfold LNTable
    refine mapM_ok _ _ _ fun m hm => ?_
    have := List.mem_range.1 hm
    exact (hf _ (by omega) (by norm_num; omega)).1 fuel hfu
  unfold LN
  simp only [htab, bind, Except.bind]
  rw [LNWith, if_neg (by omega), List.getElem?_map]
  by_cases hh : (n - 1).toNat < 100
  · rw [List.getElem?_range hh]
    simp only [Option.map_some]
    have hcast : (((n - 1).toNat : Int) + 1) = n := by omega
    rw [hcast]
  · rw [List.getElem?_eq_none (by simpa using hh)]
    simp only [Option.map_none]
    have := (hf n hn hn2).1 fuel hfu
    rw [LNWith, if_neg (by omega)] at this
    simpa using this

/-- C165: whatever the rounding, as long as the library's `log2`, the addition and the constant have a
relative error of at most `u ≤ 2 ^ -20`: for every `n` of the C type `int` the loop ends after at
most five rounds, and the result is positive and differs from the universal code length by at most
`2048 u`. -/
theorem C165_accuracy {lg r : ℝ → ℝ} {c0 u : ℝ} (h : Accurate lg r c0 u) (hu0 : 0 ≤ u)
    (hu : u ≤ 1 / 2 ^ 20) (n : Int) (hn : 1 ≤ n) (hn2 : n ≤ 2 ^ 31) :
    ∃ v w, (∀ fuel, 6 ≤ fuel → LN lg r c0 fuel n = .ok v) ∧ UniversalLength n w ∧
      |v - w| ≤ 2048 * u ∧ 0 < v := by
  obtain ⟨f, hf⟩ := LN_spec h hu0 hu
  obtain ⟨h1, h2⟩ := hf n hn hn2
  obtain ⟨s, hs⟩ := IterLogSum.total (Real.logb 2 (n : ℝ))
  have hw : UniversalLength n (Real.logb 2 2.8565064 + s) := ⟨s, hs, rfl⟩
  refine ⟨f n, _, fun fuel hfu => (h1 fuel hfu).1, hw, h2 _ hw, ?_⟩
  have h3 := abs_le.1 (h2 _ hw)
  have h4 : (1 : ℝ) ≤ Real.logb 2 2.8565064 := by
    have := Real.logb_le_logb_of_le (b := 2) (x := 2) (y := 2.8565064) (by norm_num) (by norm_num) (by norm_num)
    rwa [Real.logb_self_eq_one (by norm_num)] at this
  have h5 := hs.nonneg
  norm_num at hu h4
  norm_num at h3
  linarith

/-- C165: in double precision with a library whose results are off by less than one unit in the last
place, `L_N` is exact up to `2 ^ -41` bits. -/
theorem C165_double {lg r : ℝ → ℝ} {c0 : ℝ} (h : Accurate lg r c0 (1 / 2 ^ 52)) (n : Int)
    (hn : 1 ≤ n) (hn2 : n ≤ 2 ^ 31) :
    ∃ v w, (∀ fuel, 6 ≤ fuel → LN lg r c0 fuel n = .ok v) ∧ UniversalLength n w ∧
      |v - w| ≤ 1 / 2 ^ 41 := by
  obtain ⟨v, w, h1, h2, h3, _⟩ := C165_accuracy h (by norm_num) (by norm_num) n hn hn2
  exact ⟨v, w, h1, h2, le_trans h3 (by norm_num)⟩

/-- C165: the table of precomputed values is transparent also with rounding. -/
theorem C165_table {lg r : ℝ → ℝ} {c0 u : ℝ} (h : Accurate lg r c0 u) (hu0 : 0 ≤ u)
    (hu : u ≤ 1 / 2 ^ 20) (n : Int) (hn : 1 ≤ n) (hn2 : n ≤ 2 ^ 31) (fuel : Nat) (hf : 6 ≤ fuel) :
    LN lg r c0 fuel n = LNWith lg r c0 [] fuel n := by
  obtain ⟨f, hf'⟩ := LN_spec h hu0 hu
  obtain ⟨h1, _⟩ := hf' n hn hn2
  rw [(h1 fuel hf).1, (h1 fuel hf).2]

theorem loop_ge {lg r : ℝ → ℝ} (hr : Monotone r) (hrr : ∀ y, r (r y) = r y) :
    ∀ (fuel : Nat) (c x v : ℝ), r c = c → LNLoop lg r fuel c x = .ok v → c ≤ v := by
  intro fuel
  induction fuel with
  | zero => intro c x v _ h; cases h
  | succ fuel ih =>
    intro c x v hc h
    rw [LNLoop] at h
    by_cases hx : x > 0
    · rw [if_pos hx] at h
      have h1 := ih _ _ _ (hrr _) h
      have h2 : r c ≤ r (c + x) := hr (by linarith)
      rw [hc] at h2
      linarith
    · rw [if_neg hx] at h
      exact le_of_eq (Except.ok.inj h)

theorem loop_mono {lg r : ℝ → ℝ} (hr : Monotone r) (hrr : ∀ y, r (r y) = r y)
    (hlg : ∀ x y, 0 < x → x ≤ y → lg x ≤ lg y) :
    ∀ (fuel : Nat) (c c' x x' v v' : ℝ), r c' = c' → c ≤ c' → x ≤ x' →
      LNLoop lg r fuel c x = .ok v → LNLoop lg r fuel c' x' = .ok v' → v ≤ v' := by
  intro fuel
  induction fuel with
  | zero => intro c c' x x' v v' _ _ _ h; cases h
  | succ fuel ih =>
    intro c c' x x' v v' hc' hcc hxx h h'
    by_cases hx : x > 0
    · rw [LNLoop, if_pos hx] at h
      rw [LNLoop, if_pos (lt_of_lt_of_le hx hxx)] at h'
      exact ih _ _ _ _ _ _ (hrr _) (hr (by linarith)) (hlg _ _ hx hxx) h h'
    · have := loop_ge hr hrr _ _ _ _ hc' h'
      rw [LNLoop, if_neg hx] at h
      rw [← Except.ok.inj h]
      linarith

/-- C165: if moreover the rounding is monotone and leaves the results of `log2` as they are, and the
library's `log2` is monotone, then the computed code lengths are non-decreasing: rounding never
makes a greater number cheaper. -/
theorem C165_monotone {lg r : ℝ → ℝ} {c0 u : ℝ} (h : Accurate lg r c0 u) (hu0 : 0 ≤ u)
    (hu : u ≤ 1 / 2 ^ 20) (hr : Monotone r) (hrr : ∀ y, r (r y) = r y) (hrl : ∀ x, r (lg x) = lg x)
    (hlg : ∀ x y, 0 < x → x ≤ y → lg x ≤ lg y) (m n : Int) (hm : 1 ≤ m) (hmn : m ≤ n)
    (hn2 : n ≤ 2 ^ 31) :
    ∃ v v', (∀ fuel, 6 ≤ fuel → LN lg r c0 fuel m = .ok v) ∧
      (∀ fuel, 6 ≤ fuel → LN lg r c0 fuel n = .ok v') ∧ v ≤ v' := by
  obtain ⟨f, hf⟩ := LN_spec h hu0 hu
  obtain ⟨h1, _⟩ := hf m hm (hmn.trans hn2)
  obtain ⟨h2, _⟩ := hf n (hm.trans hmn) hn2
  refine ⟨f m, f n, fun fuel hfu => (h1 fuel hfu).1, fun fuel hfu => (h2 fuel hfu).1, ?_⟩
  have e1 := (h1 6 le_rfl).2
  have e2 := (h2 6 le_rfl).2
  rw [LNWith, if_neg (by omega)] at e1 e2
  simp only [List.getElem?_nil] at e1 e2
  exact loop_mono hr hrr hlg 6 _ _ _ _ _ _ (hrl _) le_rfl
    (hlg _ _ (by exact_mod_cast hm) (by exact_mod_cast hmn)) e1 e2

/-- C165: ValueError for `n < 1` with every rounding for which the table can be computed. -/
theorem C165_error {lg r : ℝ → ℝ} {c0 u : ℝ} (h : Accurate lg r c0 u) (hu0 : 0 ≤ u)
    (hu : u ≤ 1 / 2 ^ 20) (n : Int) (hn : n < 1) (fuel : Nat) (hf : 6 ≤ fuel) :
    LN lg r c0 fuel n = .error .value := by
  obtain ⟨f, hf'⟩ := LN_spec h hu0 hu
  have h1 := ((hf' 1 le_rfl (by norm_num)).1 fuel hf).1
  unfold LN at h1 ⊢
  cases ht : LNTable lg r c0 fuel with
  | error e => rw [ht] at h1; simp [bind, Except.bind] at h1
  | ok t => simp [bind, Except.bind, LNWith, hn]

/-- non-vacuity: a library whose logarithms are too large and whose sums are too small, by one unit
in the last place -/
example : Accurate (fun x => Real.logb 2 x * (1 + 1 / 2 ^ 52)) (fun y => y * (1 - 1 / 2 ^ 53))
    2.8565064 (1 / 2 ^ 52) where
  log := by
    intro x _
    have : Real.logb 2 x * (1 + 1 / 2 ^ 52) - Real.logb 2 x = (1 / 2 ^ 52) * Real.logb 2 x := by ring
    simp only [this, abs_mul]
    norm_num
  round := by
    intro y
    have : y * (1 - 1 / 2 ^ 53) - y = (-(1 / 2 ^ 53)) * y := by ring
    simp only [this, abs_mul]
    exact mul_le_mul_of_nonneg_right (by norm_num) (abs_nonneg y)
  const := by norm_num

/-- correctly rounded operations of 53 significant bits -/
theorem correctly_rounded : Accurate (fun x => FloatReal.rnd 53 (Real.logb 2 x)) (FloatReal.rnd 53)
    (FloatReal.rnd 53 2.8565064) (1 / 2 ^ 53) := by
  have h : ∀ y, |FloatReal.rnd 53 y - y| ≤ 1 / 2 ^ 53 * |y| := by
    intro y
    have := FloatReal.rnd_err 53 y
    rw [div_mul_eq_mul_div, one_mul, le_div_iff₀ (by norm_num)]
    exact this
  refine ⟨fun x _ => h _, h, ?_⟩
  have := h 2.8565064
  rwa [abs_of_nonneg (by norm_num : (0 : ℝ) ≤ 2.8565064)] at this

/-- C165: with correctly rounded double precision, the computed code lengths of a C `int` are exact up
to `2 ^ -42` bits and non-decreasing. -/
theorem C165_correctly_rounded (m n : Int) (hm : 1 ≤ m) (hmn : m ≤ n) (hn2 : n ≤ 2 ^ 31) :
    ∃ v v' w, (∀ fuel, 6 ≤ fuel → LN (fun x => FloatReal.rnd 53 (Real.logb 2 x)) (FloatReal.rnd 53)
        (FloatReal.rnd 53 2.8565064) fuel m = .ok v) ∧
      (∀ fuel, 6 ≤ fuel → LN (fun x => FloatReal.rnd 53 (Real.logb 2 x)) (FloatReal.rnd 53)
        (FloatReal.rnd 53 2.8565064) fuel n = .ok v') ∧
      v ≤ v' ∧ UniversalLength n w ∧ |v' - w| ≤ 1 / 2 ^ 42 := by
  obtain ⟨v, v', h1, h2, h3⟩ := C165_monotone correctly_rounded (by norm_num) (by norm_num)
    (fun _ _ h => FloatReal.rnd_mono 53 (by norm_num) h) (FloatReal.rnd_idem 53 (by norm_num))
    (fun x => FloatReal.rnd_idem 53 (by norm_num) _)
    (fun x y hx hxy => FloatReal.rnd_mono 53 (by norm_num)
      (Real.logb_le_logb_of_le (by norm_num) hx hxy)) m n hm hmn hn2
  obtain ⟨v2, w, h4, h5, h6, _⟩ := C165_accuracy correctly_rounded (by norm_num) (by norm_num) n
    (hm.trans hmn) hn2
  have e : v' = v2 := Except.ok.inj ((h2 6 le_rfl).symm.trans (h4 6 le_rfl))
  exact ⟨v, v', w, h1, h2, h3, h5, by rw [e]; exact le_trans h6 (by norm_num)⟩

end Prolothar.MdlRounded
