import Verif.Props.Kraft
import Verif.Props.Mdl
import Verif.Spec.RealCode
/-
Property C193 of /repo/prolothar_common/mdl_utils.pyx: L_R is the length of a code for real numbers up to the precision.
-/
namespace Prolothar.Mdl
open Finset Prolothar.Spec.RealCode

/-- C193: every real number is written in exactly one way, with the sign it has, and the written number is away from it, in the direction away
from zero, by less than one part in `10 ^ p`. -/
theorem C193_written (p : Int) (x : ℝ) : ∃ y, Written p x y ∧ (∀ z, Written p x z → z = y) ∧
    (x = 0 → y = 0) ∧ (x ≠ 0 → 0 ≤ (y - x) * x ∧ |y - x| < |x| * (10 : ℝ) ^ (-p)) := by
  by_cases hx : x = 0
  · subst hx
    exact ⟨0, .inl ⟨rfl, rfl⟩, fun z hz => by rcases hz with ⟨_, h⟩ | ⟨h, _⟩; exacts [h, absurd rfl h], fun _ => rfl, fun h => absurd rfl h⟩
  · obtain ⟨s, hs, hu, _⟩ := (C77_value x p).2 hx
    have hpos : 0 < |x| := abs_pos.2 hx
    refine ⟨rounded s.toNat x, .inr ⟨hx, s, hs, rfl⟩, fun z hz => ?_, fun h => absurd h hx, fun _ => ?_⟩
    · rcases hz with ⟨h, _⟩ | ⟨_, t, ht, rfl⟩
      · exact absurd h hx
      · rw [hu t ht]
    · have h10 : (0 : ℝ) < 10 ^ s.toNat := by positivity
      obtain ⟨e, he⟩ : ∃ e, (⌈|x| * 10 ^ s.toNat⌉ : ℝ) / 10 ^ s.toNat = |x| + e := ⟨(⌈|x| * 10 ^ s.toNat⌉ : ℝ) / 10 ^ s.toNat - |x|, by ring⟩
      have hce := Int.le_ceil (|x| * 10 ^ s.toNat)
      have hcl := Int.ceil_lt_add_one (|x| * 10 ^ s.toNat)
      rw [div_eq_iff h10.ne'] at he
      have he0 : 0 ≤ e := by
        by_contra hneg
        have : e * 10 ^ s.toNat < 0 := mul_neg_of_neg_of_pos (not_le.1 hneg) h10
        nlinarith
      have he1 : e * 10 ^ s.toNat < 1 := by nlinarith
      have hb : e < |x| * (10 : ℝ) ^ (-p) := by
        have hp : (0 : ℝ) < 10 ^ p := zpow_pos (by norm_num) _
        have h1 : 1 ≤ |x| * (10 : ℝ) ^ (-p) * 10 ^ s.toNat := by
          have h2 : (10 : ℝ) ^ s ≤ (10 : ℝ) ^ s.toNat := by
            rw [← zpow_natCast]
            exact zpow_le_zpow_right₀ (by norm_num) (Int.self_le_toNat s)
          have h3 : (10 : ℝ) ^ p ≤ |x| * 10 ^ s.toNat := hs.1.trans (mul_le_mul_of_nonneg_left h2 hpos.le)
          rw [zpow_neg]
          rw [mul_right_comm, ← div_eq_mul_inv, le_div_iff₀ hp, one_mul]
          exact h3
        by_contra hneg
        have : |x| * (10 : ℝ) ^ (-p) * 10 ^ s.toNat ≤ e * 10 ^ s.toNat := mul_le_mul_of_nonneg_right (not_lt.1 hneg) h10.le
        linarith
      have hr : rounded s.toNat x = SignType.sign x * (|x| + e) := by
        unfold rounded
        rw [(div_eq_iff h10.ne').2 he]
      rw [hr]
      rcases lt_or_gt_of_ne hx with h | h
      · rw [sign_neg h, abs_of_neg h] at *
        simp only [SignType.coe_neg_one]
        refine ⟨by nlinarith, ?_⟩
        rw [show -1 * (-x + e) - x = -e by ring, abs_neg, abs_of_nonneg he0]
        exact hb
      · rw [sign_pos h, abs_of_pos h] at *
        simp only [SignType.coe_one]
        refine ⟨by nlinarith, ?_⟩
        rw [show 1 * (x + e) - x = e by ring, abs_of_nonneg he0]
        exact hb

theorem universalLength_unique {n : Int} {v w : ℝ} (h : UniversalLength n v) (h' : UniversalLength n w) : v = w := by
  obtain ⟨s, h1, rfl⟩ := h
  obtain ⟨t, h2, rfl⟩ := h'
  rw [le_antisymm (h1.mono h2 le_rfl) (h2.mono h1 le_rfl)]

theorem universalLength_len {len : ℕ → ℝ} (h : CodeLengths len) {n : ℕ} (hn : 1 ≤ n) : UniversalLength (n : Int) (len n) := by
  obtain ⟨F1, s, h1, h2⟩ := LN_spec (n : Int) (by exact_mod_cast hn)
  obtain ⟨F2, h3⟩ := h n hn
  have h4 := (h2 (max F1 F2) (le_max_left _ _)).1
  rw [h3 _ (le_max_right _ _)] at h4
  exact ⟨s, h1, Except.ok.inj h4⟩

/-- the probability of the number of moved places: the sign of the number of places, then its magnitude -/
noncomputable def placesWeight (len : ℕ → ℝ) (s : Int) : ℝ := 1 / 3 * if s = 0 then 1 else (2 : ℝ) ^ (-(len s.natAbs))

theorem two_pow_log3 : (2 : ℝ) ^ (-(2 * Real.logb 2 3)) = 1 / 9 := by
  rw [show -(2 * Real.logb 2 3) = Real.logb 2 3 * (-2) by ring, Real.rpow_mul (by norm_num), Real.rpow_logb (by norm_num) (by norm_num) (by norm_num)]
  rw [show (-2 : ℝ) = ((-2 : ℤ) : ℝ) by norm_num, Real.rpow_intCast]; norm_num

/-- the value of `L_R` in terms of `L_N`: sign, number of places and digits -/
theorem LR_weight {len : ℕ → ℝ} (h : CodeLengths len) {p : Int} {x v : ℝ} (hx : x ≠ 0) (hv : ∃ F, ∀ fuel, F ≤ fuel → LR fuel x p = .ok v) :
    ∃ s, Moves p x s ∧ (2 : ℝ) ^ (-v) = 1 / 3 * placesWeight len s * (2 : ℝ) ^ (-(len ⌈|x| * 10 ^ s.toNat⌉.toNat)) := by
  obtain ⟨s, hs, _, a, b, F, hF, c1, c2, c3⟩ := (C77_value x p).2 hx
  obtain ⟨F', hF'⟩ := hv
  have e1 := hF (max F F') (le_max_left _ _)
  rw [hF' _ (le_max_right _ _)] at e1
  have e1 := Except.ok.inj e1
  have hpos : 0 < |x| := abs_pos.2 hx
  have key : ∀ {z : ℝ} {b : ℝ}, 0 < z → UniversalLength ⌈z⌉ b → b = len ⌈z⌉.toNat := by
    intro z b hz hb
    have hc : 0 < ⌈z⌉ := Int.ceil_pos.2 hz
    have := universalLength_len h (n := ⌈z⌉.toNat) (by omega)
    rw [Int.toNat_of_nonneg hc.le] at this
    exact universalLength_unique hb this
  refine ⟨s, hs, ?_⟩
  have hsum : (2 : ℝ) ^ (-v) = 1 / 9 * (2 : ℝ) ^ (-a) * (2 : ℝ) ^ (-b) := by
    rw [e1, ← two_pow_log3, ← Real.rpow_add (by norm_num), ← Real.rpow_add (by norm_num)]
    congr 1; ring
  rw [hsum]
  unfold placesWeight
  rcases lt_trichotomy s 0 with hs0 | hs0 | hs0
  · obtain ⟨ha, hb⟩ := c2 hs0
    have ha' : a = len s.natAbs := by
      have := universalLength_len h (n := s.natAbs) (by omega)
      rw [show ((s.natAbs : ℕ) : Int) = -s by omega] at this
      exact universalLength_unique ha this
    rw [if_neg hs0.ne, ha', key hpos hb, Int.toNat_of_nonpos hs0.le, pow_zero, mul_one]; ring
  · obtain ⟨ha, hb⟩ := c3 hs0
    rw [if_pos hs0, ha, key hpos hb, hs0]
    rw [show (0 : Int).toNat = 0 from rfl, pow_zero, mul_one, neg_zero, Real.rpow_zero]; ring_nf
  · obtain ⟨ha, hb⟩ := c1 hs0
    have ha' : a = len s.natAbs := by
      have := universalLength_len h (n := s.natAbs) (by omega)
      rw [show ((s.natAbs : ℕ) : Int) = s by omega] at this
      exact universalLength_unique ha this
    have hz : (10 : ℝ) ^ s = 10 ^ s.toNat := by
      rw [← zpow_natCast, Int.toNat_of_nonneg hs0.le]
    rw [hz] at hb
    rw [if_neg hs0.ne', ha', key (by positivity) hb]; ring

theorem sum_places {len : ℕ → ℝ} (h : CodeLengths len) {N : ℕ} (hN : N ≤ 2 ^ 65536) :
    ∑ s ∈ Icc (-(N : ℤ)) N, placesWeight len s ≤ 1 := by
  have hk := (C163_kraft h hN).le
  have key : ∀ M : ℕ, ∑ s ∈ Icc (-(M : ℤ)) M, placesWeight len s = 1 / 3 * (1 + 2 * kraftSum len M) := by
    intro M
    induction M with
    | zero => simp [kraftSum, placesWeight]
    | succ M ih =>
      have hset : Icc (-((M + 1 : ℕ) : ℤ)) ((M + 1 : ℕ) : ℤ) = insert (-((M : ℤ) + 1)) (insert ((M : ℤ) + 1) (Icc (-(M : ℤ)) M)) := by
        ext s
        simp only [mem_Icc, mem_insert]
        push_cast
        omega
      rw [hset, sum_insert (by simp only [mem_insert, mem_Icc]; omega), sum_insert (by simp only [mem_Icc]; omega), ih]
      have h1 : kraftSum len (M + 1) = kraftSum len M + (2 : ℝ) ^ (-(len (M + 1))) := by
        unfold kraftSum
        exact sum_Icc_succ_top (by omega) _
      have e1 : placesWeight len (-((M : ℤ) + 1)) = 1 / 3 * (2 : ℝ) ^ (-(len (M + 1))) := by
        unfold placesWeight
        rw [if_neg (by omega), show (-((M : ℤ) + 1)).natAbs = M + 1 by omega]
      have e2 : placesWeight len ((M : ℤ) + 1) = 1 / 3 * (2 : ℝ) ^ (-(len (M + 1))) := by
        unfold placesWeight
        rw [if_neg (by omega), show ((M : ℤ) + 1).natAbs = M + 1 by omega]
      rw [e1, e2, h1]; ring
  rw [key]; linarith

theorem placesWeight_nonneg (len : ℕ → ℝ) (s : Int) : 0 ≤ placesWeight len s := by
  unfold placesWeight
  split <;> positivity

/-- the places and digits of a number in the range of doubles -/
theorem places_bound {p : Int} (hp : |p| ≤ 1000) {x : ℝ} (h1 : (2 : ℝ) ^ (-1074 : ℤ) ≤ |x|) (h2 : |x| ≤ (2 : ℝ) ^ (1024 : ℤ)) {s : Int} (hs : Moves p x s) :
    |s| ≤ 4000 ∧ |x| * 10 ^ s.toNat ≤ (2 : ℝ) ^ 5000 := by
  have hp := abs_le.1 hp
  have hpos : 0 < |x| := lt_of_lt_of_le (zpow_pos (by norm_num) _) h1
  have ten : ∀ k : ℤ, (0 : ℝ) < 10 ^ k := fun k => zpow_pos (by norm_num) k
  have hlo : s < p + 1 + 1074 := by
    have h3 : (10 : ℝ) ^ (-1074 : ℤ) * 10 ^ s < 10 ^ (p + 1) := by
      refine lt_of_le_of_lt (mul_le_mul_of_nonneg_right ?_ (ten s).le) hs.2
      refine le_trans ?_ h1
      rw [zpow_neg, zpow_neg]
      exact inv_anti₀ (by positivity) (zpow_le_zpow_left₀ (by norm_num) (by norm_num) (by norm_num))
    rw [← zpow_add₀ (by norm_num : (10 : ℝ) ≠ 0)] at h3
    have := (zpow_lt_zpow_iff_right₀ (by norm_num : (1 : ℝ) < 10)).1 h3
    omega
  have hhi : p ≤ 1024 + s := by
    have h3 : (10 : ℝ) ^ p ≤ 10 ^ (1024 : ℤ) * 10 ^ s := by
      refine hs.1.trans (mul_le_mul_of_nonneg_right (h2.trans ?_) (ten s).le)
      exact zpow_le_zpow_left₀ (by norm_num) (by norm_num) (by norm_num)
    rw [← zpow_add₀ (by norm_num : (10 : ℝ) ≠ 0)] at h3
    exact (zpow_le_zpow_iff_right₀ (by norm_num : (1 : ℝ) < 10)).1 h3
  refine ⟨abs_le.2 ⟨by omega, by omega⟩, ?_⟩
  rcases le_or_gt 0 s with h0 | h0
  · have hz : (10 : ℝ) ^ s = 10 ^ s.toNat := by rw [← zpow_natCast, Int.toNat_of_nonneg h0]
    rw [← hz]
    refine hs.2.le.trans ?_
    calc (10 : ℝ) ^ (p + 1) ≤ 10 ^ (1001 : ℤ) := zpow_le_zpow_right₀ (by norm_num) (by omega)
      _ ≤ (16 : ℝ) ^ (1001 : ℤ) := zpow_le_zpow_left₀ (by norm_num) (by norm_num) (by norm_num)
      _ = (2 : ℝ) ^ (4004 : ℕ) := by
        rw [show (16 : ℝ) = 2 ^ (4 : ℕ) by norm_num, show (1001 : ℤ) = ((1001 : ℕ) : ℤ) by norm_num, zpow_natCast, ← pow_mul]
      _ ≤ (2 : ℝ) ^ (5000 : ℕ) := pow_le_pow_right₀ (by norm_num) (by norm_num)
  · rw [Int.toNat_of_nonpos h0.le, pow_zero, mul_one]
    refine h2.trans ?_
    rw [show (1024 : ℤ) = ((1024 : ℕ) : ℤ) by norm_num, zpow_natCast]
    exact pow_le_pow_right₀ (by norm_num) (by norm_num)

/-- C193: the Kraft inequality: `L_R` is the length of a code for the written numbers. If the numbers in a finite set, of magnitudes that doubles
have, are written differently with the precision `p`, then the probabilities `2 ^ -L_R(x, p)` add up to at most 1. -/
theorem C193_kraft {p : Int} (hp : |p| ≤ 1000) {S : Finset ℝ} (hS : ∀ x ∈ S, InRange x)
    (hd : ∀ x ∈ S, ∀ x' ∈ S, ∀ y, Written p x y → Written p x' y → x = x')
    {val : ℝ → ℝ} (hval : ∀ x ∈ S, ∃ F, ∀ fuel, F ≤ fuel → LR fuel x p = .ok (val x)) :
    ∑ x ∈ S, (2 : ℝ) ^ (-(val x)) ≤ 1 := by
  classical
  obtain ⟨len, hlen, _⟩ := C163_lengths_exist
  obtain ⟨E, hE⟩ : ∃ E : ℕ, E = 5000 := ⟨_, rfl⟩
  obtain ⟨N, hN, hNl⟩ : ∃ N : ℕ, N = 2 ^ E ∧ N ≤ 2 ^ 65536 := ⟨_, rfl, Nat.pow_le_pow_right (by norm_num) (by omega)⟩
  have hNs : (4000 : ℤ) ≤ N := by
    have h1 : (2 : ℕ) ^ 12 ≤ N := hN ▸ Nat.pow_le_pow_right (by norm_num) (by omega)
    have h2 : (4000 : ℕ) ≤ N := le_trans (by norm_num) h1
    exact_mod_cast h2
  have hNr : (N : ℝ) = (2 : ℝ) ^ 5000 := by rw [hN, Nat.cast_pow, hE]; rfl
  have hpl : ∀ x ∈ S, x ≠ 0 → ∃ s, Moves p x s ∧
      (2 : ℝ) ^ (-(val x)) = 1 / 3 * placesWeight len s * (2 : ℝ) ^ (-(len ⌈|x| * 10 ^ s.toNat⌉.toNat)) :=
    fun x hx h0 => LR_weight hlen h0 (hval x hx)
  choose! s hs hw using hpl
  -- sign, places and digits
  let T := S.filter (· ≠ 0)
  let desc : ℝ → SignType × ℤ × ℕ := fun x => (SignType.sign x, s x, ⌈|x| * 10 ^ (s x).toNat⌉.toNat)
  let g : SignType × ℤ × ℕ → ℝ := fun d => 1 / 3 * placesWeight len d.2.1 * (2 : ℝ) ^ (-(len d.2.2))
  have hT : ∀ x ∈ T, x ∈ S ∧ x ≠ 0 := fun x hx => mem_filter.1 hx
  have hinj : ∀ x ∈ T, ∀ x' ∈ T, desc x = desc x' → x = x' := by
    intro x hx x' hx' he
    obtain ⟨a1, a2⟩ := hT x hx
    obtain ⟨b1, b2⟩ := hT x' hx'
    have e1 : SignType.sign x = SignType.sign x' := congrArg (·.1) he
    have e2 : s x = s x' := congrArg (·.2.1) he
    have e3 : ⌈|x| * 10 ^ (s x).toNat⌉.toNat = ⌈|x'| * 10 ^ (s x').toNat⌉.toNat := congrArg (·.2.2) he
    have c1 : 0 ≤ ⌈|x| * 10 ^ (s x).toNat⌉ := Int.ceil_nonneg (by positivity)
    have c2 : 0 ≤ ⌈|x'| * 10 ^ (s x').toNat⌉ := Int.ceil_nonneg (by positivity)
    have e4 : ⌈|x| * 10 ^ (s x).toNat⌉ = ⌈|x'| * 10 ^ (s x').toNat⌉ := by omega
    refine hd x a1 x' b1 (rounded (s x).toNat x) (.inr ⟨a2, s x, hs x a1 a2, rfl⟩) (.inr ⟨b2, s x', hs x' b1 b2, ?_⟩)
    unfold rounded
    rw [e1, e4, e2]
  have hsum : ∑ x ∈ T, (2 : ℝ) ^ (-(val x)) ≤ 2 / 3 := by
    have h1 : ∑ x ∈ T, (2 : ℝ) ^ (-(val x)) = ∑ d ∈ T.image desc, g d := by
      rw [sum_image hinj]
      exact sum_congr rfl fun x hx => hw x (hT x hx).1 (hT x hx).2
    have h2 : T.image desc ⊆ ({.neg, .pos} : Finset SignType) ×ˢ (Icc (-(N : ℤ)) N ×ˢ Icc 1 N) := by
      intro d hdm
      obtain ⟨x, hx, rfl⟩ := mem_image.1 hdm
      obtain ⟨a1, a2⟩ := hT x hx
      obtain ⟨r1, r2⟩ := (hS x a1).resolve_left a2
      obtain ⟨b1, b2⟩ := places_bound hp r1 r2 (hs x a1 a2)
      have hxp : 0 < |x| := abs_pos.2 a2
      have hcp : 0 < ⌈|x| * 10 ^ (s x).toNat⌉ := Int.ceil_pos.2 (by positivity)
      have hcu : ⌈|x| * 10 ^ (s x).toNat⌉ ≤ (N : ℤ) := by
        rw [Int.ceil_le]
        refine b2.trans ?_
        rw [← hNr]; norm_num
      have b1 := abs_le.1 b1
      simp only [desc, mem_product, mem_Icc, mem_insert, mem_singleton]
      refine ⟨?_, ⟨by omega, by omega⟩, by omega, by omega⟩
      rcases lt_or_gt_of_ne a2 with hl | hl
      · exact .inl (sign_neg hl)
      · exact .inr (sign_pos hl)
    have h3 : ∀ d, 0 ≤ g d := fun d => mul_nonneg (mul_nonneg (by norm_num) (placesWeight_nonneg _ _)) (by positivity)
    rw [h1]
    refine (sum_le_sum_of_subset_of_nonneg h2 fun d _ _ => h3 d).trans ?_
    rw [sum_product]
    have h4 : ∀ c : SignType, ∑ y ∈ Icc (-(N : ℤ)) N ×ˢ Icc 1 N, g (c, y) = 1 / 3 * ((∑ s ∈ Icc (-(N : ℤ)) N, placesWeight len s) * kraftSum len N) := by
      intro c
      rw [sum_product]
      unfold kraftSum
      rw [sum_mul_sum, mul_sum]
      refine sum_congr rfl fun i _ => ?_
      rw [mul_sum]
      exact sum_congr rfl fun j _ => by simp only [g]; ring
    rw [sum_congr rfl fun c _ => h4 c]
    rw [sum_const]
    have hcard : ({.neg, .pos} : Finset SignType).card = 2 := by decide
    rw [hcard]
    have k1 := sum_places hlen hNl
    have k2 := (C163_kraft hlen hNl).le
    have k3 : 0 ≤ ∑ s ∈ Icc (-(N : ℤ)) N, placesWeight len s := sum_nonneg fun s _ => placesWeight_nonneg len s
    have k4 : 0 ≤ kraftSum len N := sum_nonneg fun n _ => by positivity
    have := mul_le_one₀ k1 k4 k2
    simp only [nsmul_eq_mul]
    push_cast
    linarith
  rw [← sum_filter_add_sum_filter_not S (· ≠ 0)]
  have h0 : ∑ x ∈ S.filter (fun x => ¬ x ≠ 0), (2 : ℝ) ^ (-(val x)) ≤ 1 / 3 := by
    have hsub : S.filter (fun x => ¬ x ≠ 0) ⊆ {0} := by
      intro x hx
      simpa using (mem_filter.1 hx).2
    by_cases hz : (0 : ℝ) ∈ S
    · have he : S.filter (fun x => ¬ x ≠ 0) = {0} := by
        refine subset_antisymm hsub fun x hx => ?_
        rw [mem_singleton.1 hx]
        exact mem_filter.2 ⟨hz, by simp⟩
      rw [he, sum_singleton]
      obtain ⟨F, hF⟩ := hval 0 hz
      have := hF F le_rfl
      rw [(C77_value 0 p).1 rfl F] at this
      rw [← Except.ok.inj this, Real.rpow_neg (by norm_num), Real.rpow_logb (by norm_num) (by norm_num) (by norm_num)]
      norm_num
    · have he : S.filter (fun x => ¬ x ≠ 0) = ∅ := by
        refine filter_eq_empty_iff.2 fun x hx => ?_
        simp only [not_not]
        rintro rfl
        exact hz hx
      rw [he, sum_empty]; norm_num
  have : ∑ x ∈ S.filter (· ≠ 0), (2 : ℝ) ^ (-(val x)) ≤ 2 / 3 := hsum
  linarith

/-- the converse of Kraft's inequality for a finite set -/
theorem exists_prefix_code_set {X : Type} [DecidableEq X] (S : Finset X) (l : X → ℕ) (hk : ∑ x ∈ S, (2 : ℝ) ^ (-(l x : ℝ)) ≤ 1) :
    ∃ code : X → List Bool, (∀ x ∈ S, (code x).length = l x) ∧ ∀ x ∈ S, ∀ y ∈ S, code x <+: code y → x = y := by
  classical
  obtain ⟨L, hperm, hsorted⟩ : ∃ L : List X, L.Perm S.toList ∧ L.Pairwise (fun a b => l a ≤ l b) := by
    have : Std.Total fun a b : X => l a ≤ l b := ⟨fun a b => le_total _ _⟩
    have : IsTrans X fun a b => l a ≤ l b := ⟨fun a b c h1 h2 => le_trans h1 h2⟩
    exact ⟨S.toList.insertionSort fun a b => l a ≤ l b, List.perm_insertionSort _ _, List.pairwise_insertionSort _ _⟩
  have hmem : ∀ x, x ∈ S ↔ x ∈ L := fun x => by rw [hperm.mem_iff, mem_toList]
  rcases Nat.eq_zero_or_pos L.length with h0 | h0
  · have hL : L = [] := List.eq_nil_of_length_eq_zero h0
    subst hL
    exact ⟨fun _ => [], fun x hx => by simp at hmem; exact absurd hx (hmem x), fun x hx => by simp at hmem; exact absurd hx (hmem x)⟩
  · have hidx : ∀ i : ℕ, min i L.length - 1 < L.length := fun i => by omega
    have hle : ∀ (i j : ℕ) (hi : i < L.length) (hj : j < L.length), i ≤ j → l L[i] ≤ l L[j] := by
      intro i j hi hj hij
      rcases Nat.lt_or_eq_of_le hij with h | h
      · exact List.pairwise_iff_getElem.1 hsorted i j hi hj h
      · subst h; exact le_rfl
    obtain ⟨c, hc1, hc2⟩ := exists_prefix_code (fun i => l (L[min i L.length - 1]'(hidx i)))
      (fun m n _ hmn => hle _ _ _ _ (by omega)) L.length (by
        refine le_trans (le_of_eq ?_) hk
        have e1 : ∑ x ∈ S, (2 : ℝ) ^ (-(l x : ℝ)) = (L.map fun x => (2 : ℝ) ^ (-(l x : ℝ))).sum := by
          rw [← sum_map_toList, (hperm.map _).sum_eq]
        rw [e1, ← Fin.sum_univ_getElem]
        rw [show Icc 1 L.length = (range L.length).image (· + 1) by
          ext i
          simp only [mem_Icc, mem_image, mem_range]
          constructor
          · exact fun h => ⟨i - 1, by omega, by omega⟩
          · rintro ⟨j, hj, rfl⟩; omega]
        rw [sum_image fun a _ b _ h => Nat.succ_injective h]
        rw [sum_range]
        refine Fintype.sum_equiv (finCongr (by simp)) _ _ fun i => ?_
        simp only [finCongr_apply, Fin.val_cast, List.getElem_map]
        congr 4
        have := i.2
        simp only [show min (i.1 + 1) L.length - 1 = i.1 by omega])
    have hpos : ∀ x ∈ S, L.idxOf x < L.length := fun x hx => List.idxOf_lt_length_iff.2 ((hmem x).1 hx)
    refine ⟨fun x => c (L.idxOf x + 1), fun x hx => ?_, fun x hx y hy h => ?_⟩
    · have := hpos x hx
      rw [hc1 _ (mem_Icc.2 ⟨by omega, by omega⟩)]
      simp only [show min (L.idxOf x + 1) L.length - 1 = L.idxOf x by omega]
      rw [List.getElem_idxOf]
    · have h1 := hpos x hx
      have h2 := hpos y hy
      have h3 := hc2 _ (mem_Icc.2 ⟨by omega, by omega⟩) _ (mem_Icc.2 ⟨by omega, by omega⟩) h
      have h4 : L.idxOf x = L.idxOf y := by omega
      rw [← List.getElem_idxOf h1, ← List.getElem_idxOf h2]
      simp only [h4]

/-- C193: so there is a binary prefix code for numbers that are written differently, in which the word of `x` has `L_R(x, p)` bits, rounded up. -/
theorem C193_prefix_code {p : Int} (hp : |p| ≤ 1000) {S : Finset ℝ} (hS : ∀ x ∈ S, InRange x)
    (hd : ∀ x ∈ S, ∀ x' ∈ S, ∀ y, Written p x y → Written p x' y → x = x')
    {val : ℝ → ℝ} (hval : ∀ x ∈ S, ∃ F, ∀ fuel, F ≤ fuel → LR fuel x p = .ok (val x)) :
    ∃ code : ℝ → List Bool, (∀ x ∈ S, (code x).length = ⌈val x⌉₊) ∧ ∀ x ∈ S, ∀ x' ∈ S, code x <+: code x' → x = x' := by
  refine exists_prefix_code_set S (fun x => ⌈val x⌉₊) (le_trans (sum_le_sum fun x _ => ?_) (C193_kraft hp hS hd hval))
  exact Real.rpow_le_rpow_of_exponent_le (by norm_num) (neg_le_neg (Nat.le_ceil _))

/-- C193: numbers that differ by more than the precision are written differently, so they need different words. -/
theorem C193_distinguished {p : Int} {x x' y : ℝ} (hx : x ≠ 0) (hx' : x' ≠ 0) (h : Written p x y) (h' : Written p x' y) :
    0 < x * x' ∧ |x - x'| < max |x| |x'| * (10 : ℝ) ^ (-p) := by
  obtain ⟨z, _, h1, _, h2⟩ := C193_written p x
  obtain ⟨z', _, h3, _, h4⟩ := C193_written p x'
  have e1 := h1 y h
  have e2 := h3 y h'
  subst e1
  subst e2
  obtain ⟨a1, a2⟩ := h2 hx
  obtain ⟨b1, b2⟩ := h4 hx'
  have ten : (0 : ℝ) < 10 ^ (-p) := zpow_pos (by norm_num) _
  have hm1 : |x| * (10 : ℝ) ^ (-p) ≤ max |x| |x'| * (10 : ℝ) ^ (-p) := mul_le_mul_of_nonneg_right (le_max_left _ _) ten.le
  have hm2 : |x'| * (10 : ℝ) ^ (-p) ≤ max |x| |x'| * (10 : ℝ) ^ (-p) := mul_le_mul_of_nonneg_right (le_max_right _ _) ten.le
  have c1 := abs_lt.1 a2
  have c2 := abs_lt.1 b2
  rcases lt_or_gt_of_ne hx with hn | hn <;> rcases lt_or_gt_of_ne hx' with hn' | hn'
  · have d1 : y ≤ x := by nlinarith
    have d2 : y ≤ x' := by nlinarith
    exact ⟨mul_pos_of_neg_of_neg hn hn', abs_lt.2 ⟨by linarith, by linarith⟩⟩
  · have d1 : y ≤ x := by nlinarith
    have d2 : x' ≤ y := by nlinarith
    linarith
  · have d1 : x ≤ y := by nlinarith
    have d2 : y ≤ x' := by nlinarith
    linarith
  · have d1 : x ≤ y := by nlinarith
    have d2 : x' ≤ y := by nlinarith
    exact ⟨mul_pos hn hn', abs_lt.2 ⟨by linarith, by linarith⟩⟩

/-- the numbers 0, 1.5 and -1.5 are written differently: the hypotheses can be met -/
example : ∃ code : ℝ → List Bool, ∀ x ∈ ({0, 1.5, -1.5} : Finset ℝ), ∀ x' ∈ ({0, 1.5, -1.5} : Finset ℝ), code x <+: code x' → x = x' := by
  have hv : ∀ x : ℝ, ∃ v, ∃ F, ∀ fuel, F ≤ fuel → LR fuel x 5 = .ok v := fun x => by
    obtain ⟨v, F, h, _⟩ := C77_LR x 5
    exact ⟨v, F, fun fuel hf => (h fuel hf).1⟩
  choose val hval using hv
  have hz : ∀ x y : ℝ, x ≠ 0 → Written 5 x y → Written 5 0 y → False := by
    intro x y hx h h0
    obtain ⟨z, _, h1, _, h2⟩ := C193_written 5 x
    have e := h1 y h
    subst e
    obtain ⟨a1, a2⟩ := h2 hx
    rcases h0 with ⟨_, hy⟩ | ⟨hne, _⟩
    · rw [hy] at a1
      have : 0 < x * x := mul_self_pos.2 hx
      nlinarith
    · exact hne rfl
  have hr : ∀ x : ℝ, |x| = 1.5 → InRange x := by
    intro x hx
    refine .inr ⟨?_, ?_⟩ <;> rw [hx]
    · refine le_trans (zpow_le_zpow_right₀ (by norm_num) (show (-1074 : ℤ) ≤ 0 by norm_num)) (by norm_num)
    · refine le_trans (by norm_num : (1.5 : ℝ) ≤ 2 ^ (1 : ℤ)) (zpow_le_zpow_right₀ (by norm_num) (by norm_num))
  obtain ⟨code, _, h⟩ := C193_prefix_code (p := 5) (by norm_num) (S := {0, 1.5, -1.5}) (by
    intro x hx
    simp only [mem_insert, mem_singleton] at hx
    rcases hx with rfl | rfl | rfl
    · exact .inl rfl
    · exact hr _ (by norm_num [abs_of_pos])
    · exact hr _ (by rw [abs_neg]; norm_num [abs_of_pos])) (by
    intro x hx x' hx' y h h'
    simp only [mem_insert, mem_singleton] at hx hx'
    rcases hx with rfl | rfl | rfl <;> rcases hx' with rfl | rfl | rfl
    · rfl
    · exact (hz _ y (by norm_num) h' h).elim
    · exact (hz _ y (by norm_num) h' h).elim
    · exact (hz _ y (by norm_num) h h').elim
    · rfl
    · have := (C193_distinguished (by norm_num) (by norm_num) h h').1
      norm_num at this
    · exact (hz _ y (by norm_num) h h').elim
    · have := (C193_distinguished (by norm_num) (by norm_num) h h').1
      norm_num at this
    · rfl) (val := val) (fun x _ => hval x)
  exact ⟨code, h⟩

end Prolothar.Mdl
