import Verif.Lemmas.Kraft
import Mathlib.Data.Fintype.BigOperators
import Mathlib.Data.Fintype.Vector
/-
Property C163 of /repo/prolothar_common/mdl_utils.pyx: the universal code for the integers is a code.
-/
namespace Prolothar.Mdl
open Finset

/-- `len n` is the value that `L_N(n)` returns, for every positive integer `n` -/
def CodeLengths (len : ℕ → ℝ) : Prop :=
  ∀ n : ℕ, 1 ≤ n → ∃ F, ∀ fuel, F ≤ fuel → LN fuel (n : Int) = .ok (len n)

/-- the Kraft sum of the first `N` positive integers -/
noncomputable def kraftSum (len : ℕ → ℝ) (N : ℕ) : ℝ := ∑ n ∈ Icc 1 N, (2 : ℝ) ^ (-(len n))

/-- the Kraft sum in terms of the weights -/
theorem kraftSum_eq {len : ℕ → ℝ} (h : CodeLengths len) (N : ℕ) :
    ∃ K, ∀ k, K ≤ k → kraftSum len N = (∑ i ∈ range N, weight k ((1 + i : ℕ) : ℝ)) / 2.8565064 := by
  have hs : ∀ n : ℕ, 1 ≤ n → ∃ K, ∀ k, K ≤ k →
      (2 : ℝ) ^ (-(len n)) = weight k ((n : ℕ) : ℝ) / 2.8565064 := by
    intro n hn
    obtain ⟨F1, s, h1, h2⟩ := LN_spec (n : Int) (by exact_mod_cast hn)
    obtain ⟨F2, h3⟩ := h n hn
    have h4 := (h2 (max F1 F2) (le_max_left _ _)).1
    rw [h3 _ (le_max_right _ _)] at h4
    have h5 : len n = Real.logb 2 2.8565064 + s := Except.ok.inj h4
    obtain ⟨K, hK⟩ := weight_eq h1
    refine ⟨K, fun k hk => ?_⟩
    have h6 := hK k hk (n : ℝ) (by exact_mod_cast hn) (by push_cast; rfl)
    rw [h6, h5, neg_add, Real.rpow_add (by norm_num), Real.rpow_neg (x := 2) (by norm_num),
      Real.rpow_logb (by norm_num) (by norm_num) (by norm_num)]
    rw [div_eq_inv_mul]
  induction N with
  | zero => exact ⟨0, fun k _ => by simp [kraftSum]⟩
  | succ N ih =>
    obtain ⟨K1, h1⟩ := ih
    obtain ⟨K2, h2⟩ := hs (N + 1) (by omega)
    refine ⟨max K1 K2, fun k hk => ?_⟩
    have e1 := h1 k (le_trans (le_max_left _ _) hk)
    have e2 := h2 k (le_trans (le_max_right _ _) hk)
    unfold kraftSum at e1 ⊢
    rw [sum_Icc_succ_top (by omega), e1, e2, sum_range_succ, add_div, add_comm 1 N]

/-- the values of `L_N` exist: the hypothesis of the theorems below is satisfied by exactly one
sequence on the positive integers -/
theorem C163_lengths_exist : ∃ len, CodeLengths len ∧
    ∀ len', CodeLengths len' → ∀ n : ℕ, 1 ≤ n → len' n = len n := by
  have h : ∀ n : ℕ, ∃ a : ℝ, 1 ≤ n → ∃ F, ∀ fuel, F ≤ fuel → LN fuel (n : Int) = .ok a := by
    intro n
    rcases Nat.eq_zero_or_pos n with h | h
    · exact ⟨0, fun h' => by omega⟩
    · obtain ⟨F, s, _, h2⟩ := LN_spec (n : Int) (by exact_mod_cast h)
      exact ⟨_, fun _ => ⟨F, fun fuel hf => (h2 fuel hf).1⟩⟩
  choose len hlen using h
  refine ⟨len, hlen, fun len' h' n hn => ?_⟩
  obtain ⟨F1, h1⟩ := hlen n hn
  obtain ⟨F2, h2⟩ := h' n hn
  have e := h1 _ (le_max_left F1 F2)
  rw [h2 _ (le_max_right F1 F2)] at e
  exact Except.ok.inj e

/-- C163: the Kraft inequality holds on the whole range of the argument (a C `int`), and even up to
`2 ^ 65536`: the probabilities `2 ^ -L_N(n)` add up to less than 1. -/
theorem C163_kraft {len : ℕ → ℝ} (h : CodeLengths len) {N : ℕ} (hN : N ≤ 2 ^ 65536) :
    kraftSum len N < 1 := by
  obtain ⟨K, hK⟩ := kraftSum_eq h N
  have h4 : tower 4 = 65536 := by decide
  have h5 : tower 5 = 2 ^ tower 4 := by rw [tower]
  rw [← h4, ← h5] at hN
  have h1 := sum_upper (K + 5) 5 N (by omega) (by omega) (by omega) hN
  have h2 := geom_tail_2
  rw [hK (K + 5) (by omega), div_lt_one (by norm_num)]
  norm_num only at h1 h2 ⊢
  linarith

/-- C163: over all positive integers the probabilities do not sum up to 1, contrary to the comment
in the code: from some number on their sum exceeds 1.  The constant is 2.8565064, the normalising
constant of the cited paper is 2.865064. -/
theorem C163_kraft_exceeded {len : ℕ → ℝ} (h : CodeLengths len) :
    ∃ N, ∀ M, N ≤ M → 1 < kraftSum len M := by
  refine ⟨tower 19, fun M hM => ?_⟩
  have h0 : 1 < kraftSum len (tower 19) := by
    obtain ⟨K, hK⟩ := kraftSum_eq h (tower 19)
    have h1 := sum_lower (K + 19) 19 (by omega) (by omega) (by omega)
    have h2 := geom_tail_16
    rw [hK (K + 19) (by omega), one_lt_div (by norm_num)]
    norm_num only at h1 h2 ⊢
    linarith
  refine lt_of_lt_of_le h0 ?_
  unfold kraftSum
  exact sum_le_sum_of_subset_of_nonneg (Icc_subset_Icc le_rfl hM)
    fun i _ _ => (Real.rpow_pos_of_pos (by norm_num) _).le

/-- C163: the excess is less than half a percent: the sum over any number of integers stays below
1.005, so adding 0.0072 bits to every code length would make the comment true. -/
theorem C163_kraft_bound {len : ℕ → ℝ} (h : CodeLengths len) (N : ℕ) :
    kraftSum len N < 1.005 := by
  obtain ⟨K, hK⟩ := kraftSum_eq h N
  have hN : N ≤ tower (N + 3) := by
    have : ∀ j, j ≤ tower j := by
      intro j
      induction j with
      | zero => omega
      | succ j ih =>
        have : tower j < 2 ^ tower j := Nat.lt_two_pow_self
        show j + 1 ≤ 2 ^ tower j
        omega
    exact le_trans (by omega) (this (N + 3))
  have h1 := sum_upper (K + (N + 3)) (N + 3) N (by omega) (by omega) (by omega) hN
  have h2 := geom_tail_lt (N + 3 - 3)
  rw [hK (K + (N + 3)) (by omega), div_lt_iff₀ (by norm_num)]
  norm_num only at h1 h2 ⊢
  linarith

/-- C163: the sum over all positive integers exists and lies strictly between 1 and 1.005 -/
theorem C163_kraft_total {len : ℕ → ℝ} (h : CodeLengths len) :
    ∃ total, HasSum (fun i : ℕ => (2 : ℝ) ^ (-(len (i + 1)))) total ∧ 1 < total ∧ total ≤ 1.005 := by
  have hp : ∀ i : ℕ, (0 : ℝ) ≤ (2 : ℝ) ^ (-(len (i + 1))) :=
    fun i => (Real.rpow_pos_of_pos (by norm_num) _).le
  have e : ∀ N, ∑ i ∈ range N, (2 : ℝ) ^ (-(len (i + 1))) = kraftSum len N := by
    intro N
    unfold kraftSum
    induction N with
    | zero => simp
    | succ N ih => rw [sum_range_succ, ih, sum_Icc_succ_top (by omega)]
  have hb : ∀ N, ∑ i ∈ range N, (2 : ℝ) ^ (-(len (i + 1))) ≤ 1.005 :=
    fun N => by rw [e]; exact (C163_kraft_bound h N).le
  have hs := summable_of_sum_range_le hp hb
  refine ⟨_, hs.hasSum, ?_, hs.tsum_le_of_sum_range_le hb⟩
  obtain ⟨N, hN⟩ := C163_kraft_exceeded h
  have h1 := hs.sum_le_tsum (range N) (fun i _ => hp i)
  rw [e] at h1
  exact lt_of_lt_of_le (hN N le_rfl) h1

/-- Kraft: lengths with a Kraft sum of at most 1 are the lengths of a prefix code -/
theorem exists_prefix_code (l : ℕ → ℕ) (hl : ∀ m n, 1 ≤ m → m ≤ n → l m ≤ l n) (N : ℕ)
    (hk : ∑ n ∈ Icc 1 N, (2 : ℝ) ^ (-(l n : ℝ)) ≤ 1) :
    ∃ code : ℕ → List Bool, (∀ n ∈ Icc 1 N, (code n).length = l n) ∧
      ∀ m ∈ Icc 1 N, ∀ n ∈ Icc 1 N, code m <+: code n → m = n := by
  induction N with
  | zero => exact ⟨fun _ => [], by simp, by simp⟩
  | succ N ih =>
    rw [sum_Icc_succ_top (by omega)] at hk
    have hpos : (0 : ℝ) < (2 : ℝ) ^ (-(l (N + 1) : ℝ)) := Real.rpow_pos_of_pos (by norm_num) _
    obtain ⟨code, h1, h2⟩ := ih (by linarith)
    set L := l (N + 1) with hL
    -- the words of length `L` that have an earlier word as a prefix
    let taken : Finset (List Bool) := (Icc 1 N).biUnion fun n =>
      (univ : Finset (List.Vector Bool (L - l n))).image fun v => code n ++ v.toList
    let all : Finset (List Bool) := (univ : Finset (List.Vector Bool L)).image fun v => v.toList
    have hall : all.card = 2 ^ L := by
      rw [card_image_of_injective _ List.Vector.toList_injective, card_univ, card_vector]; simp
    have htaken : taken.card ≤ ∑ n ∈ Icc 1 N, 2 ^ (L - l n) := by
      refine le_trans card_biUnion_le (sum_le_sum fun n _ => ?_)
      refine le_trans card_image_le ?_
      rw [card_univ, card_vector]; simp
    have hlt : taken.card < all.card := by
      rw [hall]
      refine lt_of_le_of_lt htaken ?_
      have : (∑ n ∈ Icc 1 N, (2 : ℝ) ^ (L - l n)) < 2 ^ L := by
        have e : ∀ n ∈ Icc 1 N, (2 : ℝ) ^ (L - l n) = 2 ^ L * (2 : ℝ) ^ (-(l n : ℝ)) := by
          intro n hn
          have hn' := mem_Icc.1 hn
          have hle : l n ≤ L := hl n (N + 1) hn'.1 (by omega)
          rw [← Real.rpow_natCast, ← Real.rpow_natCast, ← Real.rpow_add (by norm_num),
            Nat.cast_sub hle, sub_eq_add_neg]
        rw [sum_congr rfl e, ← mul_sum]
        have h3 : ∑ n ∈ Icc 1 N, (2 : ℝ) ^ (-(l n : ℝ)) < 1 := by linarith
        have h4 : (0 : ℝ) < 2 ^ L := by positivity
        nlinarith
      exact_mod_cast this
    obtain ⟨w, hw1, hw2⟩ := exists_mem_notMem_of_card_lt_card hlt
    have hwl : w.length = L := by
      obtain ⟨v, _, rfl⟩ := mem_image.1 hw1
      exact v.2
    have hnp : ∀ n ∈ Icc 1 N, ¬ code n <+: w := by
      rintro n hn ⟨t, ht⟩
      apply hw2
      have hlen : t.length = L - l n := by
        have := congrArg List.length ht
        rw [List.length_append, h1 n hn, hwl] at this
        omega
      exact mem_biUnion.2 ⟨n, hn, mem_image.2 ⟨⟨t, hlen⟩, mem_univ _, ht⟩⟩
    refine ⟨fun n => if n = N + 1 then w else code n, fun n hn => ?_, fun m hm n hn hmn => ?_⟩
    · by_cases h : n = N + 1
      · simp [h, hwl, hL]
      · have := mem_Icc.1 hn
        simpa [h] using h1 n (mem_Icc.2 (by omega))
    · have hm' := mem_Icc.1 hm
      have hn' := mem_Icc.1 hn
      by_cases ha : m = N + 1 <;> by_cases hb : n = N + 1
      · omega
      · exfalso
        have hn2 : n ∈ Icc 1 N := mem_Icc.2 (by omega)
        simp only [ha, hb, if_true, if_false] at hmn
        have h5 : L ≤ l n := by
          have := hmn.length_le
          rw [hwl, h1 n hn2] at this
          exact this
        have h6 : l n ≤ L := hl n (N + 1) hn'.1 (by omega)
        have h7 : w = code n := hmn.eq_of_length (by rw [hwl, h1 n hn2]; omega)
        exact hnp n hn2 (by rw [← h7])
      · exfalso
        simp only [ha, hb, if_true, if_false] at hmn
        exact hnp m (mem_Icc.2 (by omega)) hmn
      · simp only [ha, hb, if_false] at hmn
        exact h2 m (mem_Icc.2 (by omega)) n (mem_Icc.2 (by omega)) hmn

/-- C163: there is a binary prefix code for the integers from 1 to `N ≤ 2 ^ 65536` in which the word
of `n` has `L_N(n)` bits, rounded up to a whole number of bits. -/
theorem C163_prefix_code {len : ℕ → ℝ} (h : CodeLengths len) {N : ℕ} (hN : N ≤ 2 ^ 65536) :
    ∃ code : ℕ → List Bool, (∀ n ∈ Icc 1 N, (code n).length = ⌈len n⌉₊) ∧
      ∀ m ∈ Icc 1 N, ∀ n ∈ Icc 1 N, code m <+: code n → m = n := by
  refine exists_prefix_code (fun n => ⌈len n⌉₊) (fun m n hm hmn => Nat.ceil_mono ?_) N ?_
  · obtain ⟨F1, s, h1, h2⟩ := LN_spec (m : Int) (by exact_mod_cast hm)
    obtain ⟨F2, t, h3, h4⟩ := LN_spec (n : Int) (by exact_mod_cast hm.trans hmn)
    obtain ⟨F3, h5⟩ := h m hm
    obtain ⟨F4, h6⟩ := h n (hm.trans hmn)
    have e1 := (h2 _ (le_max_left F1 F3)).1
    rw [h5 _ (le_max_right F1 F3)] at e1
    have e2 := (h4 _ (le_max_left F2 F4)).1
    rw [h6 _ (le_max_right F2 F4)] at e2
    rw [Except.ok.inj e1, Except.ok.inj e2]
    have : s ≤ t := h1.mono h3 (Real.logb_le_logb_of_le (by norm_num) (by exact_mod_cast hm)
      (by exact_mod_cast hmn))
    linarith
  · refine le_trans (sum_le_sum fun n _ => ?_) (C163_kraft h hN).le
    exact Real.rpow_le_rpow_of_exponent_le (by norm_num) (neg_le_neg (Nat.le_ceil _))

/-- non-vacuity: there is a sequence of code lengths, and the range of a C `int` is covered -/
example : ∃ len, CodeLengths len ∧ kraftSum len 2147483647 < 1 := by
  obtain ⟨len, h, _⟩ := C163_lengths_exist
  have h2 : ∀ k, 31 ≤ k → (2147483647 : ℕ) ≤ 2 ^ k := fun k hk =>
    le_trans (by norm_num : (2147483647 : ℕ) ≤ 2 ^ 31) (Nat.pow_le_pow_right (by norm_num) hk)
  exact ⟨len, h, C163_kraft h (h2 _ (by norm_num))⟩

end Prolothar.Mdl
