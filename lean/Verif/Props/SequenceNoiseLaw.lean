import Verif.Props.NoiseLaw
import Verif.Props.SequenceNoise
/-
C105: the noise on target sequences strikes with the stated probability. The sample space is that of Verif/Spec/NoiseLaw.lean: the numbers
drawn by `random()` are 0/N, ..., (N-1)/N, all outcomes are equally likely.
-/
namespace Prolothar.Data
open Prolothar.Spec.NoiseLaw Prolothar.LogNoise
variable {σ : Type}

/-- a generator that draws the numbers of the outcome `w`; `index` are the picks from the alphabet -/
def rngOf {m N : Nat} (w : Outcome m N) (index : Nat → Nat) : Rng :=
  ⟨fun i => if h : i < m then ((w ⟨i, h⟩ : Nat) : ℚ) / N else 0, index⟩

theorem struck_rngOf {m N : Nat} (p : ℚ) (w : Outcome m N) (index : Nat → Nat) :
    struck (marks p w) = ((List.range m).filter fun i => decide ((rngOf w index).random i < p)).length := by
  rw [← count_ofFn, ← List.countP_eq_length_filter, List.count]
  have : List.ofFn (marks p w) = (List.range m).map fun i => decide ((rngOf w index).random i < p) := by
    apply List.ext_getElem?
    intro i
    rw [List.getElem?_ofFn, List.getElem?_map]
    by_cases hi : i < m
    · rw [dif_pos hi, List.getElem?_range hi]
      simp [marks, rngOf, hi]
    · rw [dif_neg hi, List.getElem?_eq_none (by simpa using hi)]
      rfl
  rw [this, List.countP_map]
  congr 1
  funext i
  simp

theorem removeNoise_length (p : ℚ) (g : Rng) (seq : List σ) :
    (removeNoise p g seq).length = ((List.range seq.length).filter fun i => decide (p < g.random i)).length := by
  unfold removeNoise
  rw [List.length_map, ← List.countP_eq_length_filter, ← List.countP_eq_length_filter]
  have : (List.range seq.length) = seq.zipIdx.map Prod.snd := by
    rw [List.zipIdx_map_snd, List.range_eq_range']
  rw [this, List.countP_map]
  rfl

/-- the number of the k/N that are at most p; an event is removed if its number is one of them -/
def atMost (N : Nat) (p : ℚ) : Nat := (Finset.univ.filter fun k : Fin N => ((k : Nat) : ℚ) / N ≤ p).card

theorem atMost_lt {N : Nat} (hN : 0 < N) (p : ℚ) (k : Nat) : (k : ℚ) / N ≤ p ↔ (k : ℚ) / N < (⌊p * N⌋ + 1 : ℤ) / N := by
  have hN' : (0 : ℚ) < N := by exact_mod_cast hN
  rw [div_le_iff₀ hN', div_lt_div_iff_of_pos_right hN']
  constructor
  · intro h
    have : (k : ℤ) ≤ ⌊p * N⌋ := Int.le_floor.2 (by exact_mod_cast h)
    have : (k : ℤ) < ⌊p * N⌋ + 1 := by omega
    exact_mod_cast this
  · intro h
    have : (k : ℤ) < ⌊p * N⌋ + 1 := by exact_mod_cast h
    have : (k : ℤ) ≤ ⌊p * N⌋ := by omega
    have := Int.le_floor.1 this
    exact_mod_cast this

theorem atMost_eq_below {N : Nat} (hN : 0 < N) (p : ℚ) : atMost N p = below N ((⌊p * N⌋ + 1 : ℤ) / N) := by
  unfold atMost below
  congr 1
  ext k
  simp only [Finset.mem_filter, Finset.mem_univ, true_and]
  exact atMost_lt hN p k

/-- C105: the number of removed events is binomially distributed: of the N^n outcomes for a sequence of n events, C(n,k) c^k (N-c)^(n-k) remove k events, where c
of the N numbers are at most p -/
theorem C105_remove_binomial {N : Nat} (hN : 0 < N) (p : ℚ) (index : Nat → Nat) (seq : List σ) (k : Nat) :
    Nat.card { w : Outcome seq.length N // (removeNoise p (rngOf w index) seq).length + k = seq.length } =
    seq.length.choose k * (atMost N p ^ k * (N - atMost N p) ^ (seq.length - k)) := by
  rw [atMost_eq_below hN, ← sum_binomial, ← card_law N _ (fun bits => struck bits = k), ← Fintype.card_subtype, ← Nat.card_eq_fintype_card]
  refine Nat.card_congr (Equiv.subtypeEquivRight fun w => ?_)
  rw [removeNoise_length, struck_rngOf _ w index]
  have hsplit : ((List.range seq.length).filter fun i => decide (p < (rngOf w index).random i)).length +
      ((List.range seq.length).filter fun i => decide ((rngOf w index).random i < (⌊p * N⌋ + 1 : ℤ) / N)).length = seq.length := by
    have h1 := List.length_eq_countP_add_countP (fun i => decide (p < (rngOf w index).random i)) (l := List.range seq.length)
    rw [List.length_range, List.countP_eq_length_filter, List.countP_eq_length_filter] at h1
    have h2 : (List.range seq.length).filter (fun i => decide ((rngOf w index).random i < (⌊p * N⌋ + 1 : ℤ) / N)) =
        (List.range seq.length).filter (fun i => decide ¬ decide (p < (rngOf w index).random i) = true) := by
      refine List.filter_congr fun i hi => ?_
      have hi' : i < seq.length := List.mem_range.1 hi
      have hr : (rngOf w index).random i = ((w ⟨i, hi'⟩ : Nat) : ℚ) / N := by
        show (if h : i < seq.length then _ else _) = _
        rw [dif_pos hi']
      rw [hr]
      have := atMost_lt hN p (w ⟨i, hi'⟩)
      simp only [decide_eq_true_eq, not_lt]
      exact decide_eq_decide.2 this.symm
    rw [h2]
    omega
  omega

/-- C105: the share of the numbers that are at most p, for 0 ≤ p < 1: p rounded down to a multiple of 1/N, plus 1/N -/
theorem C105_remove_share {N : Nat} (hN : 0 < N) {p : ℚ} (h0 : 0 ≤ p) (h1 : p < 1) :
    (atMost N p : ℚ) / N = (⌊p * N⌋ + 1 : ℤ) / N ∧ p < (atMost N p : ℚ) / N ∧ (atMost N p : ℚ) / N ≤ p + 1 / N := by
  have hN' : (0 : ℚ) < N := by exact_mod_cast hN
  have hf : ⌊p * N⌋ + 1 ≤ (N : ℤ) := by
    have : p * N < ((N : ℤ) : ℚ) := by push_cast; nlinarith
    have := Int.floor_lt.2 this
    omega
  have hpos : 0 ≤ ⌊p * N⌋ := Int.floor_nonneg.2 (by positivity)
  have hb : atMost N p = (⌊p * N⌋ + 1).toNat := by
    rw [atMost_eq_below hN, below_eq hN ((div_le_one hN').2 (by exact_mod_cast hf)), div_mul_cancel₀ _ hN'.ne']
    refine Eq.trans ?_ (Nat.ceil_natCast (R := ℚ) _)
    congr 1
    have : (((⌊p * N⌋ + 1).toNat : ℤ)) = ⌊p * N⌋ + 1 := Int.toNat_of_nonneg (by omega)
    exact_mod_cast this.symm
  have he : (atMost N p : ℚ) = (⌊p * N⌋ + 1 : ℤ) := by
    rw [hb]
    have : (((⌊p * N⌋ + 1).toNat : ℤ)) = ⌊p * N⌋ + 1 := Int.toNat_of_nonneg (by omega)
    exact_mod_cast this
  rw [he]
  refine ⟨rfl, ?_, ?_⟩
  · rw [lt_div_iff₀ hN']
    push_cast
    exact Int.lt_floor_add_one _
  · rw [div_le_iff₀ hN', add_mul, one_div, inv_mul_cancel₀ hN'.ne']
    push_cast
    linarith [Int.floor_le (p * (N : ℚ))]

/-- C105: the number of inserted events is binomially distributed over the n + 1 gaps -/
theorem C105_add_binomial {N : Nat} {alphabet : List σ} (ha : alphabet ≠ []) (p : ℚ) (index : Nat → Nat) (seq : List σ) (k : Nat) :
    Nat.card { w : Outcome (seq.length + 1) N // ∃ r, addNoise alphabet p (rngOf w index) seq = .ok r ∧ r.length = seq.length + k } =
    (seq.length + 1).choose k * (below N p ^ k * (N - below N p) ^ (seq.length + 1 - k)) := by
  rw [← sum_binomial, ← card_law N _ (fun bits => struck bits = k), ← Fintype.card_subtype, ← Nat.card_eq_fintype_card]
  refine Nat.card_congr (Equiv.subtypeEquivRight fun w => ?_)
  obtain ⟨r, first, gaps, h1, h2, h3, h4, _⟩ := C105_add (alphabet := alphabet) (p := p) (g := rngOf w index) (.inl ha) seq
  have hlen : r.length = seq.length + ((first :: gaps).map List.length).sum := by
    rw [h4, List.length_append, List.map_cons, List.sum_cons]
    have : ∀ (l : List σ) (gs : List (List σ)), gs.length = l.length →
        ((List.zipWith (fun x gap => x :: gap) l gs).flatten).length = l.length + (gs.map List.length).sum := by
      intro l
      induction l with
      | nil =>
        intro gs hg
        have : gs = [] := List.length_eq_zero_iff.1 hg
        subst this
        rfl
      | cons x l ih =>
        intro gs hg
        cases gs with
        | nil => simp at hg
        | cons gap gs =>
          have := ih gs (by simpa using hg)
          simp only [List.zipWith_cons_cons, List.flatten_cons, List.length_append, List.length_cons, this, List.map_cons, List.sum_cons]
          omega
    rw [this seq gaps h2]
    omega
  have hsum : ((first :: gaps).map List.length).sum = struck (marks p w) := by
    rw [struck_rngOf p w index]
    have hmap : (first :: gaps).map List.length = (List.range (seq.length + 1)).map fun i => if (rngOf w index).random i < p then 1 else 0 := by
      apply List.ext_getElem?
      intro i
      rw [List.getElem?_map, List.getElem?_map]
      by_cases hi : i < seq.length + 1
      · have hi' : i < (first :: gaps).length := by simp [h2, hi]
        rw [List.getElem?_range hi, List.getElem?_eq_getElem hi', Option.map_some, Option.map_some,
          (h3 i _ (List.getElem?_eq_getElem hi')).2]
      · rw [List.getElem?_eq_none (by simp [h2]; omega), List.getElem?_eq_none (by simp; omega)]
        rfl
    rw [hmap]
    generalize List.range (seq.length + 1) = L
    induction L with
    | nil => rfl
    | cons i L ih =>
      rw [List.map_cons, List.sum_cons, ih, List.filter_cons]
      by_cases hp : (rngOf w index).random i < p
      · rw [if_pos hp, if_pos (by simpa using hp), List.length_cons, Nat.add_comm]
      · rw [if_neg hp, if_neg (by simpa using hp), Nat.zero_add]
  constructor
  · rintro ⟨r', hr', hl⟩
    rw [h1] at hr'
    cases hr'
    omega
  · intro h
    exact ⟨r, h1, by omega⟩

/-- of the 64 outcomes with the numbers 0, 1/4, 1/2, 3/4 and probability 1/4, exactly 24 remove one of three events (two of four numbers are at most 1/4) -/
example : Nat.card { w : Outcome 3 4 // (removeNoise (1 / 4) (rngOf w id) ["a", "b", "c"]).length + 1 = 3 } = 24 := by
  have h := C105_remove_binomial (N := 4) (by norm_num) (1 / 4) id ["a", "b", "c"] 1
  have ha : atMost 4 (1 / 4) = 2 := by decide +kernel
  rw [ha] at h
  exact h.trans (by decide)

/-- with the same numbers, 27 outcomes insert exactly one event into the three gaps of two events (one of four numbers is below 1/4) -/
example : Nat.card { w : Outcome 3 4 // ∃ r, addNoise ["x", "y"] (1 / 4) (rngOf w id) ["a", "b"] = .ok r ∧ r.length = 3 } = 27 := by
  have h := C105_add_binomial (N := 4) (alphabet := ["x", "y"]) (by simp) (1 / 4) id ["a", "b"] 1
  have ha : below 4 (1 / 4) = 1 := by decide +kernel
  rw [ha] at h
  exact h.trans (by decide)

end Prolothar.Data
