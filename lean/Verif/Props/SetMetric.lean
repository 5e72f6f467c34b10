import Verif.Props.SetSimilarity
import Mathlib.Data.Finset.Image
import Mathlib.Tactic.Ring
/-
Property C172 of /repo/prolothar_common/collections/set_similarity.py: how the similarities of different pairs of sets are
related. The specification needs only sets and their numbers of elements.
-/
namespace Prolothar.SetSimilarity
variable {α β : Type} [DecidableEq α] [DecidableEq β]

/-- the value of the Jaccard index in one formula: the index times the size of the union is the size of the intersection -/
theorem jaccard_mul {a b : Finset α} {r : Rat} (h : jaccard a b = .ok r) : r * (a ∪ b).card = (a ∩ b).card ∧ (a ∪ b = ∅ → r = 1) := by
  by_cases h0 : a = ∅ ∧ b = ∅
  · have := (C10_values a b).2.2.2 h0.1 h0.2
    rw [this.2.1] at h
    cases h
    simp [h0.1, h0.2]
  · have := (C10_values a b).2.1 h0
    rw [this] at h
    cases h
    have hne : a ∪ b ≠ ∅ := fun he => h0 (Finset.union_eq_empty.1 he)
    have hpos : ((a ∪ b).card : Rat) ≠ 0 := by
      exact_mod_cast fun he => hne (Finset.card_eq_zero.1 he)
    exact ⟨div_mul_cancel₀ _ hpos, fun he => absurd he hne⟩

theorem dice_mul {a b : Finset α} {r : Rat} (h : dice a b = .ok r) :
    r * (a.card + b.card) = 2 * (a ∩ b).card ∧ (a ∪ b = ∅ → r = 1) := by
  by_cases h0 : a = ∅ ∧ b = ∅
  · have := (C10_values a b).2.2.2 h0.1 h0.2
    rw [this.1] at h
    cases h
    simp [h0.1, h0.2]
  · have := (C10_values a b).1 h0
    rw [this] at h
    cases h
    have hne : a ∪ b ≠ ∅ := fun he => h0 (Finset.union_eq_empty.1 he)
    have hpos : ((a.card : Rat) + b.card) ≠ 0 := by
      intro he
      have h1 : a.card + b.card = 0 := by exact_mod_cast he
      exact h0 ⟨Finset.card_eq_zero.1 (by omega), Finset.card_eq_zero.1 (by omega)⟩
    exact ⟨div_mul_cancel₀ _ hpos, fun he => absurd he hne⟩

/-- bounds of the Jaccard index, from C10 -/
theorem jaccard_bounds {a b : Finset α} {r : Rat} (h : jaccard a b = .ok r) : 0 ≤ r ∧ r ≤ 1 := by
  obtain ⟨_, s, hs, h1, h2, _⟩ := C10_jaccard a b
  rw [hs] at h
  cases h
  exact ⟨h1, h2⟩

theorem dice_bounds {a b : Finset α} {r : Rat} (h : dice a b = .ok r) : 0 ≤ r ∧ r ≤ 1 := by
  obtain ⟨_, s, hs, h1, h2, _⟩ := C10_dice a b
  rw [hs] at h
  cases h
  exact ⟨h1, h2⟩

/-- counting: what separates `a` from `c` separates `a` from `b` or `b` from `c`, and an element of `b` alone does both -/
theorem count_three (a b c : Finset α) :
    (a ∪ b ∪ c).card + (a ∩ b).card + (b ∩ c).card ≤ (a ∪ b).card + (b ∪ c).card + (a ∩ c).card := by
  have e1 := Finset.card_union_add_card_inter (a ∪ b) (b ∪ c)
  have e2 : (a ∪ b) ∪ (b ∪ c) = a ∪ b ∪ c := by ext x; simp only [Finset.mem_union]; tauto
  have e3 : (a ∩ b) ∪ (b ∩ c) ∪ b ⊆ (a ∪ b) ∩ (b ∪ c) := by
    intro x; simp only [Finset.mem_union, Finset.mem_inter]; tauto
  have e4 := Finset.card_union_add_card_inter (a ∩ b) (b ∩ c)
  have e5 : ((a ∩ b) ∪ (b ∩ c)).card ≤ ((a ∪ b) ∩ (b ∪ c)).card :=
    Finset.card_le_card fun x hx => e3 (Finset.mem_union_left _ hx)
  have e6 : ((a ∩ b) ∩ (b ∩ c)).card ≤ (a ∩ c).card := by
    apply Finset.card_le_card
    intro x; simp only [Finset.mem_inter]; tauto
  rw [e2] at e1
  omega

/-- C172: one minus the Jaccard index is a distance: with C10 (it is 0 exactly for equal sets and symmetric) this is the missing
triangle inequality -/
theorem C172_triangle {a b c : Finset α} {ab bc ac : Rat} (h1 : jaccard a b = .ok ab) (h2 : jaccard b c = .ok bc) (h3 : jaccard a c = .ok ac) :
    1 - ac ≤ (1 - ab) + (1 - bc) := by
  obtain ⟨m1, z1⟩ := jaccard_mul h1
  obtain ⟨m2, z2⟩ := jaccard_mul h2
  obtain ⟨m3, z3⟩ := jaccard_mul h3
  have b1 := jaccard_bounds h1
  have b2 := jaccard_bounds h2
  have b3 := jaccard_bounds h3
  by_cases hac : a ∪ c = ∅
  · have := z3 hac
    linarith
  · have hcount : ((a ∪ b ∪ c).card : Rat) + (a ∩ b).card + (b ∩ c).card ≤ (a ∪ b).card + (b ∪ c).card + (a ∩ c).card := by
      exact_mod_cast count_three a b c
    have u1 : ((a ∪ b).card : Rat) ≤ (a ∪ b ∪ c).card := by
      exact_mod_cast Finset.card_le_card Finset.subset_union_left
    have u2 : ((b ∪ c).card : Rat) ≤ (a ∪ b ∪ c).card := by
      refine Nat.cast_le.2 (Finset.card_le_card ?_)
      intro x; simp only [Finset.mem_union]; tauto
    have u3 : ((a ∪ c).card : Rat) ≤ (a ∪ b ∪ c).card := by
      refine Nat.cast_le.2 (Finset.card_le_card ?_)
      intro x; simp only [Finset.mem_union]; tauto
    have hpos : (0 : Rat) < (a ∪ b ∪ c).card := by
      have : (0 : Rat) < (a ∪ c).card := by
        exact_mod_cast Finset.card_pos.2 (Finset.nonempty_iff_ne_empty.2 hac)
      linarith
    rw [← m1, ← m2, ← m3] at hcount
    generalize ((a ∪ b ∪ c).card : Rat) = u at *
    generalize ((a ∪ b).card : Rat) = p at *
    generalize ((b ∪ c).card : Rat) = q at *
    generalize ((a ∪ c).card : Rat) = s at *
    have k1 : (1 - ab) * p ≤ (1 - ab) * u := mul_le_mul_of_nonneg_left u1 (by linarith)
    have k2 : (1 - bc) * q ≤ (1 - bc) * u := mul_le_mul_of_nonneg_left u2 (by linarith)
    have k3 : ac * s ≤ ac * u := mul_le_mul_of_nonneg_left u3 (by linarith)
    have : (1 - ac) * u ≤ ((1 - ab) + (1 - bc)) * u := by
      have := hcount
      nlinarith
    exact le_of_mul_le_mul_right this hpos

/-- C172 for the Sorensen-Dice coefficient and the overlap coefficient: one minus the coefficient is no distance, the triangle inequality fails
for {0}, {0, 1} and {1} -/
theorem C172_triangle_witness :
    dice ({0} : Finset Nat) {0, 1} = .ok (2 / 3) ∧ dice ({0, 1} : Finset Nat) {1} = .ok (2 / 3) ∧ dice ({0} : Finset Nat) {1} = .ok 0 ∧
    overlap ({0} : Finset Nat) {0, 1} = .ok 1 ∧ overlap ({0, 1} : Finset Nat) {1} = .ok 1 ∧ overlap ({0} : Finset Nat) {1} = .ok 0 := by
  decide +kernel

/-- C172: the two indices are functions of each other: d = 2j/(1+j) and j = d/(2-d) -/
theorem C172_dice_jaccard {a b : Finset α} {d j : Rat} (h1 : dice a b = .ok d) (h2 : jaccard a b = .ok j) :
    d = 2 * j / (1 + j) ∧ j = d / (2 - d) := by
  obtain ⟨m1, z1⟩ := dice_mul h1
  obtain ⟨m2, z2⟩ := jaccard_mul h2
  have b1 := dice_bounds h1
  have b2 := jaccard_bounds h2
  have hj : (1 + j) ≠ 0 := by intro h; linarith
  have hd : (2 - d) ≠ 0 := by intro h; linarith
  have key : d * (1 + j) = 2 * j := by
    by_cases he : a ∪ b = ∅
    · rw [z1 he, z2 he]; norm_num
    · have hsum : ((a ∪ b).card : Rat) + (a ∩ b).card = a.card + b.card := by
        exact_mod_cast Finset.card_union_add_card_inter a b
      have hpos : ((a ∪ b).card : Rat) ≠ 0 := by
        exact_mod_cast fun h => he (Finset.card_eq_zero.1 h)
      rw [← hsum, ← m2] at m1
      have : (d * (1 + j)) * (a ∪ b).card = (2 * j) * (a ∪ b).card := by linarith
      exact mul_right_cancel₀ hpos this
  refine ⟨(eq_div_iff hj).2 key, (eq_div_iff hd).2 ?_⟩
  linarith

/-- C172: so both indices rank pairs of sets in the same way: nearest neighbours and thresholds can be exchanged -/
theorem C172_same_ranking {a b : Finset α} {a' b' : Finset β} {d j d' j' : Rat} (h1 : dice a b = .ok d) (h2 : jaccard a b = .ok j)
    (h1' : dice a' b' = .ok d') (h2' : jaccard a' b' = .ok j') : d ≤ d' ↔ j ≤ j' := by
  have b2 := jaccard_bounds h2
  have b2' := jaccard_bounds h2'
  rw [(C172_dice_jaccard h1 h2).1, (C172_dice_jaccard h1' h2').1, div_le_div_iff₀ (by linarith) (by linarith)]
  constructor
  · intro h; linarith
  · intro h; linarith

/-- C172: Jaccard ≤ Dice ≤ overlap, whenever the overlap coefficient is defined -/
theorem C172_order {a b : Finset α} {d j : Rat} (h1 : dice a b = .ok d) (h2 : jaccard a b = .ok j) :
    j ≤ d ∧ ∀ o, overlap a b = .ok o → d ≤ o := by
  have b2 := jaccard_bounds h2
  constructor
  · rw [(C172_dice_jaccard h1 h2).1, le_div_iff₀ (by linarith)]
    nlinarith
  · intro o ho
    by_cases ha : a = ∅
    · by_cases hb : b = ∅
      · have := (C10_values a b).2.2.2 ha hb
        rw [this.1] at h1; rw [this.2.2] at ho
        cases h1; cases ho; exact le_refl _
      · have := ((C10_overlap a b).2.1).2 (.inl ⟨ha, hb⟩)
        rw [this] at ho; cases ho
    · by_cases hb : b = ∅
      · have := ((C10_overlap a b).2.1).2 (.inr ⟨ha, hb⟩)
        rw [this] at ho; cases ho
      · have e1 := (C10_values a b).1 (fun h => ha h.1)
        have e2 := (C10_values a b).2.2.1 ha hb
        rw [e1] at h1; rw [e2] at ho
        cases h1; cases ho
        have pa : 0 < a.card := Finset.card_pos.2 (Finset.nonempty_iff_ne_empty.2 ha)
        have pb : 0 < b.card := Finset.card_pos.2 (Finset.nonempty_iff_ne_empty.2 hb)
        have pa' : (0 : Rat) < a.card := by exact_mod_cast pa
        have pb' : (0 : Rat) < b.card := by exact_mod_cast pb
        have pm : (0 : Rat) < (min a.card b.card : Nat) := by exact_mod_cast lt_min pa pb
        have hi : (0 : Rat) ≤ (a ∩ b).card := by positivity
        rw [div_le_div_iff₀ (by linarith) pm]
        have l1 : ((min a.card b.card : Nat) : Rat) ≤ a.card := by exact_mod_cast min_le_left _ _
        have l2 : ((min a.card b.card : Nat) : Rat) ≤ b.card := by exact_mod_cast min_le_right _ _
        nlinarith

/-- C172: only the structure of the two sets matters: renaming the elements one to one changes none of the three values -/
theorem C172_rename {f : α → β} (hf : Function.Injective f) (a b : Finset α) :
    dice (a.image f) (b.image f) = dice a b ∧ jaccard (a.image f) (b.image f) = jaccard a b ∧
    overlap (a.image f) (b.image f) = overlap a b := by
  unfold dice jaccard overlap
  rw [← Finset.image_inter _ _ hf, Finset.card_image_of_injective _ hf, Finset.card_image_of_injective _ hf, Finset.card_image_of_injective _ hf]
  exact ⟨rfl, rfl, rfl⟩

/-- C172: a new common element does not lower the Jaccard index, a new element of only one of the sets does not raise it -/
theorem C172_monotone {a b : Finset α} {x : α} (ha : x ∉ a) (hb : x ∉ b) {j j₁ j₂ : Rat} (h : jaccard a b = .ok j)
    (h1 : jaccard (insert x a) (insert x b) = .ok j₁) (h2 : jaccard (insert x a) b = .ok j₂) : j₂ ≤ j ∧ j ≤ j₁ ∧ (a ≠ b → j < j₁) ∧ (0 < j → j₂ < j) := by
  have bj := jaccard_bounds h
  obtain ⟨m, z⟩ := jaccard_mul h
  obtain ⟨m1, _⟩ := jaccard_mul h1
  obtain ⟨m2, _⟩ := jaccard_mul h2
  have hx : x ∉ a ∪ b := by simp [ha, hb]
  have hi : x ∉ a ∩ b := by simp [ha]
  have e1 : insert x a ∪ insert x b = insert x (a ∪ b) := by grind
  have e2 : insert x a ∩ insert x b = insert x (a ∩ b) := by grind
  have e3 : insert x a ∪ b = insert x (a ∪ b) := by grind
  have e4 : insert x a ∩ b = a ∩ b := by grind
  rw [e1, e2, Finset.card_insert_of_notMem hx, Finset.card_insert_of_notMem hi, Nat.cast_succ, Nat.cast_succ, ← m] at m1
  rw [e3, e4, Finset.card_insert_of_notMem hx, Nat.cast_succ, ← m] at m2
  have hu : (0 : Rat) ≤ (a ∪ b).card := by positivity
  have hne : a ≠ b → j ≠ 1 := by
    intro hab hj
    obtain ⟨_, s, hs, _, _, h3, _⟩ := C10_jaccard a b
    rw [hs] at h
    cases h
    exact hab (h3.1 hj)
  generalize ((a ∪ b).card : Rat) = u at *
  have hp : 0 < u + 1 := by linarith
  have k2 : j₂ = j * u / (u + 1) := (eq_div_iff hp.ne').2 m2
  have k1 : j₁ = (j * u + 1) / (u + 1) := (eq_div_iff hp.ne').2 m1
  refine ⟨?_, ?_, ?_, ?_⟩
  · rw [k2, div_le_iff₀ hp]; nlinarith
  · rw [k1, le_div_iff₀ hp]; nlinarith
  · intro hab
    have : j < 1 := lt_of_le_of_ne bj.2 (hne hab)
    rw [k1, lt_div_iff₀ hp]; nlinarith
  · intro h0
    rw [k2, div_lt_iff₀ hp]; nlinarith

/-- the hypotheses of the theorems are met: three overlapping sets with different values -/
example : jaccard ({0, 1, 2} : Finset Nat) {1, 2, 3} = .ok (1 / 2) ∧ jaccard ({1, 2, 3} : Finset Nat) {3, 4} = .ok (1 / 4) ∧
    jaccard ({0, 1, 2} : Finset Nat) {3, 4} = .ok 0 ∧ dice ({0, 1, 2} : Finset Nat) {1, 2, 3} = .ok (2 / 3) ∧
    overlap ({0, 1, 2} : Finset Nat) {1, 2, 3} = .ok (2 / 3) ∧
    jaccard (insert 5 ({0, 1, 2} : Finset Nat)) (insert 5 {1, 2, 3}) = .ok (3 / 5) ∧
    jaccard (insert 5 ({0, 1, 2} : Finset Nat)) {1, 2, 3} = .ok (2 / 5) := by
  decide +kernel

/-- in the triangle inequality both sides can be equal -/
example : jaccard ({0} : Finset Nat) {0, 1} = .ok (1 / 2) ∧ jaccard ({0, 1} : Finset Nat) {1} = .ok (1 / 2) ∧ jaccard ({0} : Finset Nat) {1} = .ok 0 := by
  decide +kernel

end Prolothar.SetSimilarity
