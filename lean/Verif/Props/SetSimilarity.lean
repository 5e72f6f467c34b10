import Verif.Model.SetSimilarity
import Mathlib.Algebra.Order.Field.Basic
import Mathlib.Tactic.Linarith
import Mathlib.Tactic.FieldSimp
import Mathlib.Tactic.NormNum
/-
Property C10 of /repo/prolothar_common/collections/set_similarity.py.
-/
namespace Prolothar.SetSimilarity
variable {α : Type} [DecidableEq α]

theorem card_facts (a b : Finset α) : (a ∩ b).card ≤ a.card ∧ (a ∩ b).card ≤ b.card ∧
    ((a ∩ b).card = a.card ↔ a ⊆ b) ∧ ((a ∩ b).card = b.card ↔ b ⊆ a) ∧
    ((a ∩ b).card = 0 ↔ Disjoint a b) ∧ (a.card = 0 ↔ a = ∅) ∧ (b.card = 0 ↔ b = ∅) := by
  refine ⟨Finset.card_le_card Finset.inter_subset_left, Finset.card_le_card Finset.inter_subset_right,
    ?_, ?_, ?_, Finset.card_eq_zero, Finset.card_eq_zero⟩
  · constructor
    · intro h
      have := Finset.eq_of_subset_of_card_le (Finset.inter_subset_left (s₁ := a) (s₂ := b)) h.ge
      exact Finset.inter_eq_left.1 this
    · intro h; rw [Finset.inter_eq_left.2 h]
  · constructor
    · intro h
      have := Finset.eq_of_subset_of_card_le (Finset.inter_subset_right (s₁ := a) (s₂ := b)) h.ge
      exact Finset.inter_eq_right.1 this
    · intro h; rw [Finset.inter_eq_right.2 h]
  · rw [Finset.card_eq_zero, Finset.disjoint_iff_inter_eq_empty]

theorem frac_facts {p q : Int} (hp : 0 ≤ p) (hq : 0 < q) (hpq : p ≤ q) :
    (0 : Rat) ≤ p / q ∧ (p : Rat) / q ≤ 1 ∧ ((p : Rat) / q = 1 ↔ p = q) ∧
    ((p : Rat) / q = 0 ↔ p = 0) := by
  have hq' : (0 : Rat) < q := by exact_mod_cast hq
  have hp' : (0 : Rat) ≤ p := by exact_mod_cast hp
  have hpq' : (p : Rat) ≤ q := by exact_mod_cast hpq
  refine ⟨div_nonneg hp' hq'.le, (div_le_one hq').2 hpq', ?_, ?_⟩
  · rw [div_eq_one_iff_eq hq'.ne']
    exact_mod_cast Iff.rfl
  · rw [div_eq_zero_iff]
    constructor
    · rintro (h | h)
      · exact_mod_cast h
      · exact absurd h hq'.ne'
    · intro h; left; exact_mod_cast h

/-- C10: Sorensen-Dice is defined for all sets, lies in [0,1], is symmetric, is 1 exactly for
equal sets and 0 exactly for disjoint sets that are not both empty. -/
theorem C10_dice (a b : Finset α) :
    dice a b = dice b a ∧ ∃ r, dice a b = .ok r ∧ 0 ≤ r ∧ r ≤ 1 ∧ (r = 1 ↔ a = b) ∧
      (r = 0 ↔ Disjoint a b ∧ ¬ (a = ∅ ∧ b = ∅)) := by
  obtain ⟨h1, h2, h3, h4, h5, h6, h7⟩ := card_facts a b
  refine ⟨?_, ?_⟩
  · unfold dice
    rw [Finset.inter_comm, add_comm (a.card : Int)]
    simp only [and_comm]
  · unfold dice
    by_cases h0 : a.card = 0 ∧ b.card = 0
    · have hab : a = b := by rw [h6.1 h0.1, h7.1 h0.2]
      refine ⟨1, by rw [if_pos h0], by norm_num, by norm_num, by simp [hab], ?_⟩
      simp [h6.1 h0.1, h7.1 h0.2]
    · rw [if_neg h0]
      have hpos : (0 : Int) < a.card + b.card := by omega
      obtain ⟨f1, f2, f3, f4⟩ := frac_facts (p := 2 * (a ∩ b).card) (q := a.card + b.card)
        (by omega) hpos (by omega)
      refine ⟨_, by unfold pyDiv; rw [if_neg (by omega)], f1, f2, ?_, ?_⟩
      · rw [f3]
        constructor
        · intro h
          exact Finset.Subset.antisymm (h3.1 (by omega)) (h4.1 (by omega))
        · rintro rfl; simp; omega
      · rw [f4, ← h5, ← h6, ← h7]
        constructor
        · intro h; exact ⟨by omega, h0⟩
        · rintro ⟨h, _⟩; omega

/-- C10: the same for the Jaccard index. -/
theorem C10_jaccard (a b : Finset α) :
    jaccard a b = jaccard b a ∧ ∃ r, jaccard a b = .ok r ∧ 0 ≤ r ∧ r ≤ 1 ∧ (r = 1 ↔ a = b) ∧
      (r = 0 ↔ Disjoint a b ∧ ¬ (a = ∅ ∧ b = ∅)) := by
  obtain ⟨h1, h2, h3, h4, h5, h6, h7⟩ := card_facts a b
  refine ⟨?_, ?_⟩
  · unfold jaccard
    rw [Finset.inter_comm, add_comm (a.card : Int)]
    simp only [and_comm]
  · unfold jaccard
    by_cases h0 : a.card = 0 ∧ b.card = 0
    · have hab : a = b := by rw [h6.1 h0.1, h7.1 h0.2]
      refine ⟨1, by rw [if_pos h0], by norm_num, by norm_num, by simp [hab], ?_⟩
      simp [h6.1 h0.1, h7.1 h0.2]
    · rw [if_neg h0]
      have hpos : (0 : Int) < a.card + b.card - (a ∩ b).card := by omega
      obtain ⟨f1, f2, f3, f4⟩ := frac_facts (p := (a ∩ b).card) (q := a.card + b.card - (a ∩ b).card)
        (by omega) hpos (by omega)
      refine ⟨_, by unfold pyDiv; rw [if_neg (by omega)], f1, f2, ?_, ?_⟩
      · rw [f3]
        constructor
        · intro h
          exact Finset.Subset.antisymm (h3.1 (by omega)) (h4.1 (by omega))
        · rintro rfl; simp
      · rw [f4, ← h5, ← h6, ← h7]
        constructor
        · intro h; exact ⟨by omega, h0⟩
        · rintro ⟨h, _⟩; omega

/-- C10: the overlap coefficient is symmetric; it raises ZeroDivisionError iff exactly one set is
empty and is otherwise in [0,1], 1 exactly if one set contains the other, and 0 exactly for
disjoint sets that are not both empty. -/
theorem C10_overlap (a b : Finset α) :
    overlap a b = overlap b a ∧
    (overlap a b = .error .zeroDivision ↔ (a = ∅ ∧ b ≠ ∅) ∨ (a ≠ ∅ ∧ b = ∅)) ∧
    (¬ ((a = ∅ ∧ b ≠ ∅) ∨ (a ≠ ∅ ∧ b = ∅)) → ∃ r, overlap a b = .ok r ∧ 0 ≤ r ∧ r ≤ 1 ∧
      (r = 1 ↔ a ⊆ b ∨ b ⊆ a) ∧ (r = 0 ↔ Disjoint a b ∧ ¬ (a = ∅ ∧ b = ∅))) := by
  obtain ⟨h1, h2, h3, h4, h5, h6, h7⟩ := card_facts a b
  have main : ¬ ((a = ∅ ∧ b ≠ ∅) ∨ (a ≠ ∅ ∧ b = ∅)) → ∃ r, overlap a b = .ok r ∧ 0 ≤ r ∧ r ≤ 1 ∧
      (r = 1 ↔ a ⊆ b ∨ b ⊆ a) ∧ (r = 0 ↔ Disjoint a b ∧ ¬ (a = ∅ ∧ b = ∅)) := by
    intro hne
    unfold overlap
    by_cases h0 : a.card = 0 ∧ b.card = 0
    · refine ⟨1, by rw [if_pos h0], by norm_num, by norm_num, ?_, ?_⟩
      · simp [h6.1 h0.1]
      · simp [h6.1 h0.1, h7.1 h0.2]
    · rw [if_neg h0]
      simp only [ne_eq, ← h6, ← h7] at hne
      have hpos : (0 : Int) < min (a.card : Int) b.card := by omega
      obtain ⟨f1, f2, f3, f4⟩ := frac_facts (p := (a ∩ b).card) (q := min (a.card : Int) b.card)
        (by omega) hpos (by omega)
      refine ⟨_, by unfold pyDiv; rw [if_neg (by omega)], f1, f2, ?_, ?_⟩
      · rw [f3, ← h3, ← h4]; omega
      · rw [f4, ← h5, ← h6, ← h7]
        constructor
        · intro h; exact ⟨by omega, h0⟩
        · rintro ⟨h, _⟩; omega
  refine ⟨?_, ?_, main⟩
  · unfold overlap
    rw [Finset.inter_comm, min_comm (a.card : Int)]
    simp only [and_comm]
  · constructor
    · intro h
      by_contra hc
      obtain ⟨r, h8, _⟩ := main hc
      rw [h8] at h; cases h
    · intro h
      unfold overlap
      simp only [ne_eq, ← h6, ← h7] at h
      rw [if_neg (by omega)]
      unfold pyDiv
      rw [if_pos (by omega)]

theorem union_card (a b : Finset α) : ((a ∪ b).card : Int) = a.card + b.card - (a ∩ b).card := by
  have := Finset.card_union_add_card_inter a b
  omega

/-- C10: the values. For sets that are not both empty, the Sorensen-Dice coefficient is twice the number of common elements, divided
by the sum of the sizes; the Jaccard index is the number of common elements divided by the size of the union; and the overlap
coefficient of non-empty sets is the number of common elements divided by the size of the smaller set. -/
theorem C10_values (a b : Finset α) :
    (¬ (a = ∅ ∧ b = ∅) → dice a b = .ok (2 * (a ∩ b).card / (a.card + b.card))) ∧
    (¬ (a = ∅ ∧ b = ∅) → jaccard a b = .ok ((a ∩ b).card / (a ∪ b).card)) ∧
    (a ≠ ∅ → b ≠ ∅ → overlap a b = .ok ((a ∩ b).card / (min a.card b.card : Nat))) ∧
    (a = ∅ → b = ∅ → dice a b = .ok 1 ∧ jaccard a b = .ok 1 ∧ overlap a b = .ok 1) := by
  have hA : a.card = 0 ↔ a = ∅ := Finset.card_eq_zero
  have hB : b.card = 0 ↔ b = ∅ := Finset.card_eq_zero
  obtain ⟨h1, h2, -⟩ := card_facts a b
  refine ⟨fun h => ?_, fun h => ?_, fun ha hb => ?_, ?_⟩
  · rw [← hA, ← hB] at h
    unfold dice pyDiv
    rw [if_neg h, if_neg (by omega)]
    push_cast; rfl
  · rw [← hA, ← hB] at h
    unfold jaccard pyDiv
    rw [if_neg h, ← union_card, if_neg (by rw [union_card]; omega)]
    push_cast; rfl
  · rw [ne_eq, ← hA] at ha
    rw [ne_eq, ← hB] at hb
    unfold overlap pyDiv
    rw [if_neg (fun h => ha h.1), if_neg (by omega)]
    push_cast; rfl
  · rintro rfl rfl
    exact ⟨rfl, rfl, rfl⟩

example : dice {1, 2, 3, 4} {5, 6, 7, 4} = .ok (1 / 4 : Rat) := by decide +kernel
example : overlap ({1, 2} : Finset Nat) ∅ = .error .zeroDivision := by decide

end Prolothar.SetSimilarity
