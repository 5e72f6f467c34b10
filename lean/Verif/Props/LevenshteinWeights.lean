import Verif.Props.Levenshtein
import Mathlib.Tactic.Linarith
/-
C16: the edit operations for costs other than 1.
-/
namespace Prolothar.Levenshtein
open Prolothar.Spec
variable {α : Type} [DecidableEq α]

/-- what one iteration does from cell `(i, j)`, for positive costs -/
theorem btStep_weights (s1 s2 : List α) {ci cd cs : Int} (hci : 1 ≤ ci) (hcd : 1 ≤ cd) (hcs : 1 ≤ cs) (i j : Nat) (hi : i ≤ s1.length)
    (hj : j ≤ s2.length) (hne : i ≠ 0 ∨ j ≠ 0) (edits : List EditOperation) :
    (∃ i' j' : Nat, i = i' + 1 ∧ j = j' + 1 ∧ s1[i']? = s2[j']? ∧
      btStep (costMatrix s1 s2 ci cd cs) i j edits = ((i' : Int), (j' : Int), edits.reverse)) ∨
    (∃ i' j' : Nat, ∃ op : EditOperation, op.i = i' ∧ op.j = j' ∧ i' ≤ s1.length ∧ j' ≤ s2.length ∧ i' + j' < i + j ∧
      btStep (costMatrix s1 s2 ci cd cs) i j edits = ((i' : Int), (j' : Int), (edits ++ [op]).reverse) ∧
      execOp s2 (some (s1.take i ++ s2.drop j)) op = some (s1.take i' ++ s2.drop j')) ∨
    ((∀ a b, a ≤ i → b ≤ j → i + j ≤ a + b + 1 → (a, b) ≠ (i, j) → 100000 < DC s1 s2 ci cd cs a b) ∧
      ∀ edits, btStep (costMatrix s1 s2 ci cd cs) i j edits = ((i : Int), (j : Int), edits.reverse)) := by
  have mat : ∀ a b, a ≤ s1.length → b ≤ s2.length → costMatrix s1 s2 ci cd cs a b = DC s1 s2 ci cd cs a b := fun a b ha hb =>
    matrix_eq_all s1 s2 ci cd cs a b ha hb
  match i, j, hne with
  | 0, j + 1, _ =>
    right
    have c1 := mat 0 (j + 1) (by omega) (by omega)
    have c2 := mat 0 j (by omega) (by omega)
    rw [DC] at c1 c2
    have t1 : ((j : Int) + 1 - 1).toNat = j := by omega
    have t2 : ((j : Int) + 1).toNat = j + 1 := by omega
    have n1 : ¬ ((j : Int) + 1 - 1 < 0) := by omega
    have n2 : ¬ ((j : Int) + 1 < 0) := by omega
    have n3 : ((j : Int) + 1) ≠ 0 := by omega
    by_cases hmax : j ≤ 100000
    · left
      refine ⟨0, j, ⟨0, j, .insert⟩, rfl, rfl, by omega, by omega, by omega, ?_, exec_ins (by omega) (by omega)⟩
      unfold btStep
      simp only [Nat.cast_zero, Nat.cast_add, Nat.cast_one, ne_eq, not_true_eq_false, false_and,
        if_false, n3, not_false_eq_true, if_true, n1, n2, or_self, lt_self_iff_false, false_or,
        Int.toNat_zero, t1, t2, c1, c2, maxCost, true_and]
      have m : min (100000 : Int) (j : Int) = j := by omega
      rw [m]
      rw [if_neg (by push_cast; omega)]
      simp
    · right
      refine ⟨fun a b ha hb hab hne => ?_, fun edits => ?_⟩
      · have : a = 0 := by omega
        subst this
        rw [DC]
        have : b = j ∨ b = j + 1 := by omega
        omega
      · unfold btStep
        simp only [Nat.cast_zero, Nat.cast_add, Nat.cast_one, ne_eq, not_true_eq_false, false_and,
          if_false, n3, not_false_eq_true, if_true, n1, n2, or_self, lt_self_iff_false, false_or,
          Int.toNat_zero, t1, t2, c1, c2, maxCost, true_and]
        have m : min (100000 : Int) (j : Int) = 100000 := by omega
        rw [m]
        rw [if_neg (by push_cast; omega), if_neg (by omega)]
  | i + 1, 0, _ =>
    right
    have c1 := mat (i + 1) 0 (by omega) (by omega)
    have c2 := mat i 0 (by omega) (by omega)
    rw [DC_zero_right] at c1 c2
    have t1 : ((i : Int) + 1 - 1).toNat = i := by omega
    have t2 : ((i : Int) + 1).toNat = i + 1 := by omega
    have n1 : ¬ ((i : Int) + 1 - 1 < 0) := by omega
    have n2 : ¬ ((i : Int) + 1 < 0) := by omega
    have n3 : ((i : Int) + 1) ≠ 0 := by omega
    by_cases hmax : i ≤ 100000
    · left
      refine ⟨i, 0, ⟨i, 0, .delete⟩, rfl, rfl, by omega, by omega, by omega, ?_, exec_del (by omega)⟩
      unfold btStep
      simp only [Nat.cast_zero, Nat.cast_add, Nat.cast_one, ne_eq, not_true_eq_false, false_and,
        if_false, n3, not_false_eq_true, if_true, n1, n2, or_self, lt_self_iff_false, false_or,
        and_false, or_false, Int.toNat_zero, t1, t2, c1, c2, maxCost, true_and]
      have m : min (100000 : Int) (i : Int) = i := by omega
      rw [m]
      rw [if_neg (by push_cast; omega)]
      simp
    · right
      refine ⟨fun a b ha hb hab hne => ?_, fun edits => ?_⟩
      · have : b = 0 := by omega
        subst this
        rw [DC_zero_right]
        have : a = i ∨ a = i + 1 := by omega
        omega
      · unfold btStep
        simp only [Nat.cast_zero, Nat.cast_add, Nat.cast_one, ne_eq, not_true_eq_false, false_and,
          if_false, n3, not_false_eq_true, if_true, n1, n2, or_self, lt_self_iff_false, false_or,
          and_false, or_false, Int.toNat_zero, t1, t2, c1, c2, maxCost, true_and]
        have m : min (100000 : Int) (i : Int) = 100000 := by omega
        rw [m]
        rw [if_neg (by push_cast; omega), if_neg (by omega)]
  | i + 1, j + 1, _ =>
    have c0 := mat (i + 1) (j + 1) (by omega) (by omega)
    have c1 := mat i j (by omega) (by omega)
    have c2 := mat i (j + 1) (by omega) (by omega)
    have c3 := mat (i + 1) j (by omega) (by omega)
    have hD : DC s1 s2 ci cd cs (i + 1) (j + 1) = min (min (DC s1 s2 ci cd cs (i + 1) j + ci) (DC s1 s2 ci cd cs i (j + 1) + cd))
      (DC s1 s2 ci cd cs i j + if s1[i]? ≠ s2[j]? then cs else 0) := by rw [DC]
    have t1 : ((i : Int) + 1 - 1).toNat = i := by omega
    have t2 : ((i : Int) + 1).toNat = i + 1 := by omega
    have n1 : ¬ ((i : Int) + 1 - 1 < 0) := by omega
    have n2 : ¬ ((i : Int) + 1 < 0) := by omega
    have n3 : ((i : Int) + 1) ≠ 0 := by omega
    have u1 : ((j : Int) + 1 - 1).toNat = j := by omega
    have u2 : ((j : Int) + 1).toNat = j + 1 := by omega
    have v1 : ¬ ((j : Int) + 1 - 1 < 0) := by omega
    have v2 : ¬ ((j : Int) + 1 < 0) := by omega
    have v3 : ((j : Int) + 1) ≠ 0 := by omega
    have p1 : ¬ ((i : Int) < 0) := by omega
    have p2 : ¬ ((j : Int) < 0) := by omega
    have i1 : (i : Int) + 1 - 1 = i := by omega
    have j1 : (j : Int) + 1 - 1 = j := by omega
    have hstep : ∀ edits, btStep (costMatrix s1 s2 ci cd cs) ((i + 1 : Nat) : Int) ((j + 1 : Nat) : Int) edits =
        if min (min (min (100000 : Int) (DC s1 s2 ci cd cs i j)) (DC s1 s2 ci cd cs i (j + 1))) (DC s1 s2 ci cd cs (i + 1) j)
            = DC s1 s2 ci cd cs (i + 1) (j + 1) then ((i : Int), (j : Int), edits.reverse)
        else if min (min (min (100000 : Int) (DC s1 s2 ci cd cs i j)) (DC s1 s2 ci cd cs i (j + 1))) (DC s1 s2 ci cd cs (i + 1) j)
            = DC s1 s2 ci cd cs i j then ((i : Int), (j : Int), (edits ++ [EditOperation.mk i j .substitute]).reverse)
        else if min (min (min (100000 : Int) (DC s1 s2 ci cd cs i j)) (DC s1 s2 ci cd cs i (j + 1))) (DC s1 s2 ci cd cs (i + 1) j)
            = DC s1 s2 ci cd cs i (j + 1) then
          ((i : Int), (j : Int) + 1, (edits ++ [EditOperation.mk i (j + 1) .delete]).reverse)
        else if min (min (min (100000 : Int) (DC s1 s2 ci cd cs i j)) (DC s1 s2 ci cd cs i (j + 1))) (DC s1 s2 ci cd cs (i + 1) j)
            = DC s1 s2 ci cd cs (i + 1) j then
          ((i : Int) + 1, (j : Int), (edits ++ [EditOperation.mk (i + 1) j .insert]).reverse)
        else ((i : Int) + 1, (j : Int) + 1, edits.reverse) := by
      intro edits
      unfold btStep
      simp only [Nat.cast_add, Nat.cast_one, ne_eq, n3, v3, not_false_eq_true, and_self, if_true,
        true_and, n2, v2, or_self, if_false, t2, u2, c0, c1, c2, c3, maxCost, i1, j1, p1, p2,
        Int.toNat_natCast]
    generalize hA : DC s1 s2 ci cd cs i j = A at hD hstep
    generalize hB : DC s1 s2 ci cd cs i (j + 1) = B at hD hstep
    generalize hC : DC s1 s2 ci cd cs (i + 1) j = C at hD hstep
    generalize hE : DC s1 s2 ci cd cs (i + 1) (j + 1) = E at hD hstep
    by_cases h1 : min (min (min (100000 : Int) A) B) C = E
    · left
      refine ⟨i, j, rfl, rfl, ?_, by rw [hstep, if_pos h1]⟩
      by_contra hne
      rw [if_pos hne] at hD
      omega
    right
    by_cases h2 : min (min (min (100000 : Int) A) B) C = A
    · left
      exact ⟨i, j, ⟨i, j, .substitute⟩, rfl, rfl, by omega, by omega, by omega, by rw [hstep, if_neg h1, if_pos h2],
        exec_sub (by omega) (by omega)⟩
    by_cases h3 : min (min (min (100000 : Int) A) B) C = B
    · left
      exact ⟨i, j + 1, ⟨i, j + 1, .delete⟩, rfl, rfl, by omega, by omega, by omega,
        by rw [hstep, if_neg h1, if_neg h2, if_pos h3]; simp, exec_del (by omega)⟩
    by_cases h4 : min (min (min (100000 : Int) A) B) C = C
    · left
      exact ⟨i + 1, j, ⟨i + 1, j, .insert⟩, rfl, rfl, by omega, by omega, by omega,
        by rw [hstep, if_neg h1, if_neg h2, if_neg h3, if_pos h4]; simp, exec_ins (by omega) (by omega)⟩
    · right
      refine ⟨fun a b ha hb hab hne => ?_, fun edits => by rw [hstep, if_neg h1, if_neg h2, if_neg h3, if_neg h4]; simp⟩
      have : (a = i ∧ b = j + 1) ∨ (a = i + 1 ∧ b = j) ∨ (a = i + 1 ∧ b = j + 1) := by omega
      rcases this with ⟨rfl, rfl⟩ | ⟨rfl, rfl⟩ | ⟨rfl, rfl⟩
      · rw [hB]; omega
      · rw [hC]; omega
      · exact absurd rfl hne

/-- every cell is at most the number of its symbols times the largest cost -/
theorem DC_le (s1 s2 : List α) {ci cd cs K : Int} (hK : 1 ≤ K) (hci : ci ≤ K) (hcd : cd ≤ K) : ∀ n i j : Nat, i + j = n →
    DC s1 s2 ci cd cs i j ≤ (i + j) * K
  | n, 0, j, _ => by
    rw [DC]
    push_cast
    nlinarith
  | n, i + 1, 0, _ => by
    rw [DC]
    push_cast
    nlinarith
  | 0, i + 1, j + 1, h => by omega
  | n + 1, i + 1, j + 1, h => by
    have ih := DC_le s1 s2 (cs := cs) hK hci hcd n (i + 1) j (by omega)
    rw [DC]
    refine (min_le_left _ _).trans ((min_le_left _ _).trans ?_)
    push_cast at ih ⊢
    nlinarith

omit [DecidableEq α] in
theorem take_drop_eq {s1 s2 : List α} {i j : Nat} (hi : i < s1.length) (hj : j < s2.length) (h : s1[i]? = s2[j]?) :
    s1.take (i + 1) ++ s2.drop (j + 1) = s1.take i ++ s2.drop j := by
  rw [List.take_succ_eq_append_getElem hi, List.drop_eq_getElem_cons (i := j) hj]
  rw [List.getElem?_eq_getElem hi, List.getElem?_eq_getElem hj] at h
  simp at h
  simp [h]

/-- for positive costs, if the loop ends, it ends with a script -/
theorem btLoop_weights (s1 s2 : List α) {ci cd cs : Int} (hci : 1 ≤ ci) (hcd : 1 ≤ cd) (hcs : 1 ≤ cs) :
    ∀ (fuel i j : Nat) (edits E r : List EditOperation), i ≤ s1.length → j ≤ s2.length → edits.Perm E → BtInv s1 s2 i j E →
    btLoop (costMatrix s1 s2 ci cd cs) fuel i j edits = .ok r → ∃ E', r.Perm E' ∧ BtInv s1 s2 0 0 E'
  | 0, i, j, _, _, _, _, _, _, _, h => by cases h
  | fuel + 1, i, j, edits, E, r, hi, hj, hp, hinv, hr => by
    by_cases h0 : i = 0 ∧ j = 0
    · obtain ⟨rfl, rfl⟩ := h0
      unfold btLoop at hr
      simp at hr
      subst hr
      exact ⟨E, hp, hinv⟩
    · have hne : i ≠ 0 ∨ j ≠ 0 := by omega
      have hr0 := hr
      unfold btLoop at hr
      rw [if_pos (by omega)] at hr
      rcases btStep_weights s1 s2 hci hcd hcs i j hi hj hne edits with
        ⟨i', j', rfl, rfl, heq, hs⟩ | ⟨i', j', op, rfl, rfl, hi', hj', hlt, hs, hex⟩ | ⟨_, hs⟩
      · rw [hs] at hr
        exact btLoop_weights s1 s2 hci hcd hcs fuel i' j' edits.reverse E r (by omega) (by omega) ((List.reverse_perm edits).trans hp)
          ⟨hinv.dec, fun p hp => by have := hinv.low p hp; omega, by rw [hinv.run, take_drop_eq (by omega) (by omega) heq]⟩ hr
      · rw [hs] at hr
        exact btLoop_weights s1 s2 hci hcd hcs fuel op.i op.j (edits ++ [op]).reverse (E ++ [op]) r hi' hj'
          ((List.reverse_perm _).trans (hp.append_right [op])) (hinv.snoc op hlt hex) hr
      · rw [btLoop_never _ _ _ (by omega) hs] at hr0
        cases hr0

/-- for positive costs the loop ends if no cell exceeds MAX_COST -/
theorem btLoop_ends (s1 s2 : List α) {ci cd cs : Int} (hci : 1 ≤ ci) (hcd : 1 ≤ cd) (hcs : 1 ≤ cs)
    (hmax : ∀ a b, a ≤ s1.length → b ≤ s2.length → DC s1 s2 ci cd cs a b ≤ 100000) :
    ∀ (fuel i j : Nat) (edits : List EditOperation), i ≤ s1.length → j ≤ s2.length → i + j < fuel →
    ∃ r, btLoop (costMatrix s1 s2 ci cd cs) fuel i j edits = .ok r
  | 0, i, j, _, _, _, h => by omega
  | fuel + 1, i, j, edits, hi, hj, hf => by
    unfold btLoop
    by_cases h0 : i = 0 ∧ j = 0
    · obtain ⟨rfl, rfl⟩ := h0
      exact ⟨edits, by simp⟩
    · have hne : i ≠ 0 ∨ j ≠ 0 := by omega
      rw [if_pos (by omega)]
      rcases btStep_weights s1 s2 hci hcd hcs i j hi hj hne edits with
        ⟨i', j', rfl, rfl, heq, hs⟩ | ⟨i', j', op, rfl, rfl, hi', hj', hlt, hs, hex⟩ | ⟨hbig, _⟩
      · rw [hs]
        exact btLoop_ends s1 s2 hci hcd hcs hmax fuel i' j' _ (by omega) (by omega) (by omega)
      · rw [hs]
        exact btLoop_ends s1 s2 hci hcd hcs hmax fuel op.i op.j _ hi' hj' (by omega)
      · exfalso
        rcases Nat.eq_zero_or_pos i with rfl | hpos
        · have h1 := hbig 0 (j - 1) le_rfl (by omega) (by omega) (by simp; omega)
          have h2 := hmax 0 (j - 1) (by omega) (by omega)
          omega
        · have h1 := hbig (i - 1) j (by omega) le_rfl (by omega) (by simp; omega)
          have h2 := hmax (i - 1) j (by omega) (by omega)
          omega

/-- C16: for all positive costs, whenever the call with backtrace returns, its edit operations, in an order that goes from the
end of the sequences to their start, turn the first sequence into the second. -/
theorem C16_edits_turn_source_into_target (s1 s2 : List α) (insC delC subC : Int) (h1 : 1 ≤ insC) (h2 : 1 ≤ delC) (h3 : 1 ≤ subC) (fuel : Nat)
    (d : Int) (edits : List EditOperation) (h : levenshteinWithBacktrace fuel s1 s2 insC delC subC = .ok (d, edits)) :
    ∃ E : List EditOperation, edits.Perm E ∧ E.Pairwise (fun p q => q.i + q.j < p.i + p.j) ∧ execAll s2 E s1 = some s2 := by
  unfold levenshteinWithBacktrace backtrace at h
  cases hb : btLoop (costMatrix s1 s2 insC delC subC) fuel s1.length s2.length [] with
  | error e => simp only [hb] at h; cases h
  | ok r =>
    simp only [hb] at h
    have h' : ((costMatrix s1 s2 insC delC subC) s1.length s2.length, r) = (d, edits) := by
      simpa [pure, Except.pure, bind, Except.bind] using h
    obtain ⟨_, rfl⟩ := Prod.mk.inj h'
    obtain ⟨E, hp, hinv⟩ := btLoop_weights s1 s2 h1 h2 h3 fuel s1.length s2.length [] [] r le_rfl le_rfl (List.Perm.refl _)
      ⟨by simp, by simp, by simp [execAll]⟩ hb
    refine ⟨E, hp, hinv.dec, ?_⟩
    have := hinv.run
    simpa using this

example : ∃ d edits, levenshteinWithBacktrace 9 [1, 2, 3] [3, 1, 4] 2 5 3 = .ok (d, edits) ∧ edits.length = 3 :=
  ⟨_, _, rfl, rfl⟩

/-- C16: for positive costs the call with backtrace returns if the number of symbols times the largest cost is at most 100000. -/
theorem C16_backtrace_terminates (s1 s2 : List α) (insC delC subC K : Int) (h1 : 1 ≤ insC) (h2 : 1 ≤ delC) (h3 : 1 ≤ subC)
    (k1 : insC ≤ K) (k2 : delC ≤ K) (hK : ((s1.length : Int) + s2.length) * K ≤ 100000) (fuel : Nat) (hf : s1.length + s2.length < fuel) :
    ∃ edits, levenshteinWithBacktrace fuel s1 s2 insC delC subC = .ok (distance s1 s2 insC delC subC, edits) := by
  obtain ⟨r, hr⟩ := btLoop_ends s1 s2 h1 h2 h3 (fun a b ha hb => by
    refine (DC_le s1 s2 (K := K) (by omega) k1 k2 (a + b) a b rfl).trans (le_trans ?_ hK)
    have : (a : Int) + b ≤ s1.length + s2.length := by omega
    exact mul_le_mul_of_nonneg_right this (by omega)) fuel s1.length s2.length [] le_rfl le_rfl hf
  refine ⟨r, ?_⟩
  unfold levenshteinWithBacktrace backtrace distance
  simp only [hr, bind, Except.bind, pure, Except.pure]

example : ∃ edits, levenshteinWithBacktrace 7 [1, 2, 3] [3, 1, 4] 2 5 3 = .ok (distance [1, 2, 3] [3, 1, 4] 2 5 3, edits) :=
  C16_backtrace_terminates [1, 2, 3] [3, 1, 4] 2 5 3 5 (by decide) (by decide) (by decide) (by decide) (by decide) (by decide) 7 (by decide)

/-- C16, disagreement: with an insertion cost of 0 the edit operations can be wrong: they turn `[1]` into `[2, 1]` instead of `[2, 3]`. -/
theorem C16_zero_cost_edits_wrong :
    levenshteinWithBacktrace 9 [1] [2, 3] 0 1 1 = .ok (1, [⟨0, 0, .insert⟩]) ∧ execAll [2, 3] [⟨0, 0, .insert⟩] [1] = some [2, 1] := by
  decide

/-- C16, disagreement: with costs above MAX_COST the call with backtrace does not return, already for two sequences of two symbols. -/
theorem C16_large_costs_diverge (fuel : Nat) :
    levenshteinWithBacktrace fuel [1, 2] [3, 4] 200000 200000 200000 = .error .diverge := by
  have c0 : costMatrix [1, 2] [3, 4] 200000 200000 200000 2 2 = 400000 := by decide +kernel
  have c1 : costMatrix [1, 2] [3, 4] 200000 200000 200000 1 1 = 200000 := by decide +kernel
  have c2 : costMatrix [1, 2] [3, 4] 200000 200000 200000 1 2 = 200001 := by decide +kernel
  have c3 : costMatrix [1, 2] [3, 4] 200000 200000 200000 2 1 = 200001 := by decide +kernel
  have hs : ∀ edits, btStep (costMatrix [1, 2] [3, 4] 200000 200000 200000) 2 2 edits = (2, 2, edits.reverse) := by
    intro edits
    generalize costMatrix [1, 2] [3, 4] 200000 200000 200000 = M at c0 c1 c2 c3
    unfold btStep
    have t : Int.toNat 2 = 2 := rfl
    have t' : Int.toNat 1 = 1 := rfl
    have e : (2 : Int) - 1 = 1 := rfl
    simp only [e, t, t', c0, c1, c2, c3, maxCost]
    norm_num
  have hb := btLoop_never _ 2 2 (by decide) hs fuel []
  unfold levenshteinWithBacktrace backtrace
  have l1 : (([1, 2] : List Nat).length : Int) = 2 := rfl
  have l2 : (([3, 4] : List Nat).length : Int) = 2 := rfl
  simp only [l1, l2, hb, bind, Except.bind]

end Prolothar.Levenshtein
