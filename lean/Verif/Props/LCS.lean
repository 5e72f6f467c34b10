import Verif.Model.LCS
import Verif.Lemmas.Grid
import Mathlib.Data.List.Basic
import Mathlib.Tactic.Linarith
/-
Properties C12, C13 of /repo/prolothar_common/longest_common_subsequence.pyx.
Specification: `List.Sublist` (`<+`), the (not necessarily contiguous) subsequence relation.
-/
namespace Prolothar.LCS
open Prolothar.Grid
variable {α : Type} [DecidableEq α]

/-- helper: the recurrence -/
def L (x y : List α) : Nat → Nat → Nat
  | 0, _ => 0
  | _ + 1, 0 => 0
  | i + 1, j + 1 => if x[i]? = y[j]? then L x y i j + 1 else max (L x y (i + 1) j) (L x y i (j + 1))
termination_by i j => i + j

theorem matrix_eq (x y : List α) : ∀ i j, i ≤ x.length → j ≤ y.length →
    lcsMatrix x y i j = L x y i j := by
  intro i j hi hj
  refine fill_spec (body x y) x.length y.length (fun i j => (L x y i j : Int)) ?_ _ ?_ i j hi hj
  · intro i j M hi hj h
    have h1 := h i j (by omega) (by omega) (by unfold Final; omega)
    have h2 := h (i + 1) j (by omega) (by omega) (by unfold Final; omega)
    have h3 := h i (j + 1) (by omega) (by omega) (by unfold Final; omega)
    simp only [body, h1, h2, h3]
    rw [L]
    split <;> simp
  · intro a b _ _ h
    rcases h with rfl | rfl
    · simp [L]
    · cases a <;> simp [L]

omit [DecidableEq α] in
theorem sublist_concat {c a : List α} {x : α} (h : c.Sublist (a ++ [x])) :
    c.Sublist a ∨ ∃ c', c = c' ++ [x] ∧ c'.Sublist a := by
  rw [List.sublist_append_iff] at h
  obtain ⟨c1, c2, rfl, h1, h2⟩ := h
  rcases List.sublist_cons_iff.1 h2 with h3 | ⟨r, rfl, h3⟩
  · left; rw [List.sublist_nil.1 h3]; simpa using h1
  · right; rw [List.sublist_nil.1 h3]; exact ⟨c1, rfl, h1⟩

theorem L_upper (x y c : List α) : ∀ i j, i ≤ x.length → j ≤ y.length →
    c.Sublist (x.take i) → c.Sublist (y.take j) → c.length ≤ L x y i j
  | 0, j, _, _, h1, _ => by
    have : c = [] := by simpa using h1
    simp [this]
  | i + 1, 0, _, _, _, h2 => by
    have : c = [] := by simpa using h2
    simp [this]
  | i + 1, j + 1, hi, hj, h1, h2 => by
    have ex : x.take (i + 1) = x.take i ++ [x[i]] := List.take_succ_eq_append_getElem (by omega)
    have ey : y.take (j + 1) = y.take j ++ [y[j]] := List.take_succ_eq_append_getElem (by omega)
    rw [L]
    by_cases h : x[i]? = y[j]?
    · rw [if_pos h]
      rw [ex] at h1; rw [ey] at h2
      rcases sublist_concat h1 with a | ⟨c', rfl, a⟩
      · rcases sublist_concat h2 with b | ⟨c', rfl, b⟩
        · have := L_upper x y c i j (by omega) (by omega) a b; omega
        · have := L_upper x y c' i j (by omega) (by omega)
            ((List.sublist_append_left c' _).trans a) b
          simp; omega
      · rcases sublist_concat h2 with b | ⟨c'', e, b⟩
        · have := L_upper x y c' i j (by omega) (by omega) a
            ((List.sublist_append_left c' _).trans b)
          simp; omega
        · have e' := (List.append_inj' e (by simp)).1
          subst e'
          have := L_upper x y c' i j (by omega) (by omega) a b
          simp; omega
    · rw [if_neg h]
      by_cases hc : c.Sublist (x.take i)
      · have := L_upper x y c i (j + 1) (by omega) (by omega) hc h2; omega
      · by_cases hd : c.Sublist (y.take j)
        · have := L_upper x y c (i + 1) j (by omega) (by omega) h1 hd; omega
        · exfalso
          rw [ex] at h1; rw [ey] at h2
          rcases sublist_concat h1 with a | ⟨c', e1, a⟩
          · exact hc a
          · rcases sublist_concat h2 with b | ⟨c'', e2, b⟩
            · exact hd b
            · rw [e1] at e2
              have := (List.append_inj' e2 (by simp)).2
              apply h
              rw [List.getElem?_eq_getElem (by omega), List.getElem?_eq_getElem (by omega)]
              simpa using this
termination_by i j => i + j

/-- the alignment property of a list of index pairs, in decreasing order (loop order) -/
structure Good (x y : List α) (i j : Nat) (bt : List (Nat × Nat)) : Prop where
  dec : bt.Pairwise (fun p q => q.1 < p.1 ∧ q.2 < p.2)
  low : ∀ p ∈ bt, i ≤ p.1 ∧ j ≤ p.2
  eq : ∀ p ∈ bt, ∃ v, x[p.1]? = some v ∧ y[p.2]? = some v

theorem backtrace_spec (x y : List α) : ∀ i j bt, i ≤ x.length → j ≤ y.length →
    Good x y i j bt →
    ∃ r, backtraceLoop x y (lcsMatrix x y) i j bt = .ok r ∧ Good x y 0 0 r ∧
      r.length = bt.length + L x y i j
  | 0, j, bt, _, _, h => by
    refine ⟨bt, by unfold backtraceLoop; rfl, ⟨h.dec, by simp, h.eq⟩, by simp [L]⟩
  | i + 1, 0, bt, _, _, h => by
    refine ⟨bt, by unfold backtraceLoop; rfl, ⟨h.dec, by simp, h.eq⟩, by simp [L]⟩
  | i + 1, j + 1, bt, hi, hj, h => by
    have ea : x[i]? = some x[i] := List.getElem?_eq_getElem (by omega)
    have eb : y[j]? = some y[j] := List.getElem?_eq_getElem (by omega)
    rw [backtraceLoop]
    simp only [pyGet_ofNat ea, pyGet_ofNat eb, bind, Except.bind]
    by_cases hab : x[i] = y[j]
    · rw [if_pos hab]
      obtain ⟨r, h1, h2, h3⟩ := backtrace_spec x y i j (bt ++ [(i, j)]) (by omega) (by omega) (by
        refine ⟨?_, ?_, ?_⟩
        · rw [List.pairwise_append]
          refine ⟨h.dec, by simp, ?_⟩
          intro p hp q hq
          simp at hq; subst hq
          have := h.low p hp
          simp only; omega
        · intro p hp
          rcases List.mem_append.1 hp with hp | hp
          · have := h.low p hp; omega
          · simp at hp; subst hp; simp
        · intro p hp
          rcases List.mem_append.1 hp with hp | hp
          · exact h.eq p hp
          · simp at hp; subst hp; exact ⟨x[i], ea, by rw [eb, hab]⟩)
      refine ⟨r, h1, h2, ?_⟩
      rw [h3, L, if_pos (by rw [ea, eb, hab])]
      simp; omega
    · rw [if_neg hab]
      have hne : ¬ x[i]? = y[j]? := by rw [ea, eb]; simpa using hab
      rw [matrix_eq x y i (j + 1) (by omega) (by omega), matrix_eq x y (i + 1) j (by omega) (by omega)]
      have hL : L x y (i + 1) (j + 1) = max (L x y (i + 1) j) (L x y i (j + 1)) := by
        rw [L, if_neg hne]
      split
      · rename_i hgt
        obtain ⟨r, h1, h2, h3⟩ := backtrace_spec x y i (j + 1) bt (by omega) hj
          ⟨h.dec, fun p hp => by have := h.low p hp; omega, h.eq⟩
        exact ⟨r, h1, h2, by rw [h3, hL]; omega⟩
      · rename_i hgt
        obtain ⟨r, h1, h2, h3⟩ := backtrace_spec x y (i + 1) j bt hi (by omega)
          ⟨h.dec, fun p hp => by have := h.low p hp; omega, h.eq⟩
        exact ⟨r, h1, h2, by rw [h3, hL]; omega⟩
termination_by i j => i + j

omit [DecidableEq α] in
/-- picking increasing positions gives a subsequence -/
theorem pick_sublist (x : List α) : ∀ (ps : List Nat) (a : Nat), ps.Pairwise (· < ·) →
    (∀ p ∈ ps, a ≤ p) → (ps.filterMap (fun p => x[p]?)).Sublist (x.drop a)
  | [], _, _, _ => by simp
  | p :: ps, a, h1, h2 => by
    have ih := pick_sublist x ps (p + 1) (List.pairwise_cons.1 h1).2
      (fun q hq => (List.pairwise_cons.1 h1).1 q hq)
    have hap := h2 p (by simp)
    by_cases hp : p < x.length
    · rw [List.filterMap_cons_some (List.getElem?_eq_getElem hp)]
      have : (x.drop p).Sublist (x.drop a) := by
        have : x.drop p = (x.drop a).drop (p - a) := by rw [List.drop_drop]; congr 1; omega
        rw [this]; exact List.drop_sublist _ _
      refine List.Sublist.trans ?_ this
      rw [List.drop_eq_getElem_cons hp]
      exact ih.cons_cons _
    · rw [List.filterMap_cons_none (List.getElem?_eq_none (by omega))]
      refine ih.trans ?_
      have : x.drop (p + 1) = (x.drop a).drop (p + 1 - a) := by rw [List.drop_drop]; congr 1; omega
      rw [this]; exact List.drop_sublist _ _

/-- C13: the backtrace succeeds and returns positions that increase strictly in both lists,
point at equal elements, and are as many as the returned length. -/
theorem C13_backtrace_valid (x y : List α) :
    ∃ pairs : List (Nat × Nat), lcsWithBacktrace x y = .ok ((pairs.length : Int), pairs) ∧
      pairs.Pairwise (fun p q => p.1 < q.1 ∧ p.2 < q.2) ∧
      ∀ p ∈ pairs, ∃ v, x[p.1]? = some v ∧ y[p.2]? = some v := by
  obtain ⟨r, h1, h2, h3⟩ := backtrace_spec x y x.length y.length [] le_rfl le_rfl
    ⟨by simp, by simp, by simp⟩
  refine ⟨r.reverse, ?_, ?_, ?_⟩
  · unfold lcsWithBacktrace
    simp only [h1, bind, Except.bind, pure, Except.pure, matrix_eq x y _ _ le_rfl le_rfl]
    simp at h3
    simp [h3]
  · rw [List.pairwise_reverse]; exact h2.dec
  · intro p hp; exact h2.eq p (by simpa using hp)

/-- C12: the computed length is the maximal length of a common subsequence. -/
theorem C12_length_optimal (x y : List α) :
    ∃ m : Nat, lengthOfCommonSubsequence x y = m ∧
      (∃ c : List α, c.Sublist x ∧ c.Sublist y ∧ c.length = m) ∧
      ∀ c : List α, c.Sublist x → c.Sublist y → c.length ≤ m := by
  refine ⟨L x y x.length y.length, matrix_eq x y _ _ le_rfl le_rfl, ?_, ?_⟩
  · obtain ⟨r, h1, h2, h3⟩ := backtrace_spec x y x.length y.length [] le_rfl le_rfl
      ⟨by simp, by simp, by simp⟩
    have hx : ((r.reverse.map Prod.fst).filterMap (fun p => x[p]?)).Sublist (x.drop 0) := by
      apply pick_sublist
      · rw [List.pairwise_map, List.pairwise_reverse]; exact h2.dec.imp (fun h => h.1)
      · simp
    have hy : ((r.reverse.map Prod.snd).filterMap (fun p => y[p]?)).Sublist (y.drop 0) := by
      apply pick_sublist
      · rw [List.pairwise_map, List.pairwise_reverse]; exact h2.dec.imp (fun h => h.2)
      · simp
    have he : (r.reverse.map Prod.fst).filterMap (fun p => x[p]?) =
        (r.reverse.map Prod.snd).filterMap (fun p => y[p]?) := by
      rw [List.filterMap_map, List.filterMap_map]
      apply List.filterMap_congr
      intro p hp
      obtain ⟨v, h4, h5⟩ := h2.eq p (by simpa using hp)
      simp [h4, h5]
    rw [List.drop_zero] at hx hy
    refine ⟨_, hx, ?_, ?_⟩
    · rw [he]; exact hy
    · have : ∀ l : List (Nat × Nat), (∀ p ∈ l, ∃ v, x[p.1]? = some v ∧ y[p.2]? = some v) →
          ((l.map Prod.fst).filterMap (fun p => x[p]?)).length = l.length := by
        intro l
        induction l with
        | nil => simp
        | cons p l ih =>
          intro h
          obtain ⟨v, h4, _⟩ := h p (by simp)
          rw [List.map_cons, List.filterMap_cons_some h4]
          simp only [List.length_cons]
          rw [ih (fun q hq => h q (by simp [hq]))]
      rw [this _ (fun p hp => h2.eq p (by simpa using hp))]
      simp at h3
      simp [h3]
  · intro c h1 h2
    exact L_upper x y c x.length y.length le_rfl le_rfl (by simpa using h1) (by simpa using h2)

/-- C13: the length reported together with the backtrace is the optimal one. -/
theorem C13_backtrace_length (x y : List α) :
    ∃ pairs, lcsWithBacktrace x y = .ok (lengthOfCommonSubsequence x y, pairs) := by
  obtain ⟨r, h1, _⟩ := backtrace_spec x y x.length y.length [] le_rfl le_rfl
    ⟨by simp, by simp, by simp⟩
  refine ⟨r.reverse, ?_⟩
  unfold lcsWithBacktrace lengthOfCommonSubsequence
  simp only [h1, bind, Except.bind, pure, Except.pure]

example : lengthOfCommonSubsequence [1, 2, 3, 2, 4] [2, 4, 3, 2] = 3 := by decide
example : lcsWithBacktrace [1, 2, 3] [2, 3] = .ok (2, [(1, 0), (2, 1)]) := by
  simp [lcsWithBacktrace, backtraceLoop, pyGet, bind, Except.bind, pure, Except.pure]; decide

end Prolothar.LCS
