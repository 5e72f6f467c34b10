import Verif.Model.TupleUtils
import Mathlib.Data.List.Lex
import Mathlib.Data.List.Range
import Mathlib.Data.List.Sublists
import Mathlib.Data.Finset.Powerset
import Mathlib.Data.Finset.Sort
import Mathlib.Tactic.Linarith
/-
Property C05 of /repo/prolothar_common/collections/tuple_utils.pyx.
Specification: a choice of `k` positions is a strictly increasing list of `k` positions.
-/
set_option linter.unusedSimpArgs false
namespace Prolothar.Spec

/-- the elements of `t` at the given positions -/
def pick {α : Type} (t : List α) (ps : List Nat) : List α := ps.filterMap (fun p => t[p]?)

/-- the positions of `t` that are not in `ps`, increasing -/
def others (n : Nat) (ps : List Nat) : List Nat := (List.range n).filter (fun p => p ∉ ps)

/-- `ps` is a choice of `k` out of `n` positions -/
def IsChoice (n k : Nat) (ps : List Nat) : Prop :=
  ps.Pairwise (· < ·) ∧ ps.length = k ∧ ∀ p ∈ ps, p < n

end Prolothar.Spec

namespace Prolothar.TupleUtils
open Prolothar.Spec
variable {α : Type}

theorem pick_append (t : List α) (a b : List Nat) : pick t (a ++ b) = pick t a ++ pick t b := by
  simp [pick]

theorem pick_range' (t : List α) : ∀ m a, a + m ≤ t.length →
    pick t (List.range' a m) = (t.drop a).take m
  | 0, a, _ => by simp [pick]
  | m + 1, a, h => by
    rw [List.range'_succ]
    have : pick t (a :: List.range' (a + 1) m) = t[a] :: pick t (List.range' (a + 1) m) := by
      simp only [pick]
      rw [List.filterMap_cons_some (List.getElem?_eq_getElem (by omega))]
    rw [this, pick_range' t m (a + 1) (by omega)]
    rw [List.drop_eq_getElem_cons (i := a) (by omega), List.take_succ_cons]

/-- the work item that belongs to a non-empty choice with last element `last` -/
def item (t : List α) (ps : List Nat) (last : Nat) : Item α :=
  (pick t ((List.range (last + 1)).filter (fun p => p ∉ ps)), pick t ps, t.drop (last + 1))

theorem last_mem {ps : List Nat} {last : Nat} (h : ps.getLast? = some last) : last ∈ ps :=
  List.mem_of_getLast? h

theorem le_last {ps : List Nat} {last : Nat} (hp : ps.Pairwise (· < ·))
    (h : ps.getLast? = some last) : ∀ p ∈ ps, p ≤ last := by
  obtain ⟨init, rfl⟩ : ∃ init, ps = init ++ [last] := by
    rw [List.getLast?_eq_some_iff] at h; exact h
  intro p hpm
  rw [List.pairwise_append] at hp
  rcases List.mem_append.1 hpm with h1 | h1
  · exact (hp.2.2 p h1 last (by simp)).le
  · simp at h1; omega

/-- extension of a choice by one later position -/
def extendChoice (n : Nat) (ps : List Nat) : List (List Nat) :=
  match ps.getLast? with
  | none => []
  | some last => (List.range (n - (last + 1))).map (fun j => ps ++ [last + 1 + j])

theorem extend_item (t : List α) (ps : List Nat) (last : Nat) (hp : ps.Pairwise (· < ·))
    (h : ps.getLast? = some last) (hlt : last < t.length) :
    extend (item t ps last) =
      (List.range (t.length - (last + 1))).map (fun j => item t (ps ++ [last + 1 + j]) (last + 1 + j)) := by
  unfold extend
  simp only [item, List.length_drop]
  apply List.map_congr_left
  intro j hj
  rw [List.mem_range] at hj
  have hle := le_last hp h
  refine Prod.ext ?_ (Prod.ext ?_ ?_)
  · show pick t _ ++ _ = pick t _
    have e1 : (t.drop (last + 1)).take j = pick t (List.range' (last + 1) j) := by
      rw [pick_range' t j (last + 1) (by omega)]
    rw [e1, ← pick_append]
    congr 1
    have e2 : List.range (last + 1 + j + 1) = List.range (last + 1) ++ List.range' (last + 1) j ++ [last + 1 + j] := by
      rw [List.range_succ, List.range_eq_range', List.range_eq_range']
      congr 1
      have := List.range'_append (s := 0) (m := last + 1) (n := j) (step := 1)
      simp only [Nat.one_mul, Nat.zero_add] at this
      exact this.symm
    rw [e2, List.filter_append, List.filter_append]
    have f1 : (List.range (last + 1)).filter (fun p => decide (p ∉ ps ++ [last + 1 + j]))
        = (List.range (last + 1)).filter (fun p => decide (p ∉ ps)) := by
      apply List.filter_congr
      intro x hx
      rw [List.mem_range] at hx
      have : x ≠ last + 1 + j := by omega
      simp [this]
    have f2 : (List.range' (last + 1) j).filter (fun p => decide (p ∉ ps ++ [last + 1 + j]))
        = List.range' (last + 1) j := by
      apply List.filter_eq_self.2
      intro x hx
      rw [List.mem_range'_1] at hx
      have h1 : x ∉ ps := fun hm => by have := hle x hm; omega
      have h2 : x ≠ last + 1 + j := by omega
      simp [h1, h2]
    rw [f1, f2]
    simp
  · show pick t ps ++ _ = pick t _
    rw [pick_append]
    congr 1
    have := pick_range' t 1 (last + 1 + j) (by omega)
    simp only [List.range'_one] at this
    rw [this, List.drop_drop]
  · show List.drop _ _ = _
    rw [List.drop_drop]
    congr 1

/-- the choices after the rounds -/
def choices (n k : Nat) : Nat → List (List Nat)
  | 0 => (List.range (n + 1 - k)).map (fun i => [i])
  | c + 1 => (choices n k c).flatMap (extendChoice n)

theorem mem_extendChoice {n : Nat} {ps qs : List Nat} : qs ∈ extendChoice n ps ↔
    ∃ last p, ps.getLast? = some last ∧ last < p ∧ p < n ∧ qs = ps ++ [p] := by
  unfold extendChoice
  cases h : ps.getLast? with
  | none => simp
  | some last =>
    simp only [List.mem_map, List.mem_range, Option.some.injEq]
    constructor
    · rintro ⟨j, hj, rfl⟩; exact ⟨last, last + 1 + j, rfl, by omega, by omega, rfl⟩
    · rintro ⟨_, p, rfl, h1, h2, rfl⟩
      exact ⟨p - (last + 1), by omega, by congr 2; omega⟩

theorem mem_choices (n k : Nat) (hk : 0 < k) : ∀ c ps, ps ∈ choices n k c ↔
    IsChoice n (c + 1) ps ∧ ∃ h, ps.head? = some h ∧ h + k < n + 1
  | 0, ps => by
    simp only [choices, List.mem_map, List.mem_range, IsChoice]
    constructor
    · rintro ⟨i, hi, rfl⟩; exact ⟨⟨by simp, by simp, by simp; omega⟩, i, rfl, by omega⟩
    · rintro ⟨⟨_, h2, _⟩, h, h4, h5⟩
      match ps, h2, h4 with
      | [a], _, h4 =>
        simp only [List.head?_cons, Option.some.injEq] at h4
        exact ⟨a, by omega, rfl⟩
  | c + 1, qs => by
    rw [choices, List.mem_flatMap]
    constructor
    · rintro ⟨ps, hps, hq⟩
      obtain ⟨⟨h1, h2, h3⟩, h, h4, h5⟩ := (mem_choices n k hk c ps).1 hps
      obtain ⟨last, p, e1, e2, e3, rfl⟩ := mem_extendChoice.1 hq
      refine ⟨⟨?_, by simp [h2], ?_⟩, h, ?_, h5⟩
      · rw [List.pairwise_append]
        refine ⟨h1, by simp, ?_⟩
        intro a ha b hb
        simp at hb; subst hb
        have := le_last h1 e1 a ha; omega
      · intro x hx
        rcases List.mem_append.1 hx with hx | hx
        · exact h3 x hx
        · simp at hx; omega
      · rw [List.head?_append, h4]; rfl
    · rintro ⟨⟨h1, h2, h3⟩, h, h4, h5⟩
      have hne : qs ≠ [] := by rintro rfl; simp at h2
      have hd : qs = qs.dropLast ++ [qs.getLast hne] := (List.dropLast_append_getLast hne).symm
      have hlen : qs.dropLast.length = c + 1 := by simp [h2]
      have hne2 : qs.dropLast ≠ [] := by intro h0; rw [h0] at hlen; simp at hlen
      refine ⟨qs.dropLast, ?_, ?_⟩
      · rw [mem_choices n k hk c]
        refine ⟨⟨h1.sublist (List.dropLast_sublist _), hlen, fun p hp => h3 p (List.dropLast_subset _ hp)⟩, h, ?_, h5⟩
        rw [hd, List.head?_append] at h4
        cases hh : qs.dropLast with
        | nil => exact absurd hh hne2
        | cons a as => rw [hh] at h4; simpa using h4
      · rw [mem_extendChoice]
        refine ⟨qs.dropLast.getLast hne2, qs.getLast hne, List.getLast?_eq_some_getLast hne2, ?_,
          h3 _ (List.getLast_mem hne), hd⟩
        rw [hd, List.pairwise_append] at h1
        exact h1.2.2 _ (List.getLast_mem hne2) _ (by simp)

theorem choices_lex (n k : Nat) : ∀ c, (∀ ps ∈ choices n k c, ps.length = c + 1) ∧
    (choices n k c).Pairwise (· < ·)
  | 0 => by
    refine ⟨by simp [choices], ?_⟩
    rw [choices, List.pairwise_map]
    refine List.pairwise_lt_range.imp ?_
    intro a b h
    exact List.Lex.rel h
  | c + 1 => by
    obtain ⟨h1, h2⟩ := choices_lex n k c
    refine ⟨?_, ?_⟩
    · intro qs hq
      rw [choices, List.mem_flatMap] at hq
      obtain ⟨ps, hps, hq⟩ := hq
      obtain ⟨_, p, _, _, _, rfl⟩ := mem_extendChoice.1 hq
      simp [h1 ps hps]
    · rw [choices, List.pairwise_flatMap]
      refine ⟨?_, ?_⟩
      · intro ps _
        unfold extendChoice
        cases ps.getLast? with
        | none => simp
        | some last =>
          simp only
          rw [List.pairwise_map]
          refine List.pairwise_lt_range.imp ?_
          intro a b h
          exact List.Lex.append_left _ (List.Lex.rel (by omega)) ps
      · refine h2.imp_of_mem ?_
        intro ps ps' hm hm' hlt q hq q' hq'
        obtain ⟨_, p, _, _, _, rfl⟩ := mem_extendChoice.1 hq
        obtain ⟨_, p', _, _, _, rfl⟩ := mem_extendChoice.1 hq'
        have e : ps.length = ps'.length := by rw [h1 ps hm, h1 ps' hm']
        clear hq hq' hm hm' h1 h2
        have : ∀ (a b : List Nat), a.length = b.length → List.Lex (· < ·) a b →
            List.Lex (· < ·) (a ++ [p]) (b ++ [p']) := by
          intro a b hl h
          induction h with
          | nil => simp at hl
          | rel h => exact List.Lex.rel h
          | cons _ ih => exact List.Lex.cons (ih (by simpa using hl))
        exact this ps ps' e hlt

/-- the work list after the rounds, in terms of the choices -/
theorem rounds_eq (t : List α) (k : Nat) (hk : 0 < k) : ∀ c c0,
    rounds c ((choices t.length k c0).map (fun ps => item t ps (ps.getLast?.getD 0))) =
      (choices t.length k (c0 + c)).map (fun ps => item t ps (ps.getLast?.getD 0))
  | 0, c0 => rfl
  | c + 1, c0 => by
    rw [rounds]
    have : ((choices t.length k c0).map (fun ps => item t ps (ps.getLast?.getD 0))).flatMap extend
        = (choices t.length k (c0 + 1)).map (fun ps => item t ps (ps.getLast?.getD 0)) := by
      rw [choices, List.flatMap_map, List.map_flatMap]
      rw [List.flatMap_def, List.flatMap_def]
      congr 1
      apply List.map_congr_left
      intro ps hps
      obtain ⟨⟨h1, h2, h3⟩, _⟩ := (mem_choices t.length k hk c0 ps).1 hps
      cases hl : ps.getLast? with
      | none => rw [List.getLast?_eq_none_iff] at hl; subst hl; simp at h2
      | some last =>
        simp only [Option.getD_some, extendChoice, hl, List.map_map]
        rw [extend_item t ps last h1 hl (h3 last (last_mem hl))]
        apply List.map_congr_left
        intro j _
        simp
    rw [this, rounds_eq t k hk c (c0 + 1)]
    congr 2; omega

/-- C05: for `k ≥ 1` the result lists, for every choice of `k` positions exactly once and in
lexicographic order of the choices, the chosen elements and the remaining elements, both in
their original order. -/
theorem C05_all_splits (t : List α) (k : Int) (hk : 1 ≤ k) :
    ∃ P : List (List Nat), (∀ ps, ps ∈ P ↔ IsChoice t.length k.toNat ps) ∧ P.Pairwise (· < ·) ∧
      allSplits t k = .ok (P.map (fun ps => (pick t ps, pick t (others t.length ps)))) := by
  obtain ⟨K, rfl⟩ : ∃ K : Nat, k = K := ⟨k.toNat, by omega⟩
  have hK : 0 < K := by omega
  refine ⟨choices t.length K (K - 1), ?_, (choices_lex t.length K (K - 1)).2, ?_⟩
  · intro ps
    rw [mem_choices _ _ hK]
    have e : K - 1 + 1 = K := by omega
    rw [e]
    simp only [Int.toNat_natCast]
    constructor
    · exact fun h => h.1
    · intro h
      refine ⟨h, ?_⟩
      obtain ⟨h1, h2, h3⟩ := h
      -- a strictly increasing list of length K below n starts at most at n - K
      have key : ∀ (qs : List Nat) (a : Nat), (a :: qs).Pairwise (· < ·) →
          (∀ p ∈ a :: qs, p < t.length) → a + qs.length < t.length := by
        intro qs
        induction qs with
        | nil => intro a _ h; simpa using h a (by simp)
        | cons b qs ih =>
          intro a hp hb
          have := ih b (List.pairwise_cons.1 hp).2 (fun p hp => hb p (by simp [List.mem_cons.1 hp]))
          have hab := (List.pairwise_cons.1 hp).1 b (by simp)
          simp only [List.length_cons]; omega
      match ps, h1, h2, h3 with
      | [], _, h2, _ => simp at h2; omega
      | a :: qs, h1, h2, h3 =>
        refine ⟨a, rfl, ?_⟩
        have := key qs a h1 h3
        simp at h2; omega
  · unfold allSplits
    rw [if_neg (by omega)]
    simp only [Int.toNat_natCast]
    have hinit : initItems t K = (choices t.length K 0).map
        (fun ps => item t ps (ps.getLast?.getD 0)) := by
      rw [choices, List.map_map]
      unfold initItems
      have e : ((t.length : Int) - K + 1).toNat = t.length + 1 - K := by omega
      rw [e]
      apply List.map_congr_left
      intro i hi
      rw [List.mem_range] at hi
      have hit : i < t.length := by omega
      simp only [Function.comp, item, List.getLast?_singleton, Option.getD_some]
      refine Prod.ext ?_ (Prod.ext ?_ rfl)
      · simp only
        have : (List.range (i + 1)).filter (fun p => decide (p ∉ [i])) = List.range' 0 i := by
          rw [List.range_succ, List.filter_append, List.range_eq_range']
          have f1 : (List.range' 0 i).filter (fun p => decide (p ∉ [i])) = List.range' 0 i := by
            apply List.filter_eq_self.2
            intro x hx
            rw [List.mem_range'_1] at hx
            have : x ≠ i := by omega
            simp [this]
          rw [f1]; simp
        rw [this, pick_range' t i 0 (by omega)]; simp
      · simp only
        have := pick_range' t 1 i (by omega)
        simp only [List.range'_one] at this
        exact this.symm
    rw [hinit, rounds_eq t K hK, List.map_map]
    congr 1
    simp only [Nat.zero_add]
    apply List.map_congr_left
    intro ps hps
    obtain ⟨⟨h1, h2, h3⟩, _⟩ := (mem_choices t.length K hK (K - 1) ps).1 hps
    cases hl : ps.getLast? with
    | none => rw [List.getLast?_eq_none_iff] at hl; subst hl; simp at h2
    | some last =>
      have hlast := h3 last (last_mem hl)
      simp only [Function.comp, item, hl, Option.getD_some]
      congr 1
      have e1 : t.drop (last + 1) = pick t (List.range' (last + 1) (t.length - (last + 1))) := by
        rw [pick_range' t _ _ (by omega)]
        rw [List.take_of_length_le (by simp)]
      rw [e1, ← pick_append]
      congr 1
      unfold others
      have e2 : List.range t.length = List.range (last + 1) ++ List.range' (last + 1) (t.length - (last + 1)) := by
        rw [List.range_eq_range', List.range_eq_range']
        have := List.range'_append (s := 0) (m := last + 1) (n := t.length - (last + 1)) (step := 1)
        simp only [Nat.one_mul, Nat.zero_add] at this
        rw [this]; congr 1; omega
      rw [e2, List.filter_append]
      congr 1
      symm
      apply List.filter_eq_self.2
      intro x hx
      rw [List.mem_range'_1] at hx
      have hle := le_last h1 hl
      have : x ∉ ps := fun hm => by have := hle x hm; omega
      simp [this]

/-- C05: the number of splits is the binomial coefficient. -/
theorem C05_all_splits_count (t : List α) (k : Int) (hk : 1 ≤ k) :
    ∃ r, allSplits t k = .ok r ∧ r.length = t.length.choose k.toNat := by
  obtain ⟨P, h1, h2, h3⟩ := C05_all_splits t k hk
  refine ⟨_, h3, ?_⟩
  rw [List.length_map]
  have hnd : P.Nodup := h2.imp (fun {a b} h => by rintro rfl; exact lt_irrefl _ h)
  rw [← List.toFinset_card_of_nodup hnd]
  rw [← Finset.card_range t.length, ← Finset.card_powersetCard]
  apply Finset.card_bij (fun ps _ => ps.toFinset)
  · intro ps hps
    obtain ⟨a, b, c⟩ := (h1 ps).1 (List.mem_toFinset.1 hps)
    rw [Finset.mem_powersetCard]
    refine ⟨fun x hx => Finset.mem_range.2 (c x (List.mem_toFinset.1 hx)), ?_⟩
    rw [List.toFinset_card_of_nodup (a.imp (fun h => by omega)), b]
  · intro ps hps qs hqs h
    obtain ⟨a, _, _⟩ := (h1 ps).1 (List.mem_toFinset.1 hps)
    obtain ⟨a', _, _⟩ := (h1 qs).1 (List.mem_toFinset.1 hqs)
    refine List.Perm.eq_of_pairwise (le := (· < ·)) (fun x y _ _ h1 h2 => by omega) a a' ?_
    rw [List.perm_ext_iff_of_nodup (a.imp (fun h => by omega)) (a'.imp (fun h => by omega))]
    intro x
    rw [← List.mem_toFinset, h, List.mem_toFinset]
  · intro s hs
    rw [Finset.mem_powersetCard] at hs
    refine ⟨s.sort (· ≤ ·), ?_, Finset.sort_toFinset _ _⟩
    rw [List.mem_toFinset, h1]
    refine ⟨?_, ?_, ?_⟩
    · exact (Finset.sortedLT_sort s).pairwise
    · rw [Finset.length_sort]; exact hs.2
    · intro p hp
      exact Finset.mem_range.1 (hs.1 ((Finset.mem_sort _).1 hp))

/-- C05: `k < 1` is rejected. -/
theorem C05_all_splits_error (t : List α) (k : Int) :
    allSplits t k = .error .value ↔ k < 1 := by
  unfold allSplits
  split <;> simp_all

/-- C05: `k` larger than the tuple gives no split. -/
theorem C05_all_splits_too_large (t : List α) (k : Int) (hk : 1 ≤ k) (h : t.length < k) :
    allSplits t k = .ok [] := by
  obtain ⟨r, h1, h2⟩ := C05_all_splits_count t k hk
  rw [Nat.choose_eq_zero_of_lt (by omega)] at h2
  rw [h1, List.eq_nil_of_length_eq_zero h2]

example : allSplits [1, 2, 3, 4] 2 = .ok [([1, 2], [3, 4]), ([1, 3], [2, 4]), ([1, 4], [2, 3]),
    ([2, 3], [1, 4]), ([2, 4], [1, 3]), ([3, 4], [1, 2])] := by decide
example : IsChoice 4 2 [1, 3] := by unfold IsChoice; decide

end Prolothar.TupleUtils
