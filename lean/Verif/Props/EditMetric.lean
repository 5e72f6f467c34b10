import Verif.Props.Levenshtein
import Verif.Props.LCS
import Mathlib.Tactic.Linarith
/-
C159: the edit distance is a metric, and its relation to longest common subsequences.
-/
namespace Prolothar.Levenshtein
open Prolothar.Spec

variable {α : Type}

theorem Script.trans {i d k : Nat} {s t u : List α} {b c : Nat} (h1 : Script i d k s t b) (h2 : Script i d k t u c) : Script i d k s u (b + c) := by
  induction h2 with
  | nil => exact h1
  | snoc _ hs ih => rw [← Nat.add_assoc]; exact ih.snoc hs

theorem Step.symm {i k : Nat} {s t : List α} {c : Nat} (h : Step i i k s t c) : Step i i k t s c := by
  cases h with
  | insert a b x => exact .delete a b x
  | delete a b x => exact .insert a b x
  | substitute a b x y => exact .substitute a b y x

theorem Script.symm {i k : Nat} {s t : List α} {c : Nat} (h : Script i i k s t c) : Script i i k t s c := by
  induction h with
  | nil => exact .nil _
  | @snoc t u c d _ hs ih =>
    have := Script.trans (Script.snoc (.nil _) (Step.symm hs)) ih
    rwa [Nat.zero_add, Nat.add_comm] at this

theorem Script.zero {k : Nat} (hk : 0 < k) {s t : List α} {c : Nat} (h : Script 1 1 k s t c) (hc : c = 0) : s = t := by
  induction h with
  | nil => rfl
  | snoc _ hs _ => cases hs <;> omega

theorem Script.length {k : Nat} {s t : List α} {c : Nat} (h : Script 1 1 k s t c) : s.length ≤ t.length + c ∧ t.length ≤ s.length + c := by
  induction h with
  | nil => simp
  | snoc _ hs ih => cases hs <;> simp only [List.length_append, List.length_cons] at ih ⊢ <;> omega

/-- prefixes and suffixes can be added to all lists of a script -/
theorem Script.context {i d k : Nat} (a b : List α) {s t : List α} {c : Nat} (h : Script i d k s t c) : Script i d k (a ++ s ++ b) (a ++ t ++ b) c := by
  induction h with
  | nil => exact .nil _
  | snoc _ hs ih =>
    refine ih.snoc ?_
    cases hs with
    | insert u v x => simpa using Step.insert (insC := i) (delC := d) (subC := k) (a ++ u) (v ++ b) x
    | delete u v x => simpa using Step.delete (insC := i) (delC := d) (subC := k) (a ++ u) (v ++ b) x
    | substitute u v x y => simpa using Step.substitute (insC := i) (delC := d) (subC := k) (a ++ u) (v ++ b) x y

/-- deleting everything but a subsequence -/
theorem Script.to_sublist {i k : Nat} {c s : List α} (h : c.Sublist s) : Script i 1 k s c (s.length - c.length) := by
  induction h with
  | slnil => exact .nil _
  | @cons l1 l2 x h ih =>
    have h1 := (Script.nil (insC := i) (delC := 1) (subC := k) (x :: l2)).snoc (Step.delete [] l2 x)
    have := Script.trans h1 ih
    have hl := h.length_le
    have e : 0 + 1 + (l2.length - l1.length) = (x :: l2).length - l1.length := by simp; omega
    rwa [e] at this
  | @cons_cons l1 l2 x h ih =>
    have := Script.context [x] [] ih
    simpa using this

/-- a subsequence is shortened by at most one element if one element is removed from the sequence -/
theorem sublist_remove {c a b : List α} {x : α} (h : c.Sublist (a ++ x :: b)) : ∃ c' : List α, c'.Sublist c ∧ c'.Sublist (a ++ b) ∧ c.length ≤ c'.length + 1 := by
  obtain ⟨c1, c2, rfl, h1, h2⟩ := List.sublist_append_iff.1 h
  rcases List.sublist_cons_iff.1 h2 with h2 | ⟨r, rfl, h3⟩
  · exact ⟨c1 ++ c2, .refl _, h1.append h2, by omega⟩
  · exact ⟨c1 ++ r, (List.Sublist.refl c1).append (List.sublist_cons_self x r), h1.append h3, by simp; omega⟩

/-- what is left unchanged by a script is a common subsequence -/
theorem Script.common {k : Nat} (hk : 2 ≤ k) {s t : List α} {c : Nat} (h : Script 1 1 k s t c) :
    ∃ r : List α, r.Sublist s ∧ r.Sublist t ∧ s.length + t.length ≤ c + 2 * r.length := by
  induction h with
  | nil => exact ⟨s, .refl _, .refl _, by omega⟩
  | snoc _ hs ih =>
    obtain ⟨r, h1, h2, h3⟩ := ih
    cases hs with
    | insert a b x =>
      refine ⟨r, h1, h2.trans ((List.Sublist.refl a).append (List.sublist_cons_self x b)), ?_⟩
      simp only [List.length_append, List.length_cons] at h3 ⊢
      omega
    | delete a b x =>
      obtain ⟨r', k1, k2, k3⟩ := sublist_remove h2
      refine ⟨r', k1.trans h1, k2, ?_⟩
      simp only [List.length_append, List.length_cons] at h3 ⊢
      omega
    | substitute a b x y =>
      obtain ⟨r', k1, k2, k3⟩ := sublist_remove h2
      refine ⟨r', k1.trans h1, k2.trans ((List.Sublist.refl a).append (List.sublist_cons_self y b)), ?_⟩
      simp only [List.length_append, List.length_cons] at h3 ⊢
      omega

variable [DecidableEq α]

theorem distance_spec (s t : List α) (k : Nat) : ∃ d : Nat, distance s t 1 1 k = d ∧ IsDistance 1 1 k s t d := C16_weighted_distance s t k

/-- C159: with the default costs (and every positive substitution cost) the edit distance is a metric on lists -/
theorem C159_metric (k : Nat) (hk : 0 < k) (s t u : List α) :
    0 ≤ distance s t 1 1 k ∧ (distance s t 1 1 k = 0 ↔ s = t) ∧ distance s t 1 1 k = distance t s 1 1 k ∧
    distance s u 1 1 k ≤ distance s t 1 1 k + distance t u 1 1 k := by
  obtain ⟨d1, e1, h1⟩ := distance_spec s t k
  obtain ⟨d2, e2, h2⟩ := distance_spec t s k
  obtain ⟨d3, e3, h3⟩ := distance_spec t u k
  obtain ⟨d4, e4, h4⟩ := distance_spec s u k
  rw [e1, e2, e3, e4]
  refine ⟨by omega, ⟨fun h => ?_, ?_⟩, ?_, ?_⟩
  · exact Script.zero hk h1.1 (by omega)
  · rintro rfl
    have := h1.2 0 (.nil _)
    omega
  · have := h1.2 _ (Script.symm h2.1)
    have := h2.2 _ (Script.symm h1.1)
    omega
  · have := h4.2 _ (Script.trans h1.1 h3.1)
    omega

/-- C159: the distance is at least the difference of the lengths and at most the length of the longer list (for the default costs) -/
theorem C159_bounds (s t : List α) :
    (s.length : Int) - t.length ≤ distance s t 1 1 1 ∧ (t.length : Int) - s.length ≤ distance s t 1 1 1 ∧
    distance s t 1 1 1 ≤ max s.length t.length := by
  obtain ⟨d1, e1, h1⟩ := C14_distance_optimal s t
  rw [e1]
  have hl := Script.length h1.1
  have hmax : ∀ (s t : List α), ∃ c, Script 1 1 1 s t c ∧ c ≤ max s.length t.length := by
    intro s
    induction s with
    | nil =>
      intro t
      refine ⟨_, Script.symm (Script.to_sublist (i := 1) (k := 1) (List.nil_sublist t)), by simp⟩
    | cons x s ih =>
      intro t
      cases t with
      | nil => exact ⟨_, Script.to_sublist (i := 1) (k := 1) (List.nil_sublist (x :: s)), by simp⟩
      | cons y t =>
        obtain ⟨c, hc, hle⟩ := ih t
        have k1 := Script.context [x] [] hc
        have k2 : Script 1 1 1 (x :: s) (x :: t) c := by simpa using k1
        refine ⟨c + 1, k2.snoc (Step.substitute [] t x y), ?_⟩
        simp only [List.length_cons]; omega
  obtain ⟨c, hc1, hc2⟩ := hmax s t
  have := h1.2 c hc1
  omega

/-- common last symbols do not matter -/
theorem distance_snoc (s t : List α) (x : α) : distance (s ++ [x]) (t ++ [x]) 1 1 1 = distance s t 1 1 1 := by
  apply le_antisymm
  · obtain ⟨d1, e1, h1⟩ := C14_distance_optimal s t
    obtain ⟨d2, e2, h2⟩ := C14_distance_optimal (s ++ [x]) (t ++ [x])
    rw [e1, e2]
    have := Script.context [] [x] h1.1
    have := h2.2 _ (by simpa using this)
    omega
  · have hone : ∀ s : List α, distance s (s ++ [x]) 1 1 1 ≤ 1 := by
      intro s
      obtain ⟨d1, e1, h1⟩ := C14_distance_optimal s (s ++ [x])
      have := h1.2 _ ((Script.nil s).snoc (by simpa using Step.insert (insC := 1) (delC := 1) (subC := 1) s [] x))
      omega
    have hal := (C16_exact (s ++ [x]) (t ++ [x]) 1 1 1).1
    generalize hs : s ++ [x] = s' at hal
    generalize ht : t ++ [x] = t' at hal
    generalize hd : distance s' t' 1 1 1 = d at hal
    cases hal with
    | nil => simp at hs
    | keep y h =>
      obtain ⟨rfl, _⟩ := List.append_inj' hs rfl
      obtain ⟨rfl, _⟩ := List.append_inj' ht rfl
      exact (C16_exact s t 1 1 1).2 _ h
    | substitute y z hne h =>
      obtain ⟨rfl, e1⟩ := List.append_inj' hs rfl
      obtain ⟨rfl, e2⟩ := List.append_inj' ht rfl
      simp only [List.cons.injEq, and_true] at e1 e2
      exact absurd (e1.symm.trans e2) hne
    | insert y hne h =>
      obtain ⟨rfl, _⟩ := List.append_inj' ht rfl
      subst hs
      have h1 := (C16_exact (s ++ [x]) t 1 1 1).2 _ h
      have h2 := (C159_metric 1 (by decide) s (s ++ [x]) t).2.2.2
      have h3 := hone s
      push_cast at h2
      omega
    | delete y hne h =>
      obtain ⟨rfl, _⟩ := List.append_inj' hs rfl
      subst ht
      have h1 := (C16_exact s (t ++ [x]) 1 1 1).2 _ h
      have h2 := (C159_metric 1 (by decide) s (t ++ [x]) t).2.2.2
      have h3 := (C159_metric 1 (by decide) t (t ++ [x]) t).2.2.1
      have h4 := hone t
      push_cast at h2 h3
      omega
    | insertFront y h => simp at hs
    | deleteFront y h => simp at ht

omit [DecidableEq α] in
theorem Script.reverse {i d k : Nat} {s t : List α} {c : Nat} (h : Script i d k s t c) : Script i d k s.reverse t.reverse c := by
  induction h with
  | nil => exact .nil _
  | snoc _ hs ih =>
    refine ih.snoc ?_
    cases hs with
    | insert u v x => simpa using Step.insert (insC := i) (delC := d) (subC := k) v.reverse u.reverse x
    | delete u v x => simpa using Step.delete (insC := i) (delC := d) (subC := k) v.reverse u.reverse x
    | substitute u v x y => simpa using Step.substitute (insC := i) (delC := d) (subC := k) v.reverse u.reverse x y

/-- C159: the distance is the same if both lists are read backwards -/
theorem C159_reverse (k : Nat) (s t : List α) : distance s.reverse t.reverse 1 1 k = distance s t 1 1 k := by
  obtain ⟨d1, e1, h1⟩ := distance_spec s t k
  obtain ⟨d2, e2, h2⟩ := distance_spec s.reverse t.reverse k
  rw [e1, e2]
  have k1 := h2.2 _ (Script.reverse h1.1)
  have k2 := h1.2 _ (by simpa using Script.reverse h2.1)
  omega

/-- C159: common first and last parts do not matter -/
theorem C159_context (a b s t : List α) : distance (a ++ s ++ b) (a ++ t ++ b) 1 1 1 = distance s t 1 1 1 := by
  have hsuf : ∀ (b s t : List α), distance (s ++ b) (t ++ b) 1 1 1 = distance s t 1 1 1 := by
    intro b
    induction b with
    | nil => simp
    | cons x b ih =>
      intro s t
      have := ih (s ++ [x]) (t ++ [x])
      rw [distance_snoc] at this
      simpa using this
  have hrev : ∀ s t : List α, distance s.reverse t.reverse 1 1 1 = distance s t 1 1 1 := fun s t => by simpa using C159_reverse 1 s t
  rw [hsuf, ← hrev, List.reverse_append, List.reverse_append, hsuf, hrev]

/-- C159: if a substitution costs at least as much as a deletion and an insertion, the distance counts what is not in a longest common
subsequence: the two modules agree -/
theorem C159_lcs (k : Nat) (hk : 2 ≤ k) (s t : List α) :
    distance s t 1 1 k = s.length + t.length - 2 * LCS.lengthOfCommonSubsequence s t := by
  obtain ⟨d, e, h⟩ := distance_spec s t k
  obtain ⟨m, em, ⟨c, c1, c2, c3⟩, hm⟩ := LCS.C12_length_optimal s t
  rw [e, em]
  obtain ⟨r, r1, r2, r3⟩ := Script.common hk h.1
  have h1 := hm r r1 r2
  have up := h.2 _ (Script.trans (Script.to_sublist (i := 1) c1) (Script.symm (Script.to_sublist (i := 1) c2)))
  have := c1.length_le
  have := c2.length_le
  omega

/-- C159: with the default costs the number of matched symbols bounds the distance from both sides -/
theorem C159_lcs_bounds (s t : List α) :
    max (s.length : Int) t.length - LCS.lengthOfCommonSubsequence s t ≤ distance s t 1 1 1 ∧
    distance s t 1 1 1 ≤ s.length + t.length - 2 * LCS.lengthOfCommonSubsequence s t := by
  obtain ⟨d, e, h⟩ := C14_distance_optimal s t
  obtain ⟨m, em, ⟨c, c1, c2, c3⟩, hm⟩ := LCS.C12_length_optimal s t
  rw [e, em]
  have up := h.2 _ (Script.trans (Script.to_sublist (i := 1) c1) (Script.symm (Script.to_sublist (i := 1) c2)))
  have h1 := c1.length_le
  have h2 := c2.length_le
  have key : ∀ {s t : List α} {c : Nat}, Script 1 1 1 s t c → ∃ r : List α, r.Sublist s ∧ r.Sublist t ∧ max s.length t.length ≤ c + r.length := by
    intro s t c h
    induction h with
    | nil => exact ⟨s, .refl _, .refl _, by omega⟩
    | snoc _ hs ih =>
      obtain ⟨r, h1, h2, h3⟩ := ih
      cases hs with
      | insert a b x =>
        refine ⟨r, h1, h2.trans ((List.Sublist.refl a).append (List.sublist_cons_self x b)), ?_⟩
        simp only [List.length_append, List.length_cons] at h3 ⊢
        omega
      | delete a b x =>
        obtain ⟨r', k1, k2, k3⟩ := sublist_remove h2
        refine ⟨r', k1.trans h1, k2, ?_⟩
        simp only [List.length_append, List.length_cons] at h3 ⊢
        omega
      | substitute a b x y =>
        obtain ⟨r', k1, k2, k3⟩ := sublist_remove h2
        refine ⟨r', k1.trans h1, k2.trans ((List.Sublist.refl a).append (List.sublist_cons_self y b)), ?_⟩
        simp only [List.length_append, List.length_cons] at h3 ⊢
        omega
  obtain ⟨r, r1, r2, r3⟩ := key h.1
  have := hm r r1 r2
  omega

example : distance [1, 2, 3] [3, 1] 1 1 2 = 3 ∧ LCS.lengthOfCommonSubsequence [1, 2, 3] [3, 1] = 1 := by decide

/-- C159, disagreement: for costs other than 1 for insertions and deletions, the distance is no metric: the triangle inequality fails, since insertions and
deletions at the beginning cost 1 -/
theorem C159_weighted_no_metric : distance [1] [2] 5 5 10 = 6 ∧ distance [1] [] 5 5 10 = 1 ∧ distance [] [2] 5 5 10 = 1 := by decide

end Prolothar.Levenshtein
