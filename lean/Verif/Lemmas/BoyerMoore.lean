import Verif.Model.BoyerMoore
import Verif.Spec.Sublist
import Mathlib.Data.List.Basic
import Mathlib.Tactic.Linarith
/- Helper lemmas for the Boyer-Moore properties (not property statements). -/
set_option linter.unusedSectionVars false
set_option linter.unusedSimpArgs false
namespace Prolothar.BoyerMoore
open Prolothar.Spec
variable {α : Type} [DecidableEq α]

/-- pointwise form of `OccursAt` -/
theorem occursAt_iff {s l : List α} {q : Nat} :
    OccursAt s l q ↔ q + s.length ≤ l.length ∧ ∀ k, k < s.length → l[q + k]? = s[k]? := by
  constructor
  · rintro ⟨a, b, rfl, rfl⟩
    refine ⟨by simp, fun k hk => ?_⟩
    rw [List.append_assoc, List.getElem?_append_right (by omega)]
    rw [List.getElem?_append_left (by omega)]
    congr 1; omega
  · rintro ⟨hle, h⟩
    refine ⟨l.take q, l.drop (q + s.length), ?_, by simp; omega⟩
    apply List.ext_getElem?
    intro i
    by_cases h1 : i < q
    · rw [List.append_assoc, List.getElem?_append_left (by simp; omega)]
      simp [h1]
    · by_cases h2 : i < q + s.length
      · rw [List.append_assoc, List.getElem?_append_right (by simp; omega)]
        have : (l.take q).length = q := by simp; omega
        rw [this, List.getElem?_append_left (by omega)]
        rw [← h (i - q) (by omega)]
        congr 1; omega
      · rw [List.getElem?_append_right (by simp; omega)]
        have : (l.take q ++ s).length = q + s.length := by simp; omega
        rw [this, List.getElem?_drop]
        congr 1; omega

/-! ### char table -/

theorem charTable_aux (s : List α) (c : α) : ∀ m, m ≤ s.length →
    ∀ v, ((List.range m).foldl (charStep s) (fun _ => none)) c = some v →
      ∃ k, k < m ∧ v = (s.length : Int) - 1 - k ∧ s[k]? = some c ∧
        ∀ k', k < k' → k' < m → s[k']? ≠ some c
  | 0, _ => by simp
  | m + 1, hm => by
    have ih := charTable_aux s c m (by omega)
    intro v hv
    rw [List.range_succ, List.foldl_append] at hv
    have hs : s[m]? = some s[m] := List.getElem?_eq_getElem (by omega)
    simp only [List.foldl_cons, List.foldl_nil, charStep, hs] at hv
    by_cases hc : c = s[m]
    · rw [if_pos hc] at hv
      injection hv with hv
      refine ⟨m, by omega, hv.symm, by rw [hs, hc], ?_⟩
      intro k' h1 h2; omega
    · rw [if_neg hc] at hv
      obtain ⟨k, h1, h2, h3, h4⟩ := ih v hv
      refine ⟨k, by omega, h2, h3, ?_⟩
      intro k' hk1 hk2
      by_cases hkm : k' = m
      · subst hkm; rw [hs]; intro h; apply hc; injection h with h; exact h.symm
      · exact h4 k' hk1 (by omega)

theorem charTable_spec {s : List α} {c : α} {v : Int} (h : charTable s c = some v) :
    ∃ k, k + 1 < s.length ∧ v = (s.length : Int) - 1 - k ∧
      ∀ k', k < k' → k' + 1 < s.length → s[k']? ≠ some c := by
  obtain ⟨k, h1, h2, _, h4⟩ := charTable_aux s c (s.length - 1) (by omega) v h
  exact ⟨k, by omega, h2, fun k' a b => h4 k' a (by omega)⟩

/-! ### is_prefix and suffix_length -/

theorem isPrefixLoop_iff : ∀ (a b : List α), a.length ≤ b.length →
    (isPrefixLoop a b = true ↔ ∀ k, k < a.length → a[k]? = b[k]?)
  | [], b, _ => by simp [isPrefixLoop]
  | a :: as, [], h => by simp at h
  | a :: as, b :: bs, h => by
    have ih := isPrefixLoop_iff as bs (by simpa using h)
    unfold isPrefixLoop
    by_cases hab : a = b
    · subst hab
      simp only [ne_eq, not_true_eq_false, if_false, ih]
      constructor
      · intro h k hk
        cases k with
        | zero => simp
        | succ k => simpa using h k (by simpa using hk)
      · intro h k hk
        simpa using h (k + 1) (by simpa using hk)
    · simp only [ne_eq, hab, not_false_iff, if_true, Bool.false_eq_true, false_iff]
      intro h
      have := h 0 (by simp)
      simp at this
      exact hab this

theorem isPrefix_iff (s : List α) (p : Nat) :
    isPrefix s p = true ↔ ∀ k, p + k < s.length → s[p + k]? = s[k]? := by
  unfold isPrefix
  rw [isPrefixLoop_iff _ _ (by simp)]
  constructor
  · intro h k hk
    have := h k (by simp; omega)
    simpa using this
  · intro h k hk
    have := h k (by simp at hk; omega)
    simpa using this

theorem suffixLengthLoop_le (s : List α) : ∀ k j, suffixLengthLoop s k j ≤ k
  | 0, _ => by simp [suffixLengthLoop]
  | k + 1, j => by
    unfold suffixLengthLoop
    split
    · have := suffixLengthLoop_le s k (j - 1); omega
    · omega

theorem suffixLength_le (s : List α) (p : Nat) : suffixLength s p ≤ p + 1 :=
  suffixLengthLoop_le _ _ _

/-- if the `m` elements going backwards match and the next one does not, the loop returns `m` -/
theorem suffixLengthLoop_eq (s : List α) : ∀ m k j, m < k → k - 1 ≤ j →
    (∀ t, t < m → s[k - 1 - t]? = s[j - t]?) → s[k - 1 - m]? ≠ s[j - m]? →
    suffixLengthLoop s k j = m
  | m, 0, j, h, _, _, _ => by omega
  | 0, k + 1, j, _, _, _, h => by
    unfold suffixLengthLoop
    rw [if_neg (by simpa using h)]
  | m + 1, k + 1, j, h1, hj, h2, h3 => by
    unfold suffixLengthLoop
    have h0 := h2 0 (by omega)
    rw [if_pos (by simpa using h0)]
    rw [suffixLengthLoop_eq s m k (j - 1) (by omega) (by omega)]
    · intro t ht
      have := h2 (t + 1) (by omega)
      have e1 : k - 1 - t = k + 1 - 1 - (t + 1) := by omega
      have e2 : j - 1 - t = j - (t + 1) := by omega
      rw [e1, e2]; exact this
    · have e1 : k - 1 - m = k + 1 - 1 - (m + 1) := by omega
      have e2 : j - 1 - m = j - (m + 1) := by omega
      rw [e1, e2]; exact h3

/-! ### offset table -/

theorem offsetLoop1_length (s : List α) : ∀ k lpp, (offsetLoop1 s k lpp).length = k
  | 0, _ => rfl
  | k + 1, lpp => by simp [offsetLoop1, offsetLoop1_length s k]

/-- entry `k - 1 - j` of the first table: `P - j + n - 1` where `P` is the least prefix
position greater than `j` -/
theorem offsetLoop1_spec (s : List α) : ∀ k (lpp : Nat), k ≤ s.length → k ≤ lpp →
    lpp ≤ s.length →
    (∀ d, k ≤ d → d < lpp → isPrefix s d = true → d = k ∧ False ∨ d ≤ k) →
    (∀ d, k < d → d < lpp → isPrefix s d = false) →
    ∀ j, j < k → ∃ P : Nat, j < P ∧ P ≤ s.length ∧
      (offsetLoop1 s k lpp)[k - 1 - j]? = some ((P : Int) - j + s.length - 1) ∧
      ∀ d, j < d → d < P → isPrefix s d = false
  | 0, _, _, _, _, _, _ => by intro j h; omega
  | k + 1, lpp, h1, h2, h3, _, h5 => by
    intro j hj
    let lpp' : Nat := if isPrefix s (k + 1) then k + 1 else lpp
    have hl' : (if isPrefix s (k + 1) then (k : Int) + 1 else (lpp : Int)) = (lpp' : Int) := by
      simp only [lpp']; split <;> simp
    have hmin : ∀ d, k < d → d < lpp' → isPrefix s d = false := by
      intro d hd1 hd2
      simp only [lpp'] at hd2
      split at hd2
      · omega
      · rename_i hp
        by_cases hdk : d = k + 1
        · subst hdk; simpa using hp
        · exact h5 d (by omega) hd2
    have hlow : k + 1 ≤ lpp' := by simp only [lpp']; split <;> omega
    have hup : lpp' ≤ s.length := by simp only [lpp']; split <;> omega
    unfold offsetLoop1
    simp only [hl']
    by_cases hjk : j = k
    · subst hjk
      refine ⟨lpp', by omega, hup, by simp, fun d a b => hmin d (by omega) b⟩
    · obtain ⟨P, p1, p2, p3, p4⟩ := offsetLoop1_spec s k lpp' (by omega) (by omega) hup
        (by
          intro d a b c
          by_cases hdk : d = k
          · right; omega
          · have := hmin d (by omega) b
            rw [this] at c; cases c) hmin j (by omega)
      refine ⟨P, p1, p2, ?_, p4⟩
      have e : k + 1 - 1 - j = (k - 1 - j) + 1 := by omega
      rw [e, List.getElem?_cons_succ]
      exact p3

theorem foldlM_offset (s : List α) : ∀ m, m ≤ s.length - 1 → ∀ t0 : List Int,
    t0.length = s.length →
    ∃ t, (List.range m).foldlM (offsetStep2 s) t0 = .ok t ∧ t.length = s.length ∧
      ∀ x, x < s.length →
        (t[x]? = t0[x]? ∧ ∀ i, i < m → suffixLength s i ≠ x) ∨
        (∃ i, i < m ∧ suffixLength s i = x ∧ t[x]? = some ((s.length : Int) - 1 - i + x) ∧
          ∀ i', i < i' → i' < m → suffixLength s i' ≠ x)
  | 0, _, t0, h => ⟨t0, by simp; rfl, h, fun x hx => by left; simp⟩
  | m + 1, hm, t0, h => by
    obtain ⟨t, e, hl, ih⟩ := foldlM_offset s m (by omega) t0 h
    have hlt : suffixLength s m < t.length := by
      have := suffixLength_le s m; omega
    refine ⟨t.set (suffixLength s m) ((s.length : Int) - 1 - m + suffixLength s m), ?_, by simpa using hl, ?_⟩
    · rw [List.range_succ, List.foldlM_append, e]
      simp only [List.foldlM_cons, List.foldlM_nil]
      show offsetStep2 s t m >>= pure = _
      simp only [offsetStep2, pySet, if_pos hlt]
      rfl
    · intro x hx
      by_cases hxs : suffixLength s m = x
      · right
        refine ⟨m, by omega, hxs, ?_, by intro i' a b; omega⟩
        subst hxs
        rw [List.getElem?_set_self hlt]
      · rw [List.getElem?_set_ne hxs]
        rcases ih x hx with ⟨a, b⟩ | ⟨i, a, b, c, d⟩
        · left
          refine ⟨a, fun i hi => ?_⟩
          by_cases him : i = m
          · subst him; exact hxs
          · exact b i (by omega)
        · right
          refine ⟨i, by omega, b, c, fun i' h1 h2 => ?_⟩
          by_cases him : i' = m
          · subst him; exact hxs
          · exact d i' h1 (by omega)

/-- what the offset table guarantees at mismatch index `j`: a positive shift `D` (of the
alignment) that is safe -/
theorem offsetTable_spec (s : List α) : ∃ t, offsetTable s = .ok t ∧ t.length = s.length ∧
    ∀ j, j < s.length → ∃ D : Nat, 0 < D ∧ D ≤ s.length ∧
      t[s.length - 1 - j]? = some ((D : Int) - j + s.length - 1) ∧
      ∀ d, 0 < d → d < D →
        (j < d ∧ isPrefix s d = false) ∨
        (d ≤ j ∧ suffixLength s (s.length - 1 - d) ≠ s.length - 1 - j) := by
  obtain ⟨t, e, hl, h⟩ := foldlM_offset s (s.length - 1) (by omega)
    (offsetLoop1 s s.length s.length) (offsetLoop1_length _ _ _)
  refine ⟨t, e, hl, fun j hj => ?_⟩
  obtain ⟨P, p1, p2, p3, p4⟩ := offsetLoop1_spec s s.length s.length le_rfl le_rfl le_rfl
    (by intros; omega) (by intros; omega) j hj
  rcases h (s.length - 1 - j) (by omega) with ⟨a, b⟩ | ⟨i, a, b, c, d⟩
  · refine ⟨P, by omega, p2, by rw [a, p3], fun d hd1 hd2 => ?_⟩
    by_cases hdj : j < d
    · left; exact ⟨hdj, p4 d hdj hd2⟩
    · right; exact ⟨by omega, b _ (by omega)⟩
  · have hle := suffixLength_le s i
    refine ⟨s.length - 1 - i, by omega, by omega, ?_, fun d' hd1 hd2 => ?_⟩
    · rw [c]; congr 1; omega
    · right
      exact ⟨by omega, d _ (by omega) (by omega)⟩

/-! ### the search loops -/

theorem innerLoop_spec (l s : List α) (p : Nat) (hp : p + s.length ≤ l.length) :
    ∀ j, j < s.length → (∀ k, j < k → k < s.length → l[p + k]? = s[k]?) →
    (innerLoop l s j ((p : Int) + j) = .ok (.inl (p : Int)) ∧ OccursAt s l p) ∨
    (∃ j' c, j' < s.length ∧ innerLoop l s j ((p : Int) + j) = .ok (.inr ((p : Int) + j', j')) ∧
      (∀ k, j' < k → k < s.length → l[p + k]? = s[k]?) ∧ l[p + j']? = some c ∧
      s[j']? ≠ some c)
  | j, hj, hm => by
    have hsj : s[j]? = some s[j] := List.getElem?_eq_getElem hj
    have hlj : l[p + j]? = some l[p + j] := List.getElem?_eq_getElem (by omega)
    have e1 : pyGet s (j : Int) = .ok s[j] := pyGet_ofNat hsj
    have e2 : pyGet l ((p : Int) + j) = .ok l[p + j] := by
      have := pyGet_ofNat hlj
      push_cast at this; exact this
    have key : ∀ (_ : s[j] ≠ l[p + j]), s[j]? ≠ some l[p + j] := by
      intro hab; rw [hsj]; intro h; injection h with h; exact hab h
    cases j with
    | zero =>
      unfold innerLoop
      simp only [Nat.cast_zero, add_zero] at e1 e2 ⊢
      simp only [e1, e2, bind, Except.bind, pure, Except.pure, Nat.cast_zero]
      by_cases hab : s[0] = l[p]
      · left
        rw [if_pos hab]
        refine ⟨rfl, occursAt_iff.2 ⟨hp, fun k hk => ?_⟩⟩
        by_cases hk0 : k = 0
        · subst hk0; rw [hlj, hsj]; exact congrArg some hab.symm
        · exact hm k (by omega) hk
      · right
        rw [if_neg hab]
        exact ⟨0, l[p], hj, by simp, hm, hlj, key hab⟩
    | succ j =>
      unfold innerLoop
      simp only [e1, e2, bind, Except.bind, pure, Except.pure]
      by_cases hab : s[j + 1] = l[p + (j + 1)]
      · have := innerLoop_spec l s p hp j (by omega) (by
          intro k h1 h2
          by_cases hk : k = j + 1
          · subst hk; rw [hlj, hsj, hab]
          · exact hm k (by omega) h2)
        have e3 : (p : Int) + ((j + 1 : Nat) : Int) - 1 = (p : Int) + j := by omega
        rw [if_pos hab, e3]
        exact this
      · right
        rw [if_neg hab]
        exact ⟨j + 1, l[p + (j + 1)], hj, rfl, hm, hlj, key hab⟩

/-- the outcome the search must have: first occurrence or -1 -/
def FirstOcc (l s : List α) (r : Int) : Prop :=
  (∃ p : Nat, r = p ∧ OccursAt s l p ∧ ∀ q, q < p → ¬ OccursAt s l q) ∨
  (r = -1 ∧ ∀ q, ¬ OccursAt s l q)

/-- a shift computed from the offset table skips no occurrence -/
theorem offset_safe {l s : List α} {p j D : Nat} (hj : j < s.length) {c : α}
    (hm : ∀ k, j < k → k < s.length → l[p + k]? = s[k]?)
    (hc : l[p + j]? = some c) (hne : s[j]? ≠ some c)
    (hD : ∀ d, 0 < d → d < D →
        (j < d ∧ isPrefix s d = false) ∨
        (d ≤ j ∧ suffixLength s (s.length - 1 - d) ≠ s.length - 1 - j)) :
    ∀ q, p ≤ q → q < p + D → ¬ OccursAt s l q := by
  intro q hq1 hq2 hocc
  obtain ⟨_, ho⟩ := occursAt_iff.1 hocc
  by_cases hqp : q = p
  · subst hqp
    have := ho j hj
    rw [hc] at this; exact hne this.symm
  · rcases hD (q - p) (by omega) (by omega) with ⟨h1, h2⟩ | ⟨h1, h2⟩
    · have : isPrefix s (q - p) = true := by
        rw [isPrefix_iff]
        intro k hk
        rw [← hm (q - p + k) (by omega) hk, ← ho k (by omega)]
        congr 1; omega
      rw [this] at h2; cases h2
    · apply h2
      apply suffixLengthLoop_eq
      · omega
      · omega
      · intro t ht
        have e1 := hm (s.length - 1 - t) (by omega) (by omega)
        have e2 := ho (s.length - 1 - (q - p) + 1 - 1 - t) (by omega)
        rw [← e1, ← e2]
        congr 1; omega
      · have e2 := ho (s.length - 1 - (q - p) + 1 - 1 - (s.length - 1 - j)) (by omega)
        have e3 : q + (s.length - 1 - (q - p) + 1 - 1 - (s.length - 1 - j)) = p + j := by omega
        have e4 : s.length - 1 - (s.length - 1 - j) = j := by omega
        rw [e3, hc] at e2
        rw [← e2, e4]
        exact fun h => hne h.symm

/-- a shift computed from the character table skips no occurrence -/
theorem char_safe {l s : List α} {p j : Nat} (hj : j < s.length) {c : α}
    (hc : l[p + j]? = some c) (hne : s[j]? ≠ some c) :
    ∀ q : Nat, p ≤ q → (q : Int) < p + j + ((charTable s c).getD 1) - (s.length - 1) →
      ¬ OccursAt s l q := by
  intro q hq1 hq2 hocc
  obtain ⟨_, ho⟩ := occursAt_iff.1 hocc
  by_cases hqp : q = p
  · subst hqp
    have := ho j hj
    rw [hc] at this; exact hne this.symm
  · cases hct : charTable s c with
    | none => rw [hct] at hq2; simp at hq2; omega
    | some v =>
      obtain ⟨k, h1, h2, h3⟩ := charTable_spec hct
      rw [hct] at hq2; simp only [Option.getD_some] at hq2
      have h4 := ho (p + j - q) (by omega)
      apply h3 (p + j - q) (by omega) (by omega)
      rw [← h4, ← hc]
      congr 1; omega

theorem outerLoop_spec (l s : List α) (hs : 0 < s.length) (t : List Int)
    (ht : offsetTable s = .ok t) :
    ∀ fuel (p : Nat), l.length < p + fuel → 0 < fuel → (∀ q, q < p → ¬ OccursAt s l q) →
    ∃ r, outerLoop l s (charTable s) t fuel ((p : Int) + s.length - 1) = .ok r ∧
      FirstOcc l s r
  | 0, p, _, hf, _ => by omega
  | fuel + 1, p, hf, _, hn => by
    unfold outerLoop
    by_cases hlt : (p : Int) + s.length - 1 < l.length
    · rw [if_pos hlt]
      have hple : p + s.length ≤ l.length := by omega
      have ei : (p : Int) + s.length - 1 = (p : Int) + ((s.length - 1 : Nat) : Int) := by omega
      rcases innerLoop_spec l s p hple (s.length - 1) (by omega) (by intros; omega) with
        ⟨e, ho⟩ | ⟨j, c, hj, e, hm, hc, hne⟩
      · rw [ei, e]
        exact ⟨p, rfl, .inl ⟨p, rfl, ho, hn⟩⟩
      · obtain ⟨t', ht', htl, hspec⟩ := offsetTable_spec s
        rw [ht] at ht'; injection ht' with ht'; subst ht'
        obtain ⟨D, hD0, hDn, hDt, hD⟩ := hspec j hj
        have g1 : pyGet t ((s.length : Int) - 1 - j) = .ok ((D : Int) - j + s.length - 1) := by
          have := pyGet_ofNat hDt
          have e' : ((s.length - 1 - j : Nat) : Int) = (s.length : Int) - 1 - j := by omega
          rw [e'] at this; exact this
        have g2 : pyGet l ((p : Int) + j) = .ok c := by
          have := pyGet_ofNat hc
          push_cast at this; exact this
        let p' : Nat := ((p : Int) + j +
          max ((D : Int) - j + s.length - 1) ((charTable s c).getD 1) - (s.length - 1)).toNat
        have hmax : ((D : Int) - j + s.length - 1) ≤
          max ((D : Int) - j + s.length - 1) ((charTable s c).getD 1) := le_max_left _ _
        have hp' : (p' : Int) = (p : Int) + j +
          max ((D : Int) - j + s.length - 1) ((charTable s c).getD 1) - (s.length - 1) := by
          simp only [p']; omega
        have hprog : p + 1 ≤ p' := by omega
        have hn' : ∀ q, q < p' → ¬ OccursAt s l q := by
          intro q hq
          by_cases hqp : q < p
          · exact hn q hqp
          · rcases le_total ((charTable s c).getD 1) ((D : Int) - j + s.length - 1) with hle | hle
            · rw [max_eq_left hle] at hp'
              exact offset_safe hj hm hc hne hD q (by omega) (by omega)
            · rw [max_eq_right hle] at hp'
              exact char_safe hj hc hne q (by omega) (by omega)
        obtain ⟨r, e2, hr⟩ := outerLoop_spec l s hs t ht fuel p' (by omega) (by omega) hn'
        refine ⟨r, ?_, hr⟩
        rw [ei, e]
        simp only [bind, Except.bind, g1, g2]
        rw [← e2]
        congr 1
        omega
    · rw [if_neg hlt]
      refine ⟨-1, rfl, .inr ⟨rfl, fun q ho => ?_⟩⟩
      by_cases hq : q < p
      · exact hn q hq ho
      · have := (occursAt_iff.1 ho).1
        omega

theorem offsetTable_ok (s : List α) : ∃ t, offsetTable s = .ok t := by
  obtain ⟨t, h, _⟩ := offsetTable_spec s
  exact ⟨t, h⟩

theorem occursAt_nil (l : List α) (q : Nat) : OccursAt [] l q ↔ q ≤ l.length := by
  rw [occursAt_iff]; simp

theorem searchWith_spec (l s : List α) (t : List Int) (ht : offsetTable s = .ok t) :
    ∃ r, searchWith (charTable s) t l s = .ok r ∧ FirstOcc l s r := by
  unfold searchWith
  by_cases hs : s.length = 0
  · rw [if_pos hs]
    have : s = [] := List.eq_nil_of_length_eq_zero hs
    subst this
    exact ⟨0, rfl, .inl ⟨0, rfl, (occursAt_nil _ _).2 (by omega), by intros; omega⟩⟩
  · rw [if_neg hs]
    obtain ⟨r, h1, h2⟩ := outerLoop_spec l s (by omega) t ht (l.length + 1) 0 (by omega)
      (by omega) (by intros; omega)
    refine ⟨r, ?_, h2⟩
    rw [← h1]; congr 1; omega

theorem search_eq (l s : List α) (t : List Int) (ht : offsetTable s = .ok t) :
    search l s = searchWith (charTable s) t l s := by
  unfold search searchWith
  split
  · rfl
  · rename_i h
    simp only [ht, bind, Except.bind, searchWith, if_neg h]

theorem occursAt_drop {l s : List α} {q p : Nat} (hp : p ≤ l.length) :
    OccursAt s (l.drop p) q ↔ OccursAt s l (p + q) := by
  rw [occursAt_iff, occursAt_iff]
  simp only [List.length_drop, List.getElem?_drop]
  constructor
  · rintro ⟨a, b⟩
    refine ⟨by omega, fun k hk => ?_⟩
    rw [← b k hk]; congr 1; omega
  · rintro ⟨a, b⟩
    refine ⟨by omega, fun k hk => ?_⟩
    rw [← b k hk]; congr 1; omega

theorem allLoop_spec (l s : List α) (t : List Int) (ht : offsetTable s = .ok t) :
    ∀ fuel index (sub : Int), l.length + 1 < index + fuel → index ≤ l.length + 1 →
    (sub = -1 ∨ 0 ≤ sub) →
    FirstOcc (l.drop index) s sub →
    ∃ r, allLoop (charTable s) t l s fuel index sub = .ok r ∧ r.Pairwise (· < ·) ∧
      ∀ i, i ∈ r ↔ index ≤ i ∧ OccursAt s l i
  | 0, index, sub, h1, h2, _, _ => by omega
  | fuel + 1, index, sub, h1, h2, h3, h4 => by
    unfold allLoop
    by_cases hc : sub ≥ 0 ∧ index ≤ l.length
    · rw [if_pos hc]
      rcases h4 with ⟨p, hp, ho, hmin⟩ | ⟨hp, _⟩
      · subst hp
        have ho' := (occursAt_drop hc.2).1 ho
        have hle : index + p ≤ l.length := by have := (occursAt_iff.1 ho').1; omega
        obtain ⟨sub', e1, f1⟩ := searchWith_spec (l.drop (index + p + 1)) s t ht
        obtain ⟨r, e2, hpw, hmem⟩ := allLoop_spec l s t ht fuel (index + p + 1) sub'
          (by omega) (by omega)
          (by rcases f1 with ⟨a, b, _⟩ | ⟨b, _⟩
              · right; omega
              · left; exact b) f1
        refine ⟨(index + p) :: r, ?_, ?_, ?_⟩
        · simp only [Int.toNat_natCast, e1, e2, bind, Except.bind, pure, Except.pure]
        · rw [List.pairwise_cons]
          refine ⟨fun a ha => ?_, hpw⟩
          have := ((hmem a).1 ha).1; omega
        · intro i
          rw [List.mem_cons, hmem]
          constructor
          · rintro (rfl | ⟨a, b⟩)
            · exact ⟨by omega, ho'⟩
            · exact ⟨by omega, b⟩
          · rintro ⟨a, b⟩
            by_cases hi : i = index + p
            · left; exact hi
            · right
              refine ⟨?_, b⟩
              by_contra hlt
              apply hmin (i - index) (by omega)
              rw [occursAt_drop hc.2]
              have : index + (i - index) = i := by omega
              rw [this]; exact b
      · omega
    · rw [if_neg hc]
      refine ⟨[], rfl, List.Pairwise.nil, fun i => ?_⟩
      simp only [List.not_mem_nil, false_iff, not_and]
      intro hi ho
      have hle := (occursAt_iff.1 ho).1
      have hidx : index ≤ l.length := by omega
      rcases h3 with rfl | h3
      · rcases h4 with ⟨p, hp, _⟩ | ⟨_, hno⟩
        · omega
        · apply hno (i - index)
          rw [occursAt_drop hidx]
          have : index + (i - index) = i := by omega
          rw [this]; exact ho
      · exact hc ⟨h3, hidx⟩

theorem occursAt_iff_infix {l s : List α} : (∃ i, OccursAt s l i) ↔ ∃ a b, l = a ++ s ++ b :=
  ⟨fun ⟨_, a, b, h, _⟩ => ⟨a, b, h⟩, fun ⟨a, b, h⟩ => ⟨_, a, b, h, rfl⟩⟩

end Prolothar.BoyerMoore
