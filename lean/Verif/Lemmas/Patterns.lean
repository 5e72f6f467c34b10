import Verif.Model.Patterns
import Verif.Spec.Patterns
import Verif.Props.BoyerMoore
import Verif.Props.PrimeFactors
import Mathlib.Data.List.Chain
import Mathlib.Data.List.Dedup
/- Helper lemmas for `Verif/Props/Patterns.lean`. -/
set_option linter.unusedSectionVars false
set_option linter.unusedSimpArgs false
set_option linter.unusedVariables false
namespace Prolothar.Patterns
open Prolothar.Spec Prolothar.BoyerMoore Prolothar.PrimeFactors

variable {α : Type} [DecidableEq α]

/-! ### powers -/

theorem power_zero (u : List α) : power u 0 = [] := rfl

theorem power_succ (u : List α) (k : Nat) : power u (k + 1) = u ++ power u k := by
  unfold power; rw [List.replicate_succ, List.flatten_cons]

theorem power_one (u : List α) : power u 1 = u := by rw [power_succ, power_zero, List.append_nil]

theorem power_add (u : List α) (j k : Nat) : power u (j + k) = power u j ++ power u k := by
  unfold power; rw [← List.flatten_append, List.replicate_append_replicate]

theorem length_power (u : List α) (k : Nat) : (power u k).length = k * u.length := by
  induction k with
  | zero => simp [power_zero]
  | succ k ih => rw [power_succ, List.length_append, ih, Nat.succ_mul]; omega

theorem power_nil (k : Nat) : power ([] : List α) k = [] := by
  apply List.eq_nil_of_length_eq_zero
  rw [length_power]; simp

theorem power_power (u : List α) (j k : Nat) : power (power u j) k = power u (j * k) := by
  induction k with
  | zero => rfl
  | succ k ih => rw [power_succ, ih, ← power_add, Nat.mul_succ, Nat.add_comm]

theorem commute_power : ∀ (n : Nat) (x y : List α), x.length + y.length ≤ n → x ++ y = y ++ x →
    ∃ u i j, x = power u i ∧ y = power u j := by
  intro n
  induction n with
  | zero =>
    intro x y hl _
    have hx : x = [] := List.eq_nil_of_length_eq_zero (by omega)
    have hy : y = [] := List.eq_nil_of_length_eq_zero (by omega)
    exact ⟨[], 0, 0, by rw [hx]; rfl, by rw [hy]; rfl⟩
  | succ n ih =>
    intro x y hl h
    by_cases hx : x = []
    · exact ⟨y, 0, 1, by rw [hx]; rfl, by rw [power_one]⟩
    by_cases hy : y = []
    · exact ⟨x, 1, 0, by rw [power_one], by rw [hy]; rfl⟩
    have hxl : 0 < x.length := List.length_pos_iff.2 hx
    have hyl : 0 < y.length := List.length_pos_iff.2 hy
    rcases List.append_eq_append_iff.1 h with ⟨a, h1, h2⟩ | ⟨c, h1, h2⟩
    · -- y = x ++ a, y = a ++ x
      obtain ⟨u, i, j, hi, hj⟩ := ih x a (by
        have := congrArg List.length h1; simp at this; omega) (by rw [← h1, ← h2])
      refine ⟨u, i, i + j, hi, ?_⟩
      rw [power_add, ← hi, ← hj, h1]
    · obtain ⟨u, i, j, hi, hj⟩ := ih y c (by
        have := congrArg List.length h1; simp at this; omega) (by rw [← h1, ← h2])
      refine ⟨u, i + j, i, ?_, hi⟩
      rw [power_add, ← hi, ← hj, h1]

/-! ### occurrences -/

theorem occursAt_append {s t l : List α} {i : Nat} : OccursAt (s ++ t) l i ↔ OccursAt s l i ∧ OccursAt t l (i + s.length) := by
  constructor
  · rintro ⟨a, b, rfl, rfl⟩
    exact ⟨⟨a, t ++ b, by simp, rfl⟩, ⟨a ++ s, b, by simp, by simp⟩⟩
  · rintro ⟨⟨a, b, h1, rfl⟩, ⟨c, d, h2, hc⟩⟩
    refine ⟨a, d, ?_, rfl⟩
    have : c = a ++ s := by
      rw [h1] at h2
      rw [List.append_assoc c] at h2
      exact (List.append_inj h2 (by simp [hc])).1.symm
    rw [h2, this]; simp

theorem occursAt_slice {r l : List α} {i : Nat} : OccursAt r l i ↔ i + r.length ≤ l.length ∧ pySlice l i (i + r.length) = r := by
  constructor
  · rintro ⟨a, b, rfl, rfl⟩
    refine ⟨by simp, ?_⟩
    unfold pySlice
    rw [List.take_append_of_le_length (by simp), List.take_of_length_le (by simp), List.drop_append_of_le_length (by simp), List.drop_length]
    rfl
  · rintro ⟨h1, h2⟩
    refine ⟨l.take i, l.drop (i + r.length), ?_, by simp; omega⟩
    have : l.take (i + r.length) = l.take i ++ r := by
      have h3 := (List.take_append_drop i (l.take (i + r.length))).symm
      rw [List.take_take, Nat.min_eq_left (by omega)] at h3
      have h4 : (l.take (i + r.length)).drop i = r := h2
      rw [h4] at h3
      exact h3
    rw [← this, List.take_append_drop]

theorem occursAt_le {r l : List α} {i : Nat} (h : OccursAt r l i) : i + r.length ≤ l.length := (occursAt_slice.1 h).1

theorem tandemLoop_spec (trace r : List α) (hr : r ≠ []) (maxK : Option Nat) (fuel : Nat) : ∀ start k, start ≤ trace.length →
    trace.length < fuel + start →
    ∃ j, tandemLoop trace r maxK fuel start k = .ok (k + j) ∧ OccursAt (power r j) trace start ∧
      (maxK = some (k + j) ∨ (∃ m, maxK = some m ∧ m < k) ∨ ¬ OccursAt (power r (j + 1)) trace start) ∧
      (∀ m, maxK = some m → k ≤ m → k + j ≤ m) ∧ ((∃ m, maxK = some m ∧ m ≤ k) → j = 0) := by
  have hrl : 0 < r.length := List.length_pos_iff.2 hr
  have hzero : ∀ start, start ≤ trace.length → OccursAt (power r 0) trace start := by
    intro start h
    exact ⟨trace.take start, trace.drop start, by rw [power_zero]; simp, by simp; omega⟩
  induction fuel with
  | zero => intro start k h1 h2; omega
  | succ fuel ih =>
    intro start k h1 h2
    rw [tandemLoop]
    by_cases hc : start + r.length ≤ trace.length ∧ pySlice trace start (start + r.length) = r ∧ (maxK = none ∨ ∃ m ∈ maxK, k < m)
    · rw [if_pos hc]
      have hocc : OccursAt r trace start := occursAt_slice.2 ⟨hc.1, hc.2.1⟩
      obtain ⟨j, e1, e2, e3, e4, e5⟩ := ih (start + r.length) (k + 1) hc.1 (by omega)
      refine ⟨j + 1, by rw [e1]; congr 1; omega, ?_, ?_, ?_, ?_⟩
      · rw [power_succ, occursAt_append]; exact ⟨hocc, e2⟩
      · rcases e3 with e3 | ⟨m, hm, hlt⟩ | e3
        · left; rw [e3]; congr 1; omega
        · rcases hc.2.2 with h | ⟨m', hm', hlt'⟩
          · rw [h] at hm; cases hm
          · rw [hm] at hm'
            have : m = m' := Option.some.inj hm'
            omega
        · right; right
          rw [power_succ, occursAt_append]
          exact fun h => e3 h.2
      · intro m hm hk
        by_cases hk' : k + 1 ≤ m
        · have := e4 m hm hk'; omega
        · rcases hc.2.2 with h | ⟨m', hm', hlt'⟩
          · rw [h] at hm; cases hm
          · rw [hm] at hm'
            have : m = m' := Option.some.inj hm'
            omega
      · rintro ⟨m, hm, hk⟩
        rcases hc.2.2 with h | ⟨m', hm', hlt'⟩
        · rw [h] at hm; cases hm
        · rw [hm] at hm'
          have : m = m' := Option.some.inj hm'
          omega
    · rw [if_neg hc]
      refine ⟨0, rfl, hzero _ h1, ?_, fun m _ h => h, fun _ => rfl⟩
      by_cases hocc : OccursAt r trace start
      · have hs := occursAt_slice.1 hocc
        cases maxK with
        | none => exact absurd ⟨hs.1, hs.2, .inl rfl⟩ hc
        | some m =>
          have : ¬ k < m := fun h => hc ⟨hs.1, hs.2, .inr ⟨m, rfl, h⟩⟩
          by_cases hk : m = k
          · left; rw [hk]; rfl
          · right; left; exact ⟨m, rfl, by omega⟩
      · right; right
        rw [power_succ, power_zero, List.append_nil]
        exact hocc

theorem isTandemArray_spec (fuel : Nat) (trace r : List α) (hr : r ≠ []) (start : Nat) (hs : start ≤ trace.length)
    (hf : trace.length < fuel) :
    ∃ k, isTandemArray fuel trace start r none = .ok (decide (2 ≤ k), k) ∧ OccursAt (power r k) trace start ∧
      ¬ OccursAt (power r (k + 1)) trace start := by
  obtain ⟨j, e1, e2, e3, _⟩ := tandemLoop_spec trace r hr none fuel start 0 hs (by omega)
  rw [Nat.zero_add] at e1
  refine ⟨j, by unfold isTandemArray; rw [e1]; rfl, e2, ?_⟩
  rcases e3 with e3 | ⟨m, e3, _⟩ | e3
  · cases e3
  · cases e3
  · exact e3

/-! ### primitive words -/

theorem occursAt_zero_power {w u : List α} {k : Nat} (hl : w.length = k * u.length) (h : OccursAt (power u k) w 0) : w = power u k := by
  obtain ⟨a, b, h1, h2⟩ := h
  have ha : a = [] := List.eq_nil_of_length_eq_zero h2
  subst ha
  have := congrArg List.length h1
  simp only [List.nil_append, List.length_append, length_power] at this
  have hb : b = [] := List.eq_nil_of_length_eq_zero (by omega)
  rw [h1, hb]; simp

/-- `w` splits into `p` equal parts -/
def SplitBy (w : List α) (p : Nat) : Prop := 2 ≤ p ∧ ∃ u, w = power u p

theorem test_iff {w : List α} (hw : w ≠ []) (fuel : Nat) (hf : w.length < fuel) {p : Nat} (hp : p ∣ w.length) :
    ∃ b k, isTandemArray fuel w 0 (pySlice w 0 (w.length / p)) none = .ok (b, k) ∧
      ((b = true ∧ k * (w.length / p) = w.length) ↔ SplitBy w p) := by
  have hwl : 0 < w.length := List.length_pos_iff.2 hw
  obtain ⟨c, hc⟩ := hp
  have hp0 : 0 < p := by
    rcases Nat.eq_zero_or_pos p with h | h
    · rw [h] at hc; omega
    · exact h
  have hdiv : w.length / p = c := by rw [hc]; exact Nat.mul_div_cancel_left c hp0
  have hc0 : 0 < c := by
    rcases Nat.eq_zero_or_pos c with h | h
    · rw [h] at hc; omega
    · exact h
  rw [hdiv]
  have hcle : c ≤ w.length := by rw [hc]; exact Nat.le_mul_of_pos_left c hp0
  have hslice : (pySlice w 0 c).length = c := by unfold pySlice; simp; omega
  obtain ⟨k, e1, e2, e3⟩ := isTandemArray_spec fuel w (pySlice w 0 c) (by
    intro h; rw [h] at hslice; simp at hslice; omega) 0 (by omega) hf
  refine ⟨_, _, e1, ?_⟩
  simp only [decide_eq_true_eq]
  have hkle := occursAt_le e2
  rw [length_power, hslice] at hkle
  constructor
  · rintro ⟨h1, h2⟩
    have hkp : k = p := by
      rw [hc] at h2
      exact Nat.eq_of_mul_eq_mul_right hc0 h2
    refine ⟨by omega, pySlice w 0 c, ?_⟩
    rw [← hkp]
    exact occursAt_zero_power (by rw [hslice, hkp]; exact hc) e2
  · rintro ⟨h1, u, hu⟩
    have hul : u.length = c := by
      have := congrArg List.length hu
      rw [length_power, hc] at this
      exact (Nat.eq_of_mul_eq_mul_left hp0 this).symm
    have hsu : pySlice w 0 c = u := by
      unfold pySlice
      obtain ⟨q, rfl⟩ : ∃ q, p = q + 1 := ⟨p - 1, by omega⟩
      rw [hu, power_succ, ← hul]
      simp
    rw [hsu] at e2 e3
    have hkp : k = p := by
      have h1 : p ≤ k := by
        by_contra hlt
        apply e3
        obtain ⟨d, hd⟩ : ∃ d, p = (k + 1) + d := ⟨p - (k + 1), by omega⟩
        refine ⟨[], power u d, ?_, rfl⟩
        rw [hu, hd, power_add]; rfl
      have h2 : k * c ≤ p * c := by rw [← hc]; omega
      have := Nat.le_of_mul_le_mul_right h2 hc0
      omega
    exact ⟨by omega, by rw [hkp]; exact hc.symm⟩

theorem primitiveLoop_spec {w : List α} (hw : w ≠ []) (fuel : Nat) (hf : w.length < fuel) (ps : List Nat)
    (hps : ∀ p ∈ ps, p ∣ w.length) : ∀ checked : List Int, (∀ p : Nat, (p : Int) ∈ checked → ¬ SplitBy w p) →
    ∃ b, primitiveLoop fuel w (ps.map Nat.cast) checked = .ok b ∧ (b = true ↔ ∀ p ∈ ps, ¬ SplitBy w p) := by
  induction ps with
  | nil => intro c _; exact ⟨true, rfl, by simp⟩
  | cons p ps ih =>
    intro checked hch
    rw [List.map_cons, primitiveLoop]
    obtain ⟨b, k, h1, h2⟩ := test_iff hw fuel hf (hps p (by simp))
    by_cases hin : (p : Int) ∈ checked
    · rw [if_neg (by simp [hin])]
      obtain ⟨b, h3, h4⟩ := ih (fun q hq => hps q (by simp [hq])) checked hch
      refine ⟨b, h3, ?_⟩
      rw [h4]
      simp only [List.mem_cons, forall_eq_or_imp, hch p hin, not_false_eq_true, true_and]
    · rw [if_pos hin]
      simp only [Int.toNat_natCast]
      rw [h1]
      show ∃ b', (if b = true ∧ k * (w.length / p) = w.length then (.ok false : Py Bool) else _) = _ ∧ _
      by_cases ht : SplitBy w p
      · rw [if_pos (h2.2 ht)]
        exact ⟨false, rfl, by simp [ht]⟩
      · rw [if_neg (fun h => ht (h2.1 h))]
        obtain ⟨b, h3, h4⟩ := ih (fun q hq => hps q (by simp [hq])) (checked ++ [(p : Int)]) (by
          intro q hq
          rcases List.mem_append.1 hq with hq | hq
          · exact hch q hq
          · have : q = p := by simpa using hq
            rw [this]; exact ht)
        refine ⟨b, h3, ?_⟩
        rw [h4]
        simp only [List.mem_cons, forall_eq_or_imp, ht, not_false_eq_true, true_and]

theorem primitive_iff_split {w : List α} (hw : w ≠ []) : Primitive w ↔ ∀ p ∈ 1 :: w.length.primeFactorsList, ¬ SplitBy w p := by
  have hwl : w.length ≠ 0 := by simpa using hw
  constructor
  · rintro h p _ ⟨h2, u, hu⟩
    exact h ⟨u, p, h2, hu⟩
  · rintro h ⟨u, k, hk, rfl⟩
    obtain ⟨p, hp, c, rfl⟩ := Nat.exists_prime_and_dvd (show k ≠ 1 by omega)
    refine h p ?_ ⟨hp.two_le, power u c, ?_⟩
    · rw [List.mem_cons]; right
      rw [Nat.mem_primeFactorsList hwl, length_power]
      exact ⟨hp, ⟨c * u.length, by ring⟩⟩
    · rw [power_power, Nat.mul_comm]

theorem isPrimitive_spec (rnd : Int → Int) (fuel : Nat) {w : List α} (hw : w ≠ []) (hf : w.length < fuel)
    (hp : primeFactors rnd fuel w.length = .ok (w.length.primeFactorsList.map Nat.cast)) :
    ∃ b, isPrimitive rnd fuel w = .ok b ∧ (b = true ↔ Primitive w) := by
  obtain ⟨b, h1, h2⟩ := primitiveLoop_spec hw fuel hf (1 :: w.length.primeFactorsList) (by
    intro p hp
    rcases List.mem_cons.1 hp with rfl | hp
    · exact one_dvd _
    · exact Nat.dvd_of_mem_primeFactorsList hp) [] (by simp)
  refine ⟨b, ?_, by rw [h2, primitive_iff_split hw]⟩
  unfold isPrimitive
  rw [hp]
  exact h1

/-- a primitive word occurs in its square only at both ends -/
theorem primitive_no_inner {w : List α} (hp : Primitive w) {l : List α} {i q : Nat} (h1 : OccursAt w l i)
    (h2 : OccursAt w l (i + w.length)) (hq : OccursAt w l q) (hlt : i < q) (hlt2 : q < i + w.length) : False := by
  have hx : w = w.take (q - i) ++ w.drop (q - i) := (List.take_append_drop _ _).symm
  have hxl : (w.take (q - i)).length = q - i := by simp; omega
  have hyl : (w.drop (q - i)).length = w.length - (q - i) := by simp
  generalize hxe : w.take (q - i) = x at *
  generalize hye : w.drop (q - i) = y at *
  -- at q: y then x
  have hsplit : OccursAt (y ++ x) l q := by
    rw [occursAt_append]
    constructor
    · have := h1
      rw [hx, occursAt_append] at this
      have e : i + x.length = q := by omega
      rw [← e]; exact this.2
    · have := h2
      rw [hx, occursAt_append] at this
      have e : q + y.length = i + (x ++ y).length := by simp; omega
      rw [e]; exact this.1
  have heq : y ++ x = x ++ y := by
    have e1 := (occursAt_slice.1 hsplit).2
    have e2 := (occursAt_slice.1 hq).2
    have el : (y ++ x).length = w.length := by rw [hx]; simp; omega
    rw [el, e2] at e1
    rw [← e1, ← hx]
  obtain ⟨u, a, b, hu, hv⟩ := commute_power _ x y (le_refl _) heq.symm
  apply hp
  refine ⟨u, a + b, ?_, by rw [power_add, ← hu, ← hv]; exact hx⟩
  have ha : a ≠ 0 := by rintro rfl; rw [power_zero] at hu; rw [hu] at hxl; simp at hxl; omega
  have hb : b ≠ 0 := by rintro rfl; rw [power_zero] at hv; rw [hv] at hyl; simp at hyl; omega
  omega

theorem adjacent_mem_zip {l : List Nat} (hs : l.Pairwise (· < ·)) {a b : Nat} (ha : a ∈ l) (hb : b ∈ l) (hab : a < b)
    (hno : ∀ x ∈ l, ¬ (a < x ∧ x < b)) : (a, b) ∈ l.zip l.tail := by
  induction l with
  | nil => cases ha
  | cons x l ih =>
    rw [List.pairwise_cons] at hs
    cases l with
    | nil =>
      simp at ha hb; omega
    | cons y l =>
      simp only [List.tail_cons, List.zip_cons_cons, List.mem_cons]
      by_cases hxa : a = x
      · left
        have hby : b ∈ y :: l := by
          rcases List.mem_cons.1 hb with h | h
          · omega
          · exact h
        have hy : y = b := by
          have h1 := hno y (by simp)
          have h2 := hs.1 y (by simp)
          have h3 : y ≤ b := by
            rcases List.mem_cons.1 hby with h | h
            · omega
            · have := (List.pairwise_cons.1 hs.2).1 b h; omega
          omega
        rw [hxa, hy]
      · right
        have ha' : a ∈ y :: l := (List.mem_cons.1 ha).resolve_left hxa
        have hb' : b ∈ y :: l := by
          rcases List.mem_cons.1 hb with h | h
          · have := hs.1 a ha'; omega
          · exact h
        have := ih hs.2 ha' hb' (fun z hz => hno z (by simp only [List.mem_cons] at hz ⊢; tauto))
        simpa using this

theorem mem_zip_tail {l : List Nat} {p : Nat × Nat} (h : p ∈ l.zip l.tail) : p.1 ∈ l ∧ p.2 ∈ l :=
  ⟨(List.of_mem_zip h).1, List.mem_of_mem_tail (List.of_mem_zip h).2⟩

theorem zip_tail_lt {l : List Nat} (hs : l.Pairwise (· < ·)) {p : Nat × Nat} (h : p ∈ l.zip l.tail) : p.1 < p.2 := by
  induction l with
  | nil => simp at h
  | cons x l ih =>
    rw [List.pairwise_cons] at hs
    cases l with
    | nil => simp at h
    | cons y l =>
      simp only [List.tail_cons, List.zip_cons_cons, List.mem_cons] at h
      rcases h with rfl | h
      · exact hs.1 y (by simp)
      · exact ih hs.2 (by simpa using h)

theorem addIfRepeats_spec (sequence word : List α) (hw : word ≠ []) (hp : Primitive word) (acc : List (List α)) :
    ∃ r, addIfRepeats sequence word acc = .ok r ∧
      ((Occurs (word ++ word) sequence ∧ r = acc ++ [word]) ∨ (¬ Occurs (word ++ word) sequence ∧ r = acc)) := by
  obtain ⟨occ, h1, h2, h3⟩ := C03_searchAll_sound_complete sequence word
  unfold addIfRepeats
  rw [h1]
  show ∃ r, (if ((occ.zip occ.tail).any fun p => decide (((p.1 : Int) - p.2).natAbs = word.length)) = true then
    (.ok (acc ++ [word]) : Py _) else .ok acc) = _ ∧ _
  have hiff : ((occ.zip occ.tail).any fun p => decide (((p.1 : Int) - p.2).natAbs = word.length)) = true ↔
      Occurs (word ++ word) sequence := by
    rw [List.any_eq_true]
    constructor
    · rintro ⟨p, hp1, hp2⟩
      have hlt := zip_tail_lt h2 hp1
      obtain ⟨m1, m2⟩ := mem_zip_tail hp1
      simp only [decide_eq_true_eq] at hp2
      refine ⟨p.1, occursAt_append.2 ⟨(h3 _).1 m1, ?_⟩⟩
      have : p.1 + word.length = p.2 := by omega
      rw [this]
      exact (h3 _).1 m2
    · rintro ⟨i, hi⟩
      obtain ⟨a1, a2⟩ := occursAt_append.1 hi
      have hl : 0 < word.length := List.length_pos_iff.2 hw
      refine ⟨(i, i + word.length), adjacent_mem_zip h2 ((h3 _).2 a1) ((h3 _).2 a2) (by omega) ?_, ?_⟩
      · intro x hx hlt
        exact primitive_no_inner hp a1 a2 ((h3 x).1 hx) hlt.1 hlt.2
      · simp only [decide_eq_true_eq]
        push_cast
        omega
  by_cases hc : ((occ.zip occ.tail).any fun p => decide (((p.1 : Int) - p.2).natAbs = word.length)) = true
  · rw [if_pos hc]
    exact ⟨_, rfl, .inl ⟨hiff.1 hc, rfl⟩⟩
  · rw [if_neg hc]
    exact ⟨_, rfl, .inr ⟨fun h => hc (hiff.2 h), rfl⟩⟩

theorem mem_extractWords {sequence w : List α} {n : Nat} :
    w ∈ extractWords sequence n ↔ w.length = n ∧ Occurs w sequence := by
  unfold extractWords
  rw [List.mem_dedup, List.mem_map]
  constructor
  · rintro ⟨i, hi, rfl⟩
    rw [List.mem_range] at hi
    have hl : (pySlice sequence i (i + n)).length = n := by unfold pySlice; simp; omega
    exact ⟨hl, i, occursAt_slice.2 ⟨by omega, by rw [hl]⟩⟩
  · rintro ⟨hl, i, hi⟩
    have := occursAt_slice.1 hi
    exact ⟨i, by rw [List.mem_range]; omega, by rw [← hl]; exact this.2⟩

theorem findPrimitive_inner (rnd : Int → Int) (fuel : Nat) (sequence : List α) (words : List (List α))
    (hnd : words.Nodup) (hw : ∀ w ∈ words, w ≠ [] ∧ w.length < fuel ∧
      primeFactors rnd fuel w.length = .ok (w.length.primeFactorsList.map Nat.cast)) : ∀ acc : List (List α),
    acc.Nodup → (∀ w ∈ words, w ∉ acc) →
    ∃ r, words.foldlM (findStep rnd fuel sequence) acc = .ok r ∧ r.Nodup ∧
      ∀ w, w ∈ r ↔ w ∈ acc ∨ (w ∈ words ∧ Primitive w ∧ Occurs (w ++ w) sequence) := by
  induction words with
  | nil => intro acc h _; exact ⟨acc, rfl, h, by simp⟩
  | cons v words ih =>
    intro acc hacc hdis
    obtain ⟨h1, h2, h3⟩ := hw v (by simp)
    rw [List.nodup_cons] at hnd
    obtain ⟨b, hb1, hb2⟩ := isPrimitive_spec rnd fuel h1 h2 h3
    have hstep : ∃ acc', findStep rnd fuel sequence acc v = .ok acc' ∧
        ((Primitive v ∧ Occurs (v ++ v) sequence ∧ acc' = acc ++ [v]) ∨ (¬ (Primitive v ∧ Occurs (v ++ v) sequence) ∧ acc' = acc)) := by
      unfold findStep
      rw [hb1]
      show ∃ acc', (if b = true then _ else (.ok acc : Py _)) = _ ∧ _
      by_cases hp : Primitive v
      · rw [if_pos (hb2.2 hp)]
        obtain ⟨r, r1, r2⟩ := addIfRepeats_spec sequence v h1 hp acc
        refine ⟨r, r1, ?_⟩
        rcases r2 with ⟨r2, r3⟩ | ⟨r2, r3⟩
        · exact .inl ⟨hp, r2, r3⟩
        · exact .inr ⟨fun h => r2 h.2, r3⟩
      · rw [if_neg (fun h => hp (hb2.1 h))]
        exact ⟨acc, rfl, .inr ⟨fun h => hp h.1, rfl⟩⟩
    obtain ⟨acc', s1, s2⟩ := hstep
    rw [List.foldlM_cons, s1]
    show ∃ r, List.foldlM _ acc' words = _ ∧ _
    rcases s2 with ⟨s2, s3, rfl⟩ | ⟨s2, rfl⟩
    · obtain ⟨r, r1, r2, r3⟩ := ih hnd.2 (fun w hw' => hw w (by simp [hw'])) (acc ++ [v]) (by
        rw [List.nodup_append]
        refine ⟨hacc, by simp, ?_⟩
        intro a ha b hb
        rw [List.mem_singleton.1 hb]
        rintro rfl
        exact hdis a (by simp) ha) (by
          intro w hw' hc
          rcases List.mem_append.1 hc with hc | hc
          · exact hdis w (by simp [hw']) hc
          · rw [List.mem_singleton.1 hc] at hw'; exact hnd.1 hw')
      refine ⟨r, r1, r2, fun w => ?_⟩
      rw [r3 w]
      simp only [List.mem_append, List.mem_cons, List.not_mem_nil, or_false]
      constructor
      · rintro ((h | rfl) | h)
        · exact .inl h
        · exact .inr ⟨.inl rfl, s2, s3⟩
        · exact .inr ⟨.inr h.1, h.2⟩
      · rintro (h | ⟨rfl | h, h'⟩)
        · exact .inl (.inl h)
        · exact .inl (.inr rfl)
        · exact .inr ⟨h, h'⟩
    · obtain ⟨r, r1, r2, r3⟩ := ih hnd.2 (fun w hw' => hw w (by simp [hw'])) acc' hacc
        (fun w hw' => hdis w (by simp [hw']))
      refine ⟨r, r1, r2, fun w => ?_⟩
      rw [r3 w]
      simp only [List.mem_cons]
      constructor
      · rintro (h | h)
        · exact .inl h
        · exact .inr ⟨.inr h.1, h.2⟩
      · rintro (h | ⟨rfl | h, h'⟩)
        · exact .inl h
        · exact absurd h' s2
        · exact .inr ⟨h, h'⟩

theorem occurs_length {w l : List α} (h : Occurs w l) : w.length ≤ l.length := by
  obtain ⟨i, hi⟩ := h
  have := occursAt_le hi
  omega

theorem findPrimitive_outer (rnd : Int → Int) (fuel : Nat) (sequence : List α) (hf : sequence.length < fuel)
    (hp : ∀ n : Nat, 1 ≤ n → n ≤ sequence.length → primeFactors rnd fuel n = .ok (n.primeFactorsList.map Nat.cast))
    (lens : List Nat) (hnd : lens.Nodup) (hpos : ∀ n ∈ lens, 1 ≤ n) : ∀ acc : List (List α),
    acc.Nodup → (∀ w ∈ acc, w.length ∉ lens) →
    ∃ r, lens.foldlM (fun acc len => (extractWords sequence len).foldlM (findStep rnd fuel sequence) acc) acc = .ok r ∧ r.Nodup ∧
      ∀ w, w ∈ r ↔ w ∈ acc ∨ (w.length ∈ lens ∧ Primitive w ∧ Occurs (w ++ w) sequence) := by
  induction lens with
  | nil => intro acc h _; exact ⟨acc, rfl, h, by simp⟩
  | cons n lens ih =>
    intro acc hacc hdis
    rw [List.nodup_cons] at hnd
    obtain ⟨r1, e1, e2, e3⟩ := findPrimitive_inner rnd fuel sequence (extractWords sequence n) (List.nodup_dedup _) (by
      intro w hw
      obtain ⟨hl, ho⟩ := mem_extractWords.1 hw
      have h1 := hpos n (by simp)
      have h2 := occurs_length ho
      exact ⟨by rintro rfl; simp at hl; omega, by omega, hp _ (by omega) h2⟩) acc hacc (by
      intro w hw hc
      exact hdis w hc (by rw [(mem_extractWords.1 hw).1]; simp))
    rw [List.foldlM_cons, e1]
    obtain ⟨r, f1, f2, f3⟩ := ih hnd.2 (fun n hn => hpos n (by simp [hn])) r1 e2 (by
      intro w hw hc
      rcases (e3 w).1 hw with h | ⟨h, _⟩
      · exact hdis w h (by simp [hc])
      · rw [(mem_extractWords.1 h).1] at hc; exact hnd.1 hc)
    refine ⟨r, f1, f2, fun w => ?_⟩
    rw [f3 w, e3 w, mem_extractWords]
    simp only [List.mem_cons]
    constructor
    · rintro ((h | ⟨⟨h, _⟩, h'⟩) | h)
      · exact .inl h
      · exact .inr ⟨.inl h, h'⟩
      · exact .inr ⟨.inr h.1, h.2⟩
    · rintro (h | ⟨h | h, h'⟩)
      · exact .inl (.inl h)
      · refine .inl (.inr ⟨⟨h, ?_⟩, h'⟩)
        obtain ⟨i, hi⟩ := h'.2
        exact ⟨i, (occursAt_append.1 hi).1⟩
      · exact .inr ⟨h, h'⟩

end Prolothar.Patterns
