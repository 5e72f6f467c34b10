import Verif.Lemmas.Patterns
/-
Repetition patterns: C56, C57, C90, C91, C92, C93.
-/
set_option linter.unusedSectionVars false
set_option linter.unusedSimpArgs false
set_option linter.unusedVariables false
namespace Prolothar.Patterns
open Prolothar.Spec Prolothar.BoyerMoore Prolothar.PrimeFactors

variable {α : Type} [DecidableEq α]

/-! ### C56 primitive words -/

/-- C56: `is_primitive_tandem_repeat_type` terminates on every non-empty word and decides primitivity.
(The bound on the length comes from the float division in `prime_factors`; no list is that long.) -/
theorem C56_primitive (rnd : Int → Int) (hr : ∀ k : Nat, k ≤ 2 ^ 53 → rnd k = k) {w : List α} (hw : w ≠ [])
    (hmax : w.length ≤ 2 ^ 54) (fuel : Nat) (hf : w.length < fuel) :
    ∃ b, isPrimitive rnd fuel w = .ok b ∧ (b = true ↔ ¬ ∃ u k, 2 ≤ k ∧ w = power u k) :=
  isPrimitive_spec rnd fuel hw hf
    (C21_equals_primeFactorsList rnd hr w.length (List.length_pos_iff.2 hw) hmax fuel hf)

/-- C56: with exact division it holds for all lengths. -/
theorem C56_primitive_exact {w : List α} (hw : w ≠ []) (fuel : Nat) (hf : w.length < fuel) :
    ∃ b, isPrimitive id fuel w = .ok b ∧ (b = true ↔ ¬ ∃ u k, 2 ≤ k ∧ w = power u k) :=
  isPrimitive_spec id fuel hw hf (C21_exact_arithmetic w.length (List.length_pos_iff.2 hw) fuel hf)

/-- C56: on the empty word the function does not terminate. -/
theorem C56_empty_diverges (rnd : Int → Int) (h0 : rnd 0 = 0) (fuel : Nat) :
    isPrimitive rnd fuel ([] : List α) = .error .diverge := by
  unfold isPrimitive
  have := C21_zero_diverges rnd h0 fuel
  show (primeFactors rnd fuel 0 >>= _) = _
  rw [this]; rfl

example : isPrimitive id 10 [1, 2, 1, 2] = .ok false ∧ isPrimitive id 10 [1, 2, 1] = .ok true ∧
    isPrimitive id 10 [1, 1, 2, 1, 1, 2] = .ok false ∧ isPrimitive id 10 [7] = .ok true := by decide

/-! ### C90 primitive tandem repeats -/

theorem findPrimitive_spec (rnd : Int → Int) (fuel : Nat) (sequence : List α) (hf : sequence.length < fuel)
    (hp : ∀ n : Nat, 1 ≤ n → n ≤ sequence.length → primeFactors rnd fuel n = .ok (n.primeFactorsList.map Nat.cast))
    (minLen : Nat) (hmin : 1 ≤ minLen) (maxLen : Option Nat) :
    ∃ r, findPrimitive rnd fuel sequence minLen maxLen = .ok r ∧ r.Nodup ∧
      ∀ w, w ∈ r ↔ minLen ≤ w.length ∧ w.length ≤ maxLen.getD (sequence.length / 2) ∧ Primitive w ∧ Occurs (w ++ w) sequence := by
  obtain ⟨r, h1, h2, h3⟩ := findPrimitive_outer rnd fuel sequence hf hp
    (List.range' minLen (maxLen.getD (sequence.length / 2) + 1 - minLen)) List.nodup_range' (by
      intro n hn
      rw [List.mem_range'_1] at hn
      omega) [] (by simp) (by simp)
  refine ⟨r, h1, h2, fun w => ?_⟩
  rw [h3 w, List.mem_range'_1]
  simp only [List.not_mem_nil, false_or]
  constructor
  · rintro ⟨⟨a, b⟩, c⟩; exact ⟨a, by omega, c⟩
  · rintro ⟨a, b, c⟩; exact ⟨⟨a, by omega⟩, c⟩

/-- C90: `find_primitive_tandem_repeats` returns, each once, exactly the primitive words within the length
limits whose square occurs in the sequence. -/
theorem C90_tandem_repeats (rnd : Int → Int) (hr : ∀ k : Nat, k ≤ 2 ^ 53 → rnd k = k) (sequence : List α)
    (hmax : sequence.length ≤ 2 ^ 54) (fuel : Nat) (hf : sequence.length < fuel) (minLen : Nat) (hmin : 1 ≤ minLen)
    (maxLen : Option Nat) :
    ∃ r, findPrimitive rnd fuel sequence minLen maxLen = .ok r ∧ r.Nodup ∧
      ∀ w, w ∈ r ↔ minLen ≤ w.length ∧ w.length ≤ maxLen.getD (sequence.length / 2) ∧ Primitive w ∧ Occurs (w ++ w) sequence :=
  findPrimitive_spec rnd fuel sequence hf
    (fun n h1 h2 => C21_equals_primeFactorsList rnd hr n h1 (by omega) fuel (by omega)) minLen hmin maxLen

/-- C90: with the default limits no primitive word whose square occurs is missed. -/
theorem C90_default_complete (rnd : Int → Int) (hr : ∀ k : Nat, k ≤ 2 ^ 53 → rnd k = k) (sequence : List α)
    (hmax : sequence.length ≤ 2 ^ 54) (fuel : Nat) (hf : sequence.length < fuel) :
    ∃ r, findPrimitive rnd fuel sequence 1 none = .ok r ∧ r.Nodup ∧
      ∀ w, w ∈ r ↔ w ≠ [] ∧ Primitive w ∧ ∃ a b, sequence = a ++ w ++ w ++ b := by
  obtain ⟨r, h1, h2, h3⟩ := C90_tandem_repeats rnd hr sequence hmax fuel hf 1 (le_refl _) none
  refine ⟨r, h1, h2, fun w => ?_⟩
  rw [h3 w]
  constructor
  · rintro ⟨a, _, c, i, x, y, h, _⟩
    exact ⟨by rintro rfl; simp at a, c, x, y, by rw [h]; simp⟩
  · rintro ⟨a, c, x, y, h⟩
    have hl := congrArg List.length h
    simp at hl
    refine ⟨List.length_pos_iff.2 a, by simp; omega, c, x.length, x, y, by rw [h]; simp, rfl⟩

example : findPrimitive id 20 [0, 0, 4, 0, 0, 1, 2, 3, 1, 2, 3] 1 none = .ok [[0], [1, 2, 3]] := by decide

/-! ### C57 tandem arrays -/

/-- C57: `is_tandem_array` for a non-empty repeat type returns the number of consecutive repetitions from
the start index on, which is maximal unless it is cut at `max_k`. -/
theorem C57_is_tandem_array (trace r : List α) (hr : r ≠ []) (start : Nat) (hs : start ≤ trace.length)
    (maxK : Option Nat) (fuel : Nat) (hf : trace.length < fuel) :
    ∃ k, isTandemArray fuel trace start r maxK = .ok (decide (2 ≤ k), k) ∧ OccursAt (power r k) trace start ∧
      (∀ m, maxK = some m → k ≤ m) ∧ (maxK ≠ some k → ¬ OccursAt (power r (k + 1)) trace start) := by
  obtain ⟨j, e1, e2, e3, e4, e5⟩ := tandemLoop_spec trace r hr maxK fuel start 0 hs (by omega)
  rw [Nat.zero_add] at e1 e3
  refine ⟨j, by unfold isTandemArray; rw [e1]; rfl, e2, ?_, ?_⟩
  · intro m hm
    have := e4 m hm (Nat.zero_le _)
    omega
  · intro h
    rcases e3 with e3 | ⟨m, hm, hlt⟩ | e3
    · exact absurd e3 h
    · omega
    · exact e3

/-- C57: for the empty repeat type without `max_k` the function does not terminate. -/
theorem C57_empty_type_diverges (trace : List α) (start : Nat) (hs : start ≤ trace.length) (fuel : Nat) :
    isTandemArray fuel trace start [] none = .error .diverge := by
  have : ∀ fuel k, tandemLoop trace [] none fuel start k = .error .diverge := by
    intro fuel
    induction fuel with
    | zero => intro k; rfl
    | succ fuel ih =>
      intro k
      rw [tandemLoop, if_pos ⟨by simpa using hs, by simp [pySlice, List.drop_eq_nil_of_le], .inl rfl⟩]
      exact ih _
  unfold isTandemArray
  rw [this]; rfl

/-- positions covered by the repetitions of a triple -/
def starts (t : Triple α) : List Nat := (List.range t.2.2).map fun j => t.1 + j * t.2.1.length

theorem starts_succ (s : Nat) (r : List α) (k : Nat) : starts (s, r, k + 1) = starts (s, r, k) ++ [s + k * r.length] := by
  simp [starts, List.range_succ]

structure ArrInv (r : List α) (pre : List Nat) (st : List (Triple α) × (Nat × Nat) × Nat) : Prop where
  flat : st.1.flatMap starts ++ starts (st.2.1.1, r, st.2.1.2) = pre
  pos : 1 ≤ st.2.1.2
  last : st.2.2 = st.2.1.1 + (st.2.1.2 - 1) * r.length
  ok : ∀ t ∈ st.1, t.2.1 = r ∧ 1 ≤ t.2.2
  chain : (st.1 ++ [(st.2.1.1, r, st.2.1.2)]).IsChain fun t u => t.1 + t.2.2 * r.length ≠ u.1

theorem arr_fold (r : List α) (os : List Nat) : ∀ (pre : List Nat) (st : List (Triple α) × (Nat × Nat) × Nat), ArrInv r pre st →
    (pre ++ os).Pairwise (· < ·) → ArrInv r (pre ++ os) (os.foldl (arrayStep r) st) := by
  induction os with
  | nil => intro pre st h _; simpa using h
  | cons o os ih =>
    intro pre st h hs
    rw [List.foldl_cons]
    have : pre ++ o :: os = (pre ++ [o]) ++ os := by simp
    rw [this] at hs ⊢
    refine ih (pre ++ [o]) _ ?_ hs
    obtain ⟨fin, ⟨s, c⟩, last⟩ := st
    obtain ⟨h1, h2, h3, h4, h5⟩ := h
    simp only at h1 h2 h3 h4 h5
    obtain ⟨c', rfl⟩ : ∃ c', c = c' + 1 := ⟨c - 1, by omega⟩
    have hlast : last ∈ pre := by
      rw [← h1, starts_succ]
      simp [h3]
    have hlt : last < o := by
      rw [List.pairwise_append] at hs
      have h6 := hs.1
      rw [List.pairwise_append] at h6
      exact h6.2.2 last hlast o (by simp)
    unfold arrayStep
    simp only
    split
    · rename_i hd
      have ho : o = s + (c' + 1) * r.length := by
        have : o = last + r.length := by omega
        rw [this, h3, Nat.add_sub_cancel, Nat.succ_mul]; omega
      refine ⟨?_, by simp, ?_, h4, ?_⟩
      · simp only
        rw [starts_succ s r (c' + 1), ← List.append_assoc, h1, ho]
      · simp [ho]
      · simp only
        rw [List.isChain_append] at h5 ⊢
        refine ⟨h5.1, by simp, ?_⟩
        intro x hx y hy
        have := h5.2.2 x hx (s, r, c' + 1) (by simp)
        simp at hy
        subst hy
        exact this
    · rename_i hd
      refine ⟨?_, by simp, by simp, ?_, ?_⟩
      · simp only
        rw [List.flatMap_append, ← h1]
        simp [starts]
      · intro t ht
        simp only at ht
        rcases List.mem_append.1 ht with ht | ht
        · exact h4 t ht
        · rw [List.mem_singleton.1 ht]; exact ⟨rfl, h2⟩
      · simp only
        rw [List.isChain_append]
        refine ⟨h5, by simp, ?_⟩
        intro x hx y hy
        simp at hx hy
        subst hx; subst hy
        simp only
        intro hc
        apply hd
        rw [← hc, h3, Nat.add_sub_cancel, Nat.succ_mul]
        push_cast
        omega

theorem createFromType_spec (r sequence : List α) :
    ∃ l occ, createFromType r sequence = .ok l ∧ occ.Pairwise (· < ·) ∧ (∀ i, i ∈ occ ↔ OccursAt r sequence i) ∧
      l.flatMap starts = occ ∧ (∀ t ∈ l, t.2.1 = r ∧ 1 ≤ t.2.2) ∧
      l.IsChain fun t u => t.1 + t.2.2 * r.length ≠ u.1 := by
  obtain ⟨occ, h1, h2, h3⟩ := C03_searchAll_sound_complete sequence r
  unfold createFromType
  rw [h1]
  cases occ with
  | nil => exact ⟨[], [], rfl, h2, h3, rfl, by simp, by simp⟩
  | cons o os =>
    have hinv : ArrInv r [o] ([], (o, 1), o) := ⟨by simp [starts], by simp, by simp, by simp, by simp⟩
    have := arr_fold r os [o] _ hinv h2
    refine ⟨_, o :: os, rfl, h2, h3, ?_, ?_, this.chain⟩
    · rw [List.flatMap_append]; simpa using this.flat
    · intro t ht
      rcases List.mem_append.1 ht with ht | ht
      · exact this.ok t ht
      · rw [List.mem_singleton.1 ht]; exact ⟨rfl, this.pos⟩

theorem occursAt_power {r l : List α} {s : Nat} : ∀ k, (∀ j < k, OccursAt r l (s + j * r.length)) → 1 ≤ k → OccursAt (power r k) l s := by
  intro k
  induction k generalizing s with
  | zero => intro _ h; omega
  | succ k ih =>
    intro h _
    rw [power_succ, occursAt_append]
    refine ⟨by simpa using h 0 (by omega), ?_⟩
    cases k with
    | zero =>
      have h0 : OccursAt r l s := by simpa using h 0 (by omega)
      have hle := occursAt_le h0
      rw [power_zero]
      exact (occursAt_nil l (s + r.length)).2 hle
    | succ k =>
      apply ih _ (by omega)
      intro j hj
      have := h (j + 1) (by omega)
      rw [Nat.succ_mul] at this
      have e : s + r.length + j * r.length = s + (j * r.length + r.length) := by omega
      rw [e]; exact this

/-- C57: every triple `(start, type, k)` is what it says: the type repeated `k ≥ 1` times at `start`. -/
theorem C57_sound (r sequence : List α) :
    ∃ l, createFromType r sequence = .ok l ∧ ∀ t ∈ l, t.2.1 = r ∧ 1 ≤ t.2.2 ∧ OccursAt (power r t.2.2) sequence t.1 := by
  obtain ⟨l, occ, h1, h2, h3, h4, h5, h6⟩ := createFromType_spec r sequence
  refine ⟨l, h1, fun t ht => ⟨(h5 t ht).1, (h5 t ht).2, ?_⟩⟩
  apply occursAt_power _ _ (h5 t ht).2
  intro j hj
  rw [← h3, ← h4, List.mem_flatMap]
  refine ⟨t, ht, ?_⟩
  unfold starts
  rw [List.mem_map]
  exact ⟨j, by simpa using hj, by rw [(h5 t ht).1]⟩

/-- C57: every occurrence of the type is counted in exactly one triple, in increasing order. -/
theorem C57_partition (r sequence : List α) :
    ∃ l, createFromType r sequence = .ok l ∧
      (l.flatMap fun t => (List.range t.2.2).map fun j => t.1 + j * r.length).Pairwise (· < ·) ∧
      ∀ i, i ∈ (l.flatMap fun t => (List.range t.2.2).map fun j => t.1 + j * r.length) ↔ OccursAt r sequence i := by
  obtain ⟨l, occ, h1, h2, h3, h4, h5, h6⟩ := createFromType_spec r sequence
  have he : (l.flatMap fun t => (List.range t.2.2).map fun j => t.1 + j * r.length) = occ := by
    rw [← h4]
    apply List.flatMap_congr
    intro t ht
    unfold starts
    rw [(h5 t ht).1]
  exact ⟨l, h1, by rw [he]; exact h2, fun i => by rw [he]; exact h3 i⟩

theorem unbordered_dist {r l : List α} (hu : Unbordered r) {i j : Nat} (hi : OccursAt r l i) (hj : OccursAt r l j) (hlt : i < j) :
    i + r.length ≤ j := by
  by_contra hc
  have hlen : 0 < r.length := by omega
  refine hu (r.drop (j - i)) ?_ (by simp; omega) ⟨?_, List.drop_suffix _ _⟩
  · intro h
    have := congrArg List.length h
    simp at this; omega
  · have hj' := (occursAt_iff.1 hj).2
    have hi' := (occursAt_iff.1 hi).2
    have : r.drop (j - i) = r.take (r.length - (j - i)) := by
      apply List.ext_getElem?
      intro k
      rw [List.getElem?_drop]
      by_cases hk : k < r.length - (j - i)
      · rw [List.getElem?_take, if_pos hk]
        have h1 := hi' (j - i + k) (by omega)
        have h2 := hj' k (by omega)
        have e : i + (j - i + k) = j + k := by omega
        rw [e] at h1
        rw [← h1, h2]
      · rw [List.getElem?_take, if_neg hk]
        rw [List.getElem?_eq_none]; omega
    rw [this]
    exact List.take_prefix _ _

theorem pairwise_flatMap_lt {β : Type} (f : β → List Nat) : ∀ (l : List β), (l.flatMap f).Pairwise (· < ·) →
    l.Pairwise fun t u => ∀ x ∈ f t, ∀ y ∈ f u, x < y := by
  intro l
  induction l with
  | nil => intro _; exact .nil
  | cons t l ih =>
    intro h
    rw [List.flatMap_cons, List.pairwise_append] at h
    rw [List.pairwise_cons]
    refine ⟨?_, ih h.2.1⟩
    intro u hu x hx y hy
    exact h.2.2 x hx y (List.mem_flatMap.2 ⟨u, hu, hy⟩)

/-- C57: if the type cannot overlap itself, the triples do not overlap and no triple can be extended by
another repetition on either side. -/
theorem C57_maximal (r sequence : List α) (hr : r ≠ []) (hu : Unbordered r) :
    ∃ l, createFromType r sequence = .ok l ∧ (l.Pairwise fun t u => t.1 + t.2.2 * r.length ≤ u.1) ∧
      ∀ t ∈ l, ¬ OccursAt r sequence (t.1 + t.2.2 * r.length) ∧ ∀ i, i + r.length = t.1 → ¬ OccursAt r sequence i := by
  obtain ⟨l, occ, h1, h2, h3, h4, h5, h6⟩ := createFromType_spec r sequence
  have hrl : 0 < r.length := List.length_pos_iff.2 hr
  have hmem : ∀ t ∈ l, ∀ j < t.2.2, t.1 + j * r.length ∈ starts t := by
    intro t ht j hj
    unfold starts
    rw [List.mem_map]
    exact ⟨j, by simpa using hj, by rw [(h5 t ht).1]⟩
  have hocc : ∀ t ∈ l, ∀ x ∈ starts t, OccursAt r sequence x := by
    intro t ht x hx
    rw [← h3, ← h4]
    exact List.mem_flatMap.2 ⟨t, ht, hx⟩
  have hpw := pairwise_flatMap_lt starts l (by rw [h4]; exact h2)
  have hno : l.Pairwise fun t u => t.1 + t.2.2 * r.length ≤ u.1 := by
    refine List.Pairwise.imp_of_mem ?_ hpw
    intro t u ht hu' hlt
    obtain ⟨k, hk⟩ : ∃ k, t.2.2 = k + 1 := ⟨t.2.2 - 1, by have := (h5 t ht).2; omega⟩
    have m1 := hmem t ht k (by omega)
    have m2 := hmem u hu' 0 (by have := (h5 u hu').2; omega)
    have hd := unbordered_dist hu (hocc t ht _ m1) (hocc u hu' _ m2) (hlt _ m1 _ m2)
    rw [hk, Nat.succ_mul]
    omega
  -- two triples of which one continues the other do not exist
  have hadj : ∀ (l : List (Triple α)), (l.Pairwise fun t u => t.1 + t.2.2 * r.length ≤ u.1) →
      (l.IsChain fun t u => t.1 + t.2.2 * r.length ≠ u.1) → (∀ t ∈ l, 1 ≤ t.2.2) →
      ∀ t ∈ l, ∀ u ∈ l, t.1 + t.2.2 * r.length ≠ u.1 := by
    intro l
    induction l with
    | nil => simp
    | cons a l ih =>
      intro hp hc hpos t ht u hu'
      rw [List.pairwise_cons] at hp
      have hpa : 0 < a.2.2 * r.length := Nat.mul_pos (hpos a (by simp)) hrl
      rcases List.mem_cons.1 ht with rfl | ht'
      · rcases List.mem_cons.1 hu' with rfl | hu'
        · omega
        · cases l with
          | nil => cases hu'
          | cons b l =>
            rw [List.isChain_cons_cons] at hc
            rcases List.mem_cons.1 hu' with rfl | hu''
            · exact hc.1
            · have e1 := hp.1 b (by simp)
              have e2 := (List.pairwise_cons.1 hp.2).1 u hu''
              have : 0 < b.2.2 * r.length := Nat.mul_pos (hpos b (by simp)) hrl
              omega
      · rcases List.mem_cons.1 hu' with rfl | hu'
        · have := hp.1 t ht'
          have : 0 < t.2.2 * r.length := Nat.mul_pos (hpos t (by simp [ht'])) hrl
          omega
        · exact ih hp.2 hc.of_cons (fun t ht => hpos t (by simp [ht])) t ht' u hu'
  have hadj' := hadj l hno h6 (fun t ht => (h5 t ht).2)
  have hcases : ∀ (l : List (Triple α)), (l.Pairwise fun t u => t.1 + t.2.2 * r.length ≤ u.1) →
      ∀ t ∈ l, ∀ u ∈ l, t = u ∨ t.1 + t.2.2 * r.length ≤ u.1 ∨ u.1 + u.2.2 * r.length ≤ t.1 := by
    intro l
    induction l with
    | nil => simp
    | cons a l ih =>
      intro hp t ht u hu'
      rw [List.pairwise_cons] at hp
      rcases List.mem_cons.1 ht with rfl | ht'
      · rcases List.mem_cons.1 hu' with rfl | hu'
        · exact .inl rfl
        · exact .inr (.inl (hp.1 u hu'))
      · rcases List.mem_cons.1 hu' with rfl | hu'
        · exact .inr (.inr (hp.1 t ht'))
        · exact ih hp.2 t ht' u hu'
  have hin : ∀ x, OccursAt r sequence x → ∃ u ∈ l, ∃ j < u.2.2, x = u.1 + j * r.length := by
    intro x hx
    rw [← h3, ← h4] at hx
    obtain ⟨u, hu', hx⟩ := List.mem_flatMap.1 hx
    unfold starts at hx
    obtain ⟨j, hj, rfl⟩ := List.mem_map.1 hx
    exact ⟨u, hu', j, by simpa using hj, by rw [(h5 u hu').1]⟩
  refine ⟨l, h1, hno, fun t ht => ⟨?_, ?_⟩⟩
  · intro hx
    obtain ⟨u, hu', j, hj, he⟩ := hin _ hx
    have hjk : j * r.length < u.2.2 * r.length := Nat.mul_lt_mul_of_pos_right hj hrl
    rcases hcases l hno t ht u hu' with rfl | h | h
    · omega
    · have hj0 : j * r.length = 0 := by omega
      exact hadj' t ht u hu' (by omega)
    · have : 0 < t.2.2 * r.length := Nat.mul_pos (h5 t ht).2 hrl
      omega
  · intro i hi hx
    obtain ⟨u, hu', j, hj, he⟩ := hin _ hx
    have hjk : (j + 1) * r.length ≤ u.2.2 * r.length := Nat.mul_le_mul_right _ hj
    rw [Nat.succ_mul] at hjk
    rcases hcases l hno t ht u hu' with rfl | h | h
    · omega
    · have : 0 < t.2.2 * r.length := Nat.mul_pos (h5 t ht).2 hrl
      omega
    · exact hadj' u hu' t ht (by omega)

/-- C57: for several types all triples are returned, sorted by start index and then length of the type. -/
theorem C57_types (types : List (List α)) (sequence : List α) :
    ∃ ls l, types.mapM (fun r => createFromType r sequence) = .ok ls ∧ createFromTypes types sequence = .ok l ∧
      l.Perm ls.flatten ∧ l.Pairwise fun a b => a.1 < b.1 ∨ (a.1 = b.1 ∧ a.2.1.length ≤ b.2.1.length) := by
  have key : ∀ (types : List (List α)) (acc : List (Triple α)), ∃ ls,
      types.mapM (fun r => createFromType r sequence) = .ok ls ∧
      types.foldlM (fun acc r => do
        let ts ← createFromType r sequence
        return acc ++ ts) acc = (.ok (acc ++ ls.flatten) : Py _) := by
    intro types
    induction types with
    | nil => intro acc; exact ⟨[], rfl, by simp; rfl⟩
    | cons r types ih =>
      intro acc
      obtain ⟨ts, _, h1, _⟩ := createFromType_spec r sequence
      obtain ⟨ls, h2, h3⟩ := ih (acc ++ ts)
      refine ⟨ts :: ls, ?_, ?_⟩
      · rw [List.mapM_cons, h1, h2]; rfl
      · rw [List.foldlM_cons, h1]
        refine Eq.trans h3 ?_
        simp
  obtain ⟨ls, h1, h2⟩ := key types []
  refine ⟨ls, ls.flatten.insertionSort keyLe, h1, ?_, List.perm_insertionSort _ _, ?_⟩
  · unfold createFromTypes
    rw [h2]
    simp
  · have : Std.Total (keyLe (α := α)) := ⟨fun a b => by unfold keyLe; omega⟩
    have : IsTrans (Triple α) keyLe := ⟨fun a b c h1 h2 => by unfold keyLe at *; omega⟩
    exact List.pairwise_insertionSort keyLe ls.flatten

/-- C57: for a type that overlaps itself the triples overlap, and the counts are not maximal. -/
theorem C57_overlapping_type :
    createFromType [1, 1] [1, 1, 1, 1] = .ok [(0, [1, 1], 1), (1, [1, 1], 1), (2, [1, 1], 1)] ∧
    OccursAt (power [1, 1] 2) [1, 1, 1, 1] 0 :=
  ⟨by decide, [], [], rfl, rfl⟩

example : Unbordered [1, 2] ∧ createFromType [1, 2] [1, 2, 1, 2, 3, 1, 2] = .ok [(0, [1, 2], 2), (5, [1, 2], 1)] := by
  refine ⟨?_, by decide⟩
  rintro b hb hl ⟨⟨x, hx⟩, ⟨y, hy⟩⟩
  match b, hb, hl with
  | [a], _, _ =>
    simp at hx
    match y with
    | [c] => simp at hy; omega
    | [] => simp at hy
    | c :: d :: e => simp at hy

/-! ### C93 TandemArray -/

/-- C93: a `TandemArray` is accepted iff at least two repetitions occur at the start index and at least
two are claimed. -/
theorem C93_accepted (trace r : List α) (hr : r ≠ []) (start n : Nat) (hs : start ≤ trace.length) (fuel : Nat)
    (hf : trace.length < fuel) :
    (TandemArray.create fuel trace start r n = .ok ⟨trace, start, r, n⟩ ∧ 2 ≤ n ∧ OccursAt (power r 2) trace start) ∨
    (TandemArray.create fuel trace start r n = .error .value ∧ ¬ (2 ≤ n ∧ OccursAt (power r 2) trace start)) := by
  obtain ⟨k, h1, h2, h3, h4⟩ := C57_is_tandem_array trace r hr start hs (some n) fuel hf
  have hkn := h3 n rfl
  have hdown : ∀ j, j ≤ k → OccursAt (power r j) trace start := by
    intro j hj
    obtain ⟨d, rfl⟩ : ∃ d, k = j + d := ⟨k - j, by omega⟩
    rw [power_add] at h2
    exact (occursAt_append.1 h2).1
  have hcreate : TandemArray.create fuel trace start r n =
      if ¬ decide (2 ≤ k) = true then .error .value else .ok ⟨trace, start, r, n⟩ := by
    unfold TandemArray.create
    rw [h1]; rfl
  rw [hcreate]
  by_cases hk : 2 ≤ k
  · left
    rw [if_neg (by simpa using hk)]
    exact ⟨rfl, by omega, hdown 2 hk⟩
  · right
    rw [if_pos (by simpa using hk)]
    refine ⟨rfl, ?_⟩
    rintro ⟨h5, h6⟩
    apply h4 (by simp; omega)
    obtain ⟨d, hd⟩ : ∃ d, 2 = (k + 1) + d := ⟨2 - (k + 1), by omega⟩
    rw [hd, power_add] at h6
    exact (occursAt_append.1 h6).1

/-- C93: so a claimed number of repetitions larger than the real one is accepted. -/
theorem C93_overclaim_accepted :
    TandemArray.create 10 [1, 1, 2] 0 [1] 5 = .ok ⟨[1, 1, 2], 0, [1], 5⟩ ∧ ¬ OccursAt (power [1] 5) [1, 1, 2] 0 := by
  refine ⟨by decide, ?_⟩
  intro h
  have := occursAt_le h
  simp [length_power] at this

/-- C93: for a correct array `is_maximal` tells whether it can be extended by a repetition on either side. -/
theorem C93_is_maximal (t : TandemArray α) (hr : t.repeatType ≠ [])
    (h : OccursAt (power t.repeatType t.repeats) t.trace t.start) :
    t.isMaximal = true ↔ ¬ OccursAt t.repeatType t.trace (t.start + t.repeats * t.repeatType.length) ∧
      ∀ i, i + t.repeatType.length = t.start → ¬ OccursAt t.repeatType t.trace i := by
  obtain ⟨trace, s, r, n⟩ := t
  simp only at *
  have hrl : 0 < r.length := List.length_pos_iff.2 hr
  have hle := occursAt_le h
  rw [length_power] at hle
  unfold TandemArray.isMaximal
  simp only [Bool.and_eq_true, decide_eq_true_eq]
  rw [and_comm, Nat.mul_comm r.length n]
  refine and_congr (not_congr ?_) ?_
  · rw [occursAt_slice, Nat.min_eq_right hle]
    constructor
    · intro he
      have hl := congrArg List.length he
      unfold pySlice at hl
      rw [List.length_drop, List.length_take] at hl
      have : s + n * r.length + r.length ≤ trace.length := by omega
      refine ⟨this, ?_⟩
      rw [Nat.min_eq_right (by omega)] at he
      have e : s + r.length + n * r.length = s + n * r.length + r.length := by omega
      rw [e] at he
      exact he
    · rintro ⟨h1, h2⟩
      rw [Nat.min_eq_right (by omega)]
      have e : s + r.length + n * r.length = s + n * r.length + r.length := by omega
      rw [e]; exact h2
  · constructor
    · intro hne i hi hocc
      apply hne
      have := (occursAt_slice.1 hocc).2
      rw [← hi, Nat.add_sub_cancel]; exact this
    · intro hno he
      have hl := congrArg List.length he
      unfold pySlice at hl
      rw [List.length_drop, List.length_take] at hl
      have hsr : s - r.length + r.length = s := by omega
      apply hno (s - r.length) hsr
      rw [occursAt_slice, hsr]
      exact ⟨by omega, he⟩

example : TandemArray.isMaximal ⟨[3, 1, 2, 1, 2, 4], 1, [1, 2], 2⟩ = true ∧
    TandemArray.isMaximal ⟨[1, 2, 1, 2, 1, 2], 0, [1, 2], 2⟩ = false := by decide

/-! ### C91 super maximal repeats -/

theorem mapM_any {β : Type} (f : β → Py Bool) (P : β → Prop) (l : List β) (h : ∀ o ∈ l, ∃ b, f o = .ok b ∧ (b = true ↔ P o)) :
    ∃ bs, l.mapM f = .ok bs ∧ (bs.any id = true ↔ ∃ o ∈ l, P o) := by
  induction l with
  | nil => exact ⟨[], rfl, by simp⟩
  | cons o l ih =>
    obtain ⟨b, h1, h2⟩ := h o (by simp)
    obtain ⟨bs, h3, h4⟩ := ih (fun o ho => h o (by simp [ho]))
    refine ⟨b :: bs, by rw [List.mapM_cons, h1, h3]; rfl, ?_⟩
    rw [List.any_cons, Bool.or_eq_true, h4]
    simp only [id, h2, List.mem_cons, exists_eq_or_imp]

theorem isSublistWith_spec (m : List α) {t : List Int} (ht : offsetTable m = .ok t) (o : List α) :
    ∃ b, isSublistWith (charTable m) t o m = .ok b ∧ (b = true ↔ Occurs m o) := by
  obtain ⟨t', h1, h2⟩ := C02_tables_reusable m
  rw [ht] at h1
  cases h1
  rw [(h2 o).1]
  have hiff : Occurs m o ↔ ∃ a b, o = a ++ m ++ b := occursAt_iff_infix
  rcases C02_isSublist_iff o m with ⟨h, h'⟩ | ⟨h, h'⟩
  · exact ⟨true, h, by simp only [true_iff]; exact hiff.2 h'⟩
  · refine ⟨false, h, ?_⟩
    rw [hiff]
    simp only [Bool.false_eq_true, false_iff]
    exact h'

theorem superLoop_spec : ∀ (l : List (List α)), l.Nodup → (l.Pairwise fun a b => a.length ≤ b.length) →
    ∃ r, superLoop l = .ok r ∧ r.Sublist l ∧ ∀ m, m ∈ r ↔ m ∈ l ∧ ∀ o ∈ l, o ≠ m → ¬ Occurs m o := by
  intro l
  induction l with
  | nil => intro _ _; exact ⟨[], rfl, List.Sublist.refl _, by simp⟩
  | cons m rest ih =>
    intro hnd hs
    rw [List.nodup_cons] at hnd
    rw [List.pairwise_cons] at hs
    obtain ⟨tail, h1, h2, h3⟩ := ih hnd.2 hs.2
    obtain ⟨t, ht⟩ := offsetTable_ok m
    obtain ⟨bs, h4, h5⟩ := mapM_any (fun o => isSublistWith (charTable m) t o m) (fun o => Occurs m o) rest
      (fun o _ => isSublistWith_spec m ht o)
    have hloop : superLoop (m :: rest) = if bs.any id = true then .ok tail else .ok (m :: tail) := by
      rw [superLoop, ht]
      show (rest.mapM (fun o => isSublistWith (charTable m) t o m) >>= _) = _
      rw [h4]
      show (superLoop rest >>= _) = _
      rw [h1]; rfl
    have hrest : ∀ x, x ∈ rest → ((∀ o ∈ m :: rest, o ≠ x → ¬ Occurs x o) ↔ ∀ o ∈ rest, o ≠ x → ¬ Occurs x o) := by
      intro x hx
      constructor
      · intro h o ho; exact h o (by simp [ho])
      · intro h o ho hne hocc
        rcases List.mem_cons.1 ho with rfl | ho
        · have e1 := hs.1 x hx
          have e2 := occurs_length hocc
          obtain ⟨i, hi⟩ := hocc
          obtain ⟨a, b, hab, _⟩ := hi
          have hl := congrArg List.length hab
          simp at hl
          have ha : a = [] := List.eq_nil_of_length_eq_zero (by omega)
          have hb : b = [] := List.eq_nil_of_length_eq_zero (by omega)
          subst ha; subst hb
          exact hne (by simpa using hab)
        · exact h o ho hne hocc
    rw [hloop]
    by_cases hc : bs.any id = true
    · rw [if_pos hc]
      refine ⟨tail, rfl, h2.cons _, fun x => ?_⟩
      rw [h3 x]
      constructor
      · rintro ⟨hx, h⟩
        exact ⟨by simp [hx], (hrest x hx).2 h⟩
      · rintro ⟨hx, h⟩
        rcases List.mem_cons.1 hx with rfl | hx
        · obtain ⟨o, ho, hocc⟩ := h5.1 hc
          exact absurd hocc (h o (by simp [ho]) (by rintro rfl; exact hnd.1 ho))
        · exact ⟨hx, (hrest x hx).1 h⟩
    · rw [if_neg hc]
      refine ⟨m :: tail, rfl, h2.cons_cons _, fun x => ?_⟩
      rw [List.mem_cons, h3 x]
      constructor
      · rintro (rfl | ⟨hx, h⟩)
        · refine ⟨by simp, ?_⟩
          intro o ho hne hocc
          rcases List.mem_cons.1 ho with rfl | ho
          · exact hne rfl
          · exact hc (h5.2 ⟨o, ho, hocc⟩)
        · exact ⟨by simp [hx], (hrest x hx).2 h⟩
      · rintro ⟨hx, h⟩
        rcases List.mem_cons.1 hx with rfl | hx
        · exact .inl rfl
        · exact .inr ⟨hx, (hrest x hx).1 h⟩

/-- C91: `filter_super_maximal_repeats` on a list of different words returns exactly the words that are not
contained in another word of the list, shortest first; the argument is reordered but keeps its elements. -/
theorem C91_super_maximal (ms : List (List α)) (hnd : ms.Nodup) :
    ∃ r sorted, filterSuper ms = .ok (r, sorted) ∧ sorted.Perm ms ∧ r.Nodup ∧
      (r.Pairwise fun a b => a.length ≤ b.length) ∧
      ∀ m, m ∈ r ↔ m ∈ ms ∧ ∀ o ∈ ms, o ≠ m → ¬ ∃ a b, o = a ++ m ++ b := by
  have hperm := List.perm_insertionSort (fun a b : List α => a.length ≤ b.length) ms
  have : Std.Total (fun a b : List α => a.length ≤ b.length) := ⟨fun a b => by omega⟩
  have : IsTrans (List α) (fun a b : List α => a.length ≤ b.length) := ⟨fun a b c h1 h2 => by omega⟩
  have hsort' := List.pairwise_insertionSort (fun a b : List α => a.length ≤ b.length) ms
  have hnd' : (ms.insertionSort fun a b => a.length ≤ b.length).Nodup := hperm.nodup_iff.2 hnd
  obtain ⟨r, h1, h2, h3⟩ := superLoop_spec _ hnd' hsort'
  refine ⟨r, _, by unfold filterSuper; simp only; rw [h1]; rfl, hperm, hnd'.sublist h2, hsort'.sublist h2, fun m => ?_⟩
  rw [h3 m]
  simp only [List.mem_insertionSort]
  refine and_congr_right fun _ => ?_
  refine forall_congr' fun o => forall_congr' fun _ => forall_congr' fun _ => not_congr ?_
  exact occursAt_iff_infix

/-- C91: equal words in the list: only the last copy is kept. -/
theorem C91_duplicates : filterSuper [[1], [1], [2]] = .ok ([[1], [2]], [[1], [1], [2]]) := by decide

example : (filterSuper [[1], [1, 2], [3], [2, 1, 2, 4]]).toOption.map (·.1) = some [[3], [2, 1, 2, 4]] := by decide

/-! ### C92 near super maximal repeats -/

/-- position `p` of the sequence lies in an occurrence of a super maximal repeat -/
def Covered (sequence : List α) (supers : List (List α)) (p : Nat) : Prop :=
  ∃ s ∈ supers, ∃ o, OccursAt s sequence o ∧ o ≤ p ∧ p < o + s.length

theorem markOne_spec (len : Nat) : ∀ (mask : List Bool) (o : Nat), o + len ≤ mask.length →
    ∃ mask', markOne mask o len = .ok mask' ∧ mask'.length = mask.length ∧
      ∀ p, mask'[p]? = some true ↔ mask[p]? = some true ∨ (o ≤ p ∧ p < o + len) := by
  induction len with
  | zero =>
    intro mask o _
    refine ⟨mask, rfl, rfl, fun p => ?_⟩
    constructor
    · exact .inl
    · rintro (h | h)
      · exact h
      · omega
  | succ len ih =>
    intro mask o h
    have hset : pySet mask o true = .ok (mask.set o true) := by unfold pySet; rw [if_pos (by omega)]
    obtain ⟨mask', h1, h2, h3⟩ := ih (mask.set o true) (o + 1) (by simp; omega)
    refine ⟨mask', ?_, by rw [h2]; simp, fun p => ?_⟩
    · unfold markOne at h1 ⊢
      rw [List.range'_succ, List.foldlM_cons, hset]
      exact h1
    · rw [h3 p, List.getElem?_set]
      by_cases hp : o = p
      · subst hp
        simp only [if_true]
        rw [if_pos (by omega)]
        simp
      · rw [if_neg hp]
        constructor
        · rintro (h | h)
          · exact .inl h
          · exact .inr (by omega)
        · rintro (h | h)
          · exact .inl h
          · exact .inr (by omega)

theorem markAll_spec (len n : Nat) (occ : List Nat) (hocc : ∀ o ∈ occ, o + len ≤ n) : ∀ mask : List Bool, mask.length = n →
    ∃ mask', occ.foldlM (fun mask o => markOne mask o len) mask = .ok mask' ∧ mask'.length = n ∧
      ∀ p, mask'[p]? = some true ↔ mask[p]? = some true ∨ ∃ o ∈ occ, o ≤ p ∧ p < o + len := by
  induction occ with
  | nil => intro mask h; exact ⟨mask, rfl, h, by simp⟩
  | cons o occ ih =>
    intro mask h
    obtain ⟨m1, h1, h2, h3⟩ := markOne_spec len mask o (by rw [h]; exact hocc o (by simp))
    obtain ⟨m2, h4, h5, h6⟩ := ih (fun o ho => hocc o (by simp [ho])) m1 (by rw [h2, h])
    refine ⟨m2, by rw [List.foldlM_cons, h1]; exact h4, h5, fun p => ?_⟩
    rw [h6 p, h3 p]
    simp only [List.mem_cons, exists_eq_or_imp, or_assoc]

theorem buildMask_spec (sequence : List α) (supers : List (List α)) :
    ∃ mask, buildMask sequence supers = .ok mask ∧ mask.length = sequence.length ∧
      ∀ p, mask[p]? = some true ↔ Covered sequence supers p := by
  have key : ∀ (supers : List (List α)) (mask : List Bool), mask.length = sequence.length →
      ∃ mask', supers.foldlM (fun mask s => do
        let occ ← searchAll sequence s
        occ.foldlM (fun mask o => markOne mask o s.length) mask) mask = .ok mask' ∧ mask'.length = sequence.length ∧
        ∀ p, mask'[p]? = some true ↔ mask[p]? = some true ∨ Covered sequence supers p := by
    intro supers
    induction supers with
    | nil => intro mask h; exact ⟨mask, rfl, h, by simp [Covered]⟩
    | cons s supers ih =>
      intro mask h
      obtain ⟨occ, h1, _, h3⟩ := C03_searchAll_sound_complete sequence s
      obtain ⟨m1, e1, e2, e3⟩ := markAll_spec s.length sequence.length occ (fun o ho => occursAt_le ((h3 o).1 ho)) mask h
      obtain ⟨m2, e4, e5, e6⟩ := ih m1 e2
      refine ⟨m2, ?_, e5, fun p => ?_⟩
      · rw [List.foldlM_cons, h1]
        show (List.foldlM _ mask occ >>= _) = _
        rw [e1]; exact e4
      · rw [e6 p, e3 p]
        unfold Covered
        simp only [List.mem_cons, exists_eq_or_imp, or_assoc, h3]
  obtain ⟨mask, h1, h2, h3⟩ := key supers (List.replicate sequence.length false) (by simp)
  refine ⟨mask, h1, h2, fun p => ?_⟩
  rw [h3 p]
  constructor
  · rintro (h | h)
    · rw [List.getElem?_replicate] at h
      split at h <;> cases h
    · exact h
  · exact .inr

/-- `m` occurs at a place that no super maximal repeat touches -/
def FreeOcc (sequence : List α) (supers : List (List α)) (m : List α) : Prop :=
  ∃ o, OccursAt m sequence o ∧ ∀ p, o ≤ p → p < o + m.length → ¬ Covered sequence supers p

theorem freeOccurrence_spec (sequence m : List α) (supers : List (List α)) (mask : List Bool)
    (hl : mask.length = sequence.length) (hm : ∀ p, mask[p]? = some true ↔ Covered sequence supers p) :
    ∃ b, freeOccurrence sequence m mask = .ok b ∧ (b = true ↔ FreeOcc sequence supers m) := by
  obtain ⟨occ, h1, _, h3⟩ := C03_searchAll_sound_complete sequence m
  refine ⟨_, by unfold freeOccurrence; rw [h1]; rfl, ?_⟩
  rw [List.any_eq_true]
  unfold FreeOcc
  refine exists_congr fun o => ?_
  rw [h3 o]
  refine and_congr_right fun ho => ?_
  have hle := occursAt_le ho
  rw [List.all_eq_true]
  unfold pySlice
  constructor
  · intro h p h4 h5 hcov
    have hp := (hm p).2 hcov
    have hmem : true ∈ (mask.take (o + m.length)).drop o := by
      rw [List.mem_iff_getElem?]
      refine ⟨p - o, ?_⟩
      rw [List.getElem?_drop, List.getElem?_take, if_pos (by omega)]
      rw [show o + (p - o) = p by omega]; exact hp
    have := h true hmem
    simp at this
  · intro h b hb
    rw [List.mem_iff_getElem?] at hb
    obtain ⟨k, hk⟩ := hb
    rw [List.getElem?_drop, List.getElem?_take] at hk
    split at hk
    · rename_i hlt
      cases b with
      | false => rfl
      | true => exact absurd ((hm _).1 hk) (h (o + k) (by omega) (by omega))
    · cases hk

/-- C92: near super maximal repeats are the super maximal repeats and the repeats that occur at least once
at a place not touched by any occurrence of a super maximal repeat. -/
theorem C92_near_super_maximal (sequence : List α) (ms : List (List α)) (hnd : ms.Nodup) :
    ∃ r supers, nearSuper sequence ms = .ok (r, supers) ∧ r.Nodup ∧
      (∀ m, m ∈ supers ↔ m ∈ ms ∧ ∀ o ∈ ms, o ≠ m → ¬ ∃ a b, o = a ++ m ++ b) ∧
      ∀ m, m ∈ r ↔ m ∈ ms ∧ (m ∈ supers ∨ FreeOcc sequence supers m) := by
  obtain ⟨fs, sorted, h1, h2, h3, _, h4⟩ := C91_super_maximal ms hnd
  have hdd : fs.dedup = fs := List.dedup_eq_self.2 h3
  obtain ⟨mask, h5, h6, h7⟩ := buildMask_spec sequence fs
  have key : ∀ (l acc : List (List α)), acc.Nodup → l.Nodup → (∀ m ∈ l, m ∉ acc) →
      ∃ near, l.foldlM (nearStep sequence fs mask) acc = .ok near ∧ near.Nodup ∧
        ∀ m, m ∈ near ↔ m ∈ acc ∨ (m ∈ l ∧ m ∉ fs ∧ FreeOcc sequence fs m) := by
    intro l
    induction l with
    | nil => intro acc h _ _; exact ⟨acc, rfl, h, by simp⟩
    | cons m l ih =>
      intro acc hacc hl hdis
      rw [List.nodup_cons] at hl
      obtain ⟨b, hb1, hb2⟩ := freeOccurrence_spec sequence m fs mask h6 h7
      have hstep : nearStep sequence fs mask acc m = if m ∉ fs ∧ b = true then .ok (acc ++ [m]) else .ok acc := by
        unfold nearStep
        by_cases hm : m ∉ fs
        · rw [if_pos hm, hb1]
          by_cases hb : b = true
          · rw [if_pos ⟨hm, hb⟩, hb]; rfl
          · rw [if_neg (fun h => hb h.2)]
            have : b = false := by simpa using hb
            rw [this]; rfl
        · rw [if_neg hm, if_neg (fun h => hm h.1)]; rfl
      rw [List.foldlM_cons, hstep]
      by_cases hc : m ∉ fs ∧ b = true
      · rw [if_pos hc]
        obtain ⟨near, e1, e2, e3⟩ := ih (acc ++ [m]) (by
          rw [List.nodup_append]
          refine ⟨hacc, by simp, ?_⟩
          intro a ha b hb
          rw [List.mem_singleton.1 hb]
          rintro rfl
          exact hdis a (by simp) ha) hl.2 (by
          intro x hx hc
          rcases List.mem_append.1 hc with hc | hc
          · exact hdis x (by simp [hx]) hc
          · rw [List.mem_singleton.1 hc] at hx; exact hl.1 hx)
        refine ⟨near, e1, e2, fun x => ?_⟩
        rw [e3 x]
        simp only [List.mem_append, List.mem_cons, List.not_mem_nil, or_false]
        constructor
        · rintro ((h | rfl) | h)
          · exact .inl h
          · exact .inr ⟨.inl rfl, hc.1, hb2.1 hc.2⟩
          · exact .inr ⟨.inr h.1, h.2⟩
        · rintro (h | ⟨rfl | h, h'⟩)
          · exact .inl (.inl h)
          · exact .inl (.inr rfl)
          · exact .inr ⟨h, h'⟩
      · rw [if_neg hc]
        obtain ⟨near, e1, e2, e3⟩ := ih acc hacc hl.2 (fun x hx => hdis x (by simp [hx]))
        refine ⟨near, e1, e2, fun x => ?_⟩
        rw [e3 x]
        simp only [List.mem_cons]
        constructor
        · rintro (h | h)
          · exact .inl h
          · exact .inr ⟨.inr h.1, h.2⟩
        · rintro (h | ⟨rfl | h, h'⟩)
          · exact .inl h
          · exact absurd ⟨h'.1, hb2.2 h'.2⟩ hc
          · exact .inr ⟨h, h'⟩
  obtain ⟨near, e1, e2, e3⟩ := key sorted [] (by simp) (h2.nodup_iff.2 hnd) (by simp)
  refine ⟨near ++ fs, fs, ?_, ?_, h4, fun m => ?_⟩
  · unfold nearSuper
    rw [h1]
    show (buildMask sequence fs.dedup >>= _) = _
    rw [hdd, h5]
    show (List.foldlM (nearStep sequence fs mask) [] sorted >>= _) = _
    rw [e1]
    rfl
  · rw [List.nodup_append]
    refine ⟨e2, h3, ?_⟩
    intro a ha b hb
    rintro rfl
    have := (e3 a).1 ha
    simp at this
    exact this.2.1 hb
  · rw [List.mem_append, e3 m]
    simp only [List.not_mem_nil, false_or, h2.mem_iff]
    constructor
    · rintro (⟨a, b, c⟩ | h)
      · exact ⟨a, .inr c⟩
      · exact ⟨((h4 m).1 h).1, .inl h⟩
    · rintro ⟨a, b | b⟩
      · exact .inr b
      · by_cases hm : m ∈ fs
        · exact .inr hm
        · exact .inl ⟨a, hm, b⟩

example : nearSuper [1, 2, 3, 1, 2, 4, 2] [[2], [1, 2]] = .ok ([[2], [1, 2]], [[1, 2]]) := by decide

end Prolothar.Patterns
