import Verif.Spec.Timeout
import Mathlib.Tactic.Common
import Mathlib.Data.List.Induction
/-
Overlapping calls with timeouts, C186.
-/
namespace Prolothar.Timeout

/-- what an action does to the call `i` -/
inductive Move (clock i : Nat) : Act → Call → Call → Prop where
  | same {a c} : a ≠ .fire i → a ≠ .ends i → Move clock i a c c
  | wake {c} : c.timer = .waiting → (c.finished = true ∨ c.deadline ≤ clock) → Move clock i (.wake i) c { c with timer := .testing }
  | testSet {c} : c.timer = .testing → c.finished = true → Move clock i (.test i) c { c with timer := .closing }
  | testUnset {c} : c.timer = .testing → c.finished = false → Move clock i (.test i) c { c with timer := .firing }
  | fire {c} : c.timer = .firing → Move clock i (.fire i) c { c with timer := .closing }
  | close {c} : c.timer = .closing → Move clock i (.close i) c { c with timer := .dead, finished := true }
  | ends {c} : c.active = true → Move clock i (.ends i) c { c with finished := true, active := false }
  | abandon {c} : c.active = true → Move clock i (.abandon i) c { c with active := false }

theorem set_moves {calls : List Call} {clock k : Nat} {a : Act} {c d : Call} (hk : calls[k]? = some c) (hm : Move clock k a c d)
    (ha : ∀ i, i ≠ k → a ≠ .fire i ∧ a ≠ .ends i) :
    (calls.set k d).length = calls.length ∧
      ∀ (i : Nat) (c' : Call), (calls.set k d)[i]? = some c' → ∃ c, calls[i]? = some c ∧ Move clock i a c c' := by
  refine ⟨List.length_set, fun i c' h => ?_⟩
  by_cases hi : i = k
  · subst hi
    have hlt : i < calls.length := (List.getElem?_eq_some_iff.mp hk).1
    rw [List.getElem?_set_self hlt] at h
    obtain rfl := Option.some.inj h
    exact ⟨c, hk, hm⟩
  · rw [List.getElem?_set_ne (fun h => hi h.symm)] at h
    exact ⟨c', h, .same (ha i hi).1 (ha i hi).2⟩

/-- the effect of a step on the list of calls -/
theorem step_moves {σ τ : Sys} {a : Act} (h : σ.step a = some τ) (hn : ∀ m s, a ≠ .start m s) :
    τ.calls.length = σ.calls.length ∧
      ∀ (i : Nat) (c' : Call), τ.calls[i]? = some c' → ∃ c, σ.calls[i]? = some c ∧ Move σ.clock i a c c' := by
  cases a with
  | tick => cases h; exact ⟨rfl, fun i c' h => ⟨c', h, .same (by simp) (by simp)⟩⟩
  | start m s => exact absurd rfl (hn m s)
  | deliver =>
    simp only [Sys.step] at h
    split at h
    · cases h; exact ⟨rfl, fun i c' h => ⟨c', h, .same (by simp) (by simp)⟩⟩
    · cases h
  | wake k =>
    simp only [Sys.step, Option.bind_eq_bind, Option.bind_eq_some_iff] at h
    obtain ⟨c, hc, h⟩ := h
    split at h
    · rename_i hg
      cases h
      exact set_moves hc (.wake hg.1 hg.2) fun i _ => ⟨by simp, by simp⟩
    · cases h
  | test k =>
    simp only [Sys.step, Option.bind_eq_bind, Option.bind_eq_some_iff] at h
    obtain ⟨c, hc, h⟩ := h
    split at h
    · rename_i hg
      cases h
      by_cases hf : c.finished = true
      · rw [if_pos hf]
        exact set_moves hc (.testSet hg hf) fun i _ => ⟨by simp, by simp⟩
      · rw [if_neg hf]
        exact set_moves hc (.testUnset hg (by simpa using hf)) fun i _ => ⟨by simp, by simp⟩
    · cases h
  | fire k =>
    simp only [Sys.step, Option.bind_eq_bind, Option.bind_eq_some_iff] at h
    obtain ⟨c, hc, h⟩ := h
    split at h
    · rename_i hg
      cases h
      exact set_moves hc (.fire hg) fun i hi => ⟨by simpa using fun h => hi h.symm, by simp⟩
    · cases h
  | close k =>
    simp only [Sys.step, Option.bind_eq_bind, Option.bind_eq_some_iff] at h
    obtain ⟨c, hc, h⟩ := h
    split at h
    · rename_i hg
      cases h
      exact set_moves hc (.close hg) fun i _ => ⟨by simp, by simp⟩
    · cases h
  | ends k =>
    simp only [Sys.step, Option.bind_eq_bind, Option.bind_eq_some_iff] at h
    obtain ⟨c, hc, h⟩ := h
    split at h
    · rename_i hg
      cases h
      exact set_moves hc (.ends hg.1) fun i hi => ⟨by simp, by simpa using fun h => hi h.symm⟩
    · cases h
  | abandon k =>
    simp only [Sys.step, Option.bind_eq_bind, Option.bind_eq_some_iff] at h
    obtain ⟨c, hc, h⟩ := h
    split at h
    · rename_i hg
      cases h
      exact set_moves hc (.abandon hg.1) fun i _ => ⟨by simp, by simp⟩
    · cases h

/-- every step but `tick` leaves the clock as it is -/
theorem step_clock {σ τ : Sys} {a : Act} (h : σ.step a = some τ) : τ.clock = σ.clock + ticks [a] := by
  cases a with
  | tick => cases h; rfl
  | start m s => cases h; rfl
  | deliver =>
    simp only [Sys.step] at h
    split at h
    · cases h; rfl
    · cases h
  | _ =>
    simp only [Sys.step, Option.bind_eq_bind, Option.bind_eq_some_iff] at h
    obtain ⟨c, hc, h⟩ := h
    split at h
    · cases h; rfl
    · cases h

/-- pending interrupts -/
theorem step_pending {σ τ : Sys} {a : Act} (h : σ.step a = some τ) :
    τ.pending.toNat + interrupts [a] ≤ σ.pending.toNat + (fires [a]).length := by
  cases a with
  | tick => cases h; exact Nat.le_refl _
  | start m s => cases h; exact Nat.le_refl _
  | deliver =>
    simp only [Sys.step] at h
    split at h
    · rename_i hp
      cases h
      rw [hp]
      exact Nat.le_refl 1
    · cases h
  | fire k =>
    simp only [Sys.step, Option.bind_eq_bind, Option.bind_eq_some_iff] at h
    obtain ⟨c, hc, h⟩ := h
    split at h
    · cases h
      show 1 + 0 ≤ _ + 1
      omega
    · cases h
  | abandon k =>
    simp only [Sys.step, Option.bind_eq_bind, Option.bind_eq_some_iff] at h
    obtain ⟨c, hc, h⟩ := h
    split at h
    · rename_i hg
      cases h
      rw [hg.2.2.2]
      exact Nat.le_refl 1
    · cases h
  | _ =>
    simp only [Sys.step, Option.bind_eq_bind, Option.bind_eq_some_iff] at h
    obtain ⟨c, hc, h⟩ := h
    split at h
    · cases h; exact Nat.le_refl _
    · cases h

theorem ticks_append (l l' : List Act) : ticks (l ++ l') = ticks l + ticks l' := List.countP_append
theorem starts_append (l l' : List Act) : starts (l ++ l') = starts l + starts l' := List.countP_append
theorem interrupts_append (l l' : List Act) : interrupts (l ++ l') = interrupts l + interrupts l' := List.countP_append
theorem fires_append (l l' : List Act) : fires (l ++ l') = fires l ++ fires l' := List.filterMap_append

theorem mem_fires {ls : List Act} {i : Nat} : i ∈ fires ls ↔ .fire i ∈ ls := by
  unfold fires
  rw [List.mem_filterMap]
  constructor
  · rintro ⟨a, ha, h⟩
    split at h
    · cases h; exact ha
    · cases h
  · exact fun h => ⟨_, h, rfl⟩

theorem callSince_concat {ls : List Act} {a : Act} {i s : Nat} {since : List Act} :
    CallSince (ls ++ [a]) i s since ↔
      (∃ l, since = l ++ [a] ∧ CallSince ls i s l) ∨ (since = [] ∧ starts ls = i ∧ ∃ m, a = .start m s) := by
  constructor
  · rintro ⟨b, m, h, hi⟩
    rcases List.eq_nil_or_concat since with rfl | ⟨l, x, rfl⟩
    · have := List.append_inj' h rfl
      obtain ⟨rfl, h2⟩ := this
      exact .inr ⟨rfl, hi, m, by simpa using h2⟩
    · rw [List.concat_eq_append, ← List.cons_append, ← List.append_assoc] at h
      obtain ⟨rfl, h2⟩ := List.append_inj' h rfl
      simp only [List.cons.injEq, and_true] at h2
      subst h2
      exact .inl ⟨l, List.concat_eq_append, b, m, rfl, hi⟩
  · rintro (⟨l, rfl, b, m, rfl, hi⟩ | ⟨rfl, hi, m, rfl⟩)
    · exact ⟨b, m, by simp, hi⟩
    · exact ⟨ls, m, rfl, hi⟩

theorem inTime_concat {ls : List Act} {a : Act} {i : Nat} :
    InTime (ls ++ [a]) i ↔ InTime ls i ∨ (a = .ends i ∧ ∃ s l, CallSince ls i s l ∧ ticks l < s) := by
  constructor
  · rintro ⟨s, l, later, h, ht⟩
    rcases callSince_concat.mp h with ⟨l', h', hc⟩ | ⟨h', _⟩
    · rcases List.eq_nil_or_concat later with rfl | ⟨q, x, rfl⟩
      · obtain ⟨rfl, h2⟩ := List.append_inj' h' rfl
        exact .inr ⟨by simpa using h2.symm, s, l, hc, ht⟩
      · rw [List.concat_eq_append, ← List.cons_append, ← List.append_assoc] at h'
        obtain ⟨rfl, h2⟩ := List.append_inj' h' rfl
        exact .inl ⟨s, l, q, hc, ht⟩
    · simp at h'
  · rintro (⟨s, l, later, h, ht⟩ | ⟨rfl, s, l, h, ht⟩)
    · exact ⟨s, l, later ++ [a], callSince_concat.mpr (.inl ⟨_, by simp, h⟩), ht⟩
    · exact ⟨s, l, [], callSince_concat.mpr (.inl ⟨l, rfl, h⟩), ht⟩

/-- what is known of call `i` after the history `ls` -/
structure CallInv (ls : List Act) (clock i : Nat) (c : Call) : Prop where
  since : ∃ s l, CallSince ls i s l
  deadline : ∀ s l, CallSince ls i s l → c.deadline + ticks l = s + clock
  active : c.active = true → (c.timer = .waiting ∧ c.finished = false) ∨ c.deadline ≤ clock
  test : c.timer = .testing → c.finished = true ∨ c.deadline ≤ clock
  firing : c.timer = .firing → c.deadline ≤ clock
  inTime : InTime ls i → c.finished = true ∧ c.timer ≠ .firing
  fired : .fire i ∈ ls → c.timer = .closing ∨ c.timer = .dead

/-- what holds after the history `ls` -/
structure SysInv (ls : List Act) (σ : Sys) : Prop where
  clock : σ.clock = ticks ls
  length : σ.calls.length = starts ls
  calls : ∀ (i : Nat) (c : Call), σ.calls[i]? = some c → CallInv ls σ.clock i c
  since : ∀ i s l, CallSince ls i s l → i < starts ls
  inTime : ∀ i, InTime ls i → .fire i ∉ ls
  late : ∀ i, .fire i ∈ ls → ∃ s l l', CallSince ls i s (l ++ .fire i :: l') ∧ s ≤ ticks l
  nodup : (fires ls).Nodup
  count : interrupts ls + σ.pending.toNat ≤ (fires ls).length

/-- a step does not change what is known of the other calls, and moves the call as in `Move` -/
theorem callInv_step {ls : List Act} {clock i : Nat} {a : Act} {c c' : Call} (h : CallInv ls clock i c) (hclock : clock = ticks ls)
    (hi : i < starts ls) (hm : Move clock i a c c') : CallInv (ls ++ [a]) (clock + ticks [a]) i c' := by
  have hd : c'.deadline = c.deadline := by cases hm <;> rfl
  have hback : ∀ s l, CallSince (ls ++ [a]) i s l → ∃ l', l = l' ++ [a] ∧ CallSince ls i s l' := by
    intro s l hc
    rcases callSince_concat.mp hc with h | ⟨_, h, _⟩
    · exact h
    · omega
  have hsl : ∀ s l, CallSince ls i s l → (clock < c.deadline ↔ ticks l < s) := by
    intro s l hc
    have := h.deadline s l hc
    omega
  obtain ⟨s, l, hc⟩ := h.since
  have ht0 : a ≠ .tick → ticks [a] = 0 := by cases a <;> first | (intro h; exact absurd rfl h) | (intro _; rfl)
  constructor
  · exact ⟨s, l ++ [a], callSince_concat.mpr (.inl ⟨l, rfl, hc⟩)⟩
  · intro s' l' h'
    obtain ⟨l'', rfl, hl⟩ := hback s' l' h'
    rw [hd, ticks_append]
    have := h.deadline s' l'' hl
    omega
  · intro ha
    rw [hd]
    cases hm with
    | same _ _ => exact (h.active ha).imp id fun h => by omega
    | wake h1 h2 =>
      rcases h.active ha with ⟨_, h4⟩ | h4
      · rw [h4] at h2
        exact .inr (by have := h2.resolve_left (by simp); omega)
      · exact .inr (by omega)
    | testSet h1 _ | testUnset h1 _ | fire h1 | close h1 =>
      rcases h.active ha with ⟨h4, _⟩ | h4
      · rw [h4] at h1; cases h1
      · exact .inr (by omega)
    | ends _ => cases ha
    | abandon _ => cases ha
  · intro ht
    rw [hd]
    cases hm with
    | same _ _ => exact (h.test ht).imp id fun h => by omega
    | wake h1 h2 => exact h2.imp id fun h => by omega
    | testSet _ _ | testUnset _ _ | fire _ | close _ => cases ht
    | ends _ => exact .inl rfl
    | abandon _ => exact (h.test ht).imp id fun h => by omega
  · intro ht
    rw [hd]
    cases hm with
    | same _ _ => have := h.firing ht; omega
    | wake h1 h2 => cases ht
    | testSet _ _ | fire _ | close _ => cases ht
    | testUnset h1 h2 => 
      have := (h.test h1).resolve_left (by rw [h2]; simp)
      omega
    | ends _ => have := h.firing ht; omega
    | abandon _ => have := h.firing ht; omega
  · intro ht
    rcases inTime_concat.mp ht with ht | ⟨rfl, s', l', hc', ht⟩
    · have hh := h.inTime ht
      cases hm with
      | same _ _ => exact hh
      | wake _ _ => exact ⟨hh.1, by simp⟩
      | testSet _ _ => exact ⟨hh.1, by simp⟩
      | testUnset _ h2 => rw [h2] at hh; exact absurd hh.1 (by simp)
      | fire _ => exact ⟨hh.1, by simp⟩
      | close _ => exact ⟨rfl, by simp⟩
      | ends _ => exact ⟨rfl, hh.2⟩
      | abandon _ => exact hh
    · have hlt := (hsl s' l' hc').mpr ht
      cases hm with
      | same _ h2 => exact absurd rfl h2
      | ends ha =>
        refine ⟨rfl, fun hf => ?_⟩
        have := h.firing hf
        omega
  · intro hf
    rcases List.mem_append.mp hf with hf | hf
    · have hh := h.fired hf
      cases hm with
      | same _ _ => exact hh
      | wake h1 _ => rw [h1] at hh; simp at hh
      | testSet h1 _ | testUnset h1 _ | fire h1 => rw [h1] at hh; simp at hh
      | close _ => exact .inr rfl
      | ends _ => exact hh
      | abandon _ => exact hh
    · have : a = .fire i := (List.mem_singleton.mp hf).symm
      subst this
      cases hm with
      | same h1 _ => exact absurd rfl h1
      | fire _ => exact .inl rfl

theorem sysInv_nil : SysInv [] ⟨0, [], false⟩ where
  clock := rfl
  length := rfl
  calls := fun i c h => by simp at h
  since := fun i s l ⟨b, m, h, _⟩ => by simp at h
  inTime := fun i _ h => by cases h
  late := fun i h => by cases h
  nodup := List.nodup_nil
  count := Nat.le_refl 0

theorem sysInv_step {ls : List Act} {σ τ : Sys} {a : Act} (h : SysInv ls σ) (hs : σ.step a = some τ) : SysInv (ls ++ [a]) τ := by
  have hclock := step_clock hs
  have hpend := step_pending hs
  by_cases hn : ∀ m s, a ≠ .start m s
  · obtain ⟨hlen, hmv⟩ := step_moves hs hn
    have hst : starts [a] = 0 := by cases a <;> first | rfl | exact absurd rfl (hn _ _)
    have hcall : ∀ i, i < starts ls → ∃ c c', σ.calls[i]? = some c ∧ τ.calls[i]? = some c' ∧ Move σ.clock i a c c' := by
      intro i hi
      have : i < τ.calls.length := by rw [hlen, h.length]; exact hi
      obtain ⟨c, hc, hm⟩ := hmv i _ (List.getElem?_eq_getElem this)
      exact ⟨c, _, hc, List.getElem?_eq_getElem this, hm⟩
    have hlt : ∀ {i c}, σ.calls[i]? = some c → i < starts ls := fun {i c} hc => by
      rw [← h.length]; exact (List.getElem?_eq_some_iff.mp hc).1
    have hfire : ∀ i, a = .fire i → i < starts ls ∧ ∃ c, σ.calls[i]? = some c ∧ c.timer = .firing := by
      rintro i rfl
      simp only [Sys.step, Option.bind_eq_bind, Option.bind_eq_some_iff] at hs
      obtain ⟨c, hc, hs⟩ := hs
      split at hs
      · rename_i hg
        exact ⟨hlt hc, c, hc, hg⟩
      · cases hs
    constructor
    · rw [hclock, h.clock, ticks_append]
    · rw [hlen, h.length, starts_append, hst]; rfl
    · intro i c' hc'
      obtain ⟨c, hc, hm⟩ := hmv i c' hc'
      rw [hclock]
      exact callInv_step (h.calls i c hc) h.clock (hlt hc) hm
    · intro i s l hc
      rw [starts_append]
      rcases callSince_concat.mp hc with ⟨l', _, hc⟩ | ⟨_, _, m, rfl⟩
      · have := h.since i s l' hc; omega
      · exact absurd rfl (hn m s)
    · intro i hit hmem
      have hit0 := hit
      rcases List.mem_append.mp hmem with hm | hm
      · rcases inTime_concat.mp hit with hit | ⟨rfl, s, l, hc, ht⟩
        · exact h.inTime i hit hm
        · obtain ⟨s', l', l'', hc', ht'⟩ := h.late i hm
          obtain ⟨c, _, hcc, _, _⟩ := hcall i (h.since i s l hc)
          have h1 := (h.calls i c hcc).deadline s l hc
          have h2 := (h.calls i c hcc).deadline s' _ hc'
          rw [ticks_append] at h2
          omega
      · have : a = .fire i := (List.mem_singleton.mp hm).symm
        subst this
        obtain ⟨_, c, hc, hf⟩ := hfire i rfl
        rcases inTime_concat.mp hit with hit | ⟨h', _⟩
        · exact ((h.calls i c hc).inTime hit).2 hf
        · cases h'
    · intro i hm
      rcases List.mem_append.mp hm with hm | hm
      · obtain ⟨s, l, l', hc, ht⟩ := h.late i hm
        exact ⟨s, l, l' ++ [a], callSince_concat.mpr (.inl ⟨_, by simp, hc⟩), ht⟩
      · have : a = .fire i := (List.mem_singleton.mp hm).symm
        subst this
        obtain ⟨_, c, hc, hf⟩ := hfire i rfl
        have hi := h.calls i c hc
        obtain ⟨s, l, hcs⟩ := hi.since
        have h1 := hi.deadline s l hcs
        have h2 := hi.firing hf
        exact ⟨s, l, [], callSince_concat.mpr (.inl ⟨l, rfl, hcs⟩), by omega⟩
    · rw [fires_append]
      cases a with
      | fire i =>
        obtain ⟨_, c, hc, hf⟩ := hfire i rfl
        refine List.nodup_append.mpr ⟨h.nodup, List.nodup_cons.mpr ⟨by simp, List.nodup_nil⟩, ?_⟩
        rintro j hj k hk rfl
        have : j = i := by simpa [fires] using hk
        subst this
        have := (h.calls j c hc).fired (mem_fires.mp hj)
        rw [hf] at this
        simp at this
      | _ => simpa [fires] using h.nodup
    · rw [interrupts_append, fires_append, List.length_append]
      have := h.count
      omega
  · push Not at hn
    obtain ⟨m, s, rfl⟩ := hn
    cases hs
    have hb : ∀ {i s' l}, CallSince (ls ++ [.start m s]) i s' l → (∃ l', l = l' ++ [.start m s] ∧ CallSince ls i s' l') ∨
        (l = [] ∧ i = starts ls ∧ s' = s) := by
      intro i s' l hc
      rcases callSince_concat.mp hc with h | ⟨h1, h2, m', h3⟩
      · exact .inl h
      · cases h3; exact .inr ⟨h1, h2.symm, rfl⟩
    have hit : ∀ {i}, InTime (ls ++ [.start m s]) i → InTime ls i := by
      intro i h
      rcases inTime_concat.mp h with h | ⟨h, _⟩
      · exact h
      · cases h
    have hf : ∀ {i}, Act.fire i ∈ ls ++ [.start m s] → Act.fire i ∈ ls := by
      intro i h; simpa using h
    constructor
    · show σ.clock = _
      rw [h.clock, ticks_append]; rfl
    · show (σ.calls ++ _).length = _
      rw [List.length_append, h.length, starts_append]; rfl
    · intro i c hc
      change (σ.calls ++ [_])[i]? = some c at hc
      by_cases hi : i < σ.calls.length
      · rw [List.getElem?_append_left hi] at hc
        exact callInv_step (h.calls i c hc) h.clock (h.length ▸ hi) (.same (by simp) (by simp))
      · have hi' : i = σ.calls.length := by
          have := (List.getElem?_eq_some_iff.mp hc).1
          rw [List.length_append] at this
          simp at this
          omega
        subst hi'
        rw [List.getElem?_concat_length] at hc
        obtain rfl := Option.some.inj hc
        have hno : ∀ s' l', ¬ CallSince ls σ.calls.length s' l' := fun s' l' hc => by
          have := h.since _ _ _ hc
          rw [h.length] at this
          omega
        constructor
        · exact ⟨s, [], callSince_concat.mpr (.inr ⟨rfl, h.length.symm, m, rfl⟩)⟩
        · intro s' l hc
          rcases hb hc with ⟨l', _, hc⟩ | ⟨rfl, _, rfl⟩
          · exact absurd hc (hno _ _)
          · show σ.clock + _ + 0 = _ + σ.clock
            omega
        · exact fun _ => .inl ⟨rfl, rfl⟩
        · intro h; cases h
        · intro h; cases h
        · intro hx
          obtain ⟨s', l, l', hc, _⟩ := hit hx
          exact absurd hc (hno _ _)
        · intro hx
          obtain ⟨s', l, l', hc, _⟩ := h.late _ (hf hx)
          exact absurd hc (hno _ _)
    · intro i s' l hc
      rw [starts_append]
      rcases hb hc with ⟨l', _, hc⟩ | ⟨_, rfl, _⟩
      · have := h.since i s' l' hc; omega
      · show _ < _ + 1; omega
    · exact fun i hi hm => h.inTime i (hit hi) (hf hm)
    · intro i hm
      obtain ⟨s', l, l', hc, ht⟩ := h.late i (hf hm)
      exact ⟨s', l, l' ++ [.start m s], callSince_concat.mpr (.inl ⟨_, by simp, hc⟩), ht⟩
    · rw [fires_append]
      simpa [fires] using h.nodup
    · rw [interrupts_append, fires_append, List.length_append]
      have := h.count
      show _ + 0 + _ ≤ _ + 0
      exact this

theorem run_concat {ls : List Act} {a : Act} {τ : Sys} : run (ls ++ [a]) = some τ ↔ ∃ σ, run ls = some σ ∧ σ.step a = some τ := by
  unfold run
  rw [List.foldlM_append]
  simp [Option.bind_eq_some_iff]

theorem sysInv_run {ls : List Act} {σ : Sys} (h : run ls = some σ) : SysInv ls σ := by
  induction ls using List.reverseRecOn generalizing σ with
  | nil => cases h; exact sysInv_nil
  | append_singleton ls a ih =>
    obtain ⟨σ', h1, h2⟩ := run_concat.mp h
    exact sysInv_step (ih h1) h2

/-- C186: whatever other calls there are, the timer of a call that ends before its time is over never interrupts the main thread. -/
theorem C186_in_time {ls : List Act} {σ : Sys} (h : run ls = some σ) (i : Nat) (hi : InTime ls i) : .fire i ∉ ls :=
  (sysInv_run h).inTime i hi

/-- C186: if all calls end before their time is over, KeyboardInterrupt is never raised. -/
theorem C186_all_in_time {ls : List Act} {σ : Sys} (h : run ls = some σ) (hi : ∀ i < starts ls, InTime ls i) :
    interrupts ls = 0 ∧ σ.pending = false := by
  have inv := sysInv_run h
  have hf : fires ls = [] := by
    refine List.eq_nil_iff_forall_not_mem.mpr fun i hm => ?_
    obtain ⟨s, l, l', hc, _⟩ := inv.late i (mem_fires.mp hm)
    exact inv.inTime i (hi i (inv.since _ _ _ hc)) (mem_fires.mp hm)
  have := inv.count
  rw [hf] at this
  refine ⟨by simpa using Nat.eq_zero_of_le_zero (Nat.le_trans (Nat.le_add_right _ _) this), ?_⟩
  cases hp : σ.pending
  · rfl
  · rw [hp] at this; simp at this

/-- C186: every timer interrupts the main thread at most once, and not before the time of its call is over; there are not more
KeyboardInterrupts than timers that have interrupted the main thread. -/
theorem C186_accounting {ls : List Act} {σ : Sys} (h : run ls = some σ) :
    interrupts ls ≤ (fires ls).length ∧ (fires ls).Nodup ∧
    ∀ i ∈ fires ls, ∃ s l l', CallSince ls i s (l ++ .fire i :: l') ∧ s ≤ ticks l :=
  ⟨Nat.le_trans (Nat.le_add_right _ _) (sysInv_run h).count, (sysInv_run h).nodup, fun i hi => (sysInv_run h).late i (mem_fires.mp hi)⟩

/-- C186: a call can be interrupted long before its time is over: by the timer of the call that made it. -/
theorem C186_nested_witness (s : Nat) : ∃ ls σ, run ls = some σ ∧ CallSince ls 0 1 (ls.drop 1) ∧ CallSince ls 1 (s + 2) (ls.drop 2) ∧
    ls.drop 2 = [.tick, .wake 0, .test 0, .fire 0, .deliver] ∧ (σ.calls[1]?.map (·.active)) = some true :=
  ⟨[.start true 1, .start true (s + 2), .tick, .wake 0, .test 0, .fire 0, .deliver], _, rfl, ⟨[], true, rfl, rfl⟩,
    ⟨[.start true 1], true, rfl, rfl⟩, rfl, rfl⟩

/-- C186: the overrun of a call that is made by another one, whose time is over at the same time, ends at most one of them: there is one
KeyboardInterrupt for two timers, after which both timers are dead; the outer call can go on forever. -/
theorem C186_merged_witness (n : Nat) : ∃ ls σ, run ls = some σ ∧ fires ls = [0, 1] ∧ interrupts ls = 1 ∧ σ.pending = false ∧
    σ.calls = [⟨1, .dead, true, true, true⟩, ⟨1, .dead, true, false, true⟩] ∧ n ≤ ticks ls := by
  refine ⟨[.start true 1, .start true 1, .tick, .wake 0, .wake 1, .test 0, .test 1, .fire 0, .fire 1, .deliver, .ends 1, .close 0, .close 1] ++
    List.replicate n .tick, ⟨1 + n, [⟨1, .dead, true, true, true⟩, ⟨1, .dead, true, false, true⟩], false⟩, ?_, ?_, ?_, rfl, rfl, ?_⟩
  · induction n with
    | zero => rfl
    | succ n ih =>
      rw [List.replicate_succ', ← List.append_assoc, run_concat]
      exact ⟨_, ih, rfl⟩
  · rw [fires_append]
    have : fires (List.replicate n .tick) = [] := by
      induction n with
      | zero => rfl
      | succ n ih => exact ih
    rw [this]; rfl
  · rw [interrupts_append]
    have : interrupts (List.replicate n .tick) = 0 := by
      induction n with
      | zero => rfl
      | succ n ih => rw [List.replicate_succ']; rw [interrupts_append, ih]; rfl
    rw [this]; rfl
  · rw [ticks_append]
    have : ticks (List.replicate n .tick) = n := by
      induction n with
      | zero => rfl
      | succ n ih => rw [List.replicate_succ', ticks_append, ih]; rfl
    omega

/-- C186: the interrupt of the outer call can hit the `finally` block of an inner call, whose function has ended before its time was over:
the timer of the inner call is then not cancelled, and there is a second KeyboardInterrupt when no call is running any more. -/
theorem C186_double_witness : ∃ ls l₁ l₂ σ₁ σ, ls = l₁ ++ l₂ ∧ run l₁ = some σ₁ ∧ run ls = some σ ∧
    starts ls = 2 ∧ (∀ c ∈ σ₁.calls, c.active = false) ∧ CallSince l₁ 1 3 [.tick, .wake 0, .test 0, .fire 0, .abandon 1, .ends 0] ∧
    starts l₂ = 0 ∧ interrupts l₁ = 1 ∧ interrupts l₂ = 1 :=
  ⟨_, [.start true 1, .start true 3, .tick, .wake 0, .test 0, .fire 0, .abandon 1, .ends 0],
    [.tick, .tick, .wake 1, .test 1, .fire 1, .deliver], _, _, rfl, rfl, rfl, rfl, by decide, ⟨[.start true 1], true, rfl, rfl⟩, rfl, rfl, rfl⟩

/- a history with nested calls, one after another and in another thread, that all end in time -/
example : ∃ ls σ, run ls = some σ ∧ starts ls = 3 ∧ (∀ i < 3, InTime ls i) ∧ ticks ls = 5 :=
  ⟨[.start true 3, .tick, .start true 2, .start false 2, .tick, .ends 1, .ends 0, .ends 2, .wake 0, .test 0, .close 0, .tick, .tick, .tick], _, rfl,
    rfl, fun i hi => by
      match i, hi with
      | 0, _ => exact ⟨3, [.tick, .start true 2, .start false 2, .tick, .ends 1], _, ⟨[], true, rfl, rfl⟩, by decide⟩
      | 1, _ => exact ⟨2, [.start false 2, .tick], _, ⟨[.start true 3, .tick], true, rfl, rfl⟩, by decide⟩
      | 2, _ => exact ⟨2, [.tick, .ends 1, .ends 0], _, ⟨[.start true 3, .tick, .start true 2], false, rfl, rfl⟩, by decide⟩, rfl⟩

end Prolothar.Timeout
