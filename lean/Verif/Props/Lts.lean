import Verif.Model.Lts
import Verif.Spec.Lts
import Mathlib.Data.List.Infix
import Mathlib.Data.Finset.Insert
import Mathlib.Data.List.Basic
/-
Labeled transition system: C54, C87, C88.
-/
set_option linter.unusedSectionVars false
set_option linter.unusedSimpArgs false
set_option linter.unusedVariables false
namespace Prolothar.Lts
open Prolothar.Spec.Lts

variable {S E : Type} [DecidableEq S] [DecidableEq E]

theorem mem_setAdd {l : List S} {x s : S} : x ∈ setAdd l s ↔ x ∈ l ∨ x = s := by
  unfold setAdd
  split
  · rename_i h
    constructor
    · exact .inl
    · rintro (h' | rfl)
      · exact h'
      · exact h
  · simp

theorem nodup_setAdd {l : List S} (h : l.Nodup) (s : S) : (setAdd l s).Nodup := by
  unfold setAdd
  split
  · exact h
  · rename_i hs
    rw [List.nodup_append]
    refine ⟨h, by simp, ?_⟩
    intro a ha b hb
    simp at hb
    subst hb
    rintro rfl
    exact hs ha

/-- the recorded transition function -/
def next (t : System S E) (s : S) (e : E) : Option S := (t.rel.get? s).bind fun d => d.get? e

/-- invariant of the representation -/
structure Good (t : System S E) : Prop where
  states : t.states.Nodup
  starts : t.starts.Nodup
  ends : t.ends.Nodup
  rel : t.rel.WF
  inner : ∀ p ∈ t.rel, Dict.WF p.2

theorem touch_spec (rel : Dict S (Dict E S)) (s : S) (h : rel.WF) (hi : ∀ p ∈ rel, Dict.WF p.2) :
    Dict.WF (touch rel s).1 ∧ (∀ p ∈ (touch rel s).1, Dict.WF p.2) ∧ (touch rel s).1.get? s = some (touch rel s).2 ∧
      Dict.WF (touch rel s).2 ∧ (∀ e, (touch rel s).2.get? e = (rel.get? s).bind fun d => d.get? e) ∧
      ∀ x, x ≠ s → (touch rel s).1.get? x = rel.get? x := by
  unfold touch
  cases hg : rel.get? s with
  | some d =>
    refine ⟨h, hi, hg, hi (s, d) (Dict.mem_of_get? hg), fun e => rfl, fun x _ => rfl⟩
  | none =>
    refine ⟨h.put _ _, fun p hp => ?_, by rw [Dict.get?_put_self], Dict.WF.nil, fun e => rfl, fun x hx => ?_⟩
    · obtain ⟨k, v⟩ := p
      have := Dict.get?_of_mem (h.put s ([] : Dict E S)) hp
      rw [Dict.get?_put] at this
      split at this
      · cases this; exact Dict.WF.nil
      · exact hi _ (Dict.mem_of_get? this)
    · show Dict.get? (rel.put s []) x = _
      rw [Dict.get?_put, if_neg (Ne.symm hx)]

theorem addTransition_spec {t : System S E} (ht : Good t) (s : S) (e : E) (s' : S) :
    Good (addTransition t s e s') ∧
    ∀ x y, next (addTransition t s e s') x y = if s = x ∧ e = y then some s' else next t x y := by
  obtain ⟨h1, h2, h3, h4, h5, h6⟩ := touch_spec t.rel s ht.rel ht.inner
  constructor
  · refine ⟨ht.states, ht.starts, ht.ends, h1.put _ _, ?_⟩
    intro p hp
    obtain ⟨k, v⟩ := p
    have := Dict.get?_of_mem (h1.put s ((touch t.rel s).2.put e s')) hp
    rw [Dict.get?_put] at this
    split at this
    · cases this; exact h4.put _ _
    · exact h2 _ (Dict.mem_of_get? this)
  · intro x y
    unfold next
    show (((touch t.rel s).1.put s ((touch t.rel s).2.put e s')).get? x).bind _ = _
    rw [Dict.get?_put]
    by_cases hx : s = x
    · subst hx
      simp only [if_true, Option.bind_some, true_and]
      rw [Dict.get?_put, h5]
    · rw [if_neg hx, if_neg (by tauto), h6 x (Ne.symm hx)]

theorem addState_spec {t : System S E} (ht : Good t) (s : S) (a b : Bool) :
    Good (addState t s a b) ∧ (∀ x y, next (addState t s a b) x y = next t x y) ∧
    (∀ x, x ∈ (addState t s a b).states ↔ x ∈ t.states ∨ x = s) ∧
    (∀ x, x ∈ (addState t s a b).starts ↔ x ∈ t.starts ∨ (a = true ∧ x = s)) ∧
    ∀ x, x ∈ (addState t s a b).ends ↔ x ∈ t.ends ∨ (b = true ∧ x = s) := by
  refine ⟨⟨nodup_setAdd ht.states _, ?_, ?_, ht.rel, ht.inner⟩, fun _ _ => rfl, fun x => mem_setAdd, ?_, ?_⟩
  · unfold addState; cases a
    · exact ht.starts
    · exact nodup_setAdd ht.starts _
  · unfold addState; cases b
    · exact ht.ends
    · exact nodup_setAdd ht.ends _
  · intro x; unfold addState; cases a
    · simp
    · simp [mem_setAdd]
  · intro x; unfold addState; cases b
    · simp
    · simp [mem_setAdd]

theorem loop_spec (f : List E → S) (rest done : List E) {t : System S E} (ht : Good t) :
    let t' := loop f done (f done) rest t
    Good t' ∧ t'.starts = t.starts ∧
    (∀ x, x ∈ t'.states ↔ x ∈ t.states ∨ ∃ q, q ≠ [] ∧ q <+: rest ∧ x = f (done ++ q)) ∧
    (∀ x, x ∈ t'.ends ↔ x ∈ t.ends ∨ (rest ≠ [] ∧ x = f (done ++ rest))) ∧
    (∀ s e s', next t' s e = some s' → next t s e = some s' ∨
      ∃ q, q ++ [e] <+: rest ∧ f (done ++ q) = s ∧ f (done ++ q ++ [e]) = s') ∧
    ∀ s e, ((next t s e).isSome ∨ ∃ q, q ++ [e] <+: rest ∧ f (done ++ q) = s) → (next t' s e).isSome := by
  induction rest generalizing done t with
  | nil =>
    simp only [loop]
    refine ⟨ht, trivial, by simp, by simp, fun s e s' h => .inl h, ?_⟩
    rintro s e (h | ⟨q, hq, _⟩)
    · exact h
    · simp at hq
  | cons a rest ih =>
    obtain ⟨a1, a2, a3, a4, a5⟩ := addState_spec ht (f (done ++ [a])) false rest.isEmpty
    obtain ⟨b1, b2⟩ := addTransition_spec a1 (f done) a (f (done ++ [a]))
    obtain ⟨c1, c2, c3, c4, c5, c6⟩ := ih (done ++ [a]) b1
    simp only [loop]
    refine ⟨c1, ?_, ?_, ?_, ?_, ?_⟩
    · rw [c2]; rfl
    · intro x
      rw [c3]
      show x ∈ (addState t (f (done ++ [a])) false rest.isEmpty).states ∨ _ ↔ _
      rw [a3]
      constructor
      · rintro ((h | rfl) | ⟨q, hq, hp, rfl⟩)
        · exact .inl h
        · exact .inr ⟨[a], by simp, by simp, rfl⟩
        · exact .inr ⟨a :: q, by simp, by simpa using hp, by simp⟩
      · rintro (h | ⟨q, hq, hp, rfl⟩)
        · exact .inl (.inl h)
        · cases q with
          | nil => exact absurd rfl hq
          | cons b q =>
            rw [List.cons_prefix_cons] at hp
            obtain ⟨rfl, hp⟩ := hp
            by_cases hq : q = []
            · subst hq; exact .inl (.inr rfl)
            · exact .inr ⟨q, hq, hp, by simp⟩
    · intro x
      rw [c4]
      show x ∈ (addState t (f (done ++ [a])) false rest.isEmpty).ends ∨ _ ↔ _
      rw [a5]
      cases rest with
      | nil => simp
      | cons b rest => simp
    · intro s e s' h
      rcases c5 s e s' h with h | ⟨q, hq, h1, h2⟩
      · rw [b2] at h
        split at h
        · rename_i hh
          simp only [Option.some.injEq] at h
          exact .inr ⟨[], by simp [hh.2], by simp [hh.1], by rw [← h, ← hh.2]; simp⟩
        · rw [a2] at h; exact .inl h
      · exact .inr ⟨a :: q, by simpa using hq, by simpa using h1, by simpa using h2⟩
    · rintro s e (h | ⟨q, hq, rfl⟩)
      · apply c6
        left
        rw [b2]
        split
        · rfl
        · rw [a2]; exact h
      · apply c6
        cases q with
        | nil =>
          left
          rw [List.nil_append, List.cons_prefix_cons] at hq
          rw [b2, if_pos ⟨by simp, hq.1.symm⟩]
          rfl
        | cons b q =>
          right
          rw [List.cons_append, List.cons_prefix_cons] at hq
          obtain ⟨rfl, hq⟩ := hq
          exact ⟨q, hq, by simp⟩

theorem addSequence_spec (f : List E → S) {t : System S E} (ht : Good t) (seq : List E) :
    let t' := addSequence f t seq
    Good t' ∧ (∀ x, x ∈ t'.starts ↔ x ∈ t.starts ∨ x = f []) ∧
    (∀ x, x ∈ t'.states ↔ x ∈ t.states ∨ ∃ q, q <+: seq ∧ x = f q) ∧
    (∀ x, x ∈ t'.ends ↔ x ∈ t.ends ∨ x = f seq) ∧
    (∀ s e s', next t' s e = some s' → next t s e = some s' ∨
      ∃ q, q ++ [e] <+: seq ∧ f q = s ∧ f (q ++ [e]) = s') ∧
    ∀ s e, ((next t s e).isSome ∨ ∃ q, q ++ [e] <+: seq ∧ f q = s) → (next t' s e).isSome := by
  obtain ⟨a1, a2, a3, a4, a5⟩ := addState_spec ht (f []) true seq.isEmpty
  obtain ⟨c1, c2, c3, c4, c5, c6⟩ := loop_spec f seq [] a1
  refine ⟨c1, ?_, ?_, ?_, ?_, ?_⟩
  · intro x
    show x ∈ (loop f [] (f []) seq _).starts ↔ _
    rw [c2, a4]; simp
  · intro x
    show x ∈ (loop f [] (f []) seq _).states ↔ _
    rw [c3, a3]
    simp only [List.nil_append]
    constructor
    · rintro ((h | rfl) | ⟨q, _, hq, rfl⟩)
      · exact .inl h
      · exact .inr ⟨[], List.nil_prefix, rfl⟩
      · exact .inr ⟨q, hq, rfl⟩
    · rintro (h | ⟨q, hq, rfl⟩)
      · exact .inl (.inl h)
      · by_cases hn : q = []
        · subst hn; exact .inl (.inr rfl)
        · exact .inr ⟨q, hn, hq, rfl⟩
  · intro x
    show x ∈ (loop f [] (f []) seq _).ends ↔ _
    rw [c4, a5]
    cases seq with
    | nil => simp
    | cons a seq => simp
  · intro s e s' h
    rcases c5 s e s' h with h | ⟨q, h1, h2, h3⟩
    · rw [a2] at h; exact .inl h
    · exact .inr ⟨q, h1, by simpa using h2, by simpa using h3⟩
  · rintro s e (h | ⟨q, h1, h2⟩)
    · exact c6 s e (.inl (by rw [a2]; exact h))
    · exact c6 s e (.inr ⟨q, h1, by simpa using h2⟩)

theorem new_good : Good (new : System S E) := ⟨.nil, .nil, .nil, Dict.WF.nil, by simp [new]⟩

theorem foldl_spec (f : List E → S) (seqs : List (List E)) {t : System S E} (ht : Good t) :
    let t' := seqs.foldl (addSequence f) t
    Good t' ∧ (∀ x, x ∈ t'.starts ↔ x ∈ t.starts ∨ (seqs ≠ [] ∧ x = f [])) ∧
    (∀ x, x ∈ t'.states ↔ x ∈ t.states ∨ ∃ seq ∈ seqs, ∃ q, q <+: seq ∧ x = f q) ∧
    (∀ x, x ∈ t'.ends ↔ x ∈ t.ends ∨ ∃ seq ∈ seqs, x = f seq) ∧
    (∀ s e s', next t' s e = some s' → next t s e = some s' ∨ Step f seqs s e s') ∧
    ∀ s e, ((next t s e).isSome ∨ ∃ s', Step f seqs s e s') → (next t' s e).isSome := by
  induction seqs generalizing t with
  | nil =>
    refine ⟨ht, by simp, by simp, by simp, fun s e s' h => .inl h, ?_⟩
    rintro s e (h | ⟨s', seq, hs, _⟩)
    · exact h
    · cases hs
  | cons seq seqs ih =>
    obtain ⟨a1, a2, a3, a4, a5, a6⟩ := addSequence_spec f ht seq
    obtain ⟨b1, b2, b3, b4, b5, b6⟩ := ih a1
    refine ⟨b1, ?_, ?_, ?_, ?_, ?_⟩
    · intro x
      rw [List.foldl_cons, b2, a2]
      by_cases hs : seqs = [] <;> simp [hs]
    · intro x
      rw [List.foldl_cons, b3, a3]
      simp only [List.mem_cons, exists_eq_or_imp, or_assoc]
    · intro x
      rw [List.foldl_cons, b4, a4]
      simp only [List.mem_cons, exists_eq_or_imp, or_assoc]
    · intro s e s' h
      rcases b5 s e s' h with h | ⟨sq, hs, h⟩
      · rcases a5 s e s' h with h | ⟨q, h1, h2, h3⟩
        · exact .inl h
        · exact .inr ⟨seq, by simp, q, h1, h2, h3⟩
      · exact .inr ⟨sq, by simp [hs], h⟩
    · rintro s e (h | ⟨s', sq, hs, q, h1, h2, h3⟩)
      · exact b6 s e (.inl (a6 s e (.inl h)))
      · rcases List.mem_cons.1 hs with rfl | hs
        · exact b6 s e (.inl (a6 s e (.inr ⟨q, h1, h2⟩)))
        · exact b6 s e (.inr ⟨s', sq, hs, q, h1, h2, h3⟩)

/-! ### C54 -/

/-- what `get_next_state` answers; the query changes neither this answer nor any other -/
theorem nextState_eq {t : System S E} (ht : Good t) (s : S) (e : E) :
    (nextState t s e).2 = (match next t s e with | some s' => .ok s' | none => .error .key) ∧
    ∀ x y, next (nextState t s e).1 x y = next t x y := by
  obtain ⟨h1, h2, h3, h4, h5, h6⟩ := touch_spec t.rel s ht.rel ht.inner
  constructor
  · show ((touch t.rel s).2).getItem e = _
    unfold Dict.getItem next
    rw [h5]
    cases (t.rel.get? s).bind fun d => d.get? e <;> rfl
  · intro x y
    unfold next
    show ((touch t.rel s).1.get? x).bind _ = _
    by_cases hx : x = s
    · subst hx; rw [h3]; exact h5 y
    · rw [h6 x hx]

/-- the transition function a user can query -/
def answer (t : System S E) (s : S) (e : E) : Option S := (nextState t s e).2.toOption

theorem answer_eq {t : System S E} (ht : Good t) (s : S) (e : E) : answer t s e = next t s e := by
  unfold answer
  rw [(nextState_eq ht s e).1]
  cases next t s e <;> rfl

/-- C54: for every abstraction the states are exactly the abstractions of the prefixes of the added
sequences, the start state is that of the empty prefix, and the end states those of the complete
sequences; no state is listed twice. -/
theorem C54_states (f : List E → S) (seqs : List (List E)) :
    (∀ x, x ∈ (build f seqs).states ↔ ∃ seq ∈ seqs, ∃ p, p <+: seq ∧ x = f p) ∧
    (∀ x, x ∈ (build f seqs).starts ↔ seqs ≠ [] ∧ x = f []) ∧
    (∀ x, x ∈ (build f seqs).ends ↔ ∃ seq ∈ seqs, x = f seq) ∧
    (build f seqs).states.Nodup ∧ (build f seqs).starts.Nodup ∧ (build f seqs).ends.Nodup := by
  obtain ⟨h1, h2, h3, h4, _, _⟩ := foldl_spec f seqs (new_good (S := S) (E := E))
  refine ⟨fun x => ?_, fun x => ?_, fun x => ?_, h1.states, h1.starts, h1.ends⟩
  · refine (h3 x).trans ?_; simp [new]
  · refine (h2 x).trans ?_; simp [new]
  · refine (h4 x).trans ?_; simp [new]

/-- C54: for every abstraction, a recorded transition comes from an added sequence, and every step of
an added sequence has a recorded transition with its state and event. -/
theorem C54_transitions (f : List E → S) (seqs : List (List E)) (s : S) (e : E) :
    (∀ s', answer (build f seqs) s e = some s' → Step f seqs s e s') ∧
    ((∃ s', Step f seqs s e s') → ∃ s', answer (build f seqs) s e = some s') := by
  obtain ⟨h1, _, _, _, h5, h6⟩ := foldl_spec f seqs (new_good (S := S) (E := E))
  have ha := answer_eq h1
  refine ⟨fun s' h => ?_, fun h => ?_⟩
  · unfold build at h
    rw [ha] at h
    rcases h5 s e s' h with h | h
    · cases h
    · exact h
  · unfold build
    rw [ha]
    exact Option.isSome_iff_exists.1 (h6 s e (.inr h))

/-- C54: for a deterministic abstraction the recorded transitions are exactly the steps of the added
sequences. -/
theorem C54_exact {f : List E → S} (hf : Compositional f) (seqs : List (List E)) (s : S) (e : E) (s' : S) :
    answer (build f seqs) s e = some s' ↔ Step f seqs s e s' := by
  obtain ⟨h1, h2⟩ := C54_transitions f seqs s e
  refine ⟨h1 s', ?_⟩
  rintro ⟨seq, hs, p, hp, rfl, rfl⟩
  obtain ⟨s'', h3⟩ := h2 ⟨_, seq, hs, p, hp, rfl, rfl⟩
  obtain ⟨_, _, q, _, h4, h5⟩ := h1 s'' h3
  rw [h3, ← h5, hf q p e h4]

/-- C54: for a deterministic abstraction every added sequence can be replayed from a start state to
an end state, and after every prefix the replay is in the state of that prefix. -/
theorem C54_replay {f : List E → S} (hf : Compositional f) {seqs : List (List E)} {seq : List E} (hs : seq ∈ seqs) :
    f [] ∈ (build f seqs).starts ∧ f seq ∈ (build f seqs).ends ∧
    (∀ p, p <+: seq → f p ∈ (build f seqs).states ∧ Run (answer (build f seqs)) (f []) p (f p)) := by
  obtain ⟨h1, h2, h3, _⟩ := C54_states f seqs
  refine ⟨(h2 _).2 ⟨List.ne_nil_of_mem hs, rfl⟩, (h3 _).2 ⟨seq, hs, rfl⟩, ?_⟩
  intro p hp
  refine ⟨(h1 _).2 ⟨seq, hs, p, hp, rfl⟩, ?_⟩
  have key : ∀ (r p : List E), p ++ r <+: seq → Run (answer (build f seqs)) (f p) r (f (p ++ r)) := by
    intro r
    induction r with
    | nil => intro p _; rw [List.append_nil]; exact .nil _
    | cons e r ih =>
      intro p hp
      have hp' : p ++ [e] ++ r <+: seq := by simpa using hp
      have := ih (p ++ [e]) hp'
      rw [List.append_assoc, List.singleton_append] at this
      refine .cons ?_ this
      rw [C54_exact hf]
      exact ⟨seq, hs, p, (List.prefix_append _ _).trans hp', rfl, rfl⟩
  simpa using key p [] (by simpa using hp)

/-- C54: the abstractions of the library are deterministic, `last_n_abstraction` for `n ≥ 0`. -/
theorem C54_abstractions :
    Compositional (setAbstraction : List E → Finset E) ∧ Compositional (listAbstraction : List E → List E) ∧
    Compositional (lastAbstraction : List E → Option E) ∧
    ∀ n : Int, 0 ≤ n → Compositional (lastNAbstraction n : List E → List E) := by
  refine ⟨?_, ?_, ?_, ?_⟩
  · intro p q e h
    unfold setAbstraction at *
    ext x
    have := Finset.ext_iff.1 h x
    simp only [List.mem_toFinset, List.mem_append] at *
    rw [this]
  · intro p q e h
    unfold listAbstraction at *
    rw [h]
  · intro p q e _
    have : ∀ p : List E, lastAbstraction (p ++ [e]) = some e := by
      intro p
      have : pyGet (p ++ [e]) (-1) = .ok e := by
        unfold pyGet
        have h1 : ¬ ((-1 : Int) + ((p ++ [e]).length : Nat) < 0) := by simp; omega
        have h2 : ((-1 : Int) + ((p ++ [e]).length : Nat)).toNat = p.length := by simp; omega
        simp only [show ((-1 : Int) < 0) by decide, if_true, h1, if_false, h2]
        simp
      unfold lastAbstraction
      rw [this]
    rw [this, this]
  · intro n hn p q e h
    obtain ⟨m, rfl⟩ := Int.eq_ofNat_of_zero_le hn
    cases m with
    | zero =>
      unfold lastNAbstraction at *
      simp at *
      rw [h]
    | succ m =>
      have hd : ∀ p : List E, lastNAbstraction ((m + 1 : Nat) : Int) p = p.drop (p.length - (m + 1)) := by
        intro p
        unfold lastNAbstraction
        have h1 : (-((m + 1 : Nat) : Int)) < 0 := by omega
        simp only [h1, if_true]
        congr 1
        omega
      have key : ∀ p : List E, (p ++ [e]).drop ((p ++ [e]).length - (m + 1)) =
          (p.drop (p.length - (m + 1))).drop ((p.drop (p.length - (m + 1))).length - m) ++ [e] := by
        intro p
        rw [List.drop_append_of_le_length (by simp), List.drop_drop]
        congr 2
        simp
        omega
      show lastNAbstraction _ _ = lastNAbstraction _ _
      have h : lastNAbstraction ((m + 1 : Nat) : Int) p = lastNAbstraction ((m + 1 : Nat) : Int) q := h
      rw [hd, hd] at h
      have hd' := hd (p ++ [e])
      have hd'' := hd (q ++ [e])
      exact hd'.trans ((key p).trans ((by rw [h]) : _ = _) |>.trans (key q).symm |>.trans hd''.symm)

/-- C54: a negative `n` is not a deterministic abstraction and a recorded sequence may not be
replayable: after adding `[1, 2]` and `[2]` the state of the empty prefix has lost its transition. -/
theorem C54_negative_n :
    let f := lastNAbstraction (E := Nat) (-1)
    let t := build f [[1, 2], [2]]
    ¬ Run (answer t) (f []) [1, 2] (f [1, 2]) ∧ f [1, 2] ∈ t.ends := by
  constructor
  · intro h
    cases h with
    | cons h1 h2 =>
      cases h2 with
      | cons h3 h4 =>
        cases h4
        revert h3
        have : answer (build (lastNAbstraction (E := Nat) (-1)) [[1, 2], [2]]) (lastNAbstraction (-1) []) 1 = some [] := by
          decide
        rw [this] at h1
        cases h1
        decide
  · decide

example : let t := build (setAbstraction : List Nat → Finset Nat) [[1, 2, 1], [2, 1, 3]]
    nrOfStates t = 5 ∧ nrOfTransitions t = 6 ∧ t.ends = [{1, 2}, {1, 2, 3}] := by decide

/-! ### C87 language -/

theorem Run.append {S E : Type} {next : S → E → Option S} {s s1 s' : S} {w w' : List E} (h : Run next s w s1) (h' : Run next s1 w' s') :
    Run next s (w ++ w') s' := by
  induction h with
  | nil => exact h'
  | cons h _ ih => exact .cons h (ih h')

/-- C87: with the list abstraction the system accepts exactly the added sequences: a word leads from
the start state to an end state iff it was added. -/
theorem C87_language (seqs : List (List E)) (w : List E) :
    (∃ s ∈ (build listAbstraction seqs).starts, ∃ s' ∈ (build listAbstraction seqs).ends,
      Run (answer (build listAbstraction seqs)) s w s') ↔ w ∈ seqs := by
  have hc : Compositional (listAbstraction : List E → List E) := C54_abstractions.2.1
  obtain ⟨h1, h2, h3, _⟩ := C54_states (listAbstraction : List E → List E) seqs
  constructor
  · rintro ⟨s, hs, s', hs', hr⟩
    obtain ⟨_, rfl⟩ := (h2 s).1 hs
    obtain ⟨seq, hseq, rfl⟩ := (h3 s').1 hs'
    have key : ∀ s w s', Run (answer (build listAbstraction seqs)) s w s' → s' = s ++ w := by
      intro s w s' hr
      induction hr with
      | nil => simp
      | cons h _ ih =>
        obtain ⟨_, _, p, _, h4, h5⟩ := (C54_exact hc seqs _ _ _).1 h
        unfold listAbstraction at h4 h5
        rw [ih, ← h5, h4]; simp
    have := key _ _ _ hr
    unfold listAbstraction at this
    rw [List.nil_append] at this
    rw [← this]; exact hseq
  · intro hw
    obtain ⟨k1, k2, k3⟩ := C54_replay hc hw
    exact ⟨_, k1, _, k2, (k3 w (List.prefix_refl _)).2⟩

/-! ### C88 counting -/

/-- C88: the iterator yields every recorded transition exactly once, the numbers of states and
transitions are the numbers of what is yielded, and the queries do not change the answers. -/
theorem C88_iterator (f : List E → S) (seqs : List (List E)) :
    (transitions (build f seqs)).Nodup ∧
    (∀ s e s', (s, e, s') ∈ transitions (build f seqs) ↔ answer (build f seqs) s e = some s') ∧
    nrOfTransitions (build f seqs) = (transitions (build f seqs)).length ∧
    nrOfStates (build f seqs) = (build f seqs).states.length ∧
    (∀ s e s', (s, e, s') ∈ (outgoing (build f seqs) s).2 ↔ answer (build f seqs) s e = some s') ∧
    ∀ s e x y, answer (nextState (build f seqs) s e).1 x y = answer (build f seqs) x y ∧
      answer (outgoing (build f seqs) s).1 x y = answer (build f seqs) x y := by
  obtain ⟨h1, _⟩ := foldl_spec f seqs (new_good (S := S) (E := E))
  have h1 : Good (build f seqs) := h1
  generalize build f seqs = t at h1
  have hmem : ∀ s e s', (s, e, s') ∈ transitions t ↔ next t s e = some s' := by
    intro s e s'
    unfold transitions next
    simp only [List.mem_flatMap, List.mem_map, Prod.mk.injEq, Option.bind_eq_some_iff]
    constructor
    · rintro ⟨⟨s0, d⟩, hp, ⟨e0, x0⟩, hq, rfl, rfl, rfl⟩
      exact ⟨d, Dict.get?_of_mem h1.rel hp, Dict.get?_of_mem (h1.inner _ hp) hq⟩
    · rintro ⟨d, hd, he⟩
      exact ⟨(s, d), Dict.mem_of_get? hd, (e, s'), Dict.mem_of_get? he, rfl, rfl, rfl⟩
  have htouch : ∀ s, Good { t with rel := (touch t.rel s).1 } := by
    intro s
    obtain ⟨a, b, _⟩ := touch_spec t.rel s h1.rel h1.inner
    exact ⟨h1.states, h1.starts, h1.ends, a, b⟩
  have hsame : ∀ s x y, answer { t with rel := (touch t.rel s).1 } x y = answer t x y := by
    intro s x y
    rw [answer_eq (htouch s), answer_eq h1]
    obtain ⟨_, _, h3, _, h5, h6⟩ := touch_spec t.rel s h1.rel h1.inner
    unfold next
    by_cases hx : x = s
    · subst hx
      show ((touch t.rel x).1.get? x).bind _ = _
      rw [h3]; exact h5 y
    · show ((touch t.rel s).1.get? x).bind _ = _
      rw [h6 x hx]
  refine ⟨?_, ?_, ?_, rfl, ?_, fun s e x y => ⟨hsame s x y, hsame s x y⟩⟩
  · unfold transitions
    rw [List.nodup_flatMap]
    constructor
    · intro p hp
      refine List.Nodup.map_on ?_ (List.Nodup.of_map _ (h1.inner p hp))
      rintro ⟨a, b⟩ _ ⟨c, d⟩ _ h
      simpa using h
    · have := List.pairwise_map.1 (h1.rel : (t.rel.map Prod.fst).Pairwise (· ≠ ·))
      refine this.imp ?_
      intro p q hne x hx hy
      obtain ⟨a, _, rfl⟩ := List.mem_map.1 hx
      obtain ⟨b, _, hb⟩ := List.mem_map.1 hy
      simp only [Prod.mk.injEq] at hb
      exact hne hb.1.symm
  · intro s e s'; rw [hmem, answer_eq h1]
  · unfold nrOfTransitions transitions
    rw [List.length_flatMap]
    simp only [List.length_map]
    have : ∀ (l : List (S × Dict E S)) (n : Nat), l.foldl (fun n p => n + p.2.length) n = n + (l.map fun p => p.2.length).sum := by
      intro l
      induction l with
      | nil => simp
      | cons p l ih => intro n; rw [List.foldl_cons, ih]; simp; omega
    rw [this]; simp
  · intro s e s'
    obtain ⟨_, _, _, h4, h5, _⟩ := touch_spec t.rel s h1.rel h1.inner
    rw [answer_eq h1]
    unfold outgoing next
    simp only [List.mem_map, Prod.mk.injEq]
    rw [← h5]
    constructor
    · rintro ⟨⟨a, b⟩, hp, _, rfl, rfl⟩
      exact Dict.get?_of_mem h4 hp
    · intro h
      exact ⟨(e, s'), Dict.mem_of_get? h, trivial, rfl, rfl⟩

end Prolothar.Lts
