import Verif.Model.JoinExc
import Verif.Spec.JoinExc
import Verif.Lemmas.PetriWf
/-
C195: what joining successive events leaves behind if it raises.
-/
namespace Prolothar.EventLog
open Prolothar.Spec.JoinExc
variable {I A V : Type} [DecidableEq A] [DecidableEq V]

/-! ### dictionaries -/

theorem put_put_self {κ ν : Type} [DecidableEq κ] (k : κ) (v w : ν) : ∀ d : Dict κ ν, (d.put k v).put k w = d.put k w
  | [] => by simp [Dict.put]
  | (k', v') :: d => by
    by_cases h : k' = k
    · simp [Dict.put, h]
    · simp [Dict.put, h, put_put_self k v w d]

theorem put_comm_of_mem {κ ν : Type} [DecidableEq κ] {e d : κ} (hne : e ≠ d) (w x : ν) : ∀ D : Dict κ ν, e ∈ D.keys →
    (D.put d x).put e w = (D.put e w).put d x
  | [], h => by simp [Dict.keys] at h
  | (k', v') :: D, h => by
    by_cases h1 : k' = e
    · subst h1
      simp [Dict.put, hne]
    · have hm : e ∈ Dict.keys D := by
        rcases List.mem_cons.1 h with h2 | h2
        · exact absurd h2.symm h1
        · exact h2
      by_cases h2 : k' = d
      · simp [Dict.put, h2, Ne.symm hne]
      · simp [Dict.put, h1, h2, put_comm_of_mem hne w x D hm]

/-- repeating both assignments gives the same dictionary as making them once, with the same order of keys -/
theorem put_again {κ ν : Type} [DecidableEq κ] {e d : κ} (hne : e ≠ d) (v w x y : ν) (D : Dict κ ν) :
    ((((D.put e v).put d x).put e w).put d y) = (D.put e w).put d y := by
  rw [put_comm_of_mem hne w x _ (Dict.mem_keys_iff.2 ⟨v, Dict.get?_put_self _ _ _⟩), put_put_self, put_put_self]

/-! ### agreement with the other model -/

omit [DecidableEq A] in
theorem joinEventsS_eq (args : JoinArgs A V) (a b : Event A V) :
    joinEvents args a b = (joinEventsS args a b).2.map fun _ => (joinEventsS args a b).1 := by
  unfold joinEvents joinEventsS
  cases hr : args.raiseError with
  | false =>
    simp only [Bool.false_eq_true, if_false]
    cases h1 : joinEnd args a b with
    | error x => simp [bind, Except.bind, Except.map]
    | ok a' =>
      cases h2 : joinDuration args a' b <;> simp [h2, bind, Except.bind, Except.map]
  | true =>
    simp only [if_true]
    cases h0 : (a.attributes.keys ++ b.attributes.keys).forM (checkAttribute args a b) with
    | error x => simp [bind, Except.bind, Except.map]
    | ok u =>
      cases h1 : joinEnd args a b with
      | error x => simp [bind, Except.bind, Except.map]
      | ok a' =>
        cases h2 : joinDuration args a' b <;> simp [h2, bind, Except.bind, Except.map]

theorem joinLoopS_eq (args : JoinArgs A V) : ∀ (es : List (Event A V)) (cur : Event A V) (pre : List (Event A V)),
    (es.foldlM (joinStep args) (pre, cur)).map (fun st => st.1 ++ [st.2]) =
      (joinLoopS args cur es).result.map fun _ => pre ++ (joinLoopS args cur es).joined
  | [], cur, pre => rfl
  | e :: es, cur, pre => by
    rw [List.foldlM_cons]
    unfold joinStep joinLoopS
    dsimp only
    by_cases hs : cur.activity = e.activity ∧ args.blacklist e.activity = false
    · rw [if_pos hs, if_pos hs, joinEventsS_eq]
      cases hj : joinEventsS args cur e with
      | mk c r =>
        cases r with
        | error x => rfl
        | ok u => exact joinLoopS_eq args es c pre
    · rw [if_neg hs, if_neg hs]
      have := joinLoopS_eq args es e (pre ++ [cur])
      rw [List.append_assoc] at this
      exact this

/-- C195: the model with states raises the same exceptions and, without an exception, gives the same log -/
theorem C195_states (args : JoinArgs A V) : ∀ log : Log I A V,
    joinSuccessive args log = (joinSuccessiveS args log).2.map fun _ => (joinSuccessiveS args log).1
  | [] => rfl
  | t :: log => by
    have ih := C195_states args log
    unfold joinSuccessive at ih ⊢
    rw [List.mapM_cons, ih]
    have e1 : joinSuccessiveS args (t :: log) = match joinTraceS args t with
      | (t', .error x) => (t' :: log, .error x)
      | (t', .ok _) => (t' :: (joinSuccessiveS args log).1, (joinSuccessiveS args log).2) := rfl
    rw [e1]
    generalize joinSuccessiveS args log = R
    unfold joinTraceS joinTrace
    cases ht : t.events with
    | nil => rfl
    | cons e es =>
      have hl := joinLoopS_eq args es e []
      dsimp only
      cases hf : es.foldlM (joinStep args) ([], e) with
      | error x =>
        rw [hf] at hl
        cases hr : (joinLoopS args e es).result with
        | error y => rw [hr] at hl; cases hl; rfl
        | ok u => rw [hr] at hl; cases hl
      | ok st =>
        rw [hf] at hl
        cases hr : (joinLoopS args e es).result with
        | error y => rw [hr] at hl; cases hl
        | ok u =>
          rw [hr] at hl
          have hl' : st.1 ++ [st.2] = (joinLoopS args e es).joined := by
            simpa [Except.map] using hl
          dsimp only [bind, Except.bind, pure, Except.pure]
          rw [hl']
          obtain ⟨l', r'⟩ := R
          cases r' <;> rfl

/-! ### what has changed -/

/-- the check of the attributes, eventlog.py 453-461 -/
def Checked (args : JoinArgs A V) (a b : Event A V) : Prop := args.raiseError = true → ∀ k ∈ a.attributes.keys ++ b.attributes.keys, checkAttribute args a b k = .ok ()

theorem forM_ok_iff {α : Type} {f : α → Py Unit} : ∀ l : List α, l.forM f = .ok () ↔ ∀ x ∈ l, f x = .ok ()
  | [] => ⟨fun _ _ h => (by cases h), fun _ => rfl⟩
  | x :: l => by
    rw [List.forall_mem_cons, ← forM_ok_iff l]
    show (f x >>= fun _ => l.forM f) = .ok () ↔ _
    cases hf : f x with
    | error e => simp [bind, Except.bind]
    | ok u => simp [bind, Except.bind]

omit [DecidableEq A] in
theorem check_iff (args : JoinArgs A V) (a b : Event A V) :
    (if args.raiseError then (a.attributes.keys ++ b.attributes.keys).forM (checkAttribute args a b) else .ok () : Py Unit) = .ok () ↔ Checked args a b := by
  unfold Checked
  by_cases h : args.raiseError = true
  · rw [if_pos h, forM_ok_iff]; exact ⟨fun g _ => g, fun g => g h⟩
  · rw [if_neg h]; simp [h]

omit [DecidableEq A] in
/-- the cases of `_join_events` -/
theorem joinEventsS_cases (args : JoinArgs A V) (a b : Event A V) :
    (∃ x, joinEventsS args a b = (a, .error x)) ∨
    (Checked args a b ∧ ∃ a', joinEnd args a b = .ok a' ∧ ((∃ x, joinDuration args a' b = .error x ∧ joinEventsS args a b = (a', .error x)) ∨
      ∃ a'', joinDuration args a' b = .ok a'' ∧ joinEventsS args a b = (a'', .ok ()))) := by
  have hc := check_iff args a b
  unfold joinEventsS
  cases h0 : (if args.raiseError then (a.attributes.keys ++ b.attributes.keys).forM (checkAttribute args a b) else .ok () : Py Unit) with
  | error x => exact .inl ⟨x, rfl⟩
  | ok u =>
    cases h1 : joinEnd args a b with
    | error x => exact .inl ⟨x, rfl⟩
    | ok a' =>
      refine .inr ⟨hc.1 h0, a', rfl, ?_⟩
      dsimp only
      cases h2 : joinDuration args a' b with
      | error x => exact .inl ⟨x, rfl, rfl⟩
      | ok a'' => exact .inr ⟨a'', rfl, rfl⟩

omit [DecidableEq A] in
/-- `_join_events` if nothing is wrong up to the end date -/
theorem joinEventsS_of {args : JoinArgs A V} {a b a' : Event A V} (hc : Checked args a b) (he : joinEnd args a b = .ok a') :
    joinEventsS args a b = match joinDuration args a' b with
      | .error x => (a', .error x)
      | .ok a'' => (a'', .ok ()) := by
  unfold joinEventsS
  rw [(check_iff args a b).2 hc, he]
  rfl

omit [DecidableEq A] [DecidableEq V] in
theorem joinEnd_cases {args : JoinArgs A V} {a b a' : Event A V} (h : joinEnd args a b = .ok a') : (args.enddate = none ∧ a' = a) ∨
    ∃ e v, args.enddate = some e ∧ b.attributes.getItem e = .ok v ∧ a' = { a with attributes := a.attributes.put e v } := by
  unfold joinEnd at h
  cases he : args.enddate with
  | none => rw [he] at h; cases h; exact .inl ⟨rfl, rfl⟩
  | some e =>
    rw [he] at h
    obtain ⟨v, h1, h2⟩ := Petri.bind_eq_ok h
    cases h2
    exact .inr ⟨e, v, rfl, h1, rfl⟩

omit [DecidableEq A] [DecidableEq V] in
theorem joinDuration_cases {args : JoinArgs A V} {a b a' : Event A V} (h : joinDuration args a b = .ok a') : (args.duration = none ∧ a' = a) ∨
    ∃ d x, args.duration = some d ∧ a' = { a with attributes := a.attributes.put d x } := by
  unfold joinDuration at h
  cases hd : args.duration with
  | none => rw [hd] at h; cases h; exact .inl ⟨rfl, rfl⟩
  | some d =>
    rw [hd] at h
    dsimp only at h
    split at h <;>
    · obtain ⟨x, _, h2⟩ := Petri.bind_eq_ok h
      obtain ⟨y, _, h4⟩ := Petri.bind_eq_ok h2
      cases h4
      exact .inr ⟨d, _, rfl, rfl⟩

omit [DecidableEq A] [DecidableEq V] in
theorem onlyTimes_refl (args : JoinArgs A V) (e : Event A V) : OnlyTimes args e e := ⟨rfl, fun _ _ _ => rfl⟩

omit [DecidableEq A] [DecidableEq V] in
theorem onlyTimes_trans {args : JoinArgs A V} {a b c : Event A V} (h1 : OnlyTimes args a b) (h2 : OnlyTimes args b c) : OnlyTimes args a c := by
  refine ⟨?_, fun k ha hb => (h2.2 k ha hb).trans (h1.2 k ha hb)⟩
  have e2 := h2.1
  rw [h1.1] at e2
  exact e2

omit [DecidableEq A] [DecidableEq V] in
theorem onlyTimes_activity {args : JoinArgs A V} {a b : Event A V} (h : OnlyTimes args a b) : b.activity = a.activity := by rw [h.1]

omit [DecidableEq A] [DecidableEq V] in
theorem onlyTimes_put {args : JoinArgs A V} {a : Event A V} {k : String} {v : V} (h : args.enddate = some k ∨ args.duration = some k) :
    OnlyTimes args a { a with attributes := a.attributes.put k v } := by
  refine ⟨rfl, fun k' h1 h2 => Dict.get?_put_of_ne _ _ fun hh => ?_⟩
  subst hh
  rcases h with h | h
  · exact h1 h.symm
  · exact h2 h.symm

omit [DecidableEq A] in
theorem joinEventsS_onlyTimes (args : JoinArgs A V) (a b : Event A V) : OnlyTimes args a (joinEventsS args a b).1 := by
  rcases joinEventsS_cases args a b with ⟨x, h⟩ | ⟨_, a', h1, h2⟩
  · rw [h]; exact onlyTimes_refl _ _
  · have e1 : OnlyTimes args a a' := by
      rcases joinEnd_cases h1 with ⟨_, rfl⟩ | ⟨e, v, h3, _, rfl⟩
      · exact onlyTimes_refl _ _
      · exact onlyTimes_put (.inl h3)
    rcases h2 with ⟨x, _, h⟩ | ⟨a'', h3, h⟩
    · rw [h]; exact e1
    · rw [h]
      rcases joinDuration_cases h3 with ⟨_, rfl⟩ | ⟨d, y, h4, rfl⟩
      · exact e1
      · exact onlyTimes_trans e1 (onlyTimes_put (.inr h4))

theorem joinLoopS_onlyTimes (args : JoinArgs A V) : ∀ (es : List (Event A V)) (cur : Event A V),
    OnlyTimes args cur (joinLoopS args cur es).head ∧ List.Forall₂ (OnlyTimes args) es (joinLoopS args cur es).tail
  | [], cur => ⟨onlyTimes_refl _ _, .nil⟩
  | e :: es, cur => by
    have ho := joinEventsS_onlyTimes args cur e
    unfold joinLoopS
    split
    · cases hj : joinEventsS args cur e with
      | mk c r =>
        rw [hj] at ho
        cases r with
        | error x => exact ⟨ho, List.forall₂_same.2 fun _ _ => onlyTimes_refl _ _⟩
        | ok u =>
          obtain ⟨i1, i2⟩ := joinLoopS_onlyTimes args es c
          exact ⟨onlyTimes_trans ho i1, .cons (onlyTimes_refl _ _) i2⟩
    · obtain ⟨i1, i2⟩ := joinLoopS_onlyTimes args es e
      exact ⟨onlyTimes_refl _ _, .cons i1 i2⟩

/-- the two events are joined -/
def SameRun (args : JoinArgs A V) (a b : Event A V) : Prop := a.activity = b.activity ∧ args.blacklist b.activity = false

theorem joinLoopS_heads (args : JoinArgs A V) : ∀ (es : List (Event A V)) (cur : Event A V) (i : Nat) (a b : Event A V),
    (cur :: es)[i]? = some a → es[i]? = some b → SameRun args a b → (joinLoopS args cur es).tail[i]? = some b
  | [], cur, i, a, b, _, hb, _ => by simp at hb
  | e :: es, cur, i, a, b, ha, hb, hs => by
    have ho := joinEventsS_onlyTimes args cur e
    unfold joinLoopS
    split
    · rename_i hsame
      cases hj : joinEventsS args cur e with
      | mk c r =>
        rw [hj] at ho
        cases r with
        | error x => exact hb
        | ok u =>
          cases i with
          | zero => exact hb
          | succ i =>
            have hb' : es[i]? = some b := by simpa using hb
            have ha' : (e :: es)[i]? = some a := by simpa using ha
            show (e :: (joinLoopS args c es).tail)[i + 1]? = some b
            rw [List.getElem?_cons_succ]
            cases i with
            | zero =>
              obtain rfl : e = a := by simpa using ha'
              exact joinLoopS_heads args es c 0 c b (by simp) hb' ⟨by have ho' := onlyTimes_activity ho; dsimp only at ho'; rw [ho', hsame.1]; exact hs.1, hs.2⟩
            | succ i => exact joinLoopS_heads args es c (i + 1) a b (by simpa using ha') hb' hs
    · rename_i hsame
      cases i with
      | zero =>
        obtain rfl : cur = a := by simpa using ha
        obtain rfl : e = b := by simpa using hb
        exact absurd hs hsame
      | succ i =>
        show ((joinLoopS args e es).head :: (joinLoopS args e es).tail)[i + 1]? = some b
        rw [List.getElem?_cons_succ]
        exact joinLoopS_heads args es e i a b (by simpa using ha) (by simpa using hb) hs

theorem joinTraceS_error {args : JoinArgs A V} {t t' : Trace I A V} {x : PyErr} (h : joinTraceS args t = (t', .error x)) :
    t'.id = t.id ∧ t'.attributes = t.attributes ∧ List.Forall₂ (OnlyTimes args) t.events t'.events ∧
    ∀ i a b, t.events[i]? = some a → t.events[i + 1]? = some b → SameRun args a b → t'.events[i + 1]? = some b := by
  unfold joinTraceS at h
  cases ht : t.events with
  | nil => rw [ht] at h; cases h; exact ⟨rfl, rfl, by rw [ht]; exact .nil, by simp⟩
  | cons e es =>
    rw [ht] at h
    dsimp only at h
    split at h
    · cases h
      obtain ⟨h1, h2⟩ := joinLoopS_onlyTimes args es e
      refine ⟨rfl, rfl, .cons h1 h2, fun i a b ha hb hs => ?_⟩
      rw [List.getElem?_cons_succ] at hb ⊢
      exact joinLoopS_heads args es e i a b ha hb hs
    · cases h

/-- C195: after an exception, all traces before some trace are joined and all traces after it are as they were. This trace still has all its events. At
most the end dates and durations of its events have changed, and only in events that are not to be joined with the event before them. -/
theorem C195_after_exception (args : JoinArgs A V) : ∀ (log : Log I A V) (x : PyErr), (joinSuccessiveS args log).2 = .error x →
    ∃ done done' t t' rest, log = done ++ t :: rest ∧ (joinSuccessiveS args log).1 = done' ++ t' :: rest ∧
      joinSuccessive args done = .ok done' ∧ joinSuccessive args [t] = .error x ∧ t'.id = t.id ∧ t'.attributes = t.attributes ∧
      List.Forall₂ (OnlyTimes args) t.events t'.events ∧
      ∀ i a b, t.events[i]? = some a → t.events[i + 1]? = some b → a.activity = b.activity → args.blacklist b.activity = false →
        t'.events[i + 1]? = some b
  | [], x, hx => by cases hx
  | t :: log, x, hx => by
    have e1 : joinSuccessiveS args (t :: log) = match joinTraceS args t with
      | (t', .error x) => (t' :: log, .error x)
      | (t', .ok _) => (t' :: (joinSuccessiveS args log).1, (joinSuccessiveS args log).2) := rfl
    have e2 : joinSuccessiveS args [t] = match joinTraceS args t with
      | (t', .error x) => ([t'], .error x)
      | (t', .ok _) => ([t'], .ok ()) := rfl
    rw [e1] at hx ⊢
    cases hj : joinTraceS args t with
    | mk t' r =>
      rw [hj] at hx e2
      cases r with
      | error y =>
        cases hx
        obtain ⟨g1, g2, g3, g4⟩ := joinTraceS_error hj
        refine ⟨[], [], t, t', log, rfl, rfl, rfl, ?_, g1, g2, g3, fun i a b ha hb h1 h2 => g4 i a b ha hb ⟨h1, h2⟩⟩
        rw [C195_states, e2]; rfl
      | ok u =>
        obtain ⟨done, done', t1, t1', rest, i1, i2, i3, i4⟩ := C195_after_exception args log x hx
        refine ⟨t :: done, t' :: done', t1, t1', rest, by rw [i1]; rfl, by dsimp only; rw [i2]; rfl, ?_, i4⟩
        have h1 : joinSuccessive args [t] = .ok [t'] := by rw [C195_states, e2]; rfl
        unfold joinSuccessive at h1 i3 ⊢
        rw [List.mapM_cons] at h1 ⊢
        obtain ⟨u1, k1, k2⟩ := Petri.bind_eq_ok h1
        cases k2
        rw [k1, i3]; rfl

/-! ### calling it again -/

/-- `p` is `a` after some events were joined to it, without sums of durations -/
def Retimed (args : JoinArgs A V) (a p : Event A V) : Prop := p = a ∨ ∃ e v, args.enddate = some e ∧
  (p = { a with attributes := a.attributes.put e v } ∨ ∃ d x, args.duration = some d ∧
    (∀ s, args.startdate = some s → a.attributes.get? s ≠ none) ∧ p = { a with attributes := (a.attributes.put e v).put d x })

omit [DecidableEq A] in
theorem joinEventsS_retimed {args : JoinArgs A V} (hn : NoSums args) (hk : DistinctNames args) (a b : Event A V) : Retimed args a (joinEventsS args a b).1 := by
  rcases joinEventsS_cases args a b with ⟨x, h⟩ | ⟨_, a', h1, h2⟩
  · rw [h]; exact .inl rfl
  · rcases joinEnd_cases h1 with ⟨h3, rfl⟩ | ⟨e, v, h3, _, rfl⟩
    · have hd : args.duration = none := by
        rcases hn with h | ⟨_, h⟩
        · exact h
        · exact absurd h3 h
      rcases h2 with ⟨x, _, h⟩ | ⟨a'', h4, h⟩
      · rw [h]; exact .inl rfl
      · rw [h]
        rcases joinDuration_cases h4 with ⟨_, rfl⟩ | ⟨d, y, h5, _⟩
        · exact .inl rfl
        · rw [hd] at h5; cases h5
    · rcases h2 with ⟨x, _, h⟩ | ⟨a'', h4, h⟩
      · rw [h]; exact .inr ⟨e, v, h3, .inl rfl⟩
      · rw [h]
        rcases joinDuration_cases h4 with ⟨_, rfl⟩ | ⟨d, y, h5, rfl⟩
        · exact .inr ⟨e, v, h3, .inl rfl⟩
        · refine .inr ⟨e, v, h3, .inr ⟨d, y, h5, fun s hs => ?_, rfl⟩⟩
          have hse : s ≠ e := fun hh => (hk.1 s hs).1 (hh ▸ h3)
          unfold joinDuration at h4
          rw [h5, hs, h3] at h4
          obtain ⟨_, _, k2⟩ := Petri.bind_eq_ok h4
          obtain ⟨z, k3, _⟩ := Petri.bind_eq_ok k2
          dsimp only at k3
          unfold Dict.getItem at k3
          rw [Dict.get?_put_of_ne _ _ (Ne.symm hse)] at k3
          intro hh
          rw [hh] at k3; cases k3

omit [DecidableEq A] [DecidableEq V] in
theorem Retimed.trans {args : JoinArgs A V} (hk : DistinctNames args) {a p q : Event A V} (h1 : Retimed args a p) (h2 : Retimed args p q) : Retimed args a q := by
  rcases h1 with rfl | ⟨e, v, he, h1⟩
  · exact h2
  · rcases h2 with rfl | ⟨e', w, he', h2⟩
    · exact .inr ⟨e, v, he, h1⟩
    · rw [he] at he'; cases he'
      refine .inr ⟨e, w, he, ?_⟩
      rcases h1 with rfl | ⟨d, x, hd, hst, rfl⟩
      · rcases h2 with rfl | ⟨d, y, hd, hst, rfl⟩
        · left; simp only [put_put_self]
        · right
          refine ⟨d, y, hd, fun s hs => ?_, by simp only [put_put_self]⟩
          have := hst s hs
          rwa [Dict.get?_put_of_ne _ _ (show e ≠ s from fun hh => (hk.1 s hs).1 (hh ▸ he))] at this
      · have hne : e ≠ d := fun hh => hk.2 e he (hh ▸ hd)
        have hm : ∀ D : Dict String V, e ∈ (D.put e v).keys := fun D => Dict.mem_keys_iff.2 ⟨v, Dict.get?_put_self _ _ _⟩
        rcases h2 with rfl | ⟨d', y, hd', _, rfl⟩
        · right; exact ⟨d, x, hd, hst, by simp only [put_comm_of_mem hne w x _ (hm _), put_put_self]⟩
        · rw [hd] at hd'; cases hd'
          right; exact ⟨d, y, hd, hst, by simp only [put_again hne]⟩

omit [DecidableEq A] [DecidableEq V] in
theorem Retimed.onlyTimes {args : JoinArgs A V} {a p : Event A V} (h : Retimed args a p) : OnlyTimes args a p := by
  rcases h with rfl | ⟨e, v, he, rfl | ⟨d, x, hd, _, rfl⟩⟩
  · exact onlyTimes_refl _ _
  · exact onlyTimes_put (.inl he)
  · exact onlyTimes_trans (onlyTimes_put (v := v) (.inl he)) (onlyTimes_put (.inr hd))

omit [DecidableEq A] in
theorem checked_retimed {args : JoinArgs A V} {a p b : Event A V} (hp : Retimed args a p) (hc : Checked args a b) : Checked args p b := by
  intro hr k hk
  have ho := hp.onlyTimes
  by_cases hcond : some k ≠ args.startdate ∧ some k ≠ args.enddate ∧ some k ≠ args.duration
  · have hg := ho.2 k hcond.2.1 hcond.2.2
    have hmem : k ∈ a.attributes.keys ++ b.attributes.keys := by
      rw [List.mem_append] at hk ⊢
      rcases hk with hk | hk
      · left
        rw [Dict.mem_keys_iff] at hk ⊢
        rw [hg] at hk; exact hk
      · exact .inr hk
    have := hc hr k hmem
    unfold checkAttribute Dict.getItem at this ⊢
    rw [hg]; exact this
  · unfold checkAttribute; rw [if_neg hcond]

omit [DecidableEq A] in
/-- joining an event once more has the same effect as joining it to the original event -/
theorem join_again {args : JoinArgs A V} (hn : NoSums args) (hk : DistinctNames args) {a p b a' : Event A V} (hp : Retimed args a p)
    (hc : Checked args a b) (he : joinEnd args a b = .ok a') : joinEventsS args p b = joinEventsS args a b := by
  rcases hp with rfl | ⟨e, v, hend, hp⟩
  · rfl
  have hp0 : Retimed args a p := .inr ⟨e, v, hend, hp⟩
  rcases joinEnd_cases he with ⟨h1, _⟩ | ⟨e', w, h1, hw, rfl⟩
  · rw [h1] at hend; cases hend
  rw [hend] at h1; cases h1
  have hep : joinEnd args p b = .ok { p with attributes := p.attributes.put e w } := by
    unfold joinEnd; rw [hend]; dsimp only; rw [hw]; rfl
  rw [joinEventsS_of hc he, joinEventsS_of (checked_retimed hp0 hc) hep]
  cases hdur : args.duration with
  | none =>
    have hpe : p = { a with attributes := a.attributes.put e v } := by
      rcases hp with h | ⟨d, x, hd, _⟩
      · exact h
      · rw [hdur] at hd; cases hd
    subst hpe
    simp only [put_put_self]
  | some d =>
    have hne : e ≠ d := fun hh => hk.2 e hend (hh ▸ hdur)
    obtain ⟨s, hs⟩ : ∃ s, args.startdate = some s := by
      rcases hn with h | ⟨h, _⟩
      · rw [hdur] at h; cases h
      · exact Option.ne_none_iff_exists'.1 h
    have hse : s ≠ e := fun hh => (hk.1 s hs).1 (hh ▸ hend)
    have hsd : s ≠ d := fun hh => (hk.1 s hs).2 (hh ▸ hdur)
    have hD : ∀ c : Event A V, joinDuration args { c with attributes := c.attributes.put e w } b = (c.attributes.getItem s).map fun y =>
        { c with attributes := (c.attributes.put e w).put d (args.sub w y) } := by
      intro c
      unfold joinDuration
      rw [hdur, hs, hend]
      dsimp only
      unfold Dict.getItem
      rw [Dict.get?_put_self, Dict.get?_put_of_ne _ _ (Ne.symm hse)]
      cases c.attributes.get? s <;> rfl
    rw [hD, hD]
    have hgs : p.attributes.getItem s = a.attributes.getItem s := by
      unfold Dict.getItem
      rw [hp0.onlyTimes.2 s (by rw [hend]; simpa using hse) (by rw [hdur]; simpa using hsd)]
    rw [hgs]
    rcases hp with rfl | ⟨d', x, hd', hst, rfl⟩
    · simp only [put_put_self]
    · rw [hdur] at hd'; cases hd'
      have hpres := hst s hs
      unfold Dict.getItem
      cases hx : a.attributes.get? s with
      | none => exact absurd hx hpres
      | some y =>
        show ({ a with attributes := (((a.attributes.put e v).put d x).put e w).put d (args.sub w y) }, (Except.ok () : Py Unit)) = _
        rw [put_again hne]; rfl

/-- the same arguments, but perhaps without the check of the attributes -/
def weaker (args : JoinArgs A V) (r : Bool) : JoinArgs A V := { args with raiseError := r }

omit [DecidableEq A] in
theorem checked_weaker {args : JoinArgs A V} {r : Bool} (hr : r = true → args.raiseError = true) {a b : Event A V} (h : Checked args a b) :
    Checked (weaker args r) a b := fun hr' k hk => h (hr hr') k hk

omit [DecidableEq A] in
theorem join_weaker {args : JoinArgs A V} {r : Bool} (hr : r = true → args.raiseError = true) {a b c : Event A V} {u : Unit}
    (h : joinEventsS args a b = (c, .ok u)) : joinEventsS (weaker args r) a b = (c, .ok u) := by
  rcases joinEventsS_cases args a b with ⟨x, h1⟩ | ⟨hc, a', h1, ⟨x, _, h2⟩ | ⟨a'', h2, h3⟩⟩
  · rw [h1] at h; cases h
  · rw [h2] at h; cases h
  · rw [joinEventsS_of (checked_weaker hr hc) (show joinEnd (weaker args r) a b = .ok a' from h1),
      show joinDuration (weaker args r) a' b = .ok a'' from h2, ← h, h3]

theorem loop_again {args : JoinArgs A V} (hn : NoSums args) (hk : DistinctNames args) {r : Bool} (hr : r = true → args.raiseError = true) :
    ∀ (es : List (Event A V)) (cur : Event A V),
      Retimed args cur (joinLoopS args cur es).head ∧
      joinLoopS (weaker args r) (joinLoopS args cur es).head (joinLoopS args cur es).tail = joinLoopS (weaker args r) cur es ∧
      joinLoopS (weaker args r) cur (joinLoopS args cur es).tail = joinLoopS (weaker args r) cur es
  | [], cur => ⟨.inl rfl, rfl, rfl⟩
  | e :: es, cur => by
    have hre := joinEventsS_retimed hn hk cur e
    by_cases hs : cur.activity = e.activity ∧ args.blacklist e.activity = false
    · -- one more event of the run, with any head `p`
      have step : ∀ (p : Event A V) (l : List (Event A V)), Retimed args cur p → joinLoopS (weaker args r) p (e :: l) =
          match joinEventsS (weaker args r) p e with
          | (c, .error x) => ⟨c, e :: l, [c], .error x⟩
          | (c, .ok _) => ⟨(joinLoopS (weaker args r) c l).head, e :: (joinLoopS (weaker args r) c l).tail, (joinLoopS (weaker args r) c l).joined,
              (joinLoopS (weaker args r) c l).result⟩ := by
        intro p l hp
        conv_lhs => unfold joinLoopS
        rw [if_pos ⟨(onlyTimes_activity hp.onlyTimes).trans hs.1, hs.2⟩]
        rfl
      have hagain : ∀ (p a' : Event A V), Retimed args cur p → Checked args cur e → joinEnd args cur e = .ok a' →
          joinEventsS (weaker args r) p e = joinEventsS (weaker args r) cur e := fun p a' hp hc he =>
        join_again (args := weaker args r) hn hk hp (checked_weaker hr hc) he
      rcases joinEventsS_cases args cur e with ⟨x, h1⟩ | ⟨hc, a', h1, ⟨x, _, h2⟩ | ⟨c, _, h2⟩⟩
      · have hl : joinLoopS args cur (e :: es) = ⟨cur, e :: es, [cur], .error x⟩ := by
          unfold joinLoopS; rw [if_pos hs, h1]
        rw [hl]; exact ⟨.inl rfl, rfl, rfl⟩
      · rw [h2] at hre
        have hl : joinLoopS args cur (e :: es) = ⟨a', e :: es, [a'], .error x⟩ := by
          unfold joinLoopS; rw [if_pos hs, h2]
        rw [hl]
        refine ⟨hre, ?_, rfl⟩
        dsimp only
        rw [step a' es hre, step cur es (.inl rfl), hagain a' a' hre hc h1]
      · rw [h2] at hre
        have hl : joinLoopS args cur (e :: es) = ⟨(joinLoopS args c es).head, e :: (joinLoopS args c es).tail, (joinLoopS args c es).joined,
            (joinLoopS args c es).result⟩ := by
          conv_lhs => unfold joinLoopS
          rw [if_pos hs, h2]
        obtain ⟨i1, i2, i3⟩ := loop_again hn hk hr es c
        have hcur := Retimed.trans hk hre i1
        rw [hl]
        dsimp only
        refine ⟨hcur, ?_, ?_⟩
        · rw [step _ _ hcur, step cur es (.inl rfl), hagain _ a' hcur hc h1, join_weaker hr h2]
          dsimp only
          rw [i3]
        · rw [step cur _ (.inl rfl), step cur es (.inl rfl), join_weaker hr h2]
          dsimp only
          rw [i3]
    · have hl : joinLoopS args cur (e :: es) = ⟨cur, (joinLoopS args e es).head :: (joinLoopS args e es).tail, cur :: (joinLoopS args e es).joined,
          (joinLoopS args e es).result⟩ := by
        conv_lhs => unfold joinLoopS
        rw [if_neg hs]
      obtain ⟨i1, i2, i3⟩ := loop_again hn hk hr es e
      have ha := onlyTimes_activity i1.onlyTimes
      have step : ∀ (p : Event A V) (l : List (Event A V)), p.activity = e.activity → joinLoopS (weaker args r) cur (p :: l) =
          ⟨cur, (joinLoopS (weaker args r) p l).head :: (joinLoopS (weaker args r) p l).tail, cur :: (joinLoopS (weaker args r) p l).joined,
            (joinLoopS (weaker args r) p l).result⟩ := by
        intro p l hp
        conv_lhs => unfold joinLoopS
        rw [if_neg (by rw [hp]; exact hs)]
      rw [hl]
      dsimp only
      have key : joinLoopS (weaker args r) cur ((joinLoopS args e es).head :: (joinLoopS args e es).tail) = joinLoopS (weaker args r) cur (e :: es) := by
        rw [step _ _ ha, step e es rfl, i2]
      exact ⟨.inl rfl, key, key⟩

theorem loop_weaker {args : JoinArgs A V} {r : Bool} (hr : r = true → args.raiseError = true) : ∀ (es : List (Event A V)) (cur : Event A V) (u : Unit),
    (joinLoopS args cur es).result = .ok u → joinLoopS (weaker args r) cur es = joinLoopS args cur es ∧
    ∃ h tl, (joinLoopS args cur es).joined = h :: tl ∧ h.activity = cur.activity ∧
      (joinLoopS (weaker args r) h tl).result = .ok () ∧ (joinLoopS (weaker args r) h tl).joined = h :: tl
  | [], cur, _, _ => ⟨rfl, cur, [], rfl, rfl, rfl, rfl⟩
  | e :: es, cur, u, hres => by
    by_cases hs : cur.activity = e.activity ∧ args.blacklist e.activity = false
    · have hact := onlyTimes_activity (joinEventsS_onlyTimes args cur e)
      cases hj : joinEventsS args cur e with
      | mk c q =>
        rw [hj] at hact
        cases q with
        | error x =>
          unfold joinLoopS at hres; rw [if_pos hs, hj] at hres; cases hres
        | ok u' =>
          have hl : joinLoopS args cur (e :: es) = ⟨(joinLoopS args c es).head, e :: (joinLoopS args c es).tail, (joinLoopS args c es).joined,
              (joinLoopS args c es).result⟩ := by
            conv_lhs => unfold joinLoopS
            rw [if_pos hs, hj]
          have hl' : joinLoopS (weaker args r) cur (e :: es) = ⟨(joinLoopS (weaker args r) c es).head, e :: (joinLoopS (weaker args r) c es).tail,
              (joinLoopS (weaker args r) c es).joined, (joinLoopS (weaker args r) c es).result⟩ := by
            conv_lhs => unfold joinLoopS
            rw [if_pos (show cur.activity = e.activity ∧ (weaker args r).blacklist e.activity = false from hs), join_weaker hr hj]
          rw [hl] at hres
          obtain ⟨i1, h, tl, i2, i3, i4⟩ := loop_weaker hr es c u hres
          rw [hl', hl, i1]
          exact ⟨rfl, h, tl, i2, i3.trans hact, i4⟩
    · have hl : joinLoopS args cur (e :: es) = ⟨cur, (joinLoopS args e es).head :: (joinLoopS args e es).tail, cur :: (joinLoopS args e es).joined,
          (joinLoopS args e es).result⟩ := by
        conv_lhs => unfold joinLoopS
        rw [if_neg hs]
      have step : ∀ (p : Event A V) (l : List (Event A V)), p.activity = e.activity → joinLoopS (weaker args r) cur (p :: l) =
          ⟨cur, (joinLoopS (weaker args r) p l).head :: (joinLoopS (weaker args r) p l).tail, cur :: (joinLoopS (weaker args r) p l).joined,
            (joinLoopS (weaker args r) p l).result⟩ := by
        intro p l hp
        conv_lhs => unfold joinLoopS
        rw [if_neg (by rw [hp]; exact hs)]
      rw [hl] at hres
      obtain ⟨i1, h, tl, i2, i3, i4, i5⟩ := loop_weaker hr es e u hres
      rw [step e es rfl, hl, i1]
      refine ⟨rfl, cur, h :: tl, by dsimp only; rw [i2], rfl, ?_, ?_⟩
      · rw [step h tl i3]; exact i4
      · rw [step h tl i3]; dsimp only; rw [i5]

theorem trace_again {args : JoinArgs A V} (hn : NoSums args) (hk : DistinctNames args) {r : Bool} (hr : r = true → args.raiseError = true)
    (t : Trace I A V) : joinTraceS (weaker args r) (joinTraceS args t).1 = joinTraceS (weaker args r) t := by
  cases ht : t.events with
  | nil =>
    have : (joinTraceS args t).1 = t := by unfold joinTraceS; rw [ht]
    rw [this]
  | cons e es =>
    cases hres : (joinLoopS args e es).result with
    | error x =>
      have h1 : (joinTraceS args t).1 = { t with events := (joinLoopS args e es).head :: (joinLoopS args e es).tail } := by
        unfold joinTraceS; rw [ht]; dsimp only; rw [hres]
      rw [h1]
      unfold joinTraceS
      rw [ht]
      dsimp only
      rw [(loop_again hn hk hr es e).2.1]
    | ok u =>
      have h1 : (joinTraceS args t).1 = { t with events := (joinLoopS args e es).joined } := by
        unfold joinTraceS; rw [ht]; dsimp only; rw [hres]
      obtain ⟨w1, h, tl, w2, _, w4, w5⟩ := loop_weaker hr es e u hres
      rw [h1, w2]
      unfold joinTraceS
      rw [ht]
      dsimp only
      rw [w4, w1, hres]
      dsimp only
      rw [w5, w2]

/-- C195: durations that are not summed up are right after a second call. After an exception, calling the method again, with or without the check of the
attributes, has the same effect as calling it in this way in the first place: the same log and the same exception, if any. The same holds without an exception. -/
theorem C195_again {args : JoinArgs A V} (hn : NoSums args) (hk : DistinctNames args) {r : Bool} (hr : r = true → args.raiseError = true) :
    ∀ log : Log I A V, joinSuccessiveS { args with raiseError := r } (joinSuccessiveS args log).1 = joinSuccessiveS { args with raiseError := r } log
  | [] => rfl
  | t :: log => by
    have ih := C195_again hn hk hr log
    have e1 : ∀ (b : JoinArgs A V) (t : Trace I A V) (log : Log I A V), joinSuccessiveS b (t :: log) = match joinTraceS b t with
      | (t', .error x) => (t' :: log, .error x)
      | (t', .ok _) => (t' :: (joinSuccessiveS b log).1, (joinSuccessiveS b log).2) := fun _ _ _ => rfl
    have ht := trace_again hn hk hr t
    unfold weaker at ht
    cases hj : joinTraceS args t with
    | mk t' q =>
      rw [hj] at ht
      dsimp only at ht
      cases q with
      | error x =>
        have h1 : (joinSuccessiveS args (t :: log)).1 = t' :: log := by rw [e1, hj]
        rw [h1, e1, e1, ht]
      | ok u =>
        have h1 : (joinSuccessiveS args (t :: log)).1 = t' :: (joinSuccessiveS args log).1 := by rw [e1, hj]
        rw [h1, e1, e1, ht, ih]
        have hok : ∃ t2, joinTraceS { args with raiseError := r } t = (t2, .ok ()) := by
          unfold joinTraceS at hj
          cases hev : t.events with
          | nil => rw [hev] at hj; cases hj
          | cons e es =>
            rw [hev] at hj
            dsimp only at hj
            cases hres : (joinLoopS args e es).result with
            | error x => rw [hres] at hj; cases hj
            | ok u =>
              have w1 := (loop_weaker hr es e u hres).1
              unfold weaker at w1
              unfold joinTraceS
              rw [hev]
              dsimp only
              rw [w1, hres]
              exact ⟨_, rfl⟩
        obtain ⟨t2, hok⟩ := hok
        rw [hok]

/-- C195: without attributes for end date and duration, a trace whose events cannot be joined is left as it was. -/
theorem C195_no_times {args : JoinArgs A V} (he : args.enddate = none) (hd : args.duration = none) (t : Trace I A V) {x : PyErr}
    (hx : joinSuccessive args [t] = .error x) : joinSuccessiveS args [t] = ([t], .error x) := by
  have hret : ∀ (es : List (Event A V)) (cur : Event A V), (joinLoopS args cur es).head = cur ∧ (joinLoopS args cur es).tail = es := by
    have hj : ∀ a b : Event A V, (joinEventsS args a b).1 = a := fun a b => by
      rcases joinEventsS_cases args a b with ⟨x, h⟩ | ⟨_, a', h1, h2⟩
      · rw [h]
      · have ha : a' = a := by
          rcases joinEnd_cases h1 with ⟨_, h⟩ | ⟨e, v, h3, _⟩
          · exact h
          · rw [he] at h3; cases h3
        rcases h2 with ⟨x, _, h⟩ | ⟨a'', h3, h⟩
        · rw [h]; exact ha
        · rw [h]
          rcases joinDuration_cases h3 with ⟨_, h4⟩ | ⟨d, y, h4, _⟩
          · exact h4.trans ha
          · rw [hd] at h4; cases h4
    intro es
    induction es with
    | nil => exact fun cur => ⟨rfl, rfl⟩
    | cons e es ih =>
      intro cur
      have h1 := hj cur e
      unfold joinLoopS
      split
      · cases hq : joinEventsS args cur e with
        | mk c q =>
          rw [hq] at h1
          dsimp only at h1
          subst h1
          cases q with
          | error x => exact ⟨rfl, rfl⟩
          | ok u => exact ⟨(ih c).1, by dsimp only; rw [(ih c).2]⟩
      · exact ⟨rfl, by dsimp only; rw [(ih e).1, (ih e).2]⟩
  have e1 : joinSuccessiveS args [t] = match joinTraceS args t with
      | (t', .error x) => ([t'], .error x)
      | (t', .ok _) => ([t'], .ok ()) := rfl
  rw [C195_states, e1] at hx
  rw [e1]
  cases hq : joinTraceS args t with
  | mk t' q =>
    rw [hq] at hx
    cases q with
    | ok u => cases hx
    | error y =>
      cases hx
      have : t' = t := by
        unfold joinTraceS at hq
        cases ht : t.events with
        | nil => rw [ht] at hq; cases hq; rfl
        | cons e es =>
          rw [ht] at hq
          dsimp only at hq
          rw [(hret es e).1, (hret es e).2, ← ht] at hq
          split at hq
          · cases hq; rfl
          · cases hq
      rw [this]

/-! ### deviation and examples -/

/-- three events a with the durations 1, 2 and 3; the last one has another resource -/
def excLog : Log Nat String Int :=
  [⟨1, [⟨"a", [("duration", 1), ("resource", 7)], none⟩, ⟨"a", [("duration", 2), ("resource", 7)], none⟩, ⟨"a", [("duration", 3), ("resource", 8)], none⟩], []⟩]

/-- join with sums of durations -/
def sumArgs : JoinArgs String Int := { duration := some "duration", sub := fun x y => x - y, add := fun x y => x + y }

/-- C195: summed durations are wrong after a second call. Joining the events raises a ValueError because of the resources, but the first event has already
got the duration of the second one, which is still there. Joining them without the check then gives the duration 8; without the first call it is 6. -/
theorem C195_sum_witness : (joinSuccessiveS sumArgs excLog).2 = .error .value ∧
    joinSuccessive { sumArgs with raiseError := false } (joinSuccessiveS sumArgs excLog).1 = .ok [⟨1, [⟨"a", [("duration", 8), ("resource", 7)], none⟩], []⟩] ∧
    joinSuccessive { sumArgs with raiseError := false } excLog = .ok [⟨1, [⟨"a", [("duration", 6), ("resource", 7)], none⟩], []⟩] :=
  ⟨by decide +kernel, by decide +kernel, by decide +kernel⟩

/-- the same events with start and end dates -/
def excTimes : Log Nat String Int :=
  [⟨1, [⟨"a", [("start", 0), ("end", 1), ("resource", 7)], none⟩, ⟨"a", [("start", 2), ("end", 4), ("resource", 7)], none⟩,
    ⟨"a", [("start", 5), ("end", 8), ("resource", 8)], none⟩], []⟩]

/-- durations from start and end dates -/
def timeArgs : JoinArgs String Int :=
  { startdate := some "start", enddate := some "end", duration := some "duration", sub := fun x y => x - y, add := fun x y => x + y }

/-- the hypotheses of `C195_again` and `C195_after_exception` are met, and the first call has changed the log -/
example : NoSums timeArgs ∧ DistinctNames timeArgs ∧ (joinSuccessiveS timeArgs excTimes).2 = .error .value ∧ (joinSuccessiveS timeArgs excTimes).1 ≠ excTimes ∧
    joinSuccessive { timeArgs with raiseError := false } (joinSuccessiveS timeArgs excTimes).1 =
      .ok [⟨1, [⟨"a", [("start", 0), ("end", 8), ("resource", 7), ("duration", 8)], none⟩], []⟩] := by
  refine ⟨.inr ⟨by decide, by decide⟩, ⟨?_, ?_⟩, by decide +kernel, by decide +kernel, by decide +kernel⟩
  · intro k hk; cases hk; decide
  · intro k hk; cases hk; decide

/-- the hypotheses of `C195_no_times` -/
example : joinSuccessive { sub := fun x y => x - y, add := fun x y => x + y } excLog = .error .value := by decide +kernel

end Prolothar.EventLog
