import Verif.Model.LogDurations
import Verif.Props.LogExport
/-
C120: the log after `derive_event_duration_by_end_date` has raised an exception; calling it again.
-/
namespace Prolothar.LogTable
open Prolothar.EventLog
variable {I A : Type} {kS kE kD : String}

theorem put_same {κ ν : Type} [DecidableEq κ] {d : Dict κ ν} {k : κ} {v : ν} (h : d.get? k = some v) : d.put k v = d := by
  induction d with
  | nil => cases h
  | cons e d ih =>
    obtain ⟨k', v'⟩ := e
    by_cases hk : k' = k
    · subst hk
      simp [Dict.get?] at h
      subst h
      simp [Dict.put]
    · simp only [Dict.get?, hk, if_false] at h
      simp only [Dict.put, hk, if_false]
      rw [ih h]

/-- `e'` is `e`, except for the start date and the duration -/
def OnlyDates (kS kD : String) (e e' : Event A Int) : Prop :=
  e'.activity = e.activity ∧ e'.transition = e.transition ∧ ∀ k, k ≠ kS → k ≠ kD → e'.attributes.get? k = e.attributes.get? k

theorem deriveEventS_refines (e : Event A Int) (sd : Py Int) :
    deriveEvent kS kE kD e sd = (deriveEventS kS kE kD e sd).2.map fun _ => (deriveEventS kS kE kD e sd).1 := by
  unfold deriveEvent deriveEventS
  generalize (if e.attributes.has kS then .ok e.attributes else sd.map fun d => e.attributes.put kS d : Py (Dict String Int)) = x
  cases x with
  | error x => rfl
  | ok attrs =>
    simp only [bind, Except.bind]
    cases attrs.getItem kE with
    | error x => rfl
    | ok stop =>
      dsimp only
      cases attrs.getItem kS with
      | error x => rfl
      | ok start =>
        simp only [pure, Except.pure]
        cases (attrs.put kD (stop - start)).getItem kD with
        | error x => rfl
        | ok d =>
          dsimp only
          split <;> rfl

theorem deriveEventS_frame (e : Event A Int) (sd : Py Int) : OnlyDates kS kD e (deriveEventS kS kE kD e sd).1 := by
  unfold deriveEventS
  have hattrs : ∀ attrs, (if e.attributes.has kS then .ok e.attributes else sd.map fun d => e.attributes.put kS d : Py (Dict String Int)) = .ok attrs →
      ∀ k, k ≠ kS → attrs.get? k = e.attributes.get? k := by
    intro attrs h k hk
    split at h
    · cases h; rfl
    · cases sd with
      | error x => cases h
      | ok v => cases h; exact Dict.get?_put_of_ne _ _ (Ne.symm hk)
  generalize (if e.attributes.has kS then .ok e.attributes else sd.map fun d => e.attributes.put kS d : Py (Dict String Int)) = x at *
  cases x with
  | error x => exact ⟨rfl, rfl, fun _ _ _ => rfl⟩
  | ok attrs =>
    dsimp only
    generalize (do let stop ← attrs.getItem kE; let start ← attrs.getItem kS; return stop - start : Py Int) = y
    cases y with
    | error y => exact ⟨rfl, rfl, fun k h1 _ => hattrs attrs rfl k h1⟩
    | ok d => exact ⟨rfl, rfl, fun k h1 h2 => (Dict.get?_put_of_ne _ _ (Ne.symm h2)).trans (hattrs attrs rfl k h1)⟩

theorem deriveEventS_idem (h2 : kS ≠ kD) (h3 : kE ≠ kD) (e : Event A Int) (sd : Py Int) :
    deriveEventS kS kE kD (deriveEventS kS kE kD e sd).1 sd = deriveEventS kS kE kD e sd := by
  have key : ∀ attrs : Dict String Int, attrs.has kS = true → ∀ (e : Event A Int) (sd : Py Int), e.attributes = attrs →
      deriveEventS kS kE kD (deriveEventS kS kE kD e sd).1 sd = deriveEventS kS kE kD e sd := by
    rintro attrs hh e sd rfl
    have hrun : deriveEventS kS kE kD e sd =
        match (do let stop ← e.attributes.getItem kE; let start ← e.attributes.getItem kS; return stop - start : Py Int) with
        | .error x => (e, .error x)
        | .ok d => ({ e with attributes := e.attributes.put kD d }, if d < 0 then .error .value else .ok ()) := by
      unfold deriveEventS
      rw [if_pos hh]
      dsimp only
      generalize (do let stop ← e.attributes.getItem kE; let start ← e.attributes.getItem kS; return stop - start : Py Int) = y
      cases y with
      | error y => rfl
      | ok d =>
        have : (e.attributes.put kD d).getItem kD = .ok d := by unfold Dict.getItem; rw [Dict.get?_put_self]
        dsimp only
        rw [this]
    cases hy : (do let stop ← e.attributes.getItem kE; let start ← e.attributes.getItem kS; return stop - start : Py Int) with
    | error y => rw [hy] at hrun; rw [hrun]; exact hrun
    | ok d =>
      rw [hy] at hrun
      rw [hrun]
      dsimp only
      have g1 : (e.attributes.put kD d).getItem kE = e.attributes.getItem kE := by
        unfold Dict.getItem; rw [Dict.get?_put_of_ne _ _ (Ne.symm h3)]
      have g2 : (e.attributes.put kD d).getItem kS = e.attributes.getItem kS := by
        unfold Dict.getItem; rw [Dict.get?_put_of_ne _ _ (Ne.symm h2)]
      have g3 : (e.attributes.put kD d).has kS = true := by
        unfold Dict.has at hh ⊢; rw [Dict.get?_put_of_ne _ _ (Ne.symm h2)]; exact hh
      have g4 : (e.attributes.put kD d).put kD d = e.attributes.put kD d := put_same (Dict.get?_put_self _ _ _)
      have g5 : (e.attributes.put kD d).getItem kD = .ok d := by unfold Dict.getItem; rw [Dict.get?_put_self]
      unfold deriveEventS
      dsimp only
      rw [if_pos g3]
      dsimp only
      rw [g1, g2, hy]
      dsimp only
      rw [g4, g5]
  by_cases hh : e.attributes.has kS = true
  · exact key _ hh e sd rfl
  · cases hsd : sd with
    | error x =>
      have : deriveEventS kS kE kD e (.error x) = (e, .error x) := by
        unfold deriveEventS; rw [if_neg hh]; rfl
      rw [this]; exact this
    | ok v =>
      have h0 : (e.attributes.put kS v).has kS = true := by unfold Dict.has; rw [Dict.get?_put_self]; rfl
      have : deriveEventS kS kE kD e (.ok v) = deriveEventS kS kE kD { e with attributes := e.attributes.put kS v } (.ok v) := by
        unfold deriveEventS
        rw [if_neg hh]
        dsimp only
        rw [if_pos h0]
        rfl
      rw [this]
      exact key _ h0 _ _ rfl

theorem getItem_congr {d d' : Dict String Int} {k : String} (h : d'.get? k = d.get? k) : d'.getItem k = d.getItem k := by
  unfold Dict.getItem; rw [h]

theorem deriveEventS_end (h1 : kS ≠ kE) (h3 : kE ≠ kD) (e : Event A Int) (sd : Py Int) :
    (deriveEventS kS kE kD e sd).1.attributes.getItem kE = e.attributes.getItem kE :=
  getItem_congr ((deriveEventS_frame e sd).2.2 kE (Ne.symm h1) h3)

theorem deriveLoopS_refines : ∀ (es : List (Event A Int)) (last : Event A Int),
    deriveLoop kS kE kD last es = (deriveLoopS kS kE kD last es).2.map fun _ => (deriveLoopS kS kE kD last es).1
  | [], _ => rfl
  | e :: es, last => by
    rw [deriveLoop, deriveLoopS, deriveEventS_refines]
    match hx : deriveEventS kS kE kD e (last.attributes.getItem kE) with
    | (e', .error x) => rfl
    | (e', .ok _) =>
      simp only [Except.map, bind, Except.bind]
      rw [deriveLoopS_refines es e']
      cases (deriveLoopS kS kE kD e' es).2 <;> rfl

theorem deriveTraceS_refines (t : Trace I A Int) :
    deriveTrace kS kE kD t = (deriveTraceS kS kE kD t).2.map fun _ => (deriveTraceS kS kE kD t).1 := by
  unfold deriveTrace deriveTraceS
  cases t.events with
  | nil => rfl
  | cons e es =>
    dsimp only
    rw [deriveEventS_refines]
    match hx : deriveEventS kS kE kD e (e.attributes.getItem kE) with
    | (e', .error x) => rfl
    | (e', .ok _) =>
      simp only [Except.map, bind, Except.bind]
      rw [deriveLoopS_refines es e']
      cases (deriveLoopS kS kE kD e' es).2 <;> rfl

/-- C120: the model with states raises the same exceptions and, without an exception, gives the same log -/
theorem C120_states : ∀ log : Log I A Int,
    deriveDuration kS kE kD log = (deriveDurationS kS kE kD log).2.map fun _ => (deriveDurationS kS kE kD log).1
  | [] => rfl
  | t :: log => by
    have ih := C120_states log
    unfold deriveDuration at ih ⊢
    rw [List.mapM_cons, deriveDurationS, deriveTraceS_refines]
    match hx : deriveTraceS kS kE kD t with
    | (t', .error x) => rfl
    | (t', .ok _) =>
      simp only [Except.map, bind, Except.bind]
      rw [ih]
      cases (deriveDurationS kS kE kD log).2 <;> rfl

theorem deriveLoopS_idem (h1 : kS ≠ kE) (h2 : kS ≠ kD) (h3 : kE ≠ kD) : ∀ (es : List (Event A Int)) (last last' : Event A Int),
    last'.attributes.getItem kE = last.attributes.getItem kE →
    deriveLoopS kS kE kD last' (deriveLoopS kS kE kD last es).1 = deriveLoopS kS kE kD last es
  | [], _, _, _ => rfl
  | e :: es, last, last', hl => by
    have hid := deriveEventS_idem h2 h3 e (last.attributes.getItem kE)
    rw [deriveLoopS]
    match hx : deriveEventS kS kE kD e (last.attributes.getItem kE) with
    | (e', .error x) =>
      rw [hx] at hid
      dsimp only at hid ⊢
      rw [deriveLoopS, hl, hid]
    | (e', .ok u) =>
      rw [hx] at hid
      dsimp only at hid ⊢
      rw [deriveLoopS, hl, hid]
      dsimp only
      rw [deriveLoopS_idem h1 h2 h3 es e' e' rfl]

theorem deriveTraceS_idem (h1 : kS ≠ kE) (h2 : kS ≠ kD) (h3 : kE ≠ kD) (t : Trace I A Int) :
    deriveTraceS kS kE kD (deriveTraceS kS kE kD t).1 = deriveTraceS kS kE kD t := by
  cases hev : t.events with
  | nil =>
    have : deriveTraceS kS kE kD t = (t, .error .index) := by unfold deriveTraceS; rw [hev]
    rw [this]; exact this
  | cons e es =>
    have hid := deriveEventS_idem h2 h3 e (e.attributes.getItem kE)
    have hend := deriveEventS_end h1 h3 e (e.attributes.getItem kE)
    have hrun : ∀ (t : Trace I A Int) (e : Event A Int) (es : List (Event A Int)), t.events = e :: es → deriveTraceS kS kE kD t =
        match deriveEventS kS kE kD e (e.attributes.getItem kE) with
        | (e', .error x) => ({ t with events := e' :: es }, .error x)
        | (e', .ok _) => ({ t with events := e' :: (deriveLoopS kS kE kD e' es).1 }, (deriveLoopS kS kE kD e' es).2) := by
      intro t e es h; unfold deriveTraceS; rw [h]; rfl
    rw [hrun t e es hev]
    match hx : deriveEventS kS kE kD e (e.attributes.getItem kE) with
    | (e', .error x) =>
      rw [hx] at hid hend
      dsimp only at hid hend ⊢
      rw [hrun _ e' es rfl, hend, hid]
    | (e', .ok u) =>
      rw [hx] at hid hend
      dsimp only at hid hend ⊢
      rw [hrun _ e' _ rfl, hend, hid]
      dsimp only
      rw [deriveLoopS_idem h1 h2 h3 es e' e' rfl]

/-- C120: calling it again changes nothing more and raises the same exception, if there was one -/
theorem C120_again (h1 : kS ≠ kE) (h2 : kS ≠ kD) (h3 : kE ≠ kD) : ∀ log : Log I A Int,
    deriveDurationS kS kE kD (deriveDurationS kS kE kD log).1 = deriveDurationS kS kE kD log
  | [] => rfl
  | t :: log => by
    have hid := deriveTraceS_idem h1 h2 h3 t
    rw [deriveDurationS]
    match hx : deriveTraceS kS kE kD t with
    | (t', .error x) =>
      rw [hx] at hid
      dsimp only at hid ⊢
      rw [deriveDurationS, hid]
    | (t', .ok u) =>
      rw [hx] at hid
      dsimp only at hid ⊢
      rw [deriveDurationS, hid]
      dsimp only
      rw [C120_again h1 h2 h3 log]

/-! ### what is left after an exception -/

theorem eventDerived_of_ok (h1 : kS ≠ kE) (h2 : kS ≠ kD) (h3 : kE ≠ kD) {e e' : Event A Int} {sd : Py Int} {prev : Option Int} {u : Unit}
    (hsd : ∀ stop, e.attributes.get? kE = some stop → sd = .ok (prev.getD stop)) (hsd' : ∀ x, sd = .error x → x = .key)
    (h : deriveEventS kS kE kD e sd = (e', .ok u)) : ∃ stop, EventDerived kS kE kD prev e e' stop ∧ e'.attributes.get? kE = some stop := by
  have hr : deriveEvent kS kE kD e sd = .ok e' := by rw [deriveEventS_refines, h]; rfl
  cases he : e.attributes.get? kE with
  | none => rw [deriveEvent_noEnd h1 he hsd'] at hr; cases hr
  | some stop =>
    obtain ⟨k1, k2⟩ := deriveEvent_ok (kD := kD) h1 h2 h3 he (start_of (kS := kS) (hsd stop he))
    by_cases hle : startDate kS prev e stop ≤ stop
    · obtain ⟨e2, r1, r2, r3, r4⟩ := k1 hle
      rw [hr] at r1
      cases r1
      exact ⟨stop, ⟨he, hle, r2, r3, r4⟩, by rw [r4, if_neg h3, if_neg (Ne.symm h1), he]⟩
    · rw [k2 (by omega)] at hr; cases hr

theorem deriveLoopS_error (h1 : kS ≠ kE) (h2 : kS ≠ kD) (h3 : kE ≠ kD) : ∀ (es : List (Event A Int)) (last : Event A Int) (p : Int),
    last.attributes.get? kE = some p →
    ((deriveLoopS kS kE kD last es).2 = .ok () → Derived kS kE kD (some p) es (deriveLoopS kS kE kD last es).1) ∧
    ∀ x, (deriveLoopS kS kE kD last es).2 = .error x → ∃ done done' e e' rest, es = done ++ e :: rest ∧
      (deriveLoopS kS kE kD last es).1 = done' ++ e' :: rest ∧ Derived kS kE kD (some p) done done' ∧ OnlyDates kS kD e e'
  | [], _, _, _ => ⟨fun _ => .nil, fun x hx => by cases hx⟩
  | e :: es, last, p, hp => by
    have hlast : last.attributes.getItem kE = .ok p := by unfold Dict.getItem; rw [hp]
    rw [deriveLoopS]
    match hx : deriveEventS kS kE kD e (last.attributes.getItem kE) with
    | (e', .error x) =>
      refine ⟨(fun h => nomatch (h : (Except.error x : Py Unit) = .ok ())), fun y hy => ⟨[], [], e, e', es, rfl, rfl, .nil, ?_⟩⟩
      have := deriveEventS_frame (kS := kS) (kE := kE) (kD := kD) e (last.attributes.getItem kE)
      rw [hx] at this
      exact this
    | (e', .ok u) =>
      dsimp only
      obtain ⟨stop, hd, he'⟩ := eventDerived_of_ok (prev := some p) h1 h2 h3 (fun _ _ => hlast) (by rw [hlast]; intro x h; cases h) hx
      obtain ⟨i1, i2⟩ := deriveLoopS_error h1 h2 h3 es e' stop he'
      refine ⟨fun h => .cons hd (i1 h), fun x hx => ?_⟩
      obtain ⟨done, done', f, f', rest, j1, j2, j3, j4⟩ := i2 x hx
      exact ⟨e :: done, e' :: done', f, f', rest, by rw [j1]; rfl, by rw [j2]; rfl, .cons hd j3, j4⟩

/-- C120: after an exception, all traces before some trace have their durations, and so have all events before some event of this trace. In this
event at most the start date and the duration have changed; everything that follows is as it was. (If the trace is empty, it is as it was.) -/
theorem C120_after_exception (h1 : kS ≠ kE) (h2 : kS ≠ kD) (h3 : kE ≠ kD) : ∀ (log : Log I A Int) (x : PyErr),
    (deriveDurationS kS kE kD log).2 = .error x →
    ∃ done done' t t' rest, log = done ++ t :: rest ∧ (deriveDurationS kS kE kD log).1 = done' ++ t' :: rest ∧
      List.Forall₂ (fun t t' => t'.id = t.id ∧ t'.attributes = t.attributes ∧ Derived kS kE kD none t.events t'.events) done done' ∧
      t'.id = t.id ∧ t'.attributes = t.attributes ∧
      ((t.events = [] ∧ t'.events = []) ∨ ∃ es es' e e' after, t.events = es ++ e :: after ∧ t'.events = es' ++ e' :: after ∧
        Derived kS kE kD none es es' ∧ OnlyDates kS kD e e')
  | [], x, hx => by cases hx
  | t :: log, x, hx => by
    have hspec : ((deriveTraceS kS kE kD t).2 = .ok () → (deriveTraceS kS kE kD t).1.id = t.id ∧
          (deriveTraceS kS kE kD t).1.attributes = t.attributes ∧ Derived kS kE kD none t.events (deriveTraceS kS kE kD t).1.events) ∧
        ∀ y, (deriveTraceS kS kE kD t).2 = .error y → (deriveTraceS kS kE kD t).1.id = t.id ∧
          (deriveTraceS kS kE kD t).1.attributes = t.attributes ∧
          ((t.events = [] ∧ (deriveTraceS kS kE kD t).1.events = []) ∨ ∃ es es' e e' after, t.events = es ++ e :: after ∧
            (deriveTraceS kS kE kD t).1.events = es' ++ e' :: after ∧ Derived kS kE kD none es es' ∧ OnlyDates kS kD e e') := by
      unfold deriveTraceS
      cases hev : t.events with
      | nil => exact ⟨(fun h => nomatch (h : (Except.error PyErr.index : Py Unit) = .ok ())), fun y _ => ⟨rfl, rfl, Or.inl ⟨rfl, hev⟩⟩⟩
      | cons e es =>
        dsimp only
        match hx : deriveEventS kS kE kD e (e.attributes.getItem kE) with
        | (e', .error z) =>
          refine ⟨(fun h => by cases h), fun y _ => ⟨rfl, rfl, .inr ⟨[], [], e, e', es, rfl, rfl, .nil, ?_⟩⟩⟩
          have := deriveEventS_frame (kS := kS) (kE := kE) (kD := kD) e (e.attributes.getItem kE)
          rw [hx] at this
          exact this
        | (e', .ok u) =>
          dsimp only
          obtain ⟨stop, hd, he'⟩ := eventDerived_of_ok (prev := none) h1 h2 h3 (fun stop h => by unfold Dict.getItem; rw [h]; rfl)
            (fun z h => by
              unfold Dict.getItem at h
              split at h
              · cases h
              · cases h; rfl) hx
          obtain ⟨i1, i2⟩ := deriveLoopS_error h1 h2 h3 es e' stop he'
          refine ⟨fun h => ⟨rfl, rfl, .cons hd (i1 h)⟩, fun y hy => ⟨rfl, rfl, .inr ?_⟩⟩
          obtain ⟨done, done', f, f', rest, j1, j2, j3, j4⟩ := i2 y hy
          exact ⟨e :: done, e' :: done', f, f', rest, by rw [j1]; rfl, by rw [j2]; rfl, .cons hd j3, j4⟩
    rw [deriveDurationS] at hx ⊢
    match hy : deriveTraceS kS kE kD t with
    | (t', .error y) =>
      rw [hy] at hspec
      obtain ⟨s1, s2, s3⟩ := hspec.2 y rfl
      exact ⟨[], [], t, t', log, rfl, rfl, .nil, s1, s2, s3⟩
    | (t', .ok u) =>
      rw [hy] at hx hspec
      obtain ⟨done, done', s, s', rest, j1, j2, j3, j4⟩ := C120_after_exception h1 h2 h3 log x hx
      exact ⟨t :: done, t' :: done', s, s', rest, by rw [j1]; rfl, by dsimp only; rw [j2]; rfl, .cons (hspec.1 rfl) j3, j4⟩

/-- the third event ends before the second one: the first two have got their durations, the third one a start date and a negative duration -/
example : deriveDurationS "s" "e" "d" [(⟨1, [⟨'a', [("e", 3)], none⟩, ⟨'b', [("e", 7)], none⟩, ⟨'c', [("e", 5)], none⟩], []⟩ : Trace Nat Char Int)] =
    ([⟨1, [⟨'a', [("e", 3), ("s", 3), ("d", 0)], none⟩, ⟨'b', [("e", 7), ("s", 3), ("d", 4)], none⟩,
      ⟨'c', [("e", 5), ("s", 7), ("d", -2)], none⟩], []⟩], .error .value) := by decide

end Prolothar.LogTable
