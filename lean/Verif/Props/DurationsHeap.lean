import Verif.Model.DurationsHeap
import Verif.Props.EventLogHeap
import Verif.Props.LogDurations
/-
C188: durations on event logs with object identities.
-/
namespace Prolothar.DurationsHeap
open Prolothar.EventLog Prolothar.EventLogHeap Prolothar.LogTable
variable {I A : Type} {kS kE kD : String}

/-- only the event objects `ids` have changed -/
def OnlyEvents (h h' : Heap I A Int) (ids : List Nat) : Prop :=
  h' = { h with event := h'.event } ∧ ∀ e, e ∉ ids → h'.event e = h.event e

theorem OnlyEvents.refl (h : Heap I A Int) (ids : List Nat) : OnlyEvents h h ids := ⟨rfl, fun _ _ => rfl⟩

theorem OnlyEvents.trans {h h' h'' : Heap I A Int} {a b : List Nat} (x : OnlyEvents h h' a) (y : OnlyEvents h' h'' b) : OnlyEvents h h'' (a ++ b) := by
  refine ⟨?_, fun e he => ?_⟩
  · obtain ⟨x1, _⟩ := x
    obtain ⟨y1, _⟩ := y
    rw [x1] at y1
    exact y1
  · rw [List.mem_append, not_or] at he
    rw [y.2 e he.2, x.2 e he.1]

theorem OnlyEvents.mono {h h' : Heap I A Int} {a b : List Nat} (x : OnlyEvents h h' a) (hs : ∀ e ∈ a, e ∈ b) : OnlyEvents h h' b :=
  ⟨x.1, fun e he => x.2 e fun hc => he (hs e hc)⟩

theorem OnlyEvents.list {h h' : Heap I A Int} {a : List Nat} (x : OnlyEvents h h' a) (t : Nat) :
    h'.list (h'.traceEvents t) = h.list (h.traceEvents t) := by
  rw [x.1]

theorem OnlyEvents.traces {h h' : Heap I A Int} {a : List Nat} (x : OnlyEvents h h' a) : h'.traces = h.traces := by
  rw [x.1]

theorem OnlyEvents.view {h h' : Heap I A Int} {a : List Nat} (x : OnlyEvents h h' a) (t : Nat) :
    viewTrace h' t = { viewTrace h t with events := (h.list (h.traceEvents t)).map h'.event } := by
  rw [x.1]
  rfl

theorem OnlyEvents.view_eq {h h' : Heap I A Int} {a : List Nat} (x : OnlyEvents h h' a) {t : Nat} (ht : ∀ e ∈ h.list (h.traceEvents t), e ∉ a) :
    viewTrace h' t = viewTrace h t := by
  rw [x.view, List.map_congr_left fun e he => x.2 e (ht e he)]
  rfl

theorem deriveObj_only (h : Heap I A Int) (e : Nat) (sd : Py Int) : OnlyEvents h (deriveObj kS kE kD h e sd).1 [e] :=
  ⟨rfl, fun _ hx => upd_ne _ _ (List.mem_singleton.not.1 hx)⟩

theorem deriveObjs_spec : ∀ (es : List Nat) (h : Heap I A Int) (last : Nat), es.Nodup → last ∉ es →
    OnlyEvents h (deriveObjs kS kE kD h last es).1 es ∧
    es.map (deriveObjs kS kE kD h last es).1.event = (deriveLoopS kS kE kD (h.event last) (es.map h.event)).1 ∧
    (deriveObjs kS kE kD h last es).2 = (deriveLoopS kS kE kD (h.event last) (es.map h.event)).2
  | [], h, last, _, _ => ⟨OnlyEvents.refl h [], rfl, rfl⟩
  | e :: es, h, last, hn, hl => by
    obtain ⟨hne, hn⟩ := List.nodup_cons.1 hn
    rw [deriveObjs, List.map_cons (f := h.event), deriveLoopS]
    have honly := deriveObj_only (kS := kS) (kE := kE) (kD := kD) h e ((h.event last).attributes.getItem kE)
    have hev : (deriveObj kS kE kD h e ((h.event last).attributes.getItem kE)).1.event e =
        (deriveEventS kS kE kD (h.event e) ((h.event last).attributes.getItem kE)).1 := upd_self _ _ _
    have hres : (deriveObj kS kE kD h e ((h.event last).attributes.getItem kE)).2 =
        (deriveEventS kS kE kD (h.event e) ((h.event last).attributes.getItem kE)).2 := rfl
    generalize deriveObj kS kE kD h e ((h.event last).attributes.getItem kE) = r at honly hev hres
    have hrest : es.map r.1.event = es.map h.event :=
      List.map_congr_left fun x hx => honly.2 x (List.mem_singleton.not.2 fun hc => hne (hc ▸ hx))
    match hx : deriveEventS kS kE kD (h.event e) ((h.event last).attributes.getItem kE) with
    | (e', .error x) =>
      rw [hx] at hev hres
      dsimp only at hev hres ⊢
      rw [hres]
      dsimp only
      refine ⟨honly.mono fun y hy => by rw [List.mem_singleton.1 hy]; exact List.mem_cons_self, ?_, rfl⟩
      rw [List.map_cons, hev, hrest]
    | (e', .ok u) =>
      rw [hx] at hev hres
      dsimp only at hev hres ⊢
      rw [hres]
      dsimp only
      obtain ⟨i1, i2, i3⟩ := deriveObjs_spec es r.1 e hn hne
      rw [hev, hrest] at i2 i3
      refine ⟨honly.trans i1, ?_, i3⟩
      rw [List.map_cons, i2, i1.2 e hne, hev]

theorem deriveTraceObj_spec (h : Heap I A Int) (t : Nat) (hn : (h.list (h.traceEvents t)).Nodup) :
    OnlyEvents h (deriveTraceObj kS kE kD h t).1 (h.list (h.traceEvents t)) ∧
    viewTrace (deriveTraceObj kS kE kD h t).1 t = (deriveTraceS kS kE kD (viewTrace h t)).1 ∧
    (deriveTraceObj kS kE kD h t).2 = (deriveTraceS kS kE kD (viewTrace h t)).2 := by
  unfold deriveTraceObj deriveTraceS
  have hview : (viewTrace h t).events = (h.list (h.traceEvents t)).map h.event := rfl
  rw [hview]
  match hes : h.list (h.traceEvents t) with
  | [] => exact ⟨OnlyEvents.refl h [], rfl, rfl⟩
  | e :: es =>
    rw [hes] at hn
    obtain ⟨hne, hn⟩ := List.nodup_cons.1 hn
    rw [List.map_cons]
    dsimp only
    have honly := deriveObj_only (kS := kS) (kE := kE) (kD := kD) h e ((h.event e).attributes.getItem kE)
    have hev : (deriveObj kS kE kD h e ((h.event e).attributes.getItem kE)).1.event e =
        (deriveEventS kS kE kD (h.event e) ((h.event e).attributes.getItem kE)).1 := upd_self _ _ _
    have hres : (deriveObj kS kE kD h e ((h.event e).attributes.getItem kE)).2 =
        (deriveEventS kS kE kD (h.event e) ((h.event e).attributes.getItem kE)).2 := rfl
    generalize deriveObj kS kE kD h e ((h.event e).attributes.getItem kE) = r at honly hev hres
    have hrest : es.map r.1.event = es.map h.event :=
      List.map_congr_left fun x hx => honly.2 x (List.mem_singleton.not.2 fun hc => hne (hc ▸ hx))
    match hx : deriveEventS kS kE kD (h.event e) ((h.event e).attributes.getItem kE) with
    | (e', .error x) =>
      rw [hx] at hev hres
      dsimp only at hev hres ⊢
      rw [hres]
      dsimp only
      refine ⟨honly.mono fun y hy => by rw [List.mem_singleton.1 hy]; exact List.mem_cons_self, ?_, rfl⟩
      rw [honly.view, hes, List.map_cons, hev, hrest]
    | (e', .ok u) =>
      rw [hx] at hev hres
      dsimp only at hev hres ⊢
      rw [hres]
      dsimp only
      obtain ⟨i1, i2, i3⟩ := deriveObjs_spec (kS := kS) (kE := kE) (kD := kD) es r.1 e hn hne
      rw [hev, hrest] at i2 i3
      refine ⟨honly.trans i1, ?_, i3⟩
      rw [(honly.trans i1).view, hes, List.map_cons, i2, i1.2 e hne, hev]

theorem deriveTraces_spec : ∀ (ts : List Nat) (h : Heap I A Int), (eventsOf h ts).Nodup →
    OnlyEvents h (deriveTraces kS kE kD h ts).1 (eventsOf h ts) ∧
    ts.map (viewTrace (deriveTraces kS kE kD h ts).1) = (deriveDurationS kS kE kD (ts.map (viewTrace h))).1 ∧
    (deriveTraces kS kE kD h ts).2 = (deriveDurationS kS kE kD (ts.map (viewTrace h))).2
  | [], h, _ => ⟨OnlyEvents.refl h [], rfl, rfl⟩
  | t :: ts, h, hn => by
    have hn' : (h.list (h.traceEvents t) ++ eventsOf h ts).Nodup := hn
    obtain ⟨n1, n2, n3⟩ := List.nodup_append.1 hn'
    obtain ⟨a1, a2, a3⟩ := deriveTraceObj_spec (kS := kS) (kE := kE) (kD := kD) h t n1
    rw [deriveTraces, List.map_cons (f := viewTrace h), deriveDurationS]
    generalize deriveTraceObj kS kE kD h t = r at a1 a2 a3
    have hevs : eventsOf r.1 ts = eventsOf h ts := List.flatMap_congr fun x _ => a1.list x
    have hrest : ts.map (viewTrace r.1) = ts.map (viewTrace h) :=
      List.map_congr_left fun x hx => a1.view_eq fun e he hc => n3 e hc e (List.mem_flatMap.2 ⟨x, hx, he⟩) rfl
    match hx : deriveTraceS kS kE kD (viewTrace h t) with
    | (t', .error x) =>
      rw [hx] at a2 a3
      dsimp only at a2 a3 ⊢
      rw [a3]
      dsimp only
      refine ⟨a1.mono fun y hy => List.mem_append_left _ hy, ?_, rfl⟩
      rw [List.map_cons, a2, hrest]
    | (t', .ok u) =>
      rw [hx] at a2 a3
      dsimp only at a2 a3 ⊢
      rw [a3]
      dsimp only
      obtain ⟨i1, i2, i3⟩ := deriveTraces_spec ts r.1 (by rw [hevs]; exact n2)
      rw [hrest] at i2 i3
      rw [hevs] at i1
      refine ⟨a1.trans i1, ?_, i3⟩
      rw [List.map_cons, i2, ← a2]
      congr 1
      exact i1.view_eq fun e he hc => n3 e (by rw [← a1.list]; exact he) e hc rfl

/-! ### the theorems -/

/-- C188: If no event object occurs twice in a log, the log gets the durations of C120, with the same exception. A log that has no event
object in common with it stays as it is. -/
theorem C188_derive (h : Heap I A Int) (l : Nat) (hev : (eventsOf h (h.traces l)).Nodup) :
    view (derive kS kE kD h l).1 l = (deriveDurationS kS kE kD (view h l)).1 ∧
    (derive kS kE kD h l).2 = (deriveDurationS kS kE kD (view h l)).2 ∧
    ∀ m, (∀ e ∈ eventsOf h (h.traces m), e ∉ eventsOf h (h.traces l)) → view (derive kS kE kD h l).1 m = view h m := by
  obtain ⟨a1, a2, a3⟩ := deriveTraces_spec (kS := kS) (kE := kE) (kD := kD) (h.traces l) h hev
  unfold derive
  refine ⟨?_, a3, fun m hm => ?_⟩
  · unfold view
    rw [a1.traces]
    exact a2
  · unfold view
    rw [a1.traces]
    exact List.map_congr_left fun t ht => a1.view_eq fun e he => hm e (List.mem_flatMap.2 ⟨t, ht, he⟩)

theorem map_pair {α β γ : Type} {f : α → β} {g : α → γ} : ∀ {a b : List α}, a.map f = b.map f → a.map g = b.map g →
    a.map (fun x => (f x, g x)) = b.map fun x => (f x, g x)
  | [], [], _, _ => rfl
  | [], y :: b, h, _ => by cases h
  | x :: a, [], h, _ => by cases h
  | x :: a, y :: b, h, h' => by
    rw [List.map_cons, List.map_cons, List.cons.injEq] at h h' ⊢
    exact ⟨Prod.ext h.1 h'.1, map_pair h.2 h'.2⟩

/-- C188: A copy shares its events with the original log: durations that are derived in the copy are in the original log too. Deriving them in
the original log afterwards changes nothing more, in either log. -/
theorem C188_copy [DecidableEq A] (k1 : kS ≠ kE) (k2 : kS ≠ kD) (k3 : kE ≠ kD) {h h1 : Heap I A Int} (hi : Inv h.traces h) {src dst : Nat} (hne : src ≠ dst)
    (hc : copy h src dst = .ok h1) (hev : (eventsOf h (h.traces src)).Nodup) :
    let log' := deriveDurationS kS kE kD (view h src)
    let r := derive kS kE kD h1 dst
    r.2 = log'.2 ∧ view r.1 dst = log'.1 ∧ view r.1 src = log'.1 ∧
    (derive kS kE kD r.1 src).2 = log'.2 ∧ view (derive kS kE kD r.1 src).1 src = log'.1 ∧ view (derive kS kE kD r.1 src).1 dst = log'.1 := by
  intro log' r
  rcases copy_spec hi src dst with ⟨_, h2⟩ | ⟨_, h', b1, b2, b3, b4, b5, b6⟩
  · rw [hc] at h2; cases h2
  rw [hc] at b1
  cases b1
  obtain ⟨c1, c2⟩ := b6 src hne
  have hsrc : (h1.traces src).map (fun t => h1.list (h1.traceEvents t)) = (h.traces src).map fun t => h.list (h.traceEvents t) := by
    rw [c1]; exact List.map_congr_left c2
  have hlists : (h1.traces src).map (fun t => h1.list (h1.traceEvents t)) = (h1.traces dst).map fun t => h1.list (h1.traceEvents t) := by
    rw [hsrc, b5]
  have hviews : (h1.traces src).map (viewTrace h1) = (h1.traces dst).map (viewTrace h1) := by
    show view h1 src = view h1 dst
    rw [b3, upd_self, upd_ne _ _ hne]
  have hflat : ∀ (g : Heap I A Int) (ts : List Nat), eventsOf g ts = (ts.map fun t => g.list (g.traceEvents t)).flatten := fun g ts => by
    unfold eventsOf; rw [List.flatMap_def]
  have hevd : eventsOf h1 (h1.traces dst) = eventsOf h (h.traces src) := by rw [hflat, hflat, b5]
  have hevs : eventsOf h1 (h1.traces src) = eventsOf h (h.traces src) := by rw [hflat, hflat, hsrc]
  have hvd : view h1 dst = view h src := by rw [b3, upd_self]
  -- after any change of event objects, the two logs look the same
  have hsame : ∀ (g : Heap I A Int) (ids : List Nat), OnlyEvents h1 g ids → view g src = view g dst := by
    intro g ids ho
    unfold view
    rw [ho.traces]
    have hp := map_pair hviews hlists
    have he : ∀ ts : List Nat, ts.map (viewTrace g) =
        (ts.map fun t => (viewTrace h1 t, h1.list (h1.traceEvents t))).map fun p => { p.1 with events := p.2.map g.event } := by
      intro ts
      rw [List.map_map]
      exact List.map_congr_left fun t _ => ho.view t
    rw [he, he, hp]
  have o1 := (deriveTraces_spec (kS := kS) (kE := kE) (kD := kD) (h1.traces dst) h1 (by rw [hevd]; exact hev)).1
  obtain ⟨d1, d2, _⟩ := C188_derive (kS := kS) (kE := kE) (kD := kD) h1 dst (by rw [hevd]; exact hev)
  rw [hvd] at d1 d2
  have o1' : OnlyEvents h1 r.1 (eventsOf h1 (h1.traces dst)) := o1
  have hr : eventsOf r.1 (r.1.traces src) = eventsOf h (h.traces src) := by
    rw [o1'.traces, ← hevs]
    exact List.flatMap_congr fun t _ => o1'.list t
  have s1 : view r.1 src = log'.1 := by rw [hsame r.1 _ o1']; exact d1
  have o2 := (deriveTraces_spec (kS := kS) (kE := kE) (kD := kD) (r.1.traces src) r.1 (by rw [hr]; exact hev)).1
  obtain ⟨f1, f2, _⟩ := C188_derive (kS := kS) (kE := kE) (kD := kD) r.1 src (by rw [hr]; exact hev)
  rw [s1, C120_again k1 k2 k3] at f1 f2
  refine ⟨d2, d1, s1, f2, f1, ?_⟩
  exact (hsame _ _ (o1'.trans o2)).symm.trans f1

/-! ### concrete cases -/

/-- no objects -/
def empty : Heap Nat Char Int := ⟨fun _ => ⟨'?', [], none⟩, fun _ => [], fun _ => [], fun _ => 0, fun _ => 0, fun _ => 0, fun _ => [], 0⟩

theorem empty_inv : Inv empty.traces empty :=
  ⟨fun _ => List.nodup_nil, fun _ _ _ h => (by cases h), fun _ _ ⟨_, h⟩ => (by cases h), fun _ _ ⟨_, h⟩ => (by cases h), fun _ ⟨_, h⟩ => (by cases h)⟩

/-- a log and its copy; the durations are derived in the copy -/
example : (do
    let h ← run empty [.addTrace 0 7 [⟨'a', [("end", 3)], none⟩, ⟨'b', [("end", 5)], none⟩] [], .copy 0 1]
    return (decide (eventsOf h (h.traces 0)).Nodup, view (derive "start" "end" "dur" h 1).1 0) : Py _) =
    .ok (true, [⟨7, [⟨'a', [("end", 3), ("start", 3), ("dur", 0)], none⟩, ⟨'b', [("end", 5), ("start", 3), ("dur", 2)], none⟩], []⟩]) := by decide +kernel

/-- C188: an event object that occurs twice in a trace keeps its first start date, so that the durations are not those of a trace with two equal
events: here the last event gets the duration 0 and not 3 - 4, which would be an exception -/
theorem C188_twice_witness : (do
    let h ← run empty [.addTrace 0 7 [⟨'a', [("end", 3)], none⟩, ⟨'b', [("end", 4)], none⟩] []]
    let h := { h with list := fun a => h.list a ++ (h.list a).take 1 }
    return (view h 0, (derive "start" "end" "dur" h 0).2.isOk, (deriveDurationS "start" "end" "dur" (view h 0)).2.isOk) : Py _) =
    .ok ([⟨7, [⟨'a', [("end", 3)], none⟩, ⟨'b', [("end", 4)], none⟩, ⟨'a', [("end", 3)], none⟩], []⟩], true, false) := by decide +kernel

end Prolothar.DurationsHeap
