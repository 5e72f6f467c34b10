import Verif.Model.EventLogHeap
import Verif.Spec.LogStore
/-
Ownership invariant of event logs with object identities.
-/
namespace Prolothar.EventLogHeap
open Prolothar.EventLog Prolothar.LogStore
variable {I A V : Type} {κ : Type}

/-- the trace object is in some log -/
def Live (tr : κ → List Nat) (t : Nat) : Prop := ∃ k, t ∈ tr k

/-- No trace object is in two logs or twice in a log, no list or dictionary belongs to two traces; all objects are allocated.
Event objects may be shared. -/
structure Inv (tr : κ → List Nat) (h : Heap I A V) : Prop where
  nodup : ∀ k, (tr k).Nodup
  disj : ∀ k k' t, t ∈ tr k → t ∈ tr k' → k = k'
  lists : ∀ t t', Live tr t → Live tr t' → h.traceEvents t = h.traceEvents t' → t = t'
  dicts : ∀ t t', Live tr t → Live tr t' → h.traceAttributes t = h.traceAttributes t' → t = t'
  bound : ∀ t, Live tr t → t < h.next ∧ h.traceEvents t < h.next ∧ h.traceAttributes t < h.next ∧
    ∀ e ∈ h.list (h.traceEvents t), e < h.next

theorem viewTrace_congr {h h' : Heap I A V} {t : Nat} (h1 : h'.traceId t = h.traceId t)
    (h2 : h'.list (h'.traceEvents t) = h.list (h.traceEvents t))
    (h3 : h'.dict (h'.traceAttributes t) = h.dict (h.traceAttributes t))
    (h4 : ∀ e ∈ h.list (h.traceEvents t), h'.event e = h.event e) : viewTrace h' t = viewTrace h t := by
  unfold viewTrace
  rw [h1, h2, h3, List.map_congr_left h4]

/-- the old objects are unchanged -/
structure Agree (h h' : Heap I A V) : Prop where
  next : h.next ≤ h'.next
  event : ∀ a < h.next, h'.event a = h.event a
  list : ∀ a < h.next, h'.list a = h.list a
  dict : ∀ a < h.next, h'.dict a = h.dict a
  id : ∀ a < h.next, h'.traceId a = h.traceId a
  events : ∀ a < h.next, h'.traceEvents a = h.traceEvents a
  attributes : ∀ a < h.next, h'.traceAttributes a = h.traceAttributes a
  traces : h'.traces = h.traces

theorem Agree.refl (h : Heap I A V) : Agree h h := ⟨le_refl _, fun _ _ => rfl, fun _ _ => rfl, fun _ _ => rfl, fun _ _ => rfl, fun _ _ => rfl, fun _ _ => rfl, rfl⟩

theorem Agree.trans {h h' h'' : Heap I A V} (a : Agree h h') (b : Agree h' h'') : Agree h h'' :=
  ⟨a.next.trans b.next, fun x hx => (b.event x (hx.trans_le a.next)).trans (a.event x hx),
    fun x hx => (b.list x (hx.trans_le a.next)).trans (a.list x hx), fun x hx => (b.dict x (hx.trans_le a.next)).trans (a.dict x hx),
    fun x hx => (b.id x (hx.trans_le a.next)).trans (a.id x hx), fun x hx => (b.events x (hx.trans_le a.next)).trans (a.events x hx),
    fun x hx => (b.attributes x (hx.trans_le a.next)).trans (a.attributes x hx), b.traces.trans a.traces⟩

theorem agree_newEvent (h : Heap I A V) (e : Event A V) : Agree h (newEvent h e).1 :=
  ⟨Nat.le_succ _, fun _ ha => upd_ne _ _ (Nat.ne_of_lt ha), fun _ _ => rfl, fun _ _ => rfl, fun _ _ => rfl, fun _ _ => rfl, fun _ _ => rfl, rfl⟩

theorem agree_newList (h : Heap I A V) (es : List Nat) : Agree h (newList h es).1 :=
  ⟨Nat.le_succ _, fun _ _ => rfl, fun _ ha => upd_ne _ _ (Nat.ne_of_lt ha), fun _ _ => rfl, fun _ _ => rfl, fun _ _ => rfl, fun _ _ => rfl, rfl⟩

theorem agree_newDict (h : Heap I A V) (d : Dict String V) : Agree h (newDict h d).1 :=
  ⟨Nat.le_succ _, fun _ _ => rfl, fun _ _ => rfl, fun _ ha => upd_ne _ _ (Nat.ne_of_lt ha), fun _ _ => rfl, fun _ _ => rfl, fun _ _ => rfl, rfl⟩

theorem newTrace_ok {h : Heap I A V} {id : I} {la da : Nat} (hne : h.list la ≠ []) :
    ∃ h', newTrace h id la da = .ok (h', h.next) ∧ Agree h h' ∧ h'.next = h.next + 1 ∧ h'.traceId h.next = id ∧
      h'.traceEvents h.next = la ∧ h'.traceAttributes h.next = da ∧ h'.list = h.list ∧ h'.dict = h.dict ∧ h'.event = h.event := by
  refine ⟨{ h with traceId := upd h.traceId h.next id, traceEvents := upd h.traceEvents h.next la,
                   traceAttributes := upd h.traceAttributes h.next da, next := h.next + 1 }, by unfold newTrace; rw [if_neg hne], ⟨Nat.le_succ _, fun _ _ => rfl, fun _ _ => rfl, fun _ _ => rfl, fun _ ha => upd_ne _ _ (Nat.ne_of_lt ha),
    fun _ ha => upd_ne _ _ (Nat.ne_of_lt ha), fun _ ha => upd_ne _ _ (Nat.ne_of_lt ha), rfl⟩, rfl, upd_self _ _ _, upd_self _ _ _, upd_self _ _ _, rfl, rfl, rfl⟩

theorem Agree.view {tr : κ → List Nat} {h h' : Heap I A V} (a : Agree h h') (hi : Inv tr h) {t : Nat} (ht : Live tr t) :
    viewTrace h' t = viewTrace h t := by
  obtain ⟨h1, h2, h3, h4⟩ := hi.bound t ht
  refine viewTrace_congr (a.id t h1) ?_ ?_ fun e he => a.event e (h4 e he)
  · rw [a.events t h1, a.list _ h2]
  · rw [a.attributes t h1, a.dict _ h3]

theorem Agree.inv {tr : κ → List Nat} {h h' : Heap I A V} (a : Agree h h') (hi : Inv tr h) : Inv tr h' := by
  refine ⟨hi.nodup, hi.disj, fun t t' ht ht' he => ?_, fun t t' ht ht' he => ?_, fun t ht => ?_⟩
  · rw [a.events t (hi.bound t ht).1, a.events t' (hi.bound t' ht').1] at he
    exact hi.lists t t' ht ht' he
  · rw [a.attributes t (hi.bound t ht).1, a.attributes t' (hi.bound t' ht').1] at he
    exact hi.dicts t t' ht ht' he
  · obtain ⟨h1, h2, h3, h4⟩ := hi.bound t ht
    rw [a.events t h1, a.attributes t h1, a.list _ h2]
    exact ⟨h1.trans_le a.next, h2.trans_le a.next, h3.trans_le a.next, fun e he => (h4 e he).trans_le a.next⟩

/-- a new trace with its own list and dictionary keeps the invariant -/
theorem Inv.add {tr : κ → List Nat} {h h' : Heap I A V} [DecidableEq κ] (hi : Inv tr h) (a : Agree h h') {t : Nat} (ht : h.next ≤ t ∧ t < h'.next)
    (hl : h.next ≤ h'.traceEvents t ∧ h'.traceEvents t < h'.next) (hd : h.next ≤ h'.traceAttributes t ∧ h'.traceAttributes t < h'.next)
    (he : ∀ e ∈ h'.list (h'.traceEvents t), e < h'.next) (k : κ) : Inv (upd tr k (tr k ++ [t])) h' := by
  have hi' := a.inv hi
  have hmem : ∀ x j, x ∈ upd tr k (tr k ++ [t]) j ↔ x ∈ tr j ∨ (x = t ∧ j = k) := by
    intro x j
    by_cases hj : j = k
    · subst hj; simp
    · rw [upd_ne _ _ hj]; simp [hj]
  have hlive : ∀ x, Live (upd tr k (tr k ++ [t])) x → Live tr x ∨ x = t := by
    rintro x ⟨j, hj⟩
    rcases (hmem x j).1 hj with h | h
    · exact Or.inl ⟨j, h⟩
    · exact Or.inr h.1
  have hnl : ¬ Live tr t := fun hl => absurd (hi.bound t hl).1 (by omega)
  refine ⟨fun j => ?_, fun j j' x hx hx' => ?_, fun x y hx hy hxy => ?_, fun x y hx hy hxy => ?_, fun x hx => ?_⟩
  · by_cases hj : j = k
    · subst hj
      rw [upd_self]
      refine List.nodup_append.2 ⟨hi.nodup j, List.nodup_singleton _, ?_⟩
      rintro x hx y hy rfl
      obtain rfl := List.mem_singleton.1 hy
      exact hnl ⟨j, hx⟩
    · rw [upd_ne _ _ hj]; exact hi.nodup j
  · rcases (hmem x j).1 hx with h1 | h1 <;> rcases (hmem x j').1 hx' with h2 | h2
    · exact hi.disj j j' x h1 h2
    · obtain ⟨rfl, _⟩ := h2; exact absurd ⟨j, h1⟩ hnl
    · obtain ⟨rfl, _⟩ := h1; exact absurd ⟨j', h2⟩ hnl
    · rw [h1.2, h2.2]
  · have hfar : ∀ z, Live tr z → h'.traceEvents z < h.next := fun z hz => by
      rw [a.events z (hi.bound z hz).1]; exact (hi.bound z hz).2.1
    rcases hlive x hx with h1 | rfl <;> rcases hlive y hy with h2 | rfl
    · exact hi'.lists x y h1 h2 hxy
    · have := hfar x h1; omega
    · have := hfar y h2; omega
    · rfl
  · have hfar : ∀ z, Live tr z → h'.traceAttributes z < h.next := fun z hz => by
      rw [a.attributes z (hi.bound z hz).1]; exact (hi.bound z hz).2.2.1
    rcases hlive x hx with h1 | rfl <;> rcases hlive y hy with h2 | rfl
    · exact hi'.dicts x y h1 h2 hxy
    · have := hfar x h1; omega
    · have := hfar y h2; omega
    · rfl
  · rcases hlive x hx with h1 | rfl
    · exact hi'.bound x h1
    · exact ⟨ht.2, hl.2, hd.2, he⟩

/-- the invariant only depends on which traces belong together -/
theorem Inv.sub {κ' : Type} {tr : κ → List Nat} {tr' : κ' → List Nat} {h : Heap I A V} (hi : Inv tr h) (f : κ' → κ)
    (hf : ∀ k k', f k = f k' → tr' k = [] ∨ tr' k' = [] ∨ k = k') (hs : ∀ k, (tr' k).Sublist (tr (f k))) : Inv tr' h := by
  have hl : ∀ t, Live tr' t → Live tr t := fun t ⟨k, hk⟩ => ⟨f k, (hs k).subset hk⟩
  refine ⟨fun k => (hi.nodup _).sublist (hs k), fun k k' t ht ht' => ?_, fun t t' ht ht' => hi.lists t t' (hl t ht) (hl t' ht'),
    fun t t' ht ht' => hi.dicts t t' (hl t ht) (hl t' ht'), fun t ht => hi.bound t (hl t ht)⟩
  rcases hf k k' (hi.disj _ _ t ((hs k).subset ht) ((hs k').subset ht')) with h | h | h
  · rw [h] at ht; cases ht
  · rw [h] at ht'; cases ht'
  · exact h

/-- `traces` is not part of the objects -/
theorem Inv.frame {tr : κ → List Nat} {h : Heap I A V} (hi : Inv tr h) (f : Nat → List Nat) : Inv tr { h with traces := f } :=
  ⟨hi.nodup, hi.disj, hi.lists, hi.dicts, hi.bound⟩

/-- an operation on the trace object `t`, whose new value is `v` -/
structure Local (tr : κ → List Nat) (h h' : Heap I A V) (t : Nat) (v : Trace I A V) : Prop where
  inv : Inv tr h'
  traces : h'.traces = h.traces
  here : viewTrace h' t = v
  there : ∀ t', Live tr t' → t' ≠ t → viewTrace h' t' = viewTrace h t'

theorem local_setEvents {tr : κ → List Nat} {h : Heap I A V} (hi : Inv tr h) {t : Nat} (ht : Live tr t) {es : List Nat} (hes : ∀ e ∈ es, e < h.next) :
    Local tr h (setEvents h t es) t { viewTrace h t with events := es.map h.event } := by
  have hne : ∀ x, x < h.next → upd h.list h.next es x = h.list x := fun x hx => upd_ne _ _ (Nat.ne_of_lt hx)
  refine ⟨⟨hi.nodup, hi.disj, fun x y hx hy hxy => ?_, hi.dicts, fun x hx => ?_⟩, rfl, ?_, fun x hx hxt => ?_⟩
  · have hxy : upd h.traceEvents t h.next x = upd h.traceEvents t h.next y := hxy
    by_cases h1 : x = t <;> by_cases h2 : y = t
    · rw [h1, h2]
    · subst h1; rw [upd_self, upd_ne _ _ h2] at hxy
      have := (hi.bound y hy).2.1; omega
    · subst h2; rw [upd_self, upd_ne _ _ h1] at hxy
      have := (hi.bound x hx).2.1; omega
    · rw [upd_ne _ _ h1, upd_ne _ _ h2] at hxy
      exact hi.lists x y hx hy hxy
  · obtain ⟨h1, h2, h3, h4⟩ := hi.bound x hx
    show x < h.next + 1 ∧ upd h.traceEvents t h.next x < h.next + 1 ∧ h.traceAttributes x < h.next + 1 ∧
      ∀ e ∈ upd h.list h.next es (upd h.traceEvents t h.next x), e < h.next + 1
    by_cases hxt : x = t
    · subst hxt
      rw [upd_self, upd_self]
      exact ⟨by omega, by omega, by omega, fun e he => by have := hes e he; omega⟩
    · rw [upd_ne _ _ hxt, hne _ h2]
      exact ⟨by omega, by omega, by omega, fun e he => by have := h4 e he; omega⟩
  · show (⟨h.traceId t, (upd h.list h.next es (upd h.traceEvents t h.next t)).map h.event, h.dict (h.traceAttributes t)⟩ : Trace I A V) = _
    rw [upd_self, upd_self]
    rfl
  · refine viewTrace_congr rfl ?_ rfl fun _ _ => rfl
    show upd h.list h.next es (upd h.traceEvents t h.next x) = _
    rw [upd_ne _ _ hxt, hne _ (hi.bound x hx).2.1]

/-- in-place change of the list of a trace with one new event -/
theorem local_update {tr : κ → List Nat} {h : Heap I A V} (hi : Inv tr h) {t : Nat} (ht : Live tr t) (ev : Event A V) (es : List Nat)
    (hes : ∀ e ∈ es, e = h.next ∨ e ∈ h.list (h.traceEvents t)) :
    Local tr h { (newEvent h ev).1 with list := upd h.list (h.traceEvents t) es } t
      { viewTrace h t with events := es.map (upd h.event h.next ev) } := by
  have hevt : ∀ x, x < h.next → upd h.event h.next ev x = h.event x := fun x hx => upd_ne _ _ (Nat.ne_of_lt hx)
  refine ⟨⟨hi.nodup, hi.disj, hi.lists, hi.dicts, fun x hx => ?_⟩, rfl, ?_, fun x hx hxt => ?_⟩
  · obtain ⟨h1, h2, h3, h4⟩ := hi.bound x hx
    show x < h.next + 1 ∧ h.traceEvents x < h.next + 1 ∧ h.traceAttributes x < h.next + 1 ∧
      ∀ e ∈ upd h.list (h.traceEvents t) es (h.traceEvents x), e < h.next + 1
    refine ⟨by omega, by omega, by omega, ?_⟩
    by_cases hxt : x = t
    · subst hxt
      rw [upd_self]
      intro e he
      rcases hes e he with rfl | h
      · omega
      · have := h4 e h; omega
    · rw [upd_ne _ _ fun hc => hxt (hi.lists x t hx ht hc)]
      exact fun e he => by have := h4 e he; omega
  · show (⟨h.traceId t, (upd h.list (h.traceEvents t) es (h.traceEvents t)).map (upd h.event h.next ev), h.dict (h.traceAttributes t)⟩ : Trace I A V) = _
    rw [upd_self]
    rfl
  · refine viewTrace_congr rfl ?_ rfl fun e he => hevt e ((hi.bound x hx).2.2.2 e he)
    show upd h.list (h.traceEvents t) es (h.traceEvents x) = _
    rw [upd_ne _ _ fun hc => hxt (hi.lists x t hx ht hc)]

theorem local_insertStart {tr : κ → List Nat} {h : Heap I A V} (hi : Inv tr h) {t : Nat} (ht : Live tr t) (a : A) :
    Local tr h (insertStart a h t) t { viewTrace h t with events := Event.new a :: (viewTrace h t).events } := by
  have h1 := local_update hi ht (Event.new a) (h.next :: h.list (h.traceEvents t)) (fun e he => by
    rcases List.mem_cons.1 he with h | h
    · exact Or.inl h
    · exact Or.inr h)
  have h2 : (h.next :: h.list (h.traceEvents t)).map (upd h.event h.next (Event.new a)) = Event.new a :: (viewTrace h t).events := by
    rw [List.map_cons, upd_self]
    congr 1
    exact List.map_congr_left fun e he => upd_ne _ _ (Nat.ne_of_lt ((hi.bound t ht).2.2.2 e he))
  rw [h2] at h1
  exact h1

theorem local_appendEvent {tr : κ → List Nat} {h : Heap I A V} (hi : Inv tr h) {t : Nat} (ht : Live tr t) (ev : Event A V) :
    Local tr h (appendEvent ev h t) t { viewTrace h t with events := (viewTrace h t).events ++ [ev] } := by
  have h1 := local_update hi ht ev (h.list (h.traceEvents t) ++ [h.next]) (fun e he => by
    rcases List.mem_append.1 he with h | h
    · exact Or.inr h
    · exact Or.inl (List.mem_singleton.1 h))
  have h2 : (h.list (h.traceEvents t) ++ [h.next]).map (upd h.event h.next ev) = (viewTrace h t).events ++ [ev] := by
    rw [List.map_append, List.map_singleton, upd_self]
    congr 1
    exact List.map_congr_left fun e he => upd_ne _ _ (Nat.ne_of_lt ((hi.bound t ht).2.2.2 e he))
  rw [h2] at h1
  exact h1

/-- loops over the traces of a log -/
theorem fold_local {tr : κ → List Nat} {f : Heap I A V → Nat → Heap I A V} {G : Trace I A V → Trace I A V}
    (hf : ∀ h t, Inv tr h → Live tr t → Local tr h (f h t) t (G (viewTrace h t))) :
    ∀ (ts : List Nat) (h : Heap I A V), Inv tr h → ts.Nodup → (∀ t ∈ ts, Live tr t) →
      Inv tr (ts.foldl f h) ∧ (ts.foldl f h).traces = h.traces ∧ (∀ t ∈ ts, viewTrace (ts.foldl f h) t = G (viewTrace h t)) ∧
      ∀ t, Live tr t → t ∉ ts → viewTrace (ts.foldl f h) t = viewTrace h t := by
  intro ts
  induction ts with
  | nil => intro h hi _ _; exact ⟨hi, rfl, fun t ht => (by cases ht), fun _ _ _ => rfl⟩
  | cons t ts ih =>
    intro h hi hn hl
    have h1 := hf h t hi (hl t List.mem_cons_self)
    obtain ⟨i1, i2, i3, i4⟩ := ih (f h t) h1.inv (List.nodup_cons.1 hn).2 fun x hx => hl x (List.mem_cons_of_mem _ hx)
    rw [List.foldl_cons]
    refine ⟨i1, i2.trans h1.traces, fun x hx => ?_, fun x hx hxn => ?_⟩
    · rcases List.mem_cons.1 hx with rfl | hx
      · rw [i4 x (hl x List.mem_cons_self) (List.nodup_cons.1 hn).1, h1.here]
      · rw [i3 x hx, h1.there x (hl x (List.mem_cons_of_mem _ hx)) fun hc => (List.nodup_cons.1 hn).1 (hc ▸ hx)]
    · rw [List.mem_cons, not_or] at hxn
      rw [i4 x hx hxn.2, h1.there x hx hxn.1]

/-- the effect of a loop over the traces of a log on what the user sees -/
theorem forTraces_spec {f : Heap I A V → Nat → Heap I A V} {G : Trace I A V → Trace I A V} {h : Heap I A V} (hi : Inv h.traces h)
    (hf : ∀ h' t, Inv h.traces h' → Live h.traces t → Local h.traces h' (f h' t) t (G (viewTrace h' t))) (l : Nat) :
    Inv (forTraces h l f).traces (forTraces h l f) ∧ (forTraces h l f).traces = h.traces ∧ view (forTraces h l f) = upd (view h) l ((view h l).map G) := by
  obtain ⟨i1, i2, i3, i4⟩ := fold_local (tr := h.traces) hf (h.traces l) h hi (hi.nodup l) fun t ht => ⟨l, ht⟩
  unfold forTraces
  refine ⟨by rw [i2]; exact i1, i2, funext fun m => ?_⟩
  by_cases hm : m = l
  · subst hm
    rw [upd_self]
    unfold view
    rw [i2, List.map_map]
    exact List.map_congr_left fun t ht => i3 t ht
  · rw [upd_ne _ _ hm]
    unfold view
    rw [i2]
    exact List.map_congr_left fun t ht => i4 t ⟨m, ht⟩ fun hc => hm (hi.disj m l t ht hc)

theorem dropEmpty_spec {h : Heap I A V} (hi : Inv h.traces h) (l : Nat) :
    Inv (dropEmpty h l).traces (dropEmpty h l) ∧ view (dropEmpty h l) = upd (view h) l ((view h l).filter fun t => decide (t.events.length > 0)) := by
  refine ⟨(hi.sub id (fun _ _ h => Or.inr (Or.inr h)) fun k => ?_).frame _, funext fun m => ?_⟩
  · show (upd h.traces l _ k).Sublist _
    by_cases hk : k = l
    · subst hk; rw [upd_self]; exact List.filter_sublist
    · rw [upd_ne _ _ hk]; exact List.Sublist.refl _
  · by_cases hm : m = l
    · subst hm
      rw [upd_self]
      show (upd h.traces m _ m).map (viewTrace _) = _
      rw [upd_self]
      unfold view
      rw [List.filter_map]
      congr 1
      refine List.filter_congr fun t _ => ?_
      simp [viewTrace]
    · rw [upd_ne _ _ hm]
      show (upd h.traces l _ m).map (viewTrace _) = _
      rw [upd_ne _ _ hm]
      rfl

theorem newEvents_spec : ∀ (es : List (Event A V)) (h : Heap I A V) (done : List Nat), (∀ e ∈ done, e < h.next) →
    Agree h (newEvents h es done).1 ∧ (∀ e ∈ (newEvents h es done).2, e < (newEvents h es done).1.next) ∧
      (newEvents h es done).2.map (newEvents h es done).1.event = done.map h.event ++ es := by
  intro es
  induction es with
  | nil => intro h done hd; exact ⟨Agree.refl h, hd, by simp [newEvents]⟩
  | cons e es ih =>
    intro h done hd
    obtain ⟨i1, i2, i3⟩ := ih (newEvent h e).1 (done ++ [(newEvent h e).2]) (by
      intro x hx
      show x < h.next + 1
      rcases List.mem_append.1 hx with hx | hx
      · have := hd x hx; omega
      · have : x = h.next := List.mem_singleton.1 hx
        omega)
    refine ⟨(agree_newEvent h e).trans i1, i2, ?_⟩
    show (newEvents (newEvent h e).1 es (done ++ [(newEvent h e).2])).2.map _ = _
    refine i3.trans ?_
    rw [List.map_append, List.map_singleton]
    show done.map (upd h.event h.next e) ++ [upd h.event h.next e h.next] ++ es = _
    rw [upd_self, List.map_congr_left fun x hx => upd_ne h.event e (Nat.ne_of_lt (hd x hx))]
    simp

end Prolothar.EventLogHeap
