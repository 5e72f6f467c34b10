import Verif.Lemmas.EventLogHeap
/-
C122: copies of event logs.
-/
namespace Prolothar.EventLogHeap
open Prolothar.EventLog Prolothar.LogStore
variable {I A V : Type}

/-- the logs and, under `none`, the traces of a log that is being built -/
def building (h : Heap I A V) (done : List Nat) : Option Nat → List Nat
  | none => done
  | some l => h.traces l

theorem copyTrace_spec {κ : Type} {tr : κ → List Nat} {h : Heap I A V} (hi : Inv tr h) {t : Nat} (ht : Live tr t) :
    (h.list (h.traceEvents t) = [] ∧ copyTrace h t = .error .value) ∨
    ∃ h' t', copyTrace h t = .ok (h', t') ∧ Agree h h' ∧ (h.next ≤ t' ∧ t' < h'.next) ∧
      (h.next ≤ h'.traceEvents t' ∧ h'.traceEvents t' < h'.next) ∧ (h.next ≤ h'.traceAttributes t' ∧ h'.traceAttributes t' < h'.next) ∧
      (∀ e ∈ h'.list (h'.traceEvents t'), e < h'.next) ∧ viewTrace h' t' = viewTrace h t ∧ h.list (h.traceEvents t) ≠ [] ∧
      h'.list (h'.traceEvents t') = h.list (h.traceEvents t) := by
  obtain ⟨hb1, hb2, hb3, hb4⟩ := hi.bound t ht
  have hlist : (newDict (newList h (h.list (h.traceEvents t))).1 (h.dict (h.traceAttributes t))).1.list h.next = h.list (h.traceEvents t) :=
    upd_self _ _ _
  by_cases hne : h.list (h.traceEvents t) = []
  · left
    refine ⟨hne, ?_⟩
    show newTrace _ _ h.next _ = _
    unfold newTrace
    exact if_pos (hlist.trans hne)
  · right
    obtain ⟨h', h1, h2, h3, h4, h5, h6, h7, h8, h9⟩ := newTrace_ok (h := (newDict (newList h (h.list (h.traceEvents t))).1 (h.dict (h.traceAttributes t))).1)
      (id := h.traceId t) (la := h.next) (da := h.next + 1) (by rw [hlist]; exact hne)
    have hnx : h'.next = h.next + 3 := h3
    have h4 : h'.traceId (h.next + 2) = h.traceId t := h4
    have h5 : h'.traceEvents (h.next + 2) = h.next := h5
    have h6 : h'.traceAttributes (h.next + 2) = h.next + 1 := h6
    have h7' : h'.list h.next = h.list (h.traceEvents t) := by rw [h7]; exact hlist
    have h8' : h'.dict (h.next + 1) = h.dict (h.traceAttributes t) := by rw [h8]; exact upd_self _ _ _
    refine ⟨h', h.next + 2, h1, ((agree_newList _ _).trans (agree_newDict _ _)).trans h2, by omega, by omega, by omega, ?_, ?_, hne, ?_⟩
    · rw [h5, h7']
      exact fun e he => by have := hb4 e he; omega
    · unfold viewTrace
      rw [h4, h5, h6, h7', h8', h9]
      rfl
    · rw [h5, h7']

theorem copyLoop_spec : ∀ (ts : List Nat) (h : Heap I A V) (done : List Nat), Inv (building h done) h → (∀ t ∈ ts, Live h.traces t) →
    ((∃ t ∈ ts, (viewTrace h t).events = []) ∧ copyLoop h ts done = .error .value) ∨
    ((∀ t ∈ ts, (viewTrace h t).events ≠ []) ∧ ∃ h' done', copyLoop h ts done = .ok (h', done') ∧ Agree h h' ∧ Inv (building h' done') h' ∧
      done'.map (viewTrace h') = done.map (viewTrace h) ++ ts.map (viewTrace h) ∧
      done'.map (fun t => h'.list (h'.traceEvents t)) = done.map (fun t => h.list (h.traceEvents t)) ++ ts.map fun t => h.list (h.traceEvents t)) := by
  intro ts
  induction ts with
  | nil =>
    intro h done hi _
    exact Or.inr ⟨fun t ht => (by cases ht), h, done, rfl, Agree.refl h, hi, by simp, by simp⟩
  | cons t ts ih =>
    intro h done hi hl
    have hlive : ∀ x, Live h.traces x → Live (building h done) x := fun x ⟨l, hl⟩ => ⟨some l, hl⟩
    have hev : (viewTrace h t).events = [] ↔ h.list (h.traceEvents t) = [] := by simp [viewTrace]
    rcases copyTrace_spec hi (hlive t (hl t List.mem_cons_self)) with ⟨h1, h2⟩ | ⟨h', t', h1, h2, h3, h4, h5, h6, h7, h8, h9⟩
    · left
      refine ⟨⟨t, List.mem_cons_self, hev.2 h1⟩, ?_⟩
      unfold copyLoop
      rw [h2]
      rfl
    · have hi' : Inv (building h' (done ++ [t'])) h' := by
        have := hi.add h2 h3 h4 h5 h6 none
        refine this.sub id (fun _ _ h => Or.inr (Or.inr h)) fun k => ?_
        cases k with
        | none => exact List.Sublist.refl _
        | some l =>
          show (h'.traces l).Sublist (upd (building h done) none _ (some l))
          rw [upd_ne _ _ (by simp), h2.traces]
          exact List.Sublist.refl _
      have hl' : ∀ x ∈ ts, Live h'.traces x := fun x hx => by
        rw [h2.traces]; exact hl x (List.mem_cons_of_mem _ hx)
      have hview : ∀ x, Live (building h done) x → viewTrace h' x = viewTrace h x := fun x hx => h2.view hi hx
      have hlists : ∀ x, Live (building h done) x → h'.list (h'.traceEvents x) = h.list (h.traceEvents x) := fun x hx => by
        rw [h2.events x (hi.bound x hx).1, h2.list _ (hi.bound x hx).2.1]
      have hts : ∀ x ∈ ts, viewTrace h' x = viewTrace h x := fun x hx => hview x (hlive x (hl x (List.mem_cons_of_mem _ hx)))
      have hts' : ∀ x ∈ ts, h'.list (h'.traceEvents x) = h.list (h.traceEvents x) := fun x hx => hlists x (hlive x (hl x (List.mem_cons_of_mem _ hx)))
      have hdn : ∀ x ∈ done, viewTrace h' x = viewTrace h x := fun x hx => hview x ⟨none, hx⟩
      have hdn' : ∀ x ∈ done, h'.list (h'.traceEvents x) = h.list (h.traceEvents x) := fun x hx => hlists x ⟨none, hx⟩
      have hrun : copyLoop h (t :: ts) done = copyLoop h' ts (done ++ [t']) := by
        rw [copyLoop, h1]
        rfl
      rcases ih h' (done ++ [t']) hi' hl' with ⟨⟨x, hx, hxe⟩, i2⟩ | ⟨i1, h'', done', i2, i3, i4, i5, i6⟩
      · left
        rw [hts x hx] at hxe
        exact ⟨⟨x, List.mem_cons_of_mem _ hx, hxe⟩, hrun.trans i2⟩
      · right
        refine ⟨fun x hx => ?_, h'', done', hrun.trans i2, h2.trans i3, i4, ?_, ?_⟩
        · rcases List.mem_cons.1 hx with rfl | hx
          · exact fun hc => h8 (hev.1 hc)
          · rw [← hts x hx]; exact i1 x hx
        · rw [i5, List.map_append, List.map_singleton, h7, List.map_congr_left hts,
            List.map_congr_left hdn]
          simp
        · rw [i6, List.map_append, List.map_singleton, h9, List.map_congr_left hts',
            List.map_congr_left hdn']
          simp

theorem copy_spec {h : Heap I A V} (hi : Inv h.traces h) (src dst : Nat) :
    ((∃ t ∈ view h src, t.events = []) ∧ copy h src dst = .error .value) ∨
    ((¬ ∃ t ∈ view h src, t.events = []) ∧ ∃ h', copy h src dst = .ok h' ∧ Inv h'.traces h' ∧ view h' = upd (view h) dst (view h src) ∧
      (∀ a < h.next, h'.event a = h.event a) ∧
      (h'.traces dst).map (fun t => h'.list (h'.traceEvents t)) = (h.traces src).map (fun t => h.list (h.traceEvents t)) ∧
      ∀ l, l ≠ dst → (h'.traces l = h.traces l ∧ ∀ t ∈ h.traces l, h'.list (h'.traceEvents t) = h.list (h.traceEvents t))) := by
  have hi0 : Inv (building h []) h := by
    refine hi.sub (fun k => k.getD 0) (fun k k' hk => ?_) fun k => ?_
    · cases k with
      | none => exact Or.inl rfl
      | some l =>
        cases k' with
        | none => exact Or.inr (Or.inl rfl)
        | some l' => exact Or.inr (Or.inr (congrArg some hk))
    · cases k with
      | none => exact List.nil_sublist _
      | some l => exact List.Sublist.refl _
  have hlive : ∀ x, Live h.traces x → Live (building h []) x := fun x ⟨l, hl⟩ => ⟨some l, hl⟩
  rcases copyLoop_spec (h.traces src) h [] hi0 fun t ht => ⟨src, ht⟩ with ⟨⟨t, ht, hte⟩, h2⟩ | ⟨h1, h', done, h2, h3, h4, h5, h6⟩
  · left
    refine ⟨⟨viewTrace h t, List.mem_map_of_mem ht, hte⟩, ?_⟩
    unfold copy
    rw [h2]
    rfl
  · right
    refine ⟨?_, { h' with traces := upd h'.traces dst done }, by unfold copy; rw [h2]; rfl, ?_, ?_, fun a ha => h3.event a ha, ?_, ?_⟩
    · rintro ⟨v, hv, hve⟩
      obtain ⟨t, ht, rfl⟩ := List.mem_map.1 hv
      exact h1 t ht hve
    · refine Inv.frame (h4.sub (fun l => if l = dst then none else some l) (fun k k' hk => ?_) fun k => ?_) _
      · by_cases h1 : k = dst <;> by_cases h2 : k' = dst <;> simp [h1, h2] at hk ⊢
        exact Or.inr (Or.inr hk)
      · show (upd h'.traces dst done k).Sublist _
        by_cases hk : k = dst
        · subst hk; rw [upd_self, if_pos rfl]; exact List.Sublist.refl _
        · rw [upd_ne _ _ hk, if_neg hk]; exact List.Sublist.refl _
    · funext m
      show (upd h'.traces dst done m).map (viewTrace h') = _
      by_cases hm : m = dst
      · subst hm
        rw [upd_self, upd_self, h5]
        rfl
      · rw [upd_ne _ _ hm, upd_ne _ _ hm, h3.traces]
        exact List.map_congr_left fun t ht => h3.view hi ⟨m, ht⟩
    · show (upd h'.traces dst done dst).map _ = _
      rw [upd_self, h6]
      rfl
    · intro l hl
      refine ⟨?_, fun t ht => ?_⟩
      · show upd h'.traces dst done l = _
        rw [upd_ne _ _ hl, h3.traces]
      · show h'.list (h'.traceEvents t) = _
        rw [h3.events t (hi.bound t ⟨l, ht⟩).1, h3.list _ (hi.bound t ⟨l, ht⟩).2.1]

theorem addTrace_spec {h : Heap I A V} (hi : Inv h.traces h) (l : Nat) (id : I) (es : List (Event A V)) (d : Dict String V) :
    (es = [] ∧ addTrace h l id es d = .error .value) ∨
    (es ≠ [] ∧ ∃ h', addTrace h l id es d = .ok h' ∧ Inv h'.traces h' ∧ view h' = upd (view h) l (view h l ++ [⟨id, es, d⟩])) := by
  obtain ⟨h1, h2, h3⟩ := newEvents_spec es h [] (fun e he => by cases he)
  generalize hr : newEvents h es [] = r at h1 h2 h3
  have hlist : (newDict (newList r.1 r.2).1 d).1.list r.1.next = r.2 := upd_self _ _ _
  have hnil : r.2 = [] ↔ es = [] := by
    have : r.2.length = es.length := by
      have := congrArg List.length h3
      simpa using this
    rw [← List.length_eq_zero_iff, this, List.length_eq_zero_iff]
  have hrun : addTrace h l id es d = (newTrace (newDict (newList r.1 r.2).1 d).1 id r.1.next (r.1.next + 1) >>= fun t =>
      (pure { t.1 with traces := upd t.1.traces l (t.1.traces l ++ [t.2]) } : Py _)) := by
    unfold addTrace
    rw [hr]
    rfl
  by_cases he : es = []
  · left
    refine ⟨he, ?_⟩
    rw [hrun]
    unfold newTrace
    rw [if_pos (hlist.trans (hnil.2 he))]
    rfl
  · right
    obtain ⟨h', k1, k2, k3, k4, k5, k6, k7, k8, k9⟩ := newTrace_ok (h := (newDict (newList r.1 r.2).1 d).1)
      (id := id) (la := r.1.next) (da := r.1.next + 1) (by rw [hlist]; exact fun hc => he (hnil.1 hc))
    have hnx : h'.next = r.1.next + 3 := k3
    have k1 : newTrace (newDict (newList r.1 r.2).1 d).1 id r.1.next (r.1.next + 1) = .ok (h', r.1.next + 2) := k1
    have k4 : h'.traceId (r.1.next + 2) = id := k4
    have k5 : h'.traceEvents (r.1.next + 2) = r.1.next := k5
    have k6 : h'.traceAttributes (r.1.next + 2) = r.1.next + 1 := k6
    have k7' : h'.list r.1.next = r.2 := by rw [k7]; exact hlist
    have k8' : h'.dict (r.1.next + 1) = d := by rw [k8]; exact upd_self _ _ _
    have hag : Agree h h' := (h1.trans ((agree_newList _ _).trans (agree_newDict _ _))).trans k2
    have hnn := h1.next
    refine ⟨he, _, by rw [hrun, k1]; rfl, ?_, ?_⟩
    · refine Inv.frame ?_ _
      show Inv (upd h'.traces l (h'.traces l ++ [r.1.next + 2])) h'
      rw [hag.traces]
      refine hi.add hag (by omega) (by omega) (by omega) ?_ l
      rw [k5, k7']
      exact fun e he => by have := h2 e he; omega
    · funext m
      show (upd h'.traces l (h'.traces l ++ [r.1.next + 2]) m).map (viewTrace h') = _
      have hold : ∀ m, (h'.traces m).map (viewTrace h') = view h m := fun m => by
        rw [hag.traces]
        exact List.map_congr_left fun t ht => hag.view hi ⟨m, ht⟩
      by_cases hm : m = l
      · subst hm
        rw [upd_self, upd_self, List.map_append, hold, List.map_singleton]
        congr 2
        unfold viewTrace
        rw [k4, k5, k6, k7', k8', k9]
        congr 1
      · rw [upd_ne _ _ hm, upd_ne _ _ hm, hold]

/-- a change of one trace -/
theorem modify_spec {h h' : Heap I A V} (hi : Inv h.traces h) {l i t : Nat} (ht : (h.traces l)[i]? = some t) {f : Trace I A V → Trace I A V}
    (hl : Local h.traces h h' t (f (viewTrace h t))) :
    Inv h'.traces h' ∧ modifyTrace (view h l) i f = .ok (view h' l) ∧ view h' = upd (view h) l (view h' l) := by
  have hmem : t ∈ h.traces l := List.mem_of_getElem? ht
  obtain ⟨hlt, hget⟩ := List.getElem?_eq_some_iff.1 ht
  refine ⟨by rw [hl.traces]; exact hl.inv, ?_, funext fun m => ?_⟩
  · unfold modifyTrace
    rw [if_pos (by unfold view; rw [List.length_map]; exact hlt)]
    congr 1
    refine List.ext_getElem? fun j => ?_
    rw [List.getElem?_modify]
    unfold view
    rw [List.getElem?_map, List.getElem?_map, hl.traces]
    cases hj : (h.traces l)[j]? with
    | none => rfl
    | some u =>
      obtain ⟨hjl, hju⟩ := List.getElem?_eq_some_iff.1 hj
      by_cases hij : i = j
      · subst hij
        rw [ht] at hj
        obtain rfl := Option.some.inj hj
        simp [hl.here]
      · have hut : u ≠ t := by
          rintro rfl
          exact hij (((hi.nodup l).getElem_inj_iff (hi := hlt) (hj := hjl)).1 (hget.trans hju.symm))
        simp [hij, hl.there u ⟨l, List.mem_of_getElem? hj⟩ hut]
  · by_cases hm : m = l
    · subst hm; rw [upd_self]
    · rw [upd_ne _ _ hm]
      unfold view
      rw [hl.traces]
      exact List.map_congr_left fun u hu => hl.there u ⟨m, hu⟩ fun hc => hm (hi.disj m l t (hc ▸ hu) hmem)

theorem setId_local {κ : Type} {tr : κ → List Nat} {h : Heap I A V} (hi : Inv tr h) (t : Nat) (id : I) :
    Local tr h { h with traceId := upd h.traceId t id } t { viewTrace h t with id := id } := by
  refine ⟨⟨hi.nodup, hi.disj, hi.lists, hi.dicts, hi.bound⟩, rfl, ?_, fun x _ hxt => ?_⟩
  · show (⟨upd h.traceId t id t, _, _⟩ : Trace I A V) = _
    rw [upd_self]
    rfl
  · exact viewTrace_congr (upd_ne _ _ hxt) rfl rfl fun _ _ => rfl

theorem setAttribute_local {κ : Type} {tr : κ → List Nat} {h : Heap I A V} (hi : Inv tr h) {t : Nat} (ht : Live tr t) (d : Dict String V) :
    Local tr h { h with dict := upd h.dict (h.traceAttributes t) d } t { viewTrace h t with attributes := d } := by
  refine ⟨⟨hi.nodup, hi.disj, hi.lists, hi.dicts, hi.bound⟩, rfl, ?_, fun x hx hxt => ?_⟩
  · show (⟨_, _, upd h.dict (h.traceAttributes t) d (h.traceAttributes t)⟩ : Trace I A V) = _
    rw [upd_self]
    rfl
  · exact viewTrace_congr rfl rfl (upd_ne _ _ fun hc => hxt (hi.dicts x t hx ht hc)) fun _ _ => rfl

section
variable [DecidableEq A]

theorem keepStep_map (h : Heap I A V) : ∀ (es : List Nat) (S : List A) (acc : List Nat),
    ((es.foldl (keepStep h) (S, acc)).2.map h.event = ((es.map h.event).foldl keepFirstStep (S, acc.map h.event)).2) ∧
    ∀ e ∈ (es.foldl (keepStep h) (S, acc)).2, e ∈ acc ∨ e ∈ es := by
  intro es
  induction es with
  | nil => intro S acc; exact ⟨rfl, fun e he => Or.inl he⟩
  | cons e es ih =>
    intro S acc
    rw [List.foldl_cons, List.map_cons, List.foldl_cons]
    by_cases he : (h.event e).activity ∈ S
    · have h1 : keepStep h (S, acc) e = (S, acc) := by unfold keepStep; rw [if_pos he]
      have h2 : keepFirstStep (S, acc.map h.event) (h.event e) = (S, acc.map h.event) := by unfold keepFirstStep; rw [if_pos he]
      rw [h1, h2]
      refine ⟨(ih S acc).1, fun x hx => ?_⟩
      rcases (ih S acc).2 x hx with h | h
      · exact Or.inl h
      · exact Or.inr (List.mem_cons_of_mem _ h)
    · have h1 : keepStep h (S, acc) e = (setAdd S (h.event e).activity, acc ++ [e]) := by unfold keepStep; rw [if_neg he]
      have h2 : keepFirstStep (S, acc.map h.event) (h.event e) = (setAdd S (h.event e).activity, (acc ++ [e]).map h.event) := by
        unfold keepFirstStep; rw [if_neg he]; simp
      rw [h1, h2]
      refine ⟨(ih _ _).1, fun x hx => ?_⟩
      rcases (ih _ _).2 x hx with h | h
      · rcases List.mem_append.1 h with h | h
        · exact Or.inl h
        · exact Or.inr (List.mem_cons.2 (Or.inl (List.mem_singleton.1 h)))
      · exact Or.inr (List.mem_cons_of_mem _ h)

omit [DecidableEq A] in
theorem slice_map_from (f : Nat → Event A V) (l : List Nat) (i : Int) : (sliceFrom l i).map f = sliceFrom (l.map f) i := by
  unfold sliceFrom; rw [List.map_drop, List.length_map]

omit [DecidableEq A] in
theorem slice_map_to (f : Nat → Event A V) (l : List Nat) (i : Int) : (sliceTo l i).map f = sliceTo (l.map f) i := by
  unfold sliceTo; rw [List.map_take, List.length_map]

/-- one command has the effect it has on values -/
theorem step_spec {h : Heap I A V} (hi : Inv h.traces h) (c : Cmd I A V) :
    (∃ h', step h c = .ok h' ∧ Inv h'.traces h' ∧ exec (view h) c = .ok (view h')) ∨ ∃ e, step h c = .error e ∧ exec (view h) c = .error e := by
  cases c with
  | new dst =>
    refine Or.inl ⟨_, rfl, ?_, ?_⟩
    · refine Inv.frame (hi.sub id (fun _ _ h => Or.inr (Or.inr h)) fun k => ?_) _
      show (upd h.traces dst [] k).Sublist _
      by_cases hk : k = dst
      · subst hk; rw [upd_self]; exact List.nil_sublist _
      · rw [upd_ne _ _ hk]; exact List.Sublist.refl _
    · show Except.ok _ = Except.ok _
      congr 1
      funext m
      show _ = (upd h.traces dst [] m).map (viewTrace _)
      by_cases hm : m = dst
      · subst hm; rw [upd_self, upd_self]; rfl
      · rw [upd_ne _ _ hm, upd_ne _ _ hm]; rfl
  | copy src dst =>
    rcases copy_spec hi src dst with ⟨h1, h2⟩ | ⟨h1, h', h2, h3, h4, _⟩
    · exact Or.inr ⟨.value, h2, if_pos h1⟩
    · refine Or.inl ⟨h', h2, h3, ?_⟩
      rw [h4]
      exact if_neg h1
  | addTrace l id es d =>
    rcases addTrace_spec hi l id es d with ⟨h1, h2⟩ | ⟨h1, h', h2, h3, h4⟩
    · exact Or.inr ⟨.value, h2, if_pos h1⟩
    · refine Or.inl ⟨h', h2, h3, ?_⟩
      rw [h4]
      exact if_neg h1
  | cut l s e =>
    left
    have hS : ∀ {h : Heap I A V}, Inv h.traces h → ∀ S, Inv (forTraces h l (cutStart S)).traces (forTraces h l (cutStart S)) ∧
        (forTraces h l (cutStart S)).traces = h.traces ∧
        view (forTraces h l (cutStart S)) = upd (view h) l ((view h l).map fun t => { t with events := sliceFrom t.events (firstIndexOfMatching t S) }) := by
      intro h hi S
      refine forTraces_spec hi (fun h' t hi' ht => ?_) l
      have := local_setEvents hi' ht (es := sliceFrom (h'.list (h'.traceEvents t)) (firstIndexOfMatching (viewTrace h' t) S))
        (fun e he => (hi'.bound t ht).2.2.2 e (List.mem_of_mem_drop he))
      have hm : (sliceFrom (h'.list (h'.traceEvents t)) (firstIndexOfMatching (viewTrace h' t) S)).map h'.event =
          sliceFrom (viewTrace h' t).events (firstIndexOfMatching (viewTrace h' t) S) := by
        exact slice_map_from _ _ _
      rw [hm] at this
      exact this
    have hE : ∀ {h : Heap I A V}, Inv h.traces h → ∀ S, Inv (forTraces h l (cutEnd S)).traces (forTraces h l (cutEnd S)) ∧
        (forTraces h l (cutEnd S)).traces = h.traces ∧
        view (forTraces h l (cutEnd S)) = upd (view h) l ((view h l).map fun t => { t with events := sliceTo t.events (lastIndexOfMatching t S + 1) }) := by
      intro h hi S
      refine forTraces_spec hi (fun h' t hi' ht => ?_) l
      have := local_setEvents hi' ht (es := sliceTo (h'.list (h'.traceEvents t)) (lastIndexOfMatching (viewTrace h' t) S + 1))
        (fun e he => (hi'.bound t ht).2.2.2 e (List.mem_of_mem_take he))
      have hm : (sliceTo (h'.list (h'.traceEvents t)) (lastIndexOfMatching (viewTrace h' t) S + 1)).map h'.event =
          sliceTo (viewTrace h' t).events (lastIndexOfMatching (viewTrace h' t) S + 1) := by
        exact slice_map_to _ _ _
      rw [hm] at this
      exact this
    have hupd : ∀ (f : Nat → Log I A V) (x y : Log I A V), upd (upd f l x) l y = upd f l y := by
      intro f x y; funext m; by_cases hm : m = l
      · subst hm; simp
      · simp [upd_ne _ _ hm]
    refine ⟨_, rfl, ?_⟩
    unfold cut exec cutTraces
    cases s with
    | none =>
      cases e with
      | none =>
        obtain ⟨h1, h2⟩ := dropEmpty_spec hi l
        exact ⟨h1, congrArg Except.ok h2.symm⟩
      | some E =>
        obtain ⟨e1, e2, e3⟩ := hE hi E
        obtain ⟨h1, h2⟩ := dropEmpty_spec e1 l
        refine ⟨h1, congrArg Except.ok (Eq.symm ?_)⟩
        simp only []
        rw [h2, e3, hupd, upd_self]
    | some S =>
      obtain ⟨s1, s2, s3⟩ := hS hi S
      cases e with
      | none =>
        obtain ⟨h1, h2⟩ := dropEmpty_spec s1 l
        refine ⟨h1, congrArg Except.ok (Eq.symm ?_)⟩
        simp only []
        rw [h2, s3, hupd, upd_self]
      | some E =>
        obtain ⟨e1, e2, e3⟩ := hE s1 E
        obtain ⟨h1, h2⟩ := dropEmpty_spec e1 l
        refine ⟨h1, congrArg Except.ok (Eq.symm ?_)⟩
        simp only []
        rw [h2, e3, s3, hupd, hupd, upd_self, upd_self]
  | filter l p b =>
    left
    refine ⟨_, rfl, ?_⟩
    obtain ⟨s1, s2, s3⟩ := forTraces_spec (f := filterTrace p) (G := fun t => { t with events := t.events.filter fun e => p e.activity }) hi
      (fun h' t hi' ht => by
        have := local_setEvents hi' ht (es := (h'.list (h'.traceEvents t)).filter fun e => p (h'.event e).activity)
          (fun e he => (hi'.bound t ht).2.2.2 e (List.mem_of_mem_filter he))
        have hm : ((h'.list (h'.traceEvents t)).filter fun e => p (h'.event e).activity).map h'.event =
            (viewTrace h' t).events.filter fun e => p e.activity := by
          show _ = ((h'.list (h'.traceEvents t)).map h'.event).filter _
          rw [List.filter_map]
          rfl
        rw [hm] at this
        exact this) l
    unfold filterLog exec filterActivities
    cases b with
    | false => exact ⟨s1, congrArg Except.ok s3.symm⟩
    | true =>
      obtain ⟨h1, h2⟩ := dropEmpty_spec s1 l
      refine ⟨h1, congrArg Except.ok (Eq.symm ?_)⟩
      simp only [if_true]
      rw [h2, s3, upd_self]
      funext m
      by_cases hm : m = l
      · subst hm; simp
      · simp [upd_ne _ _ hm]
  | addStart l a =>
    left
    obtain ⟨s1, s2, s3⟩ := forTraces_spec (f := insertStart a) (G := fun t => { t with events := Event.new a :: t.events }) hi
      (fun h' t hi' ht => local_insertStart hi' ht a) l
    exact ⟨_, rfl, s1, congrArg Except.ok s3.symm⟩
  | addEnd l a =>
    left
    obtain ⟨s1, s2, s3⟩ := forTraces_spec (f := appendEvent (Event.new a)) (G := fun t => { t with events := t.events ++ [Event.new a] }) hi
      (fun h' t hi' ht => local_appendEvent hi' ht _) l
    exact ⟨_, rfl, s1, congrArg Except.ok s3.symm⟩
  | keepFirst l =>
    left
    obtain ⟨s1, s2, s3⟩ := forTraces_spec (f := keepTrace) (G := fun t => { t with events := (t.events.foldl keepFirstStep ([], [])).2 }) hi
      (fun h' t hi' ht => by
        obtain ⟨k1, k2⟩ := keepStep_map h' (h'.list (h'.traceEvents t)) [] []
        have := local_setEvents hi' ht (es := ((h'.list (h'.traceEvents t)).foldl (keepStep h') ([], [])).2)
          (fun e he => by
            rcases k2 e he with h | h
            · cases h
            · exact (hi'.bound t ht).2.2.2 e h)
        rw [k1] at this
        exact this) l
    exact ⟨_, rfl, s1, congrArg Except.ok s3.symm⟩
  | setId l i id =>
    cases hg : (h.traces l)[i]? with
    | none =>
      refine Or.inr ⟨.index, by simp only [step, traceAt, hg]; rfl, ?_⟩
      have : ¬ i < (view h l).length := by
        unfold view; rw [List.length_map]; exact not_lt.2 (List.getElem?_eq_none_iff.1 hg)
      simp only [exec, modifyTrace, if_neg this]
      rfl
    | some t =>
      obtain ⟨h1, h2, h3⟩ := modify_spec hi hg (f := fun t => { t with id := id }) (setId_local hi t id)
      refine Or.inl ⟨_, by simp only [step, traceAt, hg]; rfl, h1, ?_⟩
      simp only [exec, h2]
      exact congrArg Except.ok h3.symm
  | setAttribute l i k v =>
    cases hg : (h.traces l)[i]? with
    | none =>
      refine Or.inr ⟨.index, by simp only [step, traceAt, hg]; rfl, ?_⟩
      have : ¬ i < (view h l).length := by
        unfold view; rw [List.length_map]; exact not_lt.2 (List.getElem?_eq_none_iff.1 hg)
      simp only [exec, modifyTrace, if_neg this]
      rfl
    | some t =>
      obtain ⟨h1, h2, h3⟩ := modify_spec hi hg (f := fun t => { t with attributes := t.attributes.put k v })
        (setAttribute_local hi ⟨l, List.mem_of_getElem? hg⟩ _)
      refine Or.inl ⟨_, by simp only [step, traceAt, hg]; rfl, h1, ?_⟩
      simp only [exec, h2]
      exact congrArg Except.ok h3.symm
  | appendEvent l i e =>
    cases hg : (h.traces l)[i]? with
    | none =>
      refine Or.inr ⟨.index, by simp only [step, traceAt, hg]; rfl, ?_⟩
      have : ¬ i < (view h l).length := by
        unfold view; rw [List.length_map]; exact not_lt.2 (List.getElem?_eq_none_iff.1 hg)
      simp only [exec, modifyTrace, if_neg this]
      rfl
    | some t =>
      obtain ⟨h1, h2, h3⟩ := modify_spec hi hg (f := fun t => { t with events := t.events ++ [e] })
        (local_appendEvent hi ⟨l, List.mem_of_getElem? hg⟩ e)
      refine Or.inl ⟨_, by simp only [step, traceAt, hg]; rfl, h1, ?_⟩
      simp only [exec, h2]
      exact congrArg Except.ok h3.symm

/-- C122: A program that copies logs and changes logs and traces behaves as if every variable held its own log: copying means copying
the value, and a change of one log is never visible in another log. The same exceptions are raised. -/
theorem C122_value_semantics {h : Heap I A V} (hi : Inv h.traces h) (prog : List (Cmd I A V)) :
    (run h prog).map view = execAll (view h) prog := by
  induction prog generalizing h with
  | nil => rfl
  | cons c cs ih =>
    rcases step_spec hi c with ⟨h', h1, h2, h3⟩ | ⟨e, h1, h2⟩
    · unfold run execAll
      rw [h1, h3]
      exact ih h2
    · unfold run execAll
      rw [h1, h2]
      rfl

/-- the variable a command assigns to or changes -/
def target : Cmd I A V → Nat
  | .new d => d
  | .copy _ d => d
  | .addTrace l _ _ _ => l
  | .cut l _ _ => l
  | .filter l _ _ => l
  | .addStart l _ => l
  | .addEnd l _ => l
  | .keepFirst l => l
  | .setId l _ _ => l
  | .setAttribute l _ _ _ => l
  | .appendEvent l _ _ => l

/-- C122: in particular no program changes a log that it does not name -/
theorem C122_untouched {h h' : Heap I A V} (hi : Inv h.traces h) {prog : List (Cmd I A V)} (hr : run h prog = .ok h') {l : Nat}
    (hl : ∀ c ∈ prog, target c ≠ l) : view h' l = view h l := by
  have h1 := C122_value_semantics hi prog
  rw [hr] at h1
  have key : ∀ (prog : List (Cmd I A V)) (s s' : Nat → Log I A V), (∀ c ∈ prog, target c ≠ l) → execAll s prog = .ok s' → s' l = s l := by
    intro prog
    induction prog with
    | nil => intro s s' _ h; cases h; rfl
    | cons c cs ih =>
      intro s s' hl h
      unfold execAll at h
      cases hx : exec s c with
      | error e => rw [hx] at h; cases h
      | ok s1 =>
        rw [hx] at h
        refine (ih s1 s' (fun c hc => hl c (List.mem_cons_of_mem _ hc)) h).trans ?_
        have hne : l ≠ target c := fun hc => hl c List.mem_cons_self hc.symm
        have hok : ∀ {m : Py (Log I A V)} {d : Nat} {s1 : Nat → Log I A V}, l ≠ d →
            (do return upd s d (← m) : Py (Nat → Log I A V)) = .ok s1 → s1 l = s l := by
          intro m d s1 hd h
          cases m with
          | error e => cases h
          | ok v => cases h; exact upd_ne _ _ hd
        cases c with
        | new d => cases hx; exact upd_ne _ _ hne
        | copy src d =>
          simp only [exec] at hx
          split at hx
          · cases hx
          · cases hx; exact upd_ne _ _ hne
        | addTrace d id es at' =>
          simp only [exec] at hx
          split at hx
          · cases hx
          · cases hx; exact upd_ne _ _ hne
        | cut d a b => cases hx; exact upd_ne _ _ hne
        | filter d a b => cases hx; exact upd_ne _ _ hne
        | addStart d a => cases hx; exact upd_ne _ _ hne
        | addEnd d a => cases hx; exact upd_ne _ _ hne
        | keepFirst d => cases hx; exact upd_ne _ _ hne
        | setId d i id => exact hok hne hx
        | setAttribute d i k v => exact hok hne hx
        | appendEvent d i e => exact hok hne hx
  exact key prog _ _ hl h1.symm

omit [DecidableEq A] in
/-- C122: the event objects are shared. After a change of an event of the copy, the original log shows the same change. -/
theorem C122_copy_shares_events {h h1 h2 : Heap I A V} (hi : Inv h.traces h) {src dst : Nat} (hne : src ≠ dst) (hc : copy h src dst = .ok h1)
    {i j : Nat} {k : String} {v : V} (hs : setEventAttribute h1 dst i j k v = .ok h2) :
    view h2 src = view h2 dst ∧ ∃ t e, (view h2 src)[i]? = some t ∧ t.events[j]? = some e ∧ e.attributes.get? k = some v := by
  rcases copy_spec hi src dst with ⟨_, h'⟩ | ⟨_, h', hc', hi', hv, _, hd, ho⟩
  · rw [hc] at h'; cases h'
  rw [hc] at hc'
  obtain rfl := Except.ok.inj hc'
  obtain ⟨ho1, ho2⟩ := ho src hne
  have hadr : (h1.traces dst).map (fun t => h1.list (h1.traceEvents t)) = (h1.traces src).map fun t => h1.list (h1.traceEvents t) := by
    rw [hd, ho1]
    exact List.map_congr_left fun t ht => (ho2 t ht).symm
  have hview : view h1 dst = view h1 src := by rw [hv, upd_self, upd_ne _ _ hne]
  have key : ∀ (f : Nat → Event A V) (xs ys : List Nat), xs.map (fun t => h1.list (h1.traceEvents t)) = ys.map (fun t => h1.list (h1.traceEvents t)) →
      xs.map (viewTrace h1) = ys.map (viewTrace h1) → xs.map (viewTrace { h1 with event := f }) = ys.map (viewTrace { h1 with event := f }) := by
    intro f xs
    induction xs with
    | nil =>
      intro ys h _
      cases ys with
      | nil => rfl
      | cons => cases h
    | cons x xs ih =>
      intro ys h h'
      cases ys with
      | nil => cases h
      | cons y ys =>
        obtain ⟨a1, a2⟩ := List.cons.inj h
        obtain ⟨b1, b2⟩ := List.cons.inj h'
        rw [List.map_cons, List.map_cons, ih ys a2 b2]
        congr 1
        unfold viewTrace at b1 ⊢
        simp only [Trace.mk.injEq] at b1 ⊢
        exact ⟨b1.1, congrArg (List.map f) a1, b1.2.2⟩
  unfold setEventAttribute traceAt at hs
  cases ht : (h1.traces dst)[i]? with
  | none => rw [ht] at hs; cases hs
  | some t =>
    simp only [ht] at hs
    cases he : (h1.list (h1.traceEvents t))[j]? with
    | none => simp only [he, bind, Except.bind] at hs; cases hs
    | some e =>
      simp only [he, bind, Except.bind] at hs
      obtain rfl := Except.ok.inj hs
      have heq := (key (upd h1.event e { h1.event e with attributes := (h1.event e).attributes.put k v }) _ _ hadr hview).symm
      refine ⟨heq, viewTrace { h1 with event := upd h1.event e { h1.event e with attributes := (h1.event e).attributes.put k v } } t,
        { h1.event e with attributes := (h1.event e).attributes.put k v }, ?_, ?_, Dict.get?_put_self _ _ _⟩
      · show ((h1.traces src).map _)[i]? = _
        rw [heq, List.getElem?_map, ht]
        rfl
      · show ((h1.list (h1.traceEvents t)).map _)[j]? = _
        rw [List.getElem?_map, he, Option.map_some]
        exact congrArg some (upd_self _ _ _)

end

/-! ### joining events -/

section
variable [DecidableEq A] [DecidableEq V]

/-- the event objects of a log -/
def eventsOf (h : Heap I A V) (ts : List Nat) : List Nat := ts.flatMap fun t => h.list (h.traceEvents t)

theorem joinFold_spec (args : JoinArgs A V) : ∀ (es : List Nat) (h : Heap I A V) (acc : List Nat) (last : Nat), (acc ++ last :: es).Nodup →
    (∃ er, es.foldlM (joinStep args) (h, acc, last) = .error er ∧
      (es.map h.event).foldlM (EventLog.joinStep args) (acc.map h.event, h.event last) = .error er) ∨
    ∃ ev acc' last', es.foldlM (joinStep args) (h, acc, last) = .ok ({ h with event := ev }, acc', last') ∧
      (∀ a, a ∉ last :: es → ev a = h.event a) ∧
      (es.map h.event).foldlM (EventLog.joinStep args) (acc.map h.event, h.event last) = .ok (acc'.map ev, ev last') ∧
      (acc' ++ [last']).Sublist (acc ++ last :: es) := by
  intro es
  induction es with
  | nil =>
    intro h acc last _
    exact Or.inr ⟨h.event, acc, last, rfl, fun _ _ => rfl, rfl, List.Sublist.refl _⟩
  | cons e es ih =>
    intro h acc last hn
    have hn' : ((acc ++ [last]) ++ e :: es).Nodup := by simpa using hn
    rw [List.foldlM_cons, List.map_cons, List.foldlM_cons]
    by_cases hc : (h.event last).activity = (h.event e).activity ∧ args.blacklist (h.event e).activity = false
    · cases hj : joinEvents args (h.event last) (h.event e) with
      | error er =>
        left
        refine ⟨er, ?_, ?_⟩
        · simp only [joinStep, if_pos hc, hj]; rfl
        · simp only [EventLog.joinStep, if_pos hc, hj]; rfl
      | ok a =>
        have h1 : joinStep args (h, acc, last) e = .ok ({ h with event := upd h.event last a }, acc, last) := by
          simp only [joinStep, if_pos hc, hj]; rfl
        have h2 : EventLog.joinStep args (acc.map h.event, h.event last) (h.event e) = .ok (acc.map h.event, a) := by
          simp only [EventLog.joinStep, if_pos hc, hj]; rfl
        rw [h1, h2]
        obtain ⟨hna, hnl, hd⟩ := List.nodup_append.1 hn
        have hsub : (acc ++ last :: es).Sublist (acc ++ last :: e :: es) :=
          (List.Sublist.refl acc).append ((List.sublist_cons_self e es).cons_cons last)
        have hacc : acc.map (upd h.event last a) = acc.map h.event :=
          List.map_congr_left fun x hx => upd_ne _ _ fun hc => hd x hx last List.mem_cons_self hc
        have hes : es.map (upd h.event last a) = es.map h.event :=
          List.map_congr_left fun x hx => upd_ne _ _ fun hc => (List.nodup_cons.1 hnl).1 (hc ▸ List.mem_cons_of_mem _ hx)
        have := ih { h with event := upd h.event last a } acc last (hn.sublist hsub)
        simp only [hacc, hes, upd_self] at this
        rcases this with ⟨er, i1, i2⟩ | ⟨ev, acc', last', i1, i2, i3, i4⟩
        · exact Or.inl ⟨er, i1, i2⟩
        · refine Or.inr ⟨ev, acc', last', i1, fun x hx => ?_, i3, i4.trans hsub⟩
          simp only [List.mem_cons, not_or] at hx
          rw [i2 x (by simp [hx.1, hx.2.2]), upd_ne _ _ hx.1]
    · have h1 : joinStep args (h, acc, last) e = .ok (h, acc ++ [last], e) := by
        simp only [joinStep, if_neg hc]
      have h2 : EventLog.joinStep args (acc.map h.event, h.event last) (h.event e) = .ok ((acc ++ [last]).map h.event, h.event e) := by
        simp only [EventLog.joinStep, if_neg hc, List.map_append, List.map_singleton]
      rw [h1, h2]
      rcases ih h (acc ++ [last]) e hn' with ⟨er, i1, i2⟩ | ⟨ev, acc', last', i1, i2, i3, i4⟩
      · exact Or.inl ⟨er, i1, i2⟩
      · refine Or.inr ⟨ev, acc', last', i1, fun x hx => i2 x fun hc => hx (List.mem_cons_of_mem _ hc), i3, ?_⟩
        simpa using i4

theorem joinTrace_spec (args : JoinArgs A V) {tr : Nat → List Nat} {h : Heap I A V} (hi : Inv tr h) {t : Nat} (ht : Live tr t)
    (hn : (h.list (h.traceEvents t)).Nodup) :
    (∃ er, joinTrace args h t = .error er ∧ EventLog.joinTrace args (viewTrace h t).events = .error er) ∨
    ∃ h' es, joinTrace args h t = .ok h' ∧ EventLog.joinTrace args (viewTrace h t).events = .ok es ∧ Inv tr h' ∧ h'.traces = h.traces ∧
      viewTrace h' t = { viewTrace h t with events := es } ∧
      (∀ t', Live tr t' → t' ≠ t → h'.list (h'.traceEvents t') = h.list (h.traceEvents t') ∧
        ((∀ e ∈ h.list (h.traceEvents t'), e ∉ h.list (h.traceEvents t)) → viewTrace h' t' = viewTrace h t')) ∧
      (h'.list (h'.traceEvents t)).Sublist (h.list (h.traceEvents t)) := by
  have hev : (viewTrace h t).events = (h.list (h.traceEvents t)).map h.event := rfl
  have hb := hi.bound t ht
  unfold joinTrace EventLog.joinTrace
  rw [hev]
  cases hl : h.list (h.traceEvents t) with
  | nil => exact Or.inl ⟨.index, rfl, rfl⟩
  | cons e es =>
    rw [hl] at hn hb
    simp only [List.map_cons]
    rcases joinFold_spec args es h [] e hn with ⟨er, i1, i2⟩ | ⟨ev, acc', last', i1, i2, i3, i4⟩
    · left
      exact ⟨er, by rw [i1]; rfl, by rw [show (List.map h.event es).foldlM (EventLog.joinStep args) ([], h.event e) = _ from i2]; rfl⟩
    · right
      have hi1 : Inv tr { h with event := ev } := ⟨hi.nodup, hi.disj, hi.lists, hi.dicts, hi.bound⟩
      have hloc := local_setEvents hi1 ht (es := acc' ++ [last']) (fun x hx => hb.2.2.2 x (i4.subset hx))
      refine ⟨_, acc'.map ev ++ [ev last'], by rw [i1]; rfl,
        by rw [show (List.map h.event es).foldlM (EventLog.joinStep args) ([], h.event e) = _ from i3]; rfl, hloc.inv, hloc.traces, ?_, fun t' ht' hne => ⟨?_, fun hd => ?_⟩, ?_⟩
      · refine hloc.here.trans ?_
        show (⟨_, (acc' ++ [last']).map ev, _⟩ : Trace I A V) = _
        rw [List.map_append]
        rfl
      · show upd h.list h.next _ (upd h.traceEvents t h.next t') = _
        rw [upd_ne _ _ hne, upd_ne _ _ (Nat.ne_of_lt (hi.bound t' ht').2.1)]
      · refine (hloc.there t' ht' hne).trans ?_
        exact viewTrace_congr rfl rfl rfl fun x hx => i2 x (hd x hx)
      · show (upd h.list h.next _ (upd h.traceEvents t h.next t)).Sublist _
        rw [upd_self, upd_self]
        exact i4

theorem joinAll_spec (args : JoinArgs A V) {tr : Nat → List Nat} : ∀ (ts : List Nat) (h : Heap I A V), Inv tr h → ts.Nodup → (∀ t ∈ ts, Live tr t) →
    (eventsOf h ts).Nodup →
    (∃ er, ts.foldlM (joinTrace args) h = .error er ∧ joinSuccessive args (ts.map (viewTrace h)) = .error er) ∨
    ∃ h', ts.foldlM (joinTrace args) h = .ok h' ∧ Inv tr h' ∧ h'.traces = h.traces ∧ joinSuccessive args (ts.map (viewTrace h)) = .ok (ts.map (viewTrace h')) ∧
      ∀ t, Live tr t → t ∉ ts → (∀ e ∈ h.list (h.traceEvents t), e ∉ eventsOf h ts) → viewTrace h' t = viewTrace h t := by
  intro ts
  induction ts with
  | nil => intro h hi _ _ _; exact Or.inr ⟨h, rfl, hi, rfl, rfl, fun _ _ _ _ => rfl⟩
  | cons t ts ih =>
    intro h hi hn hl hev
    obtain ⟨hn1, hn2⟩ := List.nodup_cons.1 hn
    have hev' : (h.list (h.traceEvents t) ++ eventsOf h ts).Nodup := hev
    obtain ⟨e1, e2, e3⟩ := List.nodup_append.1 hev'
    have hjs : joinSuccessive args ((t :: ts).map (viewTrace h)) = (EventLog.joinTrace args (viewTrace h t).events >>= fun es =>
        joinSuccessive args (ts.map (viewTrace h)) >>= fun rest => (pure ({ viewTrace h t with events := es } :: rest) : Py (Log I A V))) := by
      unfold joinSuccessive
      rw [List.map_cons, List.mapM_cons]
      cases EventLog.joinTrace args (viewTrace h t).events <;> rfl
    rw [hjs, List.foldlM_cons]
    rcases joinTrace_spec args hi (hl t List.mem_cons_self) e1 with ⟨er, h1, h2⟩ | ⟨h1, es, j1, j2, j3, j4, j5, j6, j7⟩
    · rw [h1, h2]; exact Or.inl ⟨er, rfl, rfl⟩
    · have hlists : ∀ x, Live tr x → x ≠ t → h1.list (h1.traceEvents x) = h.list (h.traceEvents x) := fun x hx hne => (j6 x hx hne).1
      have hevts : eventsOf h1 ts = eventsOf h ts := by
        unfold eventsOf
        exact List.flatMap_congr fun x hx => hlists x (hl x (List.mem_cons_of_mem _ hx)) fun hc => hn1 (hc ▸ hx)
      have hviews : ts.map (viewTrace h1) = ts.map (viewTrace h) := by
        refine List.map_congr_left fun x hx => (j6 x (hl x (List.mem_cons_of_mem _ hx)) fun hc => hn1 (hc ▸ hx)).2 fun a ha hat => ?_
        exact e3 a hat a (List.mem_flatMap.2 ⟨x, hx, ha⟩) rfl
      rw [j1, j2]
      show (∃ er, ts.foldlM (joinTrace args) h1 = _ ∧ (joinSuccessive args (ts.map (viewTrace h)) >>= fun rest => _) = _) ∨
        ∃ h', ts.foldlM (joinTrace args) h1 = _ ∧ _ ∧ _ ∧ (joinSuccessive args (ts.map (viewTrace h)) >>= fun rest => _) = _ ∧ _
      rw [← hviews]
      rcases ih h1 j3 hn2 (fun x hx => hl x (List.mem_cons_of_mem _ hx)) (by rw [hevts]; exact e2) with ⟨er, i1, i2⟩ | ⟨h', i1, i2, i3, i4, i5⟩
      · exact Or.inl ⟨er, i1, by rw [i2]; rfl⟩
      · have ht1 : viewTrace h' t = viewTrace h1 t := by
          refine i5 t (hl t List.mem_cons_self) hn1 fun a ha => ?_
          rw [hevts]
          exact fun hc => e3 a (j7.subset ha) a hc rfl
        refine Or.inr ⟨h', i1, i2, i3.trans j4, ?_, fun x hx hxn hxe => ?_⟩
        · rw [i4, List.map_cons, ht1, j5]
          rfl
        · simp only [List.mem_cons, not_or] at hxn
          have hxe' : ∀ e ∈ h.list (h.traceEvents x), e ∉ h.list (h.traceEvents t) ∧ e ∉ eventsOf h ts := fun e he => by
            have : e ∉ h.list (h.traceEvents t) ++ eventsOf h ts := hxe e he
            simpa [not_or] using this
          rw [i5 x hx hxn.2 (by rw [hlists x hx hxn.1, hevts]; exact fun e he => (hxe' e he).2)]
          exact (j6 x hx hxn.1).2 fun e he => (hxe' e he).1

/-- C122: joining successive events changes event objects. If no event object occurs twice in the log, the result is that of the value
model, and logs without common event objects do not change. -/
theorem C122_join_without_copies (args : JoinArgs A V) {h : Heap I A V} (hi : Inv h.traces h) (l : Nat) (hev : (eventsOf h (h.traces l)).Nodup) :
    (join args h l).map (fun h' => view h' l) = joinSuccessive args (view h l) ∧
      ∀ h', join args h l = .ok h' → ∀ m, m ≠ l → (∀ e ∈ eventsOf h (h.traces m), e ∉ eventsOf h (h.traces l)) → view h' m = view h m := by
  rcases joinAll_spec args (h.traces l) h hi (hi.nodup l) (fun t ht => ⟨l, ht⟩) hev with ⟨er, h1, h2⟩ | ⟨h', h1, h2, h3, h4, h5⟩
  · unfold join view
    rw [h1, h2]
    exact ⟨rfl, fun h' hc => by cases hc⟩
  · unfold join view
    rw [h1, h4]
    refine ⟨?_, fun h'' hc m hm hd => ?_⟩
    · show Except.ok (List.map (viewTrace h') (h'.traces l)) = Except.ok _
      rw [h3]
    · obtain rfl := Except.ok.inj hc
      rw [h3]
      exact List.map_congr_left fun t ht => h5 t ⟨m, ht⟩ (fun hc => hm (hi.disj m l t ht hc))
        fun e he => hd e (List.mem_flatMap.2 ⟨t, ht, he⟩)

end

/-! ### concrete cases -/

/-- no objects -/
def emptyHeap : Heap Nat Char Nat := ⟨fun _ => ⟨'?', [], none⟩, fun _ => [], fun _ => [], fun _ => 0, fun _ => 0, fun _ => 0, fun _ => [], 0⟩

/-- the hypotheses are met initially; by `step_spec` they stay true -/
theorem C122_initially : Inv emptyHeap.traces emptyHeap :=
  ⟨fun _ => List.nodup_nil, fun _ _ _ h => (by cases h), fun _ _ ⟨_, h⟩ => (by cases h), fun _ _ ⟨_, h⟩ => (by cases h), fun _ ⟨_, h⟩ => (by cases h)⟩

/-- a program with a copy whose original and copy are both changed -/
example : (run emptyHeap [.addTrace 0 7 [⟨'a', [], none⟩, ⟨'b', [], none⟩] [("x", 1)], .copy 0 1, .addStart 1 's', .setAttribute 1 0 "x" 2, .addEnd 0 'e', .setId 1 0 8,
    .filter 1 (fun c => c ≠ 'b') true]).map (fun h => (view h 0, view h 1)) =
    .ok ([⟨7, [⟨'a', [], none⟩, ⟨'b', [], none⟩, ⟨'e', [], none⟩], [("x", 1)]⟩], [⟨8, [⟨'s', [], none⟩, ⟨'a', [], none⟩], [("x", 2)]⟩]) := by decide +kernel

/-- the hypotheses of the join theorem are met without copies -/
example : ((run emptyHeap [.addTrace 0 7 [⟨'a', [], none⟩, ⟨'a', [], none⟩] [], .addTrace 0 8 [⟨'b', [], none⟩] []]).map fun h => decide (eventsOf h (h.traces 0)).Nodup) = .ok true := by
  decide +kernel

/-- the hypotheses of the theorem on changed events are met -/
example : ((run emptyHeap [.addTrace 0 7 [⟨'a', [], none⟩] []] >>= fun h => copy h 0 1 >>= fun h => setEventAttribute h 1 0 0 "k" 5).map fun h => view h 0) =
    .ok [⟨7, [⟨'a', [("k", 5)], none⟩], []⟩] := by decide +kernel

/-- C122: joining the events of a copy changes the original log -/
theorem C122_join_through_copy : (do
    let h ← run emptyHeap [.addTrace 0 7 [⟨'a', [("end", 1)], none⟩, ⟨'a', [("end", 2)], none⟩] [], .copy 0 1]
    let h' ← join ⟨none, some "end", none, true, fun _ => false, fun x y => x - y, fun x y => x + y⟩ h 1
    return (view h 0, view h' 0) : Py _) =
    .ok ([⟨7, [⟨'a', [("end", 1)], none⟩, ⟨'a', [("end", 2)], none⟩], []⟩], [⟨7, [⟨'a', [("end", 2)], none⟩, ⟨'a', [("end", 2)], none⟩], []⟩]) := by decide +kernel

/-- C122: the parts of a train-test split are not copies: a start activity that is added to the train log appears in the original log -/
theorem C122_split_shares_traces : (do
    let h ← run emptyHeap [.addTrace 0 7 [⟨'a', [], none⟩] [], .addTrace 0 8 [⟨'b', [], none⟩] []]
    let h := split h 1 2 (h.traces 0) 1
    let h' ← step h (.addStart 1 's')
    return [view h 0, view h 1, view h 2, view h' 0] : Py _) =
    .ok [[⟨7, [⟨'a', [], none⟩], []⟩, ⟨8, [⟨'b', [], none⟩], []⟩], [⟨7, [⟨'a', [], none⟩], []⟩], [⟨8, [⟨'b', [], none⟩], []⟩],
      [⟨7, [⟨'s', [], none⟩, ⟨'a', [], none⟩], []⟩, ⟨8, [⟨'b', [], none⟩], []⟩]] := by decide +kernel

end Prolothar.EventLogHeap
