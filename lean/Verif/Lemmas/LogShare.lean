import Verif.Spec.RefStore
import Verif.Props.EventLogHeap
/-
Logs that share traces: the objects behave like numbered traces.
-/
namespace Prolothar.LogShare
open Prolothar.EventLog Prolothar.EventLogHeap Prolothar.RefStore
variable {I A V : Type}

/-! values of numbered traces -/

theorem changeValues_not_mem (f : Trace I A V → Trace I A V) : ∀ (ts : List Nat) (v : Nat → Trace I A V) {t : Nat}, t ∉ ts → changeValues f ts v t = v t := by
  intro ts
  induction ts with
  | nil => intro v t _; rfl
  | cons x xs ih =>
    intro v t ht
    rw [List.mem_cons, not_or] at ht
    exact (ih _ ht.2).trans (upd_ne _ _ ht.1)

theorem changeValues_nodup (f : Trace I A V → Trace I A V) : ∀ (ts : List Nat) (v : Nat → Trace I A V) {t : Nat}, ts.Nodup → t ∈ ts →
    changeValues f ts v t = f (v t) := by
  intro ts
  induction ts with
  | nil => intro v t _ ht; cases ht
  | cons x xs ih =>
    intro v t hn ht
    obtain ⟨h1, h2⟩ := List.nodup_cons.1 hn
    show changeValues f xs (upd v x (f (v x))) t = _
    rcases List.mem_cons.1 ht with rfl | ht
    · rw [changeValues_not_mem f xs _ h1, upd_self]
    · have hne : t ≠ x := fun hc => h1 (hc ▸ ht)
      rw [ih _ h2 ht, upd_ne _ _ hne]

theorem setValues_not_mem : ∀ (ns : List Nat) (xs : List (Trace I A V)) (v : Nat → Trace I A V) {t : Nat}, t ∉ ns → setValues v ns xs t = v t := by
  intro ns
  induction ns with
  | nil => intro xs v t _; rfl
  | cons n ns ih =>
    intro xs v t ht
    rw [List.mem_cons, not_or] at ht
    cases xs with
    | nil => rfl
    | cons x xs => exact (ih xs _ ht.2).trans (upd_ne _ _ ht.1)

theorem setValues_map : ∀ (ns : List Nat) (xs : List (Trace I A V)) (v : Nat → Trace I A V), ns.Nodup → ns.length = xs.length →
    ns.map (setValues v ns xs) = xs := by
  intro ns
  induction ns with
  | nil =>
    intro xs v _ hl
    rw [List.length_eq_zero_iff.1 hl.symm]
    rfl
  | cons n ns ih =>
    intro xs v hn hl
    obtain ⟨h1, h2⟩ := List.nodup_cons.1 hn
    cases xs with
    | nil => cases hl
    | cons x xs =>
      rw [List.map_cons]
      show setValues (upd v n x) ns xs n :: ns.map (setValues (upd v n x) ns xs) = _
      rw [setValues_not_mem ns xs _ h1, upd_self, ih xs _ h2 (Nat.succ.inj hl)]

/-! the objects -/

open Classical in
/-- every trace in its own cell -/
noncomputable def solo (P : Nat → Prop) (t : Nat) : List Nat := if P t then [t] else []

theorem mem_solo {P : Nat → Prop} {t k : Nat} : t ∈ solo P k ↔ P k ∧ t = k := by
  unfold solo
  split <;> simp_all

theorem live_solo {P : Nat → Prop} {t : Nat} : Live (solo P) t ↔ P t := by
  constructor
  · rintro ⟨k, hk⟩
    obtain ⟨h1, rfl⟩ := mem_solo.1 hk
    exact h1
  · exact fun h => ⟨t, mem_solo.2 ⟨h, rfl⟩⟩

theorem solo_mono {P Q : Nat → Prop} {h : Heap I A V} (hi : Inv (solo P) h) (hq : ∀ t, Q t → P t) : Inv (solo Q) h := by
  refine hi.sub id (fun _ _ h => Or.inr (Or.inr h)) fun k => ?_
  show (solo Q k).Sublist (solo P k)
  unfold solo
  by_cases h1 : Q k
  · rw [if_pos h1, if_pos (hq k h1)]
  · rw [if_neg h1]; exact List.nil_sublist _

/-- No list or dictionary belongs to two traces; all objects are allocated. A trace may be in several logs. -/
def Sound (h : Heap I A V) : Prop := Inv (solo (Live h.traces)) h

/-- the numbered traces of the objects -/
def refs (h : Heap I A V) : Refs I A V := ⟨viewTrace h, h.traces⟩

/-- the objects and the numbered traces agree -/
structure Sim (h : Heap I A V) (s : Refs I A V) : Prop where
  sound : Sound h
  logs : h.traces = s.logs
  value : ∀ t, Live h.traces t → viewTrace h t = s.value t

theorem Sim.refl {h : Heap I A V} (hs : Sound h) : Sim h (refs h) := ⟨hs, rfl, fun _ _ => rfl⟩

theorem Sim.see {h : Heap I A V} {s : Refs I A V} (hs : Sim h s) (l : Nat) : (refs h).see l = s.see l := by
  show (h.traces l).map (viewTrace h) = (s.logs l).map s.value
  rw [← hs.logs]
  exact List.map_congr_left fun t ht => hs.value t ⟨l, ht⟩

theorem Sim.one {h h' : Heap I A V} {s : Refs I A V} (hs : Sim h s) {t : Nat} {f : Trace I A V → Trace I A V}
    (hl : Local (solo (Live h.traces)) h h' t (f (viewTrace h t))) (ht : Live h.traces t) : Sim h' { s with value := upd s.value t (f (s.value t)) } := by
  refine ⟨?_, hl.traces.trans hs.logs, fun x hx => ?_⟩
  · unfold Sound
    rw [hl.traces]
    exact hl.inv
  · rw [hl.traces] at hx
    show _ = upd s.value t _ x
    by_cases hxt : x = t
    · subst hxt
      rw [upd_self, hl.here, hs.value x hx]
    · rw [upd_ne _ _ hxt, hl.there x (live_solo.2 hx) hxt, hs.value x hx]

theorem fold_sim {tr : Nat → List Nat} {f : Heap I A V → Nat → Heap I A V} {G : Trace I A V → Trace I A V}
    (hf : ∀ h t, Inv (solo (Live tr)) h → Live tr t → Local (solo (Live tr)) h (f h t) t (G (viewTrace h t))) :
    ∀ (ts : List Nat) (h : Heap I A V) (s : Refs I A V), h.traces = tr → Sim h s → (∀ t ∈ ts, Live tr t) →
      Sim (ts.foldl f h) { s with value := changeValues G ts s.value } := by
  intro ts
  induction ts with
  | nil => intro h s _ hs _; exact hs
  | cons t ts ih =>
    intro h s htr hs hl
    have hlt := hl t List.mem_cons_self
    have h1 := hf h t (by rw [← htr]; exact hs.sound) hlt
    have h2 := h1
    rw [← htr] at h2
    have h3 := hs.one h2 (by rw [htr]; exact hlt)
    exact ih (f h t) _ (h1.traces.trans htr) h3 fun x hx => hl x (List.mem_cons_of_mem _ hx)

theorem forTraces_sim {h : Heap I A V} {s : Refs I A V} (hs : Sim h s) {f : Heap I A V → Nat → Heap I A V} {G : Trace I A V → Trace I A V}
    (hf : ∀ h' t, Inv (solo (Live h.traces)) h' → Live h.traces t → Local (solo (Live h.traces)) h' (f h' t) t (G (viewTrace h' t))) (l : Nat) :
    Sim (forTraces h l f) (s.change l G) := by
  have := fold_sim hf (h.traces l) h s rfl hs fun t ht => ⟨l, ht⟩
  have he : s.change l G = { s with value := changeValues G (h.traces l) s.value } := by
    unfold Refs.change
    rw [hs.logs]
  rw [he]
  exact this

/-- other lists of the same traces -/
theorem Sim.relink {h : Heap I A V} {s : Refs I A V} (hs : Sim h s) {f : Nat → List Nat} (hf : ∀ t, Live f t → Live h.traces t) :
    Sim { h with traces := f } { s with logs := f } :=
  ⟨(solo_mono hs.sound hf).frame f, rfl, fun t ht => hs.value t (hf t ht)⟩

theorem live_upd {tr : Nat → List Nat} {l : Nat} {ts : List Nat} (hts : ∀ t ∈ ts, Live tr t) : ∀ t, Live (upd tr l ts) t → Live tr t := by
  rintro t ⟨k, hk⟩
  by_cases h : k = l
  · subst h; rw [upd_self] at hk; exact hts t hk
  · rw [upd_ne _ _ h] at hk; exact ⟨k, hk⟩

theorem Sim.relinkOne {h : Heap I A V} {s : Refs I A V} (hs : Sim h s) {l : Nat} {ts : List Nat} (hts : ∀ t ∈ ts, Live h.traces t) :
    Sim { h with traces := upd h.traces l ts } { s with logs := upd s.logs l ts } := by
  rw [← hs.logs]
  exact hs.relink (live_upd hts)

theorem dropEmpty_sim {h : Heap I A V} {s : Refs I A V} (hs : Sim h s) (l : Nat) : Sim (dropEmpty h l) (s.dropEmpty l) := by
  have h1 : ((s.logs l).filter fun t => decide ((s.value t).events.length > 0)) =
      (h.traces l).filter fun t => decide ((h.list (h.traceEvents t)).length > 0) := by
    rw [← hs.logs]
    refine List.filter_congr fun t ht => ?_
    rw [← hs.value t ⟨l, ht⟩]
    simp [viewTrace]
  unfold dropEmpty Refs.dropEmpty
  rw [h1]
  exact hs.relinkOne fun t ht => ⟨l, List.mem_of_mem_filter ht⟩

/-! loop bodies -/

theorem local_cutStart {κ : Type} {tr : κ → List Nat} {h : Heap I A V} (hi : Inv tr h) {t : Nat} (ht : Live tr t) (S : A → Bool) :
    Local tr h (cutStart S h t) t (from_ S (viewTrace h t)) := by
  have := local_setEvents hi ht (es := sliceFrom (h.list (h.traceEvents t)) (firstIndexOfMatching (viewTrace h t) S))
    (fun e he => (hi.bound t ht).2.2.2 e (List.mem_of_mem_drop he))
  rw [slice_map_from] at this
  exact this

theorem local_cutEnd {κ : Type} {tr : κ → List Nat} {h : Heap I A V} (hi : Inv tr h) {t : Nat} (ht : Live tr t) (E : A → Bool) :
    Local tr h (cutEnd E h t) t (to_ E (viewTrace h t)) := by
  have := local_setEvents hi ht (es := sliceTo (h.list (h.traceEvents t)) (lastIndexOfMatching (viewTrace h t) E + 1))
    (fun e he => (hi.bound t ht).2.2.2 e (List.mem_of_mem_take he))
  rw [slice_map_to] at this
  exact this

theorem local_filterTrace {κ : Type} {tr : κ → List Nat} {h : Heap I A V} (hi : Inv tr h) {t : Nat} (ht : Live tr t) (p : A → Bool) :
    Local tr h (filterTrace p h t) t { viewTrace h t with events := (viewTrace h t).events.filter fun e => p e.activity } := by
  have := local_setEvents hi ht (es := (h.list (h.traceEvents t)).filter fun e => p (h.event e).activity)
    (fun e he => (hi.bound t ht).2.2.2 e (List.mem_of_mem_filter he))
  have hm : ((h.list (h.traceEvents t)).filter fun e => p (h.event e).activity).map h.event = (viewTrace h t).events.filter fun e => p e.activity := by
    show _ = ((h.list (h.traceEvents t)).map h.event).filter _
    rw [List.filter_map]
    rfl
  rw [hm] at this
  exact this

theorem local_keepTrace [DecidableEq A] {κ : Type} {tr : κ → List Nat} {h : Heap I A V} (hi : Inv tr h) {t : Nat} (ht : Live tr t) :
    Local tr h (keepTrace h t) t { viewTrace h t with events := ((viewTrace h t).events.foldl keepFirstStep ([], [])).2 } := by
  obtain ⟨k1, k2⟩ := keepStep_map h (h.list (h.traceEvents t)) [] []
  have := local_setEvents hi ht (es := ((h.list (h.traceEvents t)).foldl (keepStep h) ([], [])).2)
    (fun e he => by
      rcases k2 e he with h | h
      · cases h
      · exact (hi.bound t ht).2.2.2 e h)
  rw [k1] at this
  exact this

/-! new traces -/

theorem solo_add {P : Nat → Prop} {h h' : Heap I A V} (hi : Inv (solo P) h) (a : Agree h h') {t : Nat} (ht : h.next ≤ t ∧ t < h'.next)
    (hl : h.next ≤ h'.traceEvents t ∧ h'.traceEvents t < h'.next) (hd : h.next ≤ h'.traceAttributes t ∧ h'.traceAttributes t < h'.next)
    (he : ∀ e ∈ h'.list (h'.traceEvents t), e < h'.next) : ¬ P t ∧ Inv (solo fun x => P x ∨ x = t) h' := by
  have hp : ¬ P t := fun hp => absurd (hi.bound t (live_solo.2 hp)).1 (by omega)
  refine ⟨hp, (hi.add a ht hl hd he t).sub id (fun _ _ h => Or.inr (Or.inr h)) fun k => ?_⟩
  by_cases hk : k = t
  · subst hk
    show (solo _ k).Sublist (upd _ k _ k)
    rw [upd_self]
    unfold solo
    rw [if_neg hp, if_pos (Or.inr rfl)]
    exact List.Sublist.refl _
  · show (solo _ k).Sublist (upd _ t _ k)
    rw [upd_ne _ _ hk]
    unfold solo
    by_cases h1 : P k
    · rw [if_pos h1, if_pos (Or.inl h1)]
    · rw [if_neg (by simp [h1, hk])]; exact List.nil_sublist _

theorem copyLoop_shared : ∀ (ts : List Nat) (h : Heap I A V) (done : List Nat) (P : Nat → Prop), Inv (solo P) h → (∀ t ∈ ts, P t) →
    ((∃ t ∈ ts, (viewTrace h t).events = []) ∧ copyLoop h ts done = .error .value) ∨
    ((¬ ∃ t ∈ ts, (viewTrace h t).events = []) ∧ ∃ h' new, copyLoop h ts done = .ok (h', done ++ new) ∧ Agree h h' ∧
      Inv (solo fun x => P x ∨ x ∈ new) h' ∧ new.map (viewTrace h') = ts.map (viewTrace h) ∧ new.Nodup ∧ ∀ n ∈ new, ¬ P n) := by
  intro ts
  induction ts with
  | nil =>
    intro h done P hi _
    refine Or.inr ⟨fun ⟨t, ht, _⟩ => (by cases ht), h, [], by rw [List.append_nil]; rfl, Agree.refl h, solo_mono hi fun t ht => ?_, rfl, List.nodup_nil,
      fun n hn => (by cases hn)⟩
    rcases ht with h | h
    · exact h
    · cases h
  | cons t ts ih =>
    intro h done P hi hp
    have hev : (viewTrace h t).events = [] ↔ h.list (h.traceEvents t) = [] := by simp [viewTrace]
    rcases copyTrace_spec hi (live_solo.2 (hp t List.mem_cons_self)) with ⟨h1, h2⟩ | ⟨h', t', h1, h2, h3, h4, h5, h6, h7, h8, _⟩
    · left
      refine ⟨⟨t, List.mem_cons_self, hev.2 h1⟩, ?_⟩
      unfold copyLoop
      rw [h2]
      rfl
    · obtain ⟨hn, hi'⟩ := solo_add hi h2 h3 h4 h5 h6
      have hview : ∀ x, P x → viewTrace h' x = viewTrace h x := fun x hx => h2.view hi (live_solo.2 hx)
      have hts : ∀ x ∈ ts, viewTrace h' x = viewTrace h x := fun x hx => hview x (hp x (List.mem_cons_of_mem _ hx))
      have hrun : copyLoop h (t :: ts) done = copyLoop h' ts (done ++ [t']) := by
        rw [copyLoop, h1]
        rfl
      rcases ih h' (done ++ [t']) _ hi' fun x hx => Or.inl (hp x (List.mem_cons_of_mem _ hx)) with
        ⟨⟨x, hx, hxe⟩, i2⟩ | ⟨i1, h'', new, i2, i3, i4, i5, i6, i7⟩
      · left
        rw [hts x hx] at hxe
        exact ⟨⟨x, List.mem_cons_of_mem _ hx, hxe⟩, hrun.trans i2⟩
      · right
        refine ⟨?_, h'', t' :: new, by rw [hrun, i2]; simp, h2.trans i3, solo_mono i4 fun x hx => ?_, ?_, ?_, ?_⟩
        · rintro ⟨x, hx, hxe⟩
          rcases List.mem_cons.1 hx with rfl | hx
          · exact h8 (hev.1 hxe)
          · exact i1 ⟨x, hx, by rw [hts x hx]; exact hxe⟩
        · rcases hx with h | h
          · exact Or.inl (Or.inl h)
          · rcases List.mem_cons.1 h with h | h
            · exact Or.inl (Or.inr h)
            · exact Or.inr h
        · rw [List.map_cons, List.map_cons, i5, List.map_congr_left hts]
          congr 1
          rw [← h7]
          exact i3.view hi' (live_solo.2 (Or.inr rfl))
        · exact List.nodup_cons.2 ⟨fun hc => i7 t' hc (Or.inr rfl), i6⟩
        · intro n hn'
          rcases List.mem_cons.1 hn' with rfl | hn'
          · exact hn
          · exact fun hc => i7 n hn' (Or.inl hc)

/-- new traces with their values -/
theorem Sim.create {h h' : Heap I A V} (hs : Sound h) (a : Agree h h') {new : List Nat} (hi : Inv (solo fun x => Live h.traces x ∨ x ∈ new) h')
    (hn : new.Nodup) {xs : List (Trace I A V)} (hx : new.map (viewTrace h') = xs) {l : Nat} {ts : List Nat}
    (hts : ∀ t ∈ ts, Live h.traces t ∨ t ∈ new) :
    Sim { h' with traces := upd h'.traces l ts } ⟨setValues (viewTrace h) new xs, upd h.traces l ts⟩ := by
  have hlive : ∀ t, Live (upd h.traces l ts) t → Live h.traces t ∨ t ∈ new := by
    rintro t ⟨k, hk⟩
    by_cases h : k = l
    · subst h; rw [upd_self] at hk; exact hts t hk
    · rw [upd_ne _ _ h] at hk; exact Or.inl ⟨k, hk⟩
  rw [a.traces]
  refine ⟨(solo_mono hi hlive).frame _, rfl, fun t ht => ?_⟩
  show viewTrace h' t = setValues (viewTrace h) new xs t
  by_cases hm : t ∈ new
  · have h1 : new.map (setValues (viewTrace h) new xs) = xs := setValues_map new xs _ hn (by rw [← hx, List.length_map])
    rw [← hx] at h1 ⊢
    exact (List.map_inj_left.1 h1 t hm).symm
  · rw [setValues_not_mem _ _ _ hm]
    rcases hlive t ht with h1 | h1
    · exact a.view hs (live_solo.2 h1)
    · exact absurd h1 hm

theorem addTrace_shared {h : Heap I A V} (hs : Sound h) (l : Nat) (id : I) (es : List (Event A V)) (d : Dict String V) :
    (es = [] ∧ addTrace h l id es d = .error .value) ∨
    (es ≠ [] ∧ ∃ h' n, addTrace h l id es d = .ok { h' with traces := upd h'.traces l (h'.traces l ++ [n]) } ∧ Agree h h' ∧
      Inv (solo fun x => Live h.traces x ∨ x ∈ [n]) h' ∧ ¬ Live h.traces n ∧ viewTrace h' n = ⟨id, es, d⟩) := by
  obtain ⟨h1, h2, h3⟩ := newEvents_spec es h [] (fun e he => by cases he)
  generalize hr : newEvents h es [] = r at h1 h2 h3
  have hlist : (newDict (newList r.1 r.2).1 d).1.list r.1.next = r.2 := upd_self _ _ _
  have hnil : r.2 = [] ↔ es = [] := by
    have : r.2.length = es.length := by
      have := congrArg List.length h3
      simpa using this
    rw [← List.length_eq_zero_iff, this, List.length_eq_zero_iff]
  have hrun : addTrace h l id es d = (newTrace (newDict (newList r.1 r.2).1 d).1 id r.1.next (r.1.next + 1) >>= fun t =>
      (pure { t.1 with traces := upd t.1.traces l (t.1.traces l ++ [t.2]) } : Py _)) := by
    unfold addTrace
    rw [hr]
    rfl
  by_cases he : es = []
  · left
    refine ⟨he, ?_⟩
    rw [hrun]
    unfold newTrace
    rw [if_pos (hlist.trans (hnil.2 he))]
    rfl
  · right
    obtain ⟨h', k1, k2, k3, k4, k5, k6, k7, k8, k9⟩ := newTrace_ok (h := (newDict (newList r.1 r.2).1 d).1)
      (id := id) (la := r.1.next) (da := r.1.next + 1) (by rw [hlist]; exact fun hc => he (hnil.1 hc))
    have hnx : h'.next = r.1.next + 3 := k3
    have k1 : newTrace (newDict (newList r.1 r.2).1 d).1 id r.1.next (r.1.next + 1) = .ok (h', r.1.next + 2) := k1
    have k4 : h'.traceId (r.1.next + 2) = id := k4
    have k5 : h'.traceEvents (r.1.next + 2) = r.1.next := k5
    have k6 : h'.traceAttributes (r.1.next + 2) = r.1.next + 1 := k6
    have k7' : h'.list r.1.next = r.2 := by rw [k7]; exact hlist
    have k8' : h'.dict (r.1.next + 1) = d := by rw [k8]; exact upd_self _ _ _
    have hag : Agree h h' := (h1.trans ((agree_newList _ _).trans (agree_newDict _ _))).trans k2
    have hnn := h1.next
    obtain ⟨j1, j2⟩ := solo_add hs hag (t := r.1.next + 2) (by omega) (by omega) (by omega) (by
      rw [k5, k7']
      exact fun e he => by have := h2 e he; omega)
    refine ⟨he, h', r.1.next + 2, by rw [hrun, k1]; rfl, hag, solo_mono j2 fun x hx => ?_, j1, ?_⟩
    · rcases hx with h | h
      · exact Or.inl h
      · exact Or.inr (List.mem_singleton.1 h)
    · unfold viewTrace
      rw [k4, k5, k6, k7', k8', k9]
      congr 1

/-! one command -/

theorem mapM_traceAt (h : Heap I A V) (l : Nat) : ∀ ps : List Nat,
    ((∃ i ∈ ps, (h.traces l).length ≤ i) ∧ ps.mapM (traceAt h l) = .error .index) ∨
    ((¬ ∃ i ∈ ps, (h.traces l).length ≤ i) ∧ ps.mapM (traceAt h l) = .ok (ps.map fun i => (h.traces l).getD i 0)) := by
  intro ps
  induction ps with
  | nil => exact Or.inr ⟨fun ⟨i, hi, _⟩ => (by cases hi), rfl⟩
  | cons p ps ih =>
    rw [List.mapM_cons]
    by_cases hp : (h.traces l).length ≤ p
    · left
      refine ⟨⟨p, List.mem_cons_self, hp⟩, ?_⟩
      unfold traceAt
      rw [List.getElem?_eq_none_iff.2 hp]
      rfl
    · have hg : traceAt h l p = .ok ((h.traces l).getD p 0) := by
        unfold traceAt
        rw [List.getD_eq_getElem?_getD, List.getElem?_eq_getElem (not_le.1 hp)]
        rfl
      rw [hg]
      rcases ih with ⟨⟨i, hi, hil⟩, h2⟩ | ⟨h1, h2⟩
      · left
        refine ⟨⟨i, List.mem_cons_of_mem _ hi, hil⟩, ?_⟩
        rw [h2]
        rfl
      · right
        refine ⟨?_, by rw [h2]; rfl⟩
        rintro ⟨i, hi, hil⟩
        rcases List.mem_cons.1 hi with rfl | hi
        · exact hp hil
        · exact h1 ⟨i, hi, hil⟩

section
variable [DecidableEq A]

theorem step_of_sim {h h' : Heap I A V} {op : Op I A V} {s' : Refs I A V} (hs : Sim h' s') (hc : created (refs h) op = 0)
    (he : exec (refs h) [] op = .ok s') : Sound h' ∧ Step (refs h) op (refs h') :=
  ⟨hs.sound, [], s', List.nodup_nil, hc.symm, fun n hn => (by cases hn), he, hs.logs, hs.see⟩

theorem changeAt_spec {h : Heap I A V} (hs : Sound h) {l i : Nat} {op : Op I A V} {F : Heap I A V → Nat → Heap I A V} {f : Trace I A V → Trace I A V}
    (hop : stepOp h op = (traceAt h l i >>= fun t => (pure (F h t) : Py _))) (hex : ∀ new, exec (refs h) new op = (refs h).changeAt l i f)
    (hc : created (refs h) op = 0)
    (hF : ∀ t, Live h.traces t → Local (solo (Live h.traces)) h (F h t) t (f (viewTrace h t))) :
    (∃ h', stepOp h op = .ok h' ∧ Sound h' ∧ Step (refs h) op (refs h')) ∨ ∃ e, stepOp h op = .error e ∧ ∀ new, exec (refs h) new op = .error e := by
  cases hg : (h.traces l)[i]? with
  | none =>
    refine Or.inr ⟨.index, by rw [hop]; unfold traceAt; rw [hg]; rfl, fun new => ?_⟩
    rw [hex]
    unfold Refs.changeAt
    have : ((refs h).logs l)[i]? = none := hg
    rw [this]
  | some t =>
    have hlt : Live h.traces t := ⟨l, List.mem_of_getElem? hg⟩
    refine Or.inl ⟨F h t, by rw [hop]; unfold traceAt; rw [hg]; rfl, step_of_sim ((Sim.refl hs).one (hF t hlt) hlt) hc ?_⟩
    rw [hex]
    unfold Refs.changeAt
    have : ((refs h).logs l)[i]? = some t := hg
    rw [this]

omit [DecidableEq A] in
theorem cut_sim {h : Heap I A V} (hs : Sound h) (l : Nat) (a b : Option (A → Bool)) :
    Sim (cut h l a b) ((((refs h).changeOpt l from_ a).changeOpt l to_ b).dropEmpty l) := by
  have hA : ∀ {h : Heap I A V} {s : Refs I A V}, Sim h s → Sim (match a with | none => h | some S => forTraces h l (cutStart S)) (s.changeOpt l from_ a) := by
    intro h s hs
    cases a with
    | none => exact hs
    | some S => exact forTraces_sim hs (fun h' t hi ht => local_cutStart hi (live_solo.2 ht) S) l
  have hB : ∀ {h : Heap I A V} {s : Refs I A V}, Sim h s → Sim (match b with | none => h | some S => forTraces h l (cutEnd S)) (s.changeOpt l to_ b) := by
    intro h s hs
    cases b with
    | none => exact hs
    | some S => exact forTraces_sim hs (fun h' t hi ht => local_cutEnd hi (live_solo.2 ht) S) l
  exact dropEmpty_sim (hB (hA (Sim.refl hs))) l

theorem stepOp_spec {h : Heap I A V} (hs : Sound h) (op : Op I A V) :
    (∃ h', stepOp h op = .ok h' ∧ Sound h' ∧ Step (refs h) op (refs h')) ∨ ∃ e, stepOp h op = .error e ∧ ∀ new, exec (refs h) new op = .error e := by
  cases op with
  | query src dst keep =>
    exact Or.inl ⟨_, rfl, step_of_sim ((Sim.refl hs).relinkOne fun t ht => ⟨src, List.mem_of_mem_filter ht⟩) rfl rfl⟩
  | pick src dst ps =>
    rcases mapM_traceAt h src ps with ⟨h1, h2⟩ | ⟨h1, h2⟩
    · exact Or.inr ⟨.index, by show pick h src dst ps = _; unfold pick; rw [h2]; rfl, fun new => if_pos h1⟩
    · refine Or.inl ⟨{ h with traces := upd h.traces dst (ps.map fun i => (h.traces src).getD i 0) }, by show pick h src dst ps = _; unfold pick; rw [h2]; rfl,
        step_of_sim ((Sim.refl hs).relinkOne fun t ht => ?_) rfl (if_neg h1)⟩
      obtain ⟨i, hi, rfl⟩ := List.mem_map.1 ht
      have hlt : i < (h.traces src).length := not_le.1 fun hc => h1 ⟨i, hi, hc⟩
      rw [List.getD_eq_getElem?_getD, List.getElem?_eq_getElem hlt]
      exact ⟨src, List.getElem_mem hlt⟩
  | share src i dst =>
    cases hg : (h.traces src)[i]? with
    | none =>
      refine Or.inr ⟨.index, by show share h src i dst = _; unfold share traceAt; rw [hg]; rfl, fun new => ?_⟩
      have : ((refs h).logs src)[i]? = none := hg
      show (match ((refs h).logs src)[i]? with | some t => _ | none => _) = _
      rw [this]
    | some t =>
      refine Or.inl ⟨{ h with traces := upd h.traces dst (h.traces dst ++ [t]) }, by show share h src i dst = _; unfold share traceAt; rw [hg]; rfl,
        step_of_sim ((Sim.refl hs).relinkOne fun x hx => ?_) rfl ?_⟩
      · rcases List.mem_append.1 hx with hx | hx
        · exact ⟨dst, hx⟩
        · obtain rfl := List.mem_singleton.1 hx
          exact ⟨src, List.mem_of_getElem? hg⟩
      · have : ((refs h).logs src)[i]? = some t := hg
        show (match ((refs h).logs src)[i]? with | some t => _ | none => _) = _
        rw [this]
        rfl
  | extend src dst =>
    refine Or.inl ⟨_, rfl, step_of_sim ((Sim.refl hs).relinkOne fun x hx => ?_) rfl rfl⟩
    rcases List.mem_append.1 hx with hx | hx
    · exact ⟨dst, hx⟩
    · exact ⟨src, hx⟩
  | cmd c =>
    cases c with
    | new dst => exact Or.inl ⟨_, rfl, step_of_sim ((Sim.refl hs).relinkOne fun t ht => (by cases ht)) rfl rfl⟩
    | copy src dst =>
      have hsee : (∃ t ∈ (refs h).see src, t.events = []) ↔ ∃ t ∈ h.traces src, (viewTrace h t).events = [] := by
        constructor
        · rintro ⟨v, hv, hve⟩
          obtain ⟨t, ht, rfl⟩ := List.mem_map.1 hv
          exact ⟨t, ht, hve⟩
        · rintro ⟨t, ht, hte⟩
          exact ⟨_, List.mem_map_of_mem ht, hte⟩
      rcases copyLoop_shared (h.traces src) h [] _ hs (fun t ht => ⟨src, ht⟩) with ⟨h1, h2⟩ | ⟨h1, h', new, h2, h3, h4, h5, h6, h7⟩
      · exact Or.inr ⟨.value, by show copy h src dst = _; unfold copy; rw [h2]; rfl, fun new => if_pos (hsee.2 h1)⟩
      · have hsim := Sim.create hs h3 h4 h6 h5 (l := dst) (ts := new) (fun t ht => Or.inr ht)
        refine Or.inl ⟨_, by show copy h src dst = _; unfold copy; rw [h2]; rfl, hsim.sound, new, _, h6, ?_, h7, if_neg fun hc => h1 (hsee.1 hc), hsim.logs, hsim.see⟩
        have := congrArg List.length h5
        rw [List.length_map, List.length_map] at this
        exact this
    | addTrace l id es d =>
      rcases addTrace_shared hs l id es d with ⟨h1, h2⟩ | ⟨h1, h', n, h2, h3, h4, h5, h6⟩
      · exact Or.inr ⟨.value, h2, fun new => if_pos h1⟩
      · have hsim := Sim.create hs h3 h4 (List.nodup_singleton n) (xs := [⟨id, es, d⟩]) (by rw [List.map_singleton, h6]) (l := l) (ts := h.traces l ++ [n]) (fun t ht => by
            rcases List.mem_append.1 ht with ht | ht
            · exact Or.inl ⟨l, ht⟩
            · exact Or.inr ht)
        rw [h3.traces] at h2
        rw [h3.traces] at hsim
        refine Or.inl ⟨_, h2, hsim.sound, [n], _, List.nodup_singleton n, rfl, ?_, if_neg h1, hsim.logs, hsim.see⟩
        intro x hx
        rw [List.mem_singleton.1 hx]
        exact h5
    | cut l a b => exact Or.inl ⟨_, rfl, step_of_sim (cut_sim hs l a b) rfl rfl⟩
    | filter l p b =>
      have h1 := forTraces_sim (G := fun t => { t with events := t.events.filter fun e => p e.activity }) (Sim.refl hs) (fun h' t hi ht => local_filterTrace hi (live_solo.2 ht) p) l
      cases b with
      | false => exact Or.inl ⟨_, rfl, step_of_sim h1 rfl rfl⟩
      | true => exact Or.inl ⟨_, rfl, step_of_sim (dropEmpty_sim h1 l) rfl rfl⟩
    | addStart l a =>
      exact Or.inl ⟨_, rfl, step_of_sim (forTraces_sim (Sim.refl hs) (fun h' t hi ht => local_insertStart hi (live_solo.2 ht) a) l) rfl rfl⟩
    | addEnd l a =>
      exact Or.inl ⟨_, rfl, step_of_sim (forTraces_sim (Sim.refl hs) (fun h' t hi ht => local_appendEvent hi (live_solo.2 ht) (Event.new a)) l) rfl rfl⟩
    | keepFirst l =>
      exact Or.inl ⟨_, rfl, step_of_sim (forTraces_sim (Sim.refl hs) (fun h' t hi ht => local_keepTrace hi (live_solo.2 ht)) l) rfl rfl⟩
    | setId l i id =>
      exact changeAt_spec hs (l := l) (i := i) (F := fun h t => { h with traceId := upd h.traceId t id }) (f := fun t => { t with id := id })
        rfl (fun _ => rfl) rfl fun t _ => setId_local hs t id
    | setAttribute l i k v =>
      exact changeAt_spec hs (l := l) (i := i)
        (F := fun h t => { h with dict := upd h.dict (h.traceAttributes t) ((h.dict (h.traceAttributes t)).put k v) })
        (f := fun t => { t with attributes := t.attributes.put k v })
        rfl (fun _ => rfl) rfl fun t ht => setAttribute_local hs (live_solo.2 ht) _
    | appendEvent l i e =>
      exact changeAt_spec hs (l := l) (i := i) (F := fun h t => appendEvent e h t) (f := fun t => { t with events := t.events ++ [e] })
        rfl (fun _ => rfl) rfl fun t ht => local_appendEvent hs (live_solo.2 ht) e

end

end Prolothar.LogShare
