import Verif.Lemmas.LogShare
/-
C191: logs that share traces.
-/
namespace Prolothar.LogShare
open Prolothar.EventLog Prolothar.EventLogHeap Prolothar.RefStore
variable {I A V : Type} [DecidableEq A]

/-- C191: A program that queries, splits, extends, copies and changes logs behaves as if there were numbered traces and every log were a list of such
numbers: a command on a log changes the values of its traces, in whatever logs they are, and only `copy` and the construction of traces create new
ones. -/
theorem C191_references {h h' : Heap I A V} (hs : Sound h) {prog : List (Op I A V)} (hr : runOps h prog = .ok h') :
    Sound h' ∧ Steps (refs h) prog (refs h') := by
  induction prog generalizing h with
  | nil => cases hr; exact ⟨hs, .nil _⟩
  | cons op ops ih =>
    unfold runOps at hr
    rcases stepOp_spec hs op with ⟨h1, h2, h3, h4⟩ | ⟨e, h2, _⟩
    · rw [h2] at hr
      obtain ⟨i1, i2⟩ := ih h3 hr
      exact ⟨i1, .cons h4 i2⟩
    · rw [h2] at hr; cases hr

/-- C191: an exception of a program is the exception of a command on the numbered traces -/
theorem C191_exceptions {h : Heap I A V} (hs : Sound h) {prog : List (Op I A V)} {e : PyErr} (hr : runOps h prog = .error e) :
    ∃ pre op post s, prog = pre ++ op :: post ∧ Steps (refs h) pre s ∧ ∀ new, exec s new op = .error e := by
  induction prog generalizing h with
  | nil => cases hr
  | cons op ops ih =>
    unfold runOps at hr
    rcases stepOp_spec hs op with ⟨h1, h2, h3, h4⟩ | ⟨e', h2, h3⟩
    · rw [h2] at hr
      obtain ⟨pre, op', post, s, i1, i2, i3⟩ := ih h3 hr
      exact ⟨op :: pre, op', post, s, by rw [i1]; rfl, .cons h4 i2, i3⟩
    · rw [h2] at hr
      cases hr
      exact ⟨[], op, ops, refs h, rfl, .nil _, h3⟩

/-! ### queries and parts are views of the original log -/

omit [DecidableEq A] in
theorem changeOpt_logs (s : Refs I A V) (l : Nat) (f : (A → Bool) → Trace I A V → Trace I A V) (o : Option (A → Bool)) : (s.changeOpt l f o).logs = s.logs := by
  cases o <;> rfl

omit [DecidableEq A] in
theorem changeAt_logs {s s' : Refs I A V} {l i : Nat} {f : Trace I A V → Trace I A V} (h : s.changeAt l i f = .ok s') : s'.logs = s.logs := by
  unfold Refs.changeAt at h
  split at h
  · cases h; rfl
  · cases h

/-- a command changes the lists of the assigned logs only -/
theorem exec_logs {s s' : Refs I A V} {new : List Nat} {op : Op I A V} (h : exec s new op = .ok s') {m : Nat} (hm : m ∉ assigned op) :
    s'.logs m = s.logs m := by
  have hu : ∀ {d : Nat} {ts : List Nat}, m ≠ d → upd s.logs d ts m = s.logs m := fun hd => upd_ne _ _ hd
  cases op with
  | query src dst keep => cases h; exact hu (by simpa [assigned] using hm)
  | pick src dst ps =>
    simp only [exec] at h
    split at h
    · cases h
    · cases h; exact hu (by simpa [assigned] using hm)
  | share src i dst =>
    simp only [exec] at h
    split at h
    · cases h; exact hu (by simpa [assigned] using hm)
    · cases h
  | extend src dst => cases h; exact hu (by simpa [assigned] using hm)
  | cmd c =>
    cases c with
    | new dst => cases h; exact hu (by simpa [assigned] using hm)
    | copy src dst =>
      simp only [exec] at h
      split at h
      · cases h
      · cases h; exact hu (by simpa [assigned] using hm)
    | addTrace l id es d =>
      simp only [exec] at h
      split at h
      · cases h
      · cases h; exact hu (by simpa [assigned] using hm)
    | cut l a b =>
      cases h
      show upd _ l _ m = _
      rw [upd_ne _ _ (by simpa [assigned] using hm), changeOpt_logs, changeOpt_logs]
    | filter l p b =>
      cases b with
      | false => cases h; rfl
      | true =>
        cases h
        exact hu (by simpa [assigned] using hm)
    | addStart l a => cases h; rfl
    | addEnd l a => cases h; rfl
    | keepFirst l => cases h; rfl
    | setId l i id => simp only [exec] at h; rw [changeAt_logs h]
    | setAttribute l i k v => simp only [exec] at h; rw [changeAt_logs h]
    | appendEvent l i e => simp only [exec] at h; rw [changeAt_logs h]

/-- a program changes the lists of the assigned logs only -/
theorem runOps_logs {h h' : Heap I A V} (hs : Sound h) {prog : List (Op I A V)} (hr : runOps h prog = .ok h') {m : Nat}
    (hm : ∀ op ∈ prog, m ∉ assigned op) : h'.traces m = h.traces m := by
  obtain ⟨_, h1⟩ := C191_references hs hr
  have key : ∀ {s t : Refs I A V} {prog : List (Op I A V)}, Steps s prog t → (∀ op ∈ prog, m ∉ assigned op) → t.logs m = s.logs m := by
    intro s t prog hst
    induction hst with
    | nil s => intro _; rfl
    | cons h1 _ ih =>
      intro hm
      obtain ⟨new, s', _, _, _, h5, h6, _⟩ := h1
      rw [ih fun op hop => hm op (List.mem_cons_of_mem _ hop), h6]
      exact exec_logs h5 (hm _ List.mem_cons_self)
  exact key h1 hm

/-- C191: The result of a query is a view of the original log: whatever a program changes in any logs, as long as it does not assign, extend or thin out
the two logs, the result still shows the traces of the original that matched, as they now are. -/
theorem C191_query_is_view {h h' : Heap I A V} (hs : Sound h) {src dst : Nat} (hne : src ≠ dst) {keep : Trace I A V → Bool} {prog : List (Op I A V)}
    (hr : runOps h (.query src dst keep :: prog) = .ok h') (hp : ∀ op ∈ prog, src ∉ assigned op ∧ dst ∉ assigned op) :
    view h' dst = (((view h src).zip (view h' src)).filter fun p => keep p.1).map Prod.snd := by
  have h0 : Sound (query h src dst keep) := by
    have := (C191_references hs (prog := [.query src dst keep]) rfl).1
    exact this
  have hr' : runOps (query h src dst keep) prog = .ok h' := hr
  have h1 := runOps_logs h0 hr' fun op hop => (hp op hop).1
  have h2 := runOps_logs h0 hr' fun op hop => (hp op hop).2
  have h3 : (query h src dst keep).traces src = h.traces src := upd_ne _ _ hne
  have h4 : (query h src dst keep).traces dst = (h.traces src).filter fun t => keep (viewTrace h t) := upd_self _ _ _
  unfold view
  rw [h2, h4, h1, h3]
  generalize h.traces src = ts
  induction ts with
  | nil => rfl
  | cons t ts ih =>
    rw [List.map_cons, List.map_cons, List.zip_cons_cons]
    by_cases hk : keep (viewTrace h t) = true
    · simp [hk, ih]
    · simp [hk, ih]

/-- C191: the same for the parts of splits and folds: the trace at position `j` of the part is the trace of the original at the drawn position -/
theorem C191_part_is_view {h h' : Heap I A V} (hs : Sound h) {src dst : Nat} (hne : src ≠ dst) {positions : List Nat} {prog : List (Op I A V)}
    (hr : runOps h (.pick src dst positions :: prog) = .ok h') (hp : ∀ op ∈ prog, src ∉ assigned op ∧ dst ∉ assigned op) :
    (view h' dst).length = positions.length ∧ ∀ j i : Nat, positions[j]? = some i → ∃ t, (view h' dst)[j]? = some t ∧ (view h' src)[i]? = some t := by
  unfold runOps at hr
  rcases mapM_traceAt h src positions with ⟨_, h2⟩ | ⟨h1, h2⟩
  · have : stepOp h (.pick src dst positions) = .error .index := by
      show pick h src dst positions = _
      unfold pick; rw [h2]; rfl
    rw [this] at hr; cases hr
  · obtain ⟨h1', hst⟩ : ∃ h1', stepOp h (.pick src dst positions) = .ok h1' ∧
        h1'.traces = upd h.traces dst (positions.map fun i => (h.traces src).getD i 0) := by
      refine ⟨{ h with traces := upd h.traces dst (positions.map fun i => (h.traces src).getD i 0) }, ?_, rfl⟩
      show pick h src dst positions = _
      unfold pick; rw [h2]; rfl
    have h0 : Sound h1' := (C191_references hs (prog := [.pick src dst positions]) (by unfold runOps; rw [hst.1]; rfl)).1
    rw [hst.1] at hr
    have k1 := runOps_logs h0 hr fun op hop => (hp op hop).1
    have k2 := runOps_logs h0 hr fun op hop => (hp op hop).2
    rw [hst.2, upd_ne _ _ hne] at k1
    rw [hst.2, upd_self] at k2
    unfold view
    rw [k1, k2]
    refine ⟨by simp, fun j i hj => ?_⟩
    have hlt : i < (h.traces src).length := not_le.1 fun hc => h1 ⟨i, List.mem_of_getElem? hj, hc⟩
    refine ⟨viewTrace h' ((h.traces src)[i]), ?_, ?_⟩
    · rw [List.getElem?_map, List.getElem?_map, hj]
      simp [List.getD_eq_getElem?_getD, List.getElem?_eq_getElem hlt]
    · rw [List.getElem?_map, List.getElem?_eq_getElem hlt]
      rfl

/-! ### logs without common traces -/

/-- no log in `S` has a trace of the log `m` -/
structure Apart (s : Refs I A V) (S : Nat → Prop) (m : Nat) : Prop where
  other : ¬ S m
  traces : ∀ l, S l → ∀ t ∈ s.logs l, t ∉ s.logs m

/-- the log `m` is as it was, and the logs in `S` still have none of its traces -/
structure Kept (s s' : Refs I A V) (S : Nat → Prop) (m : Nat) : Prop where
  logs : s'.logs m = s.logs m
  value : ∀ t ∈ s.logs m, s'.value t = s.value t
  apart : Apart s' S m

omit [DecidableEq A] in
theorem Kept.refl {s : Refs I A V} {S : Nat → Prop} {m : Nat} (ha : Apart s S m) : Kept s s S m := ⟨rfl, fun _ _ => rfl, ha⟩

omit [DecidableEq A] in
theorem Kept.change {s s' : Refs I A V} {S : Nat → Prop} {m l : Nat} (hk : Kept s s' S m) (hl : S l) (f : Trace I A V → Trace I A V) :
    Kept s (s'.change l f) S m := by
  refine ⟨hk.logs, fun t ht => ?_, ⟨hk.apart.other, hk.apart.traces⟩⟩
  rw [← hk.value t ht]
  refine changeValues_not_mem f _ _ fun hc => hk.apart.traces l hl t hc ?_
  rw [hk.logs]
  exact ht

omit [DecidableEq A] in
theorem Kept.changeOpt {s s' : Refs I A V} {S : Nat → Prop} {m l : Nat} (hk : Kept s s' S m) (hl : S l) (f : (A → Bool) → Trace I A V → Trace I A V)
    (o : Option (A → Bool)) : Kept s (s'.changeOpt l f o) S m := by
  cases o with
  | none => exact hk
  | some p => exact hk.change hl (f p)

omit [DecidableEq A] in
theorem Kept.changeAt {s s' s'' : Refs I A V} {S : Nat → Prop} {m l i : Nat} (hk : Kept s s' S m) (hl : S l) {f : Trace I A V → Trace I A V}
    (h : s'.changeAt l i f = .ok s'') : Kept s s'' S m := by
  unfold Refs.changeAt at h
  split at h
  · rename_i t ht
    cases h
    refine ⟨hk.logs, fun x hx => ?_, ⟨hk.apart.other, hk.apart.traces⟩⟩
    rw [← hk.value x hx]
    refine upd_ne _ _ fun hc => hk.apart.traces l hl t (List.mem_of_getElem? ht) ?_
    rw [hk.logs, ← hc]
    exact hx
  · cases h

omit [DecidableEq A] in
/-- a new list for a log, with traces that are not in `m` -/
theorem Kept.relink {s s' : Refs I A V} {S : Nat → Prop} {m l : Nat} (hk : Kept s s' S m) (hl : S l) {ts : List Nat} (hts : ∀ t ∈ ts, t ∉ s'.logs m) :
    Kept s { s' with logs := upd s'.logs l ts } S m := by
  have hml : m ≠ l := fun hc => hk.apart.other (hc ▸ hl)
  have hm : upd s'.logs l ts m = s'.logs m := upd_ne _ _ hml
  refine ⟨hm.trans hk.logs, hk.value, ⟨hk.apart.other, fun k hk' t ht => ?_⟩⟩
  show t ∉ upd s'.logs l ts m
  rw [hm]
  by_cases h : k = l
  · subst h
    have ht : t ∈ upd s'.logs k ts k := ht
    rw [upd_self] at ht
    exact hts t ht
  · have ht : t ∈ upd s'.logs l ts k := ht
    rw [upd_ne _ _ h] at ht
    exact hk.apart.traces k hk' t ht

omit [DecidableEq A] in
theorem Kept.dropEmpty {s s' : Refs I A V} {S : Nat → Prop} {m l : Nat} (hk : Kept s s' S m) (hl : S l) : Kept s (s'.dropEmpty l) S m :=
  hk.relink hl fun t ht => hk.apart.traces l hl t (List.mem_of_mem_filter ht)

omit [DecidableEq A] in
theorem Kept.create {s : Refs I A V} {S : Nat → Prop} {m : Nat} (ha : Apart s S m) {new : List Nat} (hn : ∀ n ∈ new, ¬ s.Has n) (xs : List (Trace I A V)) :
    Kept s { s with value := setValues s.value new xs } S m :=
  ⟨rfl, fun t ht => setValues_not_mem _ _ _ fun hc => hn t hc ⟨m, ht⟩, ⟨ha.other, ha.traces⟩⟩

theorem exec_kept {s s' : Refs I A V} {S : Nat → Prop} {m : Nat} (ha : Apart s S m) {new : List Nat} (hn : ∀ n ∈ new, ¬ s.Has n) {op : Op I A V}
    (ht : ∀ l ∈ touched op, S l) (h : exec s new op = .ok s') : Kept s s' S m := by
  have hk := Kept.refl ha
  cases op with
  | query src dst keep =>
    cases h
    exact hk.relink (ht dst (by simp [touched])) fun t h => ha.traces src (ht src (by simp [touched])) t (List.mem_of_mem_filter h)
  | pick src dst ps =>
    simp only [exec] at h
    split at h
    · cases h
    · rename_i hps
      cases h
      refine hk.relink (ht dst (by simp [touched])) fun t h => ha.traces src (ht src (by simp [touched])) t ?_
      obtain ⟨i, hi, rfl⟩ := List.mem_map.1 h
      have hlt : i < (s.logs src).length := not_le.1 fun hc => hps ⟨i, hi, hc⟩
      rw [List.getD_eq_getElem?_getD, List.getElem?_eq_getElem hlt]
      exact List.getElem_mem hlt
  | share src i dst =>
    simp only [exec] at h
    split at h
    · rename_i t hg
      cases h
      refine hk.relink (ht dst (by simp [touched])) fun x hx => ?_
      rcases List.mem_append.1 hx with hx | hx
      · exact ha.traces dst (ht dst (by simp [touched])) x hx
      · rw [List.mem_singleton.1 hx]
        exact ha.traces src (ht src (by simp [touched])) t (List.mem_of_getElem? hg)
    · cases h
  | extend src dst =>
    cases h
    refine hk.relink (ht dst (by simp [touched])) fun x hx => ?_
    rcases List.mem_append.1 hx with hx | hx
    · exact ha.traces dst (ht dst (by simp [touched])) x hx
    · exact ha.traces src (ht src (by simp [touched])) x hx
  | cmd c =>
    cases c with
    | new dst => cases h; exact hk.relink (ht dst (by simp [touched])) fun t h => (by cases h)
    | copy src dst =>
      simp only [exec] at h
      split at h
      · cases h
      · cases h
        exact (Kept.create ha hn _).relink (ht dst (by simp [touched])) fun t h hc => hn t h ⟨m, hc⟩
    | addTrace l id es d =>
      simp only [exec] at h
      split at h
      · cases h
      · cases h
        refine (Kept.create ha hn _).relink (ht l (by simp [touched])) fun t h hc => ?_
        rcases List.mem_append.1 h with h | h
        · exact ha.traces l (ht l (by simp [touched])) t h hc
        · exact hn t h ⟨m, hc⟩
    | cut l a b =>
      cases h
      have hl := ht l (by simp [touched])
      exact ((hk.changeOpt hl from_ a).changeOpt hl to_ b).dropEmpty hl
    | filter l p b =>
      have hl := ht l (by simp [touched])
      cases b with
      | false => cases h; exact hk.change hl _
      | true => cases h; exact (hk.change hl _).dropEmpty hl
    | addStart l a => cases h; exact hk.change (ht l (by simp [touched])) _
    | addEnd l a => cases h; exact hk.change (ht l (by simp [touched])) _
    | keepFirst l => cases h; exact hk.change (ht l (by simp [touched])) _
    | setId l i id => simp only [exec] at h; exact hk.changeAt (ht l (by simp [touched])) h
    | setAttribute l i k v => simp only [exec] at h; exact hk.changeAt (ht l (by simp [touched])) h
    | appendEvent l i e => simp only [exec] at h; exact hk.changeAt (ht l (by simp [touched])) h

theorem steps_apart {S : Nat → Prop} {m : Nat} {s t : Refs I A V} {prog : List (Op I A V)} (hst : Steps s prog t) (ha : Apart s S m)
    (hp : ∀ op ∈ prog, ∀ l ∈ touched op, S l) : Apart t S m ∧ t.see m = s.see m := by
  induction hst with
  | nil s => exact ⟨ha, rfl⟩
  | cons h1 _ ih =>
    obtain ⟨new, s', _, _, h4, h5, h6, h7⟩ := h1
    have hk := exec_kept ha h4 (hp _ List.mem_cons_self) h5
    obtain ⟨i1, i2⟩ := ih ⟨hk.apart.other, by rw [h6]; exact hk.apart.traces⟩ fun op hop => hp op (List.mem_cons_of_mem _ hop)
    refine ⟨i1, ?_⟩
    rw [i2, h7]
    unfold Refs.see
    rw [hk.logs]
    exact List.map_congr_left hk.value

/-- C191: A program that works with logs that have no trace in common with another log leaves that log as it is. The sources of copies do not count. -/
theorem C191_isolated {h h' : Heap I A V} (hs : Sound h) {prog : List (Op I A V)} (hr : runOps h prog = .ok h') (S : Nat → Prop)
    (hp : ∀ op ∈ prog, ∀ l ∈ touched op, S l) {m : Nat} (hm : ¬ S m) (ha : ∀ l, S l → ∀ t ∈ h.traces l, t ∉ h.traces m) : view h' m = view h m :=
  (steps_apart (C191_references hs hr).2 ⟨hm, ha⟩ hp).2

/-! ### copies -/

/-- a copy has no trace in common with any log -/
theorem copy_apart {s t : Refs I A V} {src dst : Nat} (hst : Step s (.cmd (.copy src dst)) t) {m : Nat} (hm : m ≠ dst) :
    (∀ x ∈ t.logs dst, x ∉ t.logs m) ∧ t.logs m = s.logs m ∧ t.see m = s.see m ∧ t.see dst = s.see src ∧ (t.logs dst).Nodup := by
  obtain ⟨new, s', h2, h3, h4, h5, h6, h7⟩ := hst
  simp only [exec] at h5
  split at h5
  · cases h5
  · cases h5
    have hl : t.logs dst = new := by rw [h6]; exact upd_self _ _ _
    have hlm : t.logs m = s.logs m := by rw [h6]; exact upd_ne _ _ hm
    refine ⟨?_, hlm, ?_, ?_, by rw [hl]; exact h2⟩
    · rw [hl, hlm]
      exact fun x hx hc => h4 x hx ⟨m, hc⟩
    · rw [h7]
      show (upd s.logs dst new m).map (setValues s.value new _) = _
      rw [upd_ne _ _ hm]
      exact List.map_congr_left fun x hx => setValues_not_mem _ _ _ fun hc => h4 x hc ⟨m, hx⟩
    · rw [h7]
      show (upd s.logs dst new dst).map (setValues s.value new _) = _
      rw [upd_self]
      refine setValues_map _ _ _ h2 ?_
      rw [h3]
      unfold Refs.see
      rw [List.length_map]
      rfl

/-- C191: After a copy, a program that works with the copy, and with other logs that have no trace in common with `m`, leaves `m` as it is; this holds in
particular for the original. -/
theorem C191_copy_isolates {h h' : Heap I A V} (hs : Sound h) {src dst m : Nat} (hm : m ≠ dst) {prog : List (Op I A V)}
    (hr : runOps h (.cmd (.copy src dst) :: prog) = .ok h') (S : Nat → Prop) (hp : ∀ op ∈ prog, ∀ l ∈ touched op, l = dst ∨ S l) (hSm : ¬ S m)
    (ha : ∀ l, S l → ∀ t ∈ h.traces l, t ∉ h.traces m) : view h' m = view h m := by
  obtain ⟨_, h1⟩ := C191_references hs hr
  cases h1 with
  | @cons _ t _ _ _ h1 h2 =>
    obtain ⟨k1, k2, k3, _, _⟩ := copy_apart h1 hm
    refine (steps_apart h2 (S := fun l => l = dst ∨ S l) (m := m) ⟨by simp [hm, hSm], fun l hl x hx => ?_⟩ hp).2.trans k3
    by_cases hd : l = dst
    · subst hd; exact k1 x hx
    · rw [k2]
      rw [(copy_apart h1 hd).2.1] at hx
      exact ha l (hl.resolve_left hd) x hx

/-! ### the log itself -/

omit [DecidableEq A] in
theorem see_change {s : Refs I A V} {l : Nat} (hn : (s.logs l).Nodup) (f : Trace I A V → Trace I A V) : (s.change l f).see l = (s.see l).map f := by
  unfold Refs.see
  rw [List.map_map]
  exact List.map_congr_left fun t ht => changeValues_nodup f _ _ hn ht

omit [DecidableEq A] in
theorem see_changeOpt {s : Refs I A V} {l : Nat} (hn : (s.logs l).Nodup) (f : (A → Bool) → Trace I A V → Trace I A V) (o : Option (A → Bool)) :
    (s.changeOpt l f o).see l = (match o with | none => s.see l | some p => (s.see l).map (f p)) := by
  cases o with
  | none => rfl
  | some p => exact see_change hn (f p)

omit [DecidableEq A] in
theorem see_dropEmpty (s : Refs I A V) (l : Nat) : (s.dropEmpty l).see l = (s.see l).filter fun t => decide (t.events.length > 0) := by
  unfold Refs.see
  show (upd s.logs l _ l).map s.value = _
  rw [upd_self, List.filter_map]
  rfl

omit [DecidableEq A] in
theorem changeAt_see {s s' : Refs I A V} {l i : Nat} {f : Trace I A V → Trace I A V} (hn : (s.logs l).Nodup) (h : s.changeAt l i f = .ok s') :
    LogStore.modifyTrace (s.see l) i f = .ok (s'.see l) := by
  unfold Refs.changeAt at h
  split at h
  · rename_i t ht
    cases h
    obtain ⟨hlt, hget⟩ := List.getElem?_eq_some_iff.1 ht
    unfold LogStore.modifyTrace
    rw [if_pos (by unfold Refs.see; rw [List.length_map]; exact hlt)]
    congr 1
    refine List.ext_getElem? fun j => ?_
    rw [List.getElem?_modify]
    unfold Refs.see
    rw [List.getElem?_map, List.getElem?_map]
    cases hj : (s.logs l)[j]? with
    | none => rfl
    | some u =>
      obtain ⟨hjl, hju⟩ := List.getElem?_eq_some_iff.1 hj
      by_cases hij : i = j
      · subst hij
        rw [ht] at hj
        obtain rfl := Option.some.inj hj
        simp
      · have hut : u ≠ t := by
          rintro rfl
          exact hij ((hn.getElem_inj_iff (hi := hlt) (hj := hjl)).1 (hget.trans hju.symm))
        simp [hij, upd_ne _ _ hut]
  · cases h

theorem exec_own {s s' : Refs I A V} {l : Nat} {new : List Nat} {c : Cmd I A V} (hc : Alone l c) (hn : (s.logs l).Nodup) (hnew : new.Nodup)
    (hlen : new.length = created s (.cmd c)) (hf : ∀ n ∈ new, ¬ s.Has n) (h : exec s new (.cmd c) = .ok s') {w : Nat → Log I A V} (hw : w l = s.see l) :
    (∃ u, LogStore.exec w c = .ok u ∧ u l = s'.see l) ∧ (s'.logs l).Nodup := by
  have hat : ∀ {i : Nat} {f : Trace I A V → Trace I A V}, s.changeAt l i f = .ok s' →
      (∃ u, (do return upd w l (← LogStore.modifyTrace (w l) i f) : Py _) = .ok u ∧ u l = s'.see l) ∧ (s'.logs l).Nodup := by
    intro i f h
    refine ⟨⟨upd w l (s'.see l), ?_, upd_self _ _ _⟩, by rw [changeAt_logs h]; exact hn⟩
    rw [hw, changeAt_see hn h]
    rfl
  cases c with
  | new dst =>
    obtain rfl : dst = l := by simpa [Alone, touched] using hc
    cases h
    refine ⟨⟨_, rfl, ?_⟩, ?_⟩
    · rw [upd_self]
      unfold Refs.see
      show [] = (upd s.logs dst [] dst).map _
      rw [upd_self]
      rfl
    · show (upd s.logs dst [] dst).Nodup
      rw [upd_self]; exact List.nodup_nil
  | copy src dst =>
    obtain ⟨rfl, rfl⟩ : src = l ∧ dst = l := hc
    simp only [exec] at h
    split at h
    · cases h
    · rename_i hne
      cases h
      refine ⟨⟨upd w dst (w dst), ?_, ?_⟩, ?_⟩
      · show (if ∃ t ∈ w dst, t.events = [] then _ else _) = _
        rw [hw, if_neg hne]
      · rw [upd_self, hw]
        show _ = (upd s.logs dst new dst).map (setValues s.value new _)
        rw [upd_self]
        refine (setValues_map _ _ _ hnew ?_).symm
        rw [hlen]
        unfold Refs.see
        rw [List.length_map]
        rfl
      · show (upd s.logs dst new dst).Nodup
        rw [upd_self]; exact hnew
  | addTrace m id es d =>
    obtain rfl : m = l := by simpa [Alone, touched] using hc
    simp only [exec] at h
    split at h
    · cases h
    · rename_i hes
      cases h
      refine ⟨⟨upd w m (w m ++ [⟨id, es, d⟩]), by simp only [LogStore.exec]; exact if_neg hes, ?_⟩, ?_⟩
      · rw [upd_self, hw]
        show _ = (upd s.logs m (s.logs m ++ new) m).map (setValues s.value new _)
        rw [upd_self, List.map_append]
        congr 1
        · exact (List.map_congr_left fun x hx => setValues_not_mem _ _ _ fun hc => hf x hc ⟨m, hx⟩).symm
        · exact (setValues_map new [⟨id, es, d⟩] _ hnew hlen).symm
      · show (upd s.logs m (s.logs m ++ new) m).Nodup
        rw [upd_self]
        refine List.nodup_append.2 ⟨hn, hnew, ?_⟩
        rintro x hx y hy rfl
        exact hf x hy ⟨m, hx⟩
  | cut m a b =>
    obtain rfl : m = l := by simpa [Alone, touched] using hc
    cases h
    refine ⟨⟨_, rfl, ?_⟩, ?_⟩
    · rw [upd_self, see_dropEmpty, see_changeOpt (by rw [changeOpt_logs]; exact hn), see_changeOpt hn, hw]
      cases a <;> cases b <;> rfl
    · show List.Nodup (upd _ m _ m)
      rw [upd_self, changeOpt_logs, changeOpt_logs]
      exact hn.filter _
  | filter m p b =>
    obtain rfl : m = l := by simpa [Alone, touched] using hc
    cases b with
    | false =>
      cases h
      refine ⟨⟨_, rfl, ?_⟩, hn⟩
      rw [upd_self, hw]
      exact (see_change hn _).symm
    | true =>
      cases h
      refine ⟨⟨_, rfl, ?_⟩, ?_⟩
      · rw [upd_self, hw]
        show _ = ((s.change m _).dropEmpty m).see m
        rw [see_dropEmpty, see_change hn]
        rfl
      · show List.Nodup (upd _ m _ m)
        rw [upd_self]
        exact hn.filter _
  | addStart m a =>
    obtain rfl : m = l := by simpa [Alone, touched] using hc
    cases h
    refine ⟨⟨_, rfl, ?_⟩, hn⟩
    rw [upd_self, hw]
    exact (see_change hn _).symm
  | addEnd m a =>
    obtain rfl : m = l := by simpa [Alone, touched] using hc
    cases h
    refine ⟨⟨_, rfl, ?_⟩, hn⟩
    rw [upd_self, hw]
    exact (see_change hn _).symm
  | keepFirst m =>
    obtain rfl : m = l := by simpa [Alone, touched] using hc
    cases h
    refine ⟨⟨_, rfl, ?_⟩, hn⟩
    rw [upd_self, hw]
    exact (see_change hn _).symm
  | setId m i id =>
    obtain rfl : m = l := by simpa [Alone, touched] using hc
    simp only [exec] at h
    exact hat h
  | setAttribute m i k v =>
    obtain rfl : m = l := by simpa [Alone, touched] using hc
    simp only [exec] at h
    exact hat h
  | appendEvent m i e =>
    obtain rfl : m = l := by simpa [Alone, touched] using hc
    simp only [exec] at h
    exact hat h

theorem steps_own {l : Nat} : ∀ (prog : List (Cmd I A V)) {s t : Refs I A V}, Steps s (prog.map Op.cmd) t → (∀ c ∈ prog, Alone l c) → (s.logs l).Nodup →
    ∀ w : Nat → Log I A V, w l = s.see l → ∃ u, LogStore.execAll w prog = .ok u ∧ t.see l = u l := by
  intro prog
  induction prog with
  | nil => intro s t hst _ _ w hw; cases hst; exact ⟨w, rfl, hw.symm⟩
  | cons c cs ih =>
    intro s t hst hc hn w hw
    cases hst with
    | @cons _ t1 _ _ _ h1 h2 =>
      obtain ⟨new, s', k1, k2, k3, k4, k5, k6⟩ := h1
      obtain ⟨⟨u, e1, e2⟩, e3⟩ := exec_own (hc c List.mem_cons_self) hn k1 k2 k3 k4 hw
      obtain ⟨u', f1, f2⟩ := ih h2 (fun c hc' => hc c (List.mem_cons_of_mem _ hc')) (by rw [k5]; exact e3) u (by rw [e2, k6])
      refine ⟨u', ?_, f2⟩
      unfold LogStore.execAll
      rw [e1]
      exact f1

/-- C191: A program on one log without repeated traces has the effect on this log that it has on values; sharing its traces with other logs makes no
difference. -/
theorem C191_own_effect {h h' : Heap I A V} (hs : Sound h) {l : Nat} (hn : (h.traces l).Nodup) {prog : List (Cmd I A V)} (hp : ∀ c ∈ prog, Alone l c)
    (hr : runOps h (prog.map Op.cmd) = .ok h') : ∃ u, LogStore.execAll (view h) prog = .ok u ∧ view h' l = u l :=
  steps_own prog (C191_references hs hr).2 hp hn (view h) rfl

omit [DecidableEq A] in
theorem alone_touched {l : Nat} {c : Cmd I A V} (hc : Alone l c) : ∀ k ∈ touched (.cmd c), k = l := by
  cases c with
  | copy src dst => obtain ⟨_, rfl⟩ := hc; intro k hk; simpa [RefStore.touched] using hk
  | _ => intro k hk; have h : RefStore.touched _ = [l] := hc; rw [h] at hk; simpa using hk

/-- C191: The documented way to change the result of a query: copy the result, then any program on the copy leaves all other logs as they are, and works on
the matching traces as on values of its own. -/
theorem C191_query_then_copy {h h' : Heap I A V} (hs : Sound h) {src dst : Nat} {keep : Trace I A V → Bool} {prog : List (Cmd I A V)}
    (hp : ∀ c ∈ prog, Alone dst c) (hr : runOps h (.query src dst keep :: .cmd (.copy dst dst) :: prog.map Op.cmd) = .ok h') :
    (∀ m, m ≠ dst → view h' m = view h m) ∧ ∃ u, LogStore.execAll (upd (view h) dst ((view h src).filter keep)) prog = .ok u ∧ view h' dst = u dst := by
  have h0 : Sound (query h src dst keep) := (C191_references hs (prog := [.query src dst keep]) rfl).1
  have hr' : runOps (query h src dst keep) (.cmd (.copy dst dst) :: prog.map Op.cmd) = .ok h' := hr
  refine ⟨fun m hm => ?_, ?_⟩
  · have h1 := C191_copy_isolates h0 hm hr' (fun _ => False) (fun op hop l hl => ?_) id (fun _ hf => hf.elim)
    · rw [h1]
      show (upd h.traces dst _ m).map (viewTrace h) = _
      rw [upd_ne _ _ hm]
      rfl
    · obtain ⟨c, hc, rfl⟩ := List.mem_map.1 hop
      exact Or.inl (alone_touched (hp c hc) l hl)
  · obtain ⟨_, h1⟩ := C191_references h0 hr'
    cases h1 with
    | @cons _ t _ _ _ h1 h2 =>
      have hne : dst + 1 ≠ dst := by omega
      obtain ⟨_, _, _, k4, k5⟩ := copy_apart h1 hne
      refine steps_own prog h2 hp k5 _ ?_
      rw [upd_self, k4]
      show (view h src).filter keep = (upd h.traces dst _ dst).map (viewTrace h)
      rw [upd_self]
      unfold view
      rw [List.filter_map]
      rfl

/-- C191: Without the copy, a change of all traces of the result is a change of the matching traces of the original log, and of these only. -/
theorem C191_change_through_query {h h' : Heap I A V} (hs : Sound h) {src dst : Nat} (hne : src ≠ dst) (hn : (h.traces src).Nodup)
    {keep : Trace I A V → Bool} {a : A} (hr : runOps h [.query src dst keep, .cmd (.addEnd dst a)] = .ok h') :
    view h' src = (view h src).map (fun t => if keep t then { t with events := t.events ++ [Event.new a] } else t) ∧
    view h' dst = ((view h src).filter keep).map (fun t => { t with events := t.events ++ [Event.new a] }) := by
  have h0 : Sound (query h src dst keep) := (C191_references hs (prog := [.query src dst keep]) rfl).1
  have hr' : runOps (query h src dst keep) [.cmd (.addEnd dst a)] = .ok h' := hr
  obtain ⟨_, h1⟩ := C191_references h0 hr'
  have h3 : (query h src dst keep).traces src = h.traces src := upd_ne _ _ hne
  have h4 : (query h src dst keep).traces dst = (h.traces src).filter fun t => keep (viewTrace h t) := upd_self _ _ _
  have hv : ∀ t, viewTrace (query h src dst keep) t = viewTrace h t := fun _ => rfl
  cases h1 with
  | @cons _ t _ _ _ h1 h2 =>
    cases h2
    obtain ⟨new, s', _, _, _, k4, k5, k6⟩ := h1
    cases k4
    have hsee : ∀ m, view h' m = ((query h src dst keep).traces m).map
        (changeValues (fun t => { t with events := t.events ++ [Event.new a] }) ((query h src dst keep).traces dst) (viewTrace (query h src dst keep))) :=
      fun m => k6 m
    constructor
    · rw [hsee, h3, h4]
      unfold view
      rw [List.map_map]
      refine List.map_congr_left fun t ht => ?_
      by_cases hk : keep (viewTrace h t) = true
      · rw [changeValues_nodup _ _ _ (hn.filter _) (List.mem_filter.2 ⟨ht, hk⟩)]
        simp [hv, hk]
      · rw [changeValues_not_mem _ _ _ fun hc => hk (List.mem_filter.1 hc).2]
        simp [hv, hk]
    · rw [hsee, h4]
      unfold view
      rw [List.filter_map, List.map_map]
      refine List.map_congr_left fun t ht => ?_
      rw [changeValues_nodup _ _ _ (hn.filter _) ht]
      rfl

/-! ### concrete cases -/

/-- the hypotheses are met initially; by `C191_references` they stay true -/
theorem C191_initially : Sound emptyHeap :=
  solo_mono (P := fun _ => False) ⟨fun k => by unfold solo; split <;> simp, fun _ _ _ h => (by simp [solo] at h), fun _ _ ⟨_, h⟩ => (by simp [solo] at h),
    fun _ _ ⟨_, h⟩ => (by simp [solo] at h), fun _ ⟨_, h⟩ => (by simp [solo] at h)⟩ fun _ ⟨_, h⟩ => (by cases h)

/-- a log with two traces -/
def twoTraces : List (Op Nat Char Nat) := [.cmd (.addTrace 0 7 [⟨'a', [], none⟩] []), .cmd (.addTrace 0 8 [⟨'b', [], none⟩] [])]

/-- a query whose result is changed, without and with a copy -/
example : (runOps emptyHeap (twoTraces ++ [.query 0 1 (fun t => t.id = 8), .cmd (.addEnd 1 'e')])).map (fun h => (view h 0, view h 1)) =
      .ok ([⟨7, [⟨'a', [], none⟩], []⟩, ⟨8, [⟨'b', [], none⟩, ⟨'e', [], none⟩], []⟩], [⟨8, [⟨'b', [], none⟩, ⟨'e', [], none⟩], []⟩]) ∧
    (runOps emptyHeap (twoTraces ++ [.query 0 1 (fun t => t.id = 8), .cmd (.copy 1 1), .cmd (.addEnd 1 'e')])).map (fun h => (view h 0, view h 1)) =
      .ok ([⟨7, [⟨'a', [], none⟩], []⟩, ⟨8, [⟨'b', [], none⟩], []⟩], [⟨8, [⟨'b', [], none⟩, ⟨'e', [], none⟩], []⟩]) := by
  constructor <;> decide +kernel

/-- C191: filtering the activities of one part of a split empties traces of the original log, which keeps the empty trace and can no longer be copied -/
theorem C191_split_witness :
    (runOps emptyHeap (twoTraces ++ [.pick 0 1 [1], .pick 0 2 [0], .cmd (.filter 1 (fun c => c = 'a') true)])).map (fun h => (view h 0, view h 1, view h 2)) =
      .ok ([⟨7, [⟨'a', [], none⟩], []⟩, ⟨8, [], []⟩], [], [⟨7, [⟨'a', [], none⟩], []⟩]) ∧
    (runOps emptyHeap (twoTraces ++ [.pick 0 1 [1], .pick 0 2 [0], .cmd (.filter 1 (fun c => c = 'a') true), .cmd (.copy 0 3)])).map (fun h => view h 3) =
      .error .value := by
  constructor <;> decide +kernel

/-- C191: a trace that is twice in a log gets a start activity twice -/
theorem C191_repeated_trace_witness :
    (runOps emptyHeap (twoTraces ++ [.share 0 0 0, .cmd (.addStart 0 's')])).map (fun h => (view h 0).map fun t => t.events.map Event.activity) =
      .ok [['s', 's', 'a'], ['s', 'b'], ['s', 's', 'a']] := by decide +kernel

end Prolothar.LogShare
