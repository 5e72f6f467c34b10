import Verif.Model.LogStatistics
import Verif.Props.LogTable
import Verif.Props.Statistics
import Verif.Lemmas.EventLog
import Mathlib.Data.List.Infix
import Mathlib.Algebra.BigOperators.Group.List.Basic
/-
C121: statistics of event logs.
-/
namespace Prolothar.LogStatistics
open Prolothar.EventLog Prolothar.LogTable
variable {I A V : Type}

/-! ### counters -/

section
variable {κ : Type} [DecidableEq κ]

/-- the counter of the elements of a list -/
theorem counter_spec (l : List κ) :
    ∀ c : Dict κ Nat, c.WF → (l.foldl bump c).WF ∧ ∀ k, (l.foldl bump c).get? k =
      if k ∈ l then some ((c.get? k).getD 0 + l.count k) else c.get? k := by
  induction l with
  | nil => intro c hc; exact ⟨hc, fun k => by simp⟩
  | cons a l ih =>
    intro c hc
    obtain ⟨h1, h2⟩ := ih (bump c a) (WF_bump hc a)
    refine ⟨h1, fun k => ?_⟩
    rw [List.foldl_cons, h2]
    by_cases hka : k = a
    · subst hka
      rw [if_pos List.mem_cons_self, List.count_cons_self]
      have hg : (bump c k).get? k = some ((c.get? k).getD 0 + 1) := Dict.get?_put_self _ _ _
      rw [hg]
      by_cases hk : k ∈ l
      · rw [if_pos hk]; congr 1; simp only [Option.getD_some]; omega
      · rw [if_neg hk, List.count_eq_zero_of_not_mem hk]
    · have hg : (bump c a).get? k = c.get? k := Dict.get?_put_of_ne _ _ (Ne.symm hka)
      rw [hg, List.count_cons_of_ne (Ne.symm hka)]
      by_cases hk : k ∈ l
      · rw [if_pos hk, if_pos (List.mem_cons_of_mem _ hk)]
      · rw [if_neg hk, if_neg (by simp [hka, hk])]

theorem counter_nil (l : List κ) :
    (l.foldl bump ([] : Dict κ Nat)).WF ∧ ∀ k, (l.foldl bump ([] : Dict κ Nat)).get? k = if k ∈ l then some (l.count k) else none := by
  obtain ⟨h1, h2⟩ := counter_spec l [] Dict.WF.nil
  refine ⟨h1, fun k => ?_⟩
  rw [h2]
  by_cases hk : k ∈ l
  · rw [if_pos hk, if_pos hk]; simp [Dict.get?]
  · rw [if_neg hk, if_neg hk]; rfl
end

section
variable {κ : Type} [DecidableEq κ]
theorem setAdd_spec (l : List κ) : ∀ s : List κ, s.Nodup → (l.foldl setAdd s).Nodup ∧ ∀ x, x ∈ l.foldl setAdd s ↔ x ∈ s ∨ x ∈ l := by
  induction l with
  | nil => intro s hs; exact ⟨hs, fun x => by simp⟩
  | cons a l ih =>
    intro s hs
    have h1 : (setAdd s a).Nodup ∧ ∀ x, x ∈ setAdd s a ↔ x ∈ s ∨ x = a := by
      unfold setAdd
      split
      · rename_i h
        refine ⟨hs, fun x => ⟨Or.inl, ?_⟩⟩
        rintro (hx | rfl)
        · exact hx
        · simpa using h
      · rename_i h
        refine ⟨List.nodup_append.2 ⟨hs, List.nodup_singleton _, ?_⟩, fun x => by simp⟩
        rintro x hx y hy rfl
        obtain rfl := List.mem_singleton.1 hy
        exact h (by simpa using hx)
    obtain ⟨h2, h3⟩ := ih _ h1.1
    refine ⟨h2, fun x => ?_⟩
    rw [List.foldl_cons, h3, h1.2, List.mem_cons, or_assoc]
end

section
variable {κ : Type} [DecidableEq κ]
theorem count_map_eq {β : Type} (f : β → κ) (l : List β) (k : κ) : (l.map f).count k = (l.filter fun x => f x = k).length := by
  rw [List.count_eq_countP, List.countP_map, List.countP_eq_length_filter]
  congr 1

theorem sum_ite_eq (ks : List κ) (x : κ) : (ks.map fun a => if x = a then 1 else 0).sum = ks.count x := by
  induction ks with
  | nil => rfl
  | cons k ks ih =>
    rw [List.map_cons, List.sum_cons, ih, List.count_cons]
    by_cases hk : x = k
    · subst hk; simp; omega
    · simp [hk, Ne.symm hk]

theorem sum_count (l vs : List κ) (hn : vs.Nodup) (hm : ∀ v, v ∈ vs ↔ v ∈ l) : (vs.map fun v => l.count v).sum = l.length := by
  rw [← List.sum_map_count_dedup_eq_length l]
  refine (List.Perm.map _ ?_).sum_eq
  exact (List.perm_ext_iff_of_nodup hn (List.nodup_dedup l)).2 fun v => by rw [hm, List.mem_dedup]
end

/-- the activities of all events of the log, in order -/
def allActivities (log : Log I A V) : List A := log.flatMap Trace.activities

/-- C121: `count_nr_of_events` -/
theorem C121_count_events (log : Log I A V) : countEvents log = (allActivities log).length := by
  unfold countEvents allActivities
  have : ∀ n, log.foldl (fun n t => n + t.events.length) n = n + (log.flatMap Trace.activities).length := by
    induction log with
    | nil => intro n; rfl
    | cons t log ih => intro n; rw [List.foldl_cons, ih, List.flatMap_cons, List.length_append]; simp [Trace.activities]; omega
  rw [this]; simp

/-- C121: `compute_activity_supports` counts the events of every activity -/
theorem C121_activity_supports [DecidableEq A] (log : Log I A V) (a : A) :
    (activitySupports log).get? a = if a ∈ allActivities log then some ((allActivities log).count a) else none := by
  have : activitySupports log = (allActivities log).foldl bump [] := by
    unfold activitySupports allActivities
    rw [List.foldl_flatMap]
    congr 1
    funext c t
    rw [Trace.activities, List.foldl_map]
  rw [this]
  exact (counter_nil _).2 a

/-! ### traces and variants -/

section
variable [DecidableEq A]

/-- C121: statistics about traces. There is no result for a log without traces. -/
theorem C121_trace_statistics (log : Log I A V) (hl : log ≠ []) :
    ∃ st, traceStatistics log = .ok st ∧ st.nrTraces = log.length ∧ st.nrVariants = (log.map Trace.activities).toFinset.card ∧
      (∃ t ∈ log, st.minLength = t.events.length) ∧ (∀ t ∈ log, st.minLength ≤ t.events.length) ∧
      (∃ t ∈ log, st.maxLength = t.events.length) ∧ (∀ t ∈ log, t.events.length ≤ st.maxLength) ∧
      st.averageLength = (log.map fun t => (t.events.length : ℚ)).sum / log.length := by
  have h := Statistics.C22_push_equals_batch (K := ℚ) (log.map fun t => (t.events.length : ℚ)) (by simpa using hl)
  obtain ⟨_, h2, ⟨lo, h3, h4⟩, ⟨hi, h5, h6⟩, _⟩ := h
  obtain ⟨tl, htl, rfl⟩ := List.mem_map.1 h4.1
  obtain ⟨th, hth, rfl⟩ := List.mem_map.1 h6.1
  refine ⟨⟨log.length, ((log.map Trace.activities).foldl setAdd []).length, tl.events.length, (Statistics.pushAll Statistics.new (log.map fun t => (t.events.length : ℚ))).mean, th.events.length⟩, ?_, rfl, ?_, ⟨tl, htl, rfl⟩, ?_, ⟨th, hth, rfl⟩, ?_, ?_⟩
  · unfold traceStatistics
    simp only [h3, h5, pyInt, Int.floor_natCast]
    rfl
  · obtain ⟨h1, h2⟩ := setAdd_spec (log.map Trace.activities) [] List.nodup_nil
    show ((log.map Trace.activities).foldl setAdd []).length = _
    rw [← List.toFinset_card_of_nodup h1]
    congr 1
    ext x
    rw [List.mem_toFinset, List.mem_toFinset, h2]
    simp
  · intro t ht
    have := h4.2 _ (List.mem_map_of_mem ht)
    show (tl.events.length : Int) ≤ t.events.length
    exact_mod_cast this
  · intro t ht
    have := h6.2 _ (List.mem_map_of_mem ht)
    show (t.events.length : Int) ≤ th.events.length
    exact_mod_cast this
  · rw [h2]
    unfold Moments.mean
    rw [List.length_map]

/-- C121: no trace statistics without traces: `int(nan)` raises a ValueError -/
theorem C121_no_traces : traceStatistics ([] : Log I A V) = .error .value := rfl

omit [DecidableEq A] in
theorem joinNames_eq (name : A → List Char) (v : List A) : joinNames name v = [',', ' '].intercalate (v.map name) := by
  induction v with
  | nil => rfl
  | cons a v ih =>
    cases v with
    | nil => simp [joinNames, List.intercalate]
    | cons b v =>
      unfold joinNames
      rw [ih]
      simp [List.intercalate]

/-- C121: the variant statistics have one row per variant, with the number of its traces -/
theorem C121_variants (name : A → List Char) (log : Log I A V) :
    ∃ vs : List (List A), vs.Nodup ∧ (∀ v, v ∈ vs ↔ ∃ t ∈ log, t.activities = v) ∧
      variantStatistics name log = vs.map (fun v => ([',', ' '].intercalate (v.map name), (log.filter fun t => t.activities = v).length)) ∧
      ((variantStatistics name log).map Prod.snd).sum = log.length := by
  have he : log.foldl (fun c t => bump c t.activities) ([] : Dict (List A) Nat) = (log.map Trace.activities).foldl bump [] := by
    rw [List.foldl_map]
  obtain ⟨h1, h2⟩ := counter_nil (log.map Trace.activities)
  have hmem : ∀ v, v ∈ Dict.keys ((log.map Trace.activities).foldl bump []) ↔ v ∈ log.map Trace.activities := by
    intro v
    rw [Dict.mem_keys_iff, h2]
    by_cases hv : v ∈ log.map Trace.activities
    · simp [hv]
    · simp [hv]
  have hrows : variantStatistics name log = (Dict.keys ((log.map Trace.activities).foldl bump [])).map
      (fun v => ([',', ' '].intercalate (v.map name), (log.filter fun t => t.activities = v).length)) := by
    unfold variantStatistics
    rw [he]
    simp only []
    unfold Dict.keys
    rw [List.map_map]
    refine List.map_congr_left fun p hp => ?_
    have hg := Dict.get?_of_mem h1 hp
    rw [h2] at hg
    split at hg
    · simp only [Function.comp_apply, joinNames_eq]
      rw [← Option.some.inj hg, count_map_eq]
    · cases hg
  refine ⟨_, h1, fun v => by rw [hmem]; simp [List.mem_map], hrows, ?_⟩
  rw [hrows, List.map_map]
  have := sum_count (log.map Trace.activities) _ h1 hmem
  rw [List.length_map] at this
  rw [← this]
  congr 1
  refine List.map_congr_left fun v _ => ?_
  rw [count_map_eq]
  rfl

end

/-- the text of a variant without `, ` in the names determines the variant -/
theorem join_inj (name : A → List Char) (hname : Function.Injective name) (hn : ∀ a, ¬ [',', ' '] <:+: name a) :
    ∀ v w : List A, v ≠ [] → w ≠ [] → [',', ' '].intercalate (v.map name) = [',', ' '].intercalate (w.map name) → v = w := by
  have hcons : ∀ (a b : A) (v : List A), [',', ' '].intercalate ((a :: b :: v).map name) = name a ++ ([',', ' '] ++ [',', ' '].intercalate ((b :: v).map name)) := by
    intro a b v; simp [List.intercalate]
  have hone : ∀ a, [',', ' '].intercalate ([a].map name) = name a := by intro a; simp [List.intercalate]
  -- cutting at the first separator
  have cut : ∀ x y r s : List Char, ¬ [',', ' '] <:+: x → ¬ [',', ' '] <:+: y → x ++ ([',', ' '] ++ r) = y ++ ([',', ' '] ++ s) → x = y ∧ r = s := by
    intro x
    induction x with
    | nil =>
      intro y r s _ hy h
      cases y with
      | nil => simpa using h
      | cons c y =>
        exfalso
        cases y with
        | nil => simp at h
        | cons d y =>
          simp only [List.cons_append, List.nil_append, List.cons.injEq] at h
          obtain ⟨rfl, rfl, _⟩ := h
          exact hy ⟨[], y, by simp⟩
    | cons c x ih =>
      intro y r s hx hy h
      have hx' : ¬ [',', ' '] <:+: x := fun hc => hx (hc.trans (List.suffix_cons c x).isInfix)
      cases y with
      | nil =>
        exfalso
        cases x with
        | nil => simp at h
        | cons d x =>
          simp only [List.cons_append, List.nil_append, List.cons.injEq] at h
          obtain ⟨rfl, rfl, _⟩ := h
          exact hx ⟨[], x, by simp⟩
      | cons d y =>
        rw [List.cons_append, List.cons_append] at h
        obtain ⟨h1, h2⟩ := List.cons.inj h
        have hy' : ¬ [',', ' '] <:+: y := fun hc => hy (hc.trans (List.suffix_cons d y).isInfix)
        obtain ⟨h3, h4⟩ := ih y r s hx' hy' h2
        exact ⟨by rw [h1, h3], h4⟩
  have nosep : ∀ (x y r : List Char), ¬ [',', ' '] <:+: x → x ≠ y ++ ([',', ' '] ++ r) := by
    intro x y r hx h
    exact hx ⟨y, r, by rw [h]; simp⟩
  intro v
  induction v with
  | nil => intro w hv; exact absurd rfl hv
  | cons a v ih =>
    intro w _ hw h
    cases w with
    | nil => exact absurd rfl hw
    | cons b w =>
      cases v with
      | nil =>
        cases w with
        | nil => rw [hone, hone] at h; rw [hname h]
        | cons b' w =>
          rw [hone, hcons] at h
          exact absurd h (nosep _ _ _ (hn a))
      | cons a' v =>
        cases w with
        | nil =>
          rw [hone, hcons] at h
          exact absurd h.symm (nosep _ _ _ (hn b))
        | cons b' w =>
          rw [hcons, hcons] at h
          obtain ⟨h1, h2⟩ := cut _ _ _ _ (hn a) (hn b) h
          rw [hname h1, ih (b' :: w) (by simp) (by simp) h2]

/-- C121: different variants have different names, if no activity name contains a comma followed by a blank -/
theorem C121_variant_names [DecidableEq A] (name : A → List Char) (hname : Function.Injective name) (hn : ∀ a, ¬ [',', ' '] <:+: name a)
    (log : Log I A V) (hne : ∀ t ∈ log, t.events ≠ []) : ((variantStatistics name log).map Prod.fst).Nodup := by
  obtain ⟨vs, h1, h2, h3, _⟩ := C121_variants name log
  rw [h3, List.map_map]
  refine List.Nodup.map_on (fun v hv w hw h => ?_) h1
  have hne' : ∀ v ∈ vs, v ≠ [] := by
    rintro v hv rfl
    obtain ⟨t, ht, hta⟩ := (h2 _).1 hv
    exact hne t ht (by simpa [Trace.activities] using hta)
  exact join_inj name hname hn v w (hne' v hv) (hne' w hw) h

/-- C121: otherwise two variants may get the same name -/
theorem C121_variant_clash : variantStatistics (I := Nat) (V := Nat) String.toList [⟨0, [⟨"a, b", [], none⟩], []⟩, ⟨1, [⟨"a", [], none⟩, ⟨"b", [], none⟩], []⟩] =
      [("a, b".toList, 1), ("a, b".toList, 1)] := by decide +kernel

/-! ### activities -/

section
variable {V : Type} [LinearOrder V]

theorem endCounter_spec {pick : List (Event V V) → Option (Event V V)} {log : Log V V V} (h : ∀ t ∈ log, (pick t.events).isSome) :
    ∃ c, endCounter pick log = .ok c ∧
      ∀ a, (c.get? a).getD 0 = (log.filter fun t => (pick t.events).map Event.activity = some a).length := by
  have key : ∀ (log : Log V V V) (c : Dict V Nat), (∀ t ∈ log, (pick t.events).isSome) →
      log.foldlM (fun c t => match pick t.events with
        | some e => return bump c e.activity
        | none => .error .index) c = (.ok ((log.filterMap fun t => (pick t.events).map Event.activity).foldl bump c) : Py (Dict V Nat)) := by
    intro log
    induction log with
    | nil => intro c _; rfl
    | cons t log ih =>
      intro c h
      have ht := h t List.mem_cons_self
      cases hp : pick t.events with
      | none => rw [hp] at ht; cases ht
      | some e =>
        rw [List.foldlM_cons, hp]
        show List.foldlM _ (bump c e.activity) log = _
        rw [ih _ fun t ht => h t (List.mem_cons_of_mem _ ht)]
        rw [List.filterMap_cons, hp]
        rfl
  refine ⟨_, key log [] h, fun a => ?_⟩
  rw [(counter_nil _).2]
  have hcount : (log.filterMap fun t => (pick t.events).map Event.activity).count a =
      (log.filter fun t => (pick t.events).map Event.activity = some a).length := by
    clear key
    induction log with
    | nil => rfl
    | cons t log ih =>
      have ih := ih fun t ht => h t (List.mem_cons_of_mem _ ht)
      rw [List.filterMap_cons, List.filter_cons]
      cases hp : (pick t.events).map Event.activity with
      | none => simpa using ih
      | some b =>
        simp only [List.count_cons, ih]
        by_cases hb : b = a
        · simp [hb]
        · simp [hb]
  rw [← hcount]
  by_cases ha : a ∈ log.filterMap fun t => (pick t.events).map Event.activity
  · rw [if_pos ha]; rfl
  · rw [if_neg ha, List.count_eq_zero_of_not_mem ha]; rfl

/-- what the statistics of the activity `a` should be; `idOf t` is what identifies the trace `t` -/
structure IsStats {R : Type} (log : Log V V V) (idOf : Trace V V V → V) (aggs : List ((List (Option V) → R) × String)) (a : V) (s : ActivityStats R) : Prop where
  support : s.support = (allActivities log).count a
  traces : s.traces = ((log.filter fun t => a ∈ t.activities).map idOf).toFinset.card
  agg : s.agg = aggs.map fun g => g.1 (((occurrences log).filter fun p => p.2.activity = a).map fun p => p.2.attributes.get? g.2)
  frequency : s.frequency = ((allActivities log).count a : ℚ) / (allActivities log).length
  frequencyTraces : s.frequencyTraces = (((log.filter fun t => a ∈ t.activities).map idOf).toFinset.card : ℚ) / log.length
  aGivenStart : s.aGivenStart = ((log.filter fun t => t.activities.head? = some a).length : ℚ) / log.length
  aGivenEnd : s.aGivenEnd = ((log.filter fun t => t.activities.getLast? = some a).length : ℚ) / log.length
  startGivenA : s.startGivenA = ((log.filter fun t => t.activities.head? = some a).length : ℚ) / (allActivities log).count a
  endGivenA : s.endGivenA = ((log.filter fun t => t.activities.getLast? = some a).length : ℚ) / (allActivities log).count a

omit [LinearOrder V] in
theorem occurrences_activities (log : Log V V V) : (occurrences log).map (fun p => p.2.activity) = allActivities log := by
  unfold occurrences allActivities
  rw [List.map_flatMap]
  refine List.flatMap_congr fun t _ => ?_
  rw [List.map_map]
  rfl

omit [LinearOrder V] in
/-- one column of the table, with or without the column of the trace ids -/
theorem column_of_zip {Kt Ke : List String} {b : Bool} (hn : (expectedColumns Kt Ke b).Nodup) {rows : List (Trace V V V × Event V V)}
    {c : String} {g : Trace V V V × Event V V → Option V} (hc : c ∈ expectedColumns Kt Ke b)
    (h : ∀ p ∈ rows, (c, g p) ∈ (expectedColumns Kt Ke b).zip (expectedRow Kt Ke b p)) :
    Frame.column ⟨expectedColumns Kt Ke b, rows.map (expectedRow Kt Ke b)⟩ .key c = .ok (rows.map g) := by
  unfold Frame.column
  simp only [hc, if_true, List.map_map]
  refine congrArg Except.ok (List.map_congr_left fun p hp => ?_)
  exact cell_of_zip hn (row_length ..) (h p hp)

omit [LinearOrder V] in
theorem zip_row_false (Kt Ke : List String) (p : Trace V V V × Event V V) :
    (expectedColumns Kt Ke false).zip (expectedRow Kt Ke false p) =
      Kt.map (fun k => (k, p.1.attributes.get? k)) ++ ("Activity", some p.2.activity) :: Ke.map fun k => (k, p.2.attributes.get? k) := by
  have h := zip_row Kt Ke p
  unfold expectedRow expectedColumns at h ⊢
  simpa using h

/-- the statistics, given the columns of the table -/
theorem statistics_core {R : Type} (log : Log V V V) (Kt Ke : List String) (hl : log ≠ []) (hu : Uniform Kt Ke log)
    (hKt : Kt.Pairwise (· < ·)) (hKe : Ke.Pairwise (· < ·)) (idAttr : Option String)
    (idOf : Trace V V V → V)
    (aggs : List ((List (Option V) → R) × String))
    (hact : Frame.column ⟨expectedColumns Kt Ke idAttr.isNone, (occurrences log).map (expectedRow Kt Ke idAttr.isNone)⟩ .key "Activity" =
      .ok ((occurrences log).map fun p => some p.2.activity))
    (hidc : Frame.column ⟨expectedColumns Kt Ke idAttr.isNone, (occurrences log).map (expectedRow Kt Ke idAttr.isNone)⟩ .key (idAttr.getD "trace") =
      .ok ((occurrences log).map fun p => some (idOf p.1)))
    (haggs : ∀ g ∈ aggs, Frame.column ⟨expectedColumns Kt Ke idAttr.isNone, (occurrences log).map (expectedRow Kt Ke idAttr.isNone)⟩ .key g.2 =
      .ok ((occurrences log).map fun p => p.2.attributes.get? g.2)) :
    ∃ st, activityStatistics log idAttr aggs = .ok st ∧ (st.map Prod.fst).Pairwise (· < ·) ∧
      (∀ a, a ∈ st.map Prod.fst ↔ a ∈ allActivities log) ∧ ∀ r ∈ st, IsStats log idOf aggs r.1 r.2 := by
  have hne : ∀ t ∈ log, t.events ≠ [] := fun t ht => (hu.traces t ht).2.2
  obtain ⟨starts, hs1, hs2⟩ := endCounter_spec (pick := List.head?) (log := log) (fun t ht => by
    obtain ⟨e, es, he⟩ := List.exists_cons_of_ne_nil (hne t ht); simp [he])
  obtain ⟨ends, he1, he2⟩ := endCounter_spec (pick := List.getLast?) (log := log) (fun t ht => by
    simpa using hne t ht)
  have hcols : aggs.mapM (fun g => (do
      let c ← Frame.column ⟨expectedColumns Kt Ke idAttr.isNone, (occurrences log).map (expectedRow Kt Ke idAttr.isNone)⟩ .key g.2
      return (g.1, c) : Py ((List (Option V) → R) × List (Option V)))) =
      .ok (aggs.map fun g => (g.1, (occurrences log).map fun p => p.2.attributes.get? g.2)) := by
    refine forall₂_mapM ?_
    rw [List.forall₂_map_right_iff, List.forall₂_same]
    intro g hg
    rw [haggs g hg]
    rfl
  have hgroup : ∀ (f : Trace V V V × Event V V → Option V) (a : V),
      groupCells ((occurrences log).map fun p => some p.2.activity) ((occurrences log).map f) a =
        ((occurrences log).filter fun p => p.2.activity = a).map f := fun f a => groupCells_map _ (fun p => p.2.activity) f a
  have hids : ∀ a, (((occurrences log).filter fun p => p.2.activity = a).map (fun p => some (idOf p.1))).filterMap id =
      ((occurrences log).filter fun p => p.2.activity = a).map fun p => idOf p.1 := by
    intro a
    rw [List.filterMap_map]
    induction (occurrences log).filter fun p => p.2.activity = a with
    | nil => rfl
    | cons p l ih => simp
  have hsup : ∀ a, ((occurrences log).filter fun p => p.2.activity = a).length = (allActivities log).count a := by
    intro a
    rw [← occurrences_activities, List.count_eq_countP, List.countP_map, List.countP_eq_length_filter]
    congr 1
  have hkeys : ∀ a, a ∈ groupKeys ((occurrences log).map fun p => some p.2.activity) ↔ a ∈ allActivities log := by
    intro a
    unfold groupKeys
    rw [List.mem_insertionSort, List.mem_dedup, ← occurrences_activities]
    simp
  have hsorted : (groupKeys ((occurrences log).map fun p => some p.2.activity)).Pairwise (· < ·) := by
    unfold groupKeys
    have h1 := List.pairwise_insertionSort (· ≤ ·) ((((occurrences log).map fun p => some p.2.activity).filterMap id).dedup)
    have h2 : ((((occurrences log).map fun p => some p.2.activity).filterMap id).dedup.insertionSort (· ≤ ·)).Nodup :=
      (List.perm_insertionSort _ _).nodup_iff.2 (List.nodup_dedup _)
    exact (h1.and h2).imp fun h => lt_of_le_of_ne h.1 h.2
  have hrun : activityStatistics log idAttr aggs = .ok ((groupKeys ((occurrences log).map fun p => some p.2.activity)).map fun a =>
      (a, finishRow starts ends log.length (allActivities log).length a ((allActivities log).count a)
        (((occurrences log).filter fun p => p.2.activity = a).map fun p => idOf p.1).dedup.length
        (aggs.map fun g => g.1 (((occurrences log).filter fun p => p.2.activity = a).map fun p => p.2.attributes.get? g.2)))) := by
    unfold activityStatistics
    rw [C117_table log Kt Ke hl hu hKt hKe idAttr.isNone]
    simp only [bind, Except.bind, pure, Except.pure] at hcols ⊢
    rw [hact, hidc]
    simp only []
    rw [hcols]
    simp only [hs1, he1, hgroup, hids, List.length_map, hsup, List.map_map, Function.comp_def]
    have htot : ((groupKeys ((occurrences log).map fun p => some p.2.activity)).map fun a => (allActivities log).count a).sum =
        (allActivities log).length := by
      rw [← List.sum_map_count_dedup_eq_length (allActivities log)]
      refine (List.Perm.map _ ?_).sum_eq
      refine (List.perm_ext_iff_of_nodup (hsorted.imp fun h => ne_of_lt h) (List.nodup_dedup _)).2 fun a => ?_
      rw [hkeys, List.mem_dedup]
    rw [htot]
  refine ⟨_, hrun, ?_, ?_, ?_⟩
  · rw [List.map_map]
    simpa [Function.comp_def] using hsorted
  · intro a
    rw [List.map_map, ← hkeys]
    simp [Function.comp_def]
  · intro r hr
    obtain ⟨a, ha, rfl⟩ := List.mem_map.1 hr
    have ha := (hkeys a).1 ha
    have hc0 : ((allActivities log).count a : ℚ) ≠ 0 := by
      have := List.count_pos_iff.2 ha
      exact_mod_cast Nat.pos_iff_ne_zero.1 this
    have hn0 : (log.length : ℚ) ≠ 0 := by
      have := List.length_pos_iff.2 hl
      exact_mod_cast Nat.pos_iff_ne_zero.1 this
    have ht0 : ((allActivities log).length : ℚ) ≠ 0 := by
      have := List.length_pos_of_mem ha
      exact_mod_cast Nat.pos_iff_ne_zero.1 this
    have htr : (((occurrences log).filter fun p => p.2.activity = a).map fun p => idOf p.1).dedup.length =
        ((log.filter fun t => a ∈ t.activities).map idOf).toFinset.card := by
      rw [← List.toFinset_card_of_nodup (List.nodup_dedup _)]
      congr 1
      ext x
      simp only [List.mem_toFinset, List.mem_dedup, List.mem_map, List.mem_filter, decide_eq_true_eq]
      constructor
      · rintro ⟨p, ⟨hp, hpa⟩, rfl⟩
        unfold occurrences at hp
        obtain ⟨t, ht, hp⟩ := List.mem_flatMap.1 hp
        obtain ⟨e, he, rfl⟩ := List.mem_map.1 hp
        exact ⟨t, ⟨ht, List.mem_map.2 ⟨e, he, hpa⟩⟩, rfl⟩
      · rintro ⟨t, ⟨ht, hta⟩, rfl⟩
        obtain ⟨e, he, hea⟩ := List.mem_map.1 hta
        exact ⟨(t, e), ⟨List.mem_flatMap.2 ⟨t, ht, List.mem_map_of_mem he⟩, hea⟩, rfl⟩
    have hst : (starts.get? a).getD 0 = (log.filter fun t => t.activities.head? = some a).length := by
      rw [hs2]
      congr 1
      refine List.filter_congr fun t _ => ?_
      rw [Trace.activities, List.head?_map]
    have hen : (ends.get? a).getD 0 = (log.filter fun t => t.activities.getLast? = some a).length := by
      rw [he2]
      congr 1
      refine List.filter_congr fun t _ => ?_
      rw [Trace.activities, List.getLast?_map]
    refine ⟨rfl, htr, rfl, rfl, ?_, ?_, ?_, ?_, ?_⟩
    · show ((_ : Nat) : ℚ) / _ = _
      rw [htr]
    · show (((starts.get? a).getD 0 : Nat) : ℚ) / _ = _
      rw [hst]
    · show (((ends.get? a).getD 0 : Nat) : ℚ) / _ = _
      rw [hen]
    · show (((starts.get? a).getD 0 : Nat) : ℚ) / _ * _ / _ = _
      rw [hst]
      field_simp
    · show (((ends.get? a).getD 0 : Nat) : ℚ) / _ * _ / _ = _
      rw [hen]
      field_simp

/-- C121: the activity statistics have one row per activity, in sorted order, with the right numbers -/
theorem C121_activities {R : Type} (log : Log V V V) (Kt Ke : List String) (hl : log ≠ []) (hu : Uniform Kt Ke log)
    (hKt : Kt.Pairwise (· < ·)) (hKe : Ke.Pairwise (· < ·)) (hcol : (["trace", "Activity"] ++ Kt ++ Ke).Nodup)
    (aggs : List ((List (Option V) → R) × String)) (haggs : ∀ g ∈ aggs, g.2 ∈ Ke) :
    ∃ st, activityStatistics log none aggs = .ok st ∧ (st.map Prod.fst).Pairwise (· < ·) ∧
      (∀ a, a ∈ st.map Prod.fst ↔ a ∈ allActivities log) ∧ ∀ r ∈ st, IsStats log Trace.id aggs r.1 r.2 := by
  have hn : (expectedColumns Kt Ke true).Nodup := by
    have : (expectedColumns Kt Ke true).Perm (["trace", "Activity"] ++ Kt ++ Ke) := by
      unfold expectedColumns
      simp only [if_true, List.cons_append, List.nil_append, List.append_assoc]
      exact List.Perm.cons _ List.perm_middle
    exact this.nodup_iff.2 hcol
  exact statistics_core log Kt Ke hl hu hKt hKe none Trace.id aggs (column_activity hn _ _) (column_trace hn _ _)
    fun g hg => column_eventAttr hn _ _ (haggs g hg)

/-- C121: with `trace_id_attribute`, the traces are told apart by this attribute instead of their ids: `traces` and `frequency_traces`
count the different values of the attribute. A trace attribute may now be called "trace". -/
theorem C121_activities_by_attribute {R : Type} (log : Log V V V) (Kt Ke : List String) (hl : log ≠ []) (hu : Uniform Kt Ke log)
    (hKt : Kt.Pairwise (· < ·)) (hKe : Ke.Pairwise (· < ·)) (hcol : (["Activity"] ++ Kt ++ Ke).Nodup)
    (aggs : List ((List (Option V) → R) × String)) (haggs : ∀ g ∈ aggs, g.2 ∈ Ke)
    (x : String) (hx : x ∈ Kt) (idOf : Trace V V V → V) (hid : ∀ t ∈ log, t.attributes.get? x = some (idOf t)) :
    ∃ st, activityStatistics log (some x) aggs = .ok st ∧ (st.map Prod.fst).Pairwise (· < ·) ∧
      (∀ a, a ∈ st.map Prod.fst ↔ a ∈ allActivities log) ∧ ∀ r ∈ st, IsStats log idOf aggs r.1 r.2 := by
  have hn : (expectedColumns Kt Ke false).Nodup := by
    have : (expectedColumns Kt Ke false).Perm (["Activity"] ++ Kt ++ Ke) := by
      unfold expectedColumns
      simp only [Bool.false_eq_true, if_false, List.cons_append, List.nil_append, List.append_assoc]
      exact List.perm_middle
    exact this.nodup_iff.2 hcol
  refine statistics_core log Kt Ke hl hu hKt hKe (some x) idOf aggs (column_of_zip hn (by simp [expectedColumns]) fun p _ => ?_)
    (column_of_zip hn (by simp [expectedColumns, hx]) fun p hp => ?_)
    fun g hg => column_of_zip hn (by simp [expectedColumns, haggs g hg]) fun p _ => ?_
  · rw [zip_row_false]; simp
  · rw [zip_row_false]
    unfold occurrences at hp
    obtain ⟨t, ht, hp⟩ := List.mem_flatMap.1 hp
    obtain ⟨e, he, rfl⟩ := List.mem_map.1 hp
    rw [← hid t ht]
    exact List.mem_append_left _ (List.mem_map.2 ⟨x, hx, rfl⟩)
  · rw [zip_row_false]
    exact List.mem_append_right _ (List.mem_cons_of_mem _ (List.mem_map.2 ⟨g.2, haggs g hg, rfl⟩))

theorem card_congr_image {α : Type} {f g : α → V} {l : List α} (h : ∀ x ∈ l, ∀ y ∈ l, f x = f y ↔ g x = g y) :
    (l.map f).toFinset.card = (l.map g).toFinset.card := by
  induction l with
  | nil => rfl
  | cons a l ih =>
    have ih := ih fun x hx y hy => h x (List.mem_cons_of_mem _ hx) y (List.mem_cons_of_mem _ hy)
    have hm : f a ∈ (l.map f).toFinset ↔ g a ∈ (l.map g).toFinset := by
      simp only [List.mem_toFinset, List.mem_map]
      constructor
      · rintro ⟨b, hb, he⟩
        exact ⟨b, hb, (h b (List.mem_cons_of_mem _ hb) a List.mem_cons_self).1 he⟩
      · rintro ⟨b, hb, he⟩
        exact ⟨b, hb, (h b (List.mem_cons_of_mem _ hb) a List.mem_cons_self).2 he⟩
    rw [List.map_cons, List.map_cons, List.toFinset_cons, List.toFinset_cons, Finset.card_insert_eq_ite, Finset.card_insert_eq_ite, ih]
    simp only [hm]

theorem rows_unique {α β : Type} {l l' : List (α × β)} (h : l.map Prod.fst = l'.map Prod.fst)
    (h2 : ∀ r ∈ l, ∀ r' ∈ l', r.1 = r'.1 → r.2 = r'.2) : l = l' := by
  induction l generalizing l' with
  | nil => cases l' with
    | nil => rfl
    | cons r l' => simp at h
  | cons r l ih => cases l' with
    | nil => simp at h
    | cons r' l' =>
      rw [List.map_cons, List.map_cons, List.cons.injEq] at h
      rw [ih h.2 fun x hx y hy => h2 x (List.mem_cons_of_mem _ hx) y (List.mem_cons_of_mem _ hy),
        Prod.ext h.1 (h2 r List.mem_cons_self r' List.mem_cons_self h.1)]

/-- C121: if the attribute tells the traces apart, both forms of the call give the same table -/
theorem C121_attribute_same {R : Type} (log : Log V V V) (Kt Ke : List String) (hl : log ≠ []) (hu : Uniform Kt Ke log)
    (hKt : Kt.Pairwise (· < ·)) (hKe : Ke.Pairwise (· < ·)) (hcol : (["trace", "Activity"] ++ Kt ++ Ke).Nodup)
    (aggs : List ((List (Option V) → R) × String)) (haggs : ∀ g ∈ aggs, g.2 ∈ Ke) (x : String) (hx : x ∈ Kt)
    (hsame : ∀ t ∈ log, ∀ t' ∈ log, t.attributes.get? x = t'.attributes.get? x ↔ t.id = t'.id) :
    activityStatistics log (some x) aggs = activityStatistics log none aggs := by
  have hget : ∀ t ∈ log, t.attributes.get? x = some ((t.attributes.get? x).getD t.id) := by
    intro t ht
    obtain ⟨v, hv⟩ := Dict.mem_keys_iff.1 (((hu.traces t ht).2.1 x).2 hx)
    rw [hv]; rfl
  obtain ⟨st, h1, h2, h3, h4⟩ := C121_activities log Kt Ke hl hu hKt hKe hcol aggs haggs
  obtain ⟨st', h1', h2', h3', h4'⟩ := C121_activities_by_attribute log Kt Ke hl hu hKt hKe (List.nodup_cons.1 hcol).2 aggs haggs x hx _ hget
  rw [h1, h1']
  refine congrArg Except.ok (rows_unique ?_ ?_)
  · refine List.Perm.eq_of_pairwise' (h2'.imp le_of_lt) (h2.imp le_of_lt)
      ((List.perm_ext_iff_of_nodup (h2'.imp fun h => ne_of_lt h) (h2.imp fun h => ne_of_lt h)).2 fun a => ?_)
    rw [h3, h3']
  · intro r' hr' r hr he
    obtain ⟨a', s'⟩ := r'
    obtain ⟨a, s⟩ := r
    obtain rfl : a' = a := he
    have e' := h4' _ hr'
    have e := h4 _ hr
    have hc : ((log.filter fun t => a' ∈ t.activities).map fun t => (t.attributes.get? x).getD t.id).toFinset.card =
        ((log.filter fun t => a' ∈ t.activities).map Trace.id).toFinset.card := by
      refine card_congr_image fun t ht t' ht' => ?_
      have ht := (List.mem_filter.1 ht).1
      have ht' := (List.mem_filter.1 ht').1
      rw [← hsame t ht t' ht', hget t ht, hget t' ht']
      simp
    obtain ⟨e1, e2, e3, e4, e5, e6, e7, e8, e9⟩ := e
    obtain ⟨f1, f2, f3, f4, f5, f6, f7, f8, f9⟩ := e'
    cases s; cases s'
    simp only at e1 e2 e3 e4 e5 e6 e7 e8 e9 f1 f2 f3 f4 f5 f6 f7 f8 f9 ⊢
    rw [hc] at f2 f5
    rw [e1, e2, e3, e4, e5, e6, e7, e8, e9, f1, f2, f3, f4, f5, f6, f7, f8, f9]

/-- C121: without the attribute there is no result -/
theorem C121_unknown_attribute {R : Type} (log : Log V V V) (Kt Ke : List String) (hl : log ≠ []) (hu : Uniform Kt Ke log)
    (hKt : Kt.Pairwise (· < ·)) (hKe : Ke.Pairwise (· < ·)) (aggs : List ((List (Option V) → R) × String))
    (x : String) (hx : x ∉ Kt) (hx' : x ∉ Ke) (hxa : x ≠ "Activity") :
    activityStatistics log (some x) aggs = .error .key := by
  have hno : x ∉ expectedColumns Kt Ke false := by simp [expectedColumns, hx, hx', hxa]
  have ha : "Activity" ∈ expectedColumns Kt Ke false := by simp [expectedColumns]
  unfold activityStatistics
  rw [C117_table log Kt Ke hl hu hKt hKe (some x).isNone]
  simp only [Option.isNone_some, Option.getD_some, Frame.column, bind, Except.bind, ha, hno, if_true, if_false]

/-- the columns that are distributions -/
theorem distributions_core {R : Type} (log : Log V V V) (Kt Ke : List String) (hl : log ≠ []) (hu : Uniform Kt Ke log)
    {idOf : Trace V V V → V} {aggs : List ((List (Option V) → R) × String)} {st : List (V × ActivityStats R)}
    (h2 : (st.map Prod.fst).Pairwise (· < ·)) (h3 : ∀ a, a ∈ st.map Prod.fst ↔ a ∈ allActivities log)
    (h4 : ∀ r ∈ st, IsStats log idOf aggs r.1 r.2) :
    (st.map fun r => r.2.frequency).sum = 1 ∧ (st.map fun r => r.2.aGivenStart).sum = 1 ∧ (st.map fun r => r.2.aGivenEnd).sum = 1 := by
  have hne : ∀ t ∈ log, t.events ≠ [] := fun t ht => (hu.traces t ht).2.2
  have hnd : (st.map Prod.fst).Nodup := h2.imp fun h => ne_of_lt h
  have hn0 : (log.length : ℚ) ≠ 0 := by
    have := List.length_pos_iff.2 hl
    exact_mod_cast Nat.pos_iff_ne_zero.1 this
  have hevents : (allActivities log) ≠ [] := by
    obtain ⟨t, rest, rfl⟩ := List.exists_cons_of_ne_nil hl
    obtain ⟨e, es, he⟩ := List.exists_cons_of_ne_nil (hne t List.mem_cons_self)
    simp [allActivities, Trace.activities, he]
  have hdiv : ∀ (f : V → Nat) (c : ℚ), ((st.map Prod.fst).map fun a => (f a : ℚ) / c).sum = ((((st.map Prod.fst).map f).sum : Nat) : ℚ) / c := by
    intro f c
    induction st.map Prod.fst with
    | nil => simp
    | cons a l ih => simp only [List.map_cons, List.sum_cons, Nat.cast_add, ih, add_div]
  -- a list whose members are rows is counted completely by the rows
  have hcount : ∀ l : List V, (∀ x ∈ l, x ∈ st.map Prod.fst) → ((st.map Prod.fst).map fun a => l.count a).sum = l.length := by
    intro l
    generalize st.map Prod.fst = ks at hnd
    intro hsub
    induction l with
    | nil => simp
    | cons x l ih =>
      have ih := ih fun y hy => hsub y (List.mem_cons_of_mem _ hy)
      have hx := hsub x List.mem_cons_self
      have : (ks.map fun a => (x :: l).count a).sum = (ks.map fun a => l.count a).sum + (ks.map fun a => if x = a then 1 else 0).sum := by
        rw [← List.sum_map_add]
        congr 1
        refine List.map_congr_left fun a _ => ?_
        rw [List.count_cons]
        simp
      rw [this, ih, List.length_cons]
      congr 1
      rw [sum_ite_eq, List.count_eq_one_of_mem hnd hx]
  have hends : ∀ pick : List V → Option V, (∀ l, l ≠ [] → ∃ x ∈ l, pick l = some x) →
      ((st.map Prod.fst).map fun a => ((log.filter fun t => pick t.activities = some a).length : ℚ) / log.length).sum = 1 := by
    intro pick hp
    have hp' : ∀ t ∈ log, ∃ x ∈ t.activities, pick t.activities = some x := fun t ht => hp _ (by simpa [Trace.activities] using hne t ht)
    rw [hdiv fun a => (log.filter fun t => pick t.activities = some a).length]
    have hfc : ∀ (ts : Log V V V), (∀ t ∈ ts, t ∈ log) → (ts.filterMap fun t => pick t.activities).length = ts.length ∧
        ∀ a, (ts.filter fun t => pick t.activities = some a).length = (ts.filterMap fun t => pick t.activities).count a := by
      intro ts
      induction ts with
      | nil => intro _; exact ⟨rfl, fun _ => rfl⟩
      | cons t ts ih =>
        intro hts
        obtain ⟨i1, i2⟩ := ih fun t ht => hts t (List.mem_cons_of_mem _ ht)
        obtain ⟨x, _, hx⟩ := hp' t (hts t List.mem_cons_self)
        refine ⟨by rw [List.filterMap_cons, hx]; simp [i1], fun a => ?_⟩
        rw [List.filterMap_cons, List.filter_cons, hx, List.count_cons, ← i2]
        by_cases hxa : x = a
        · simp [hxa]
        · simp [hxa]
    obtain ⟨i1, i2⟩ := hfc log fun _ h => h
    simp only [i2]
    rw [hcount, i1, div_self hn0]
    intro x hx
    obtain ⟨t, ht, hx⟩ := List.mem_filterMap.1 hx
    obtain ⟨y, hy, hxy⟩ := hp' t ht
    rw [hx] at hxy
    obtain rfl := Option.some.inj hxy
    exact (h3 x).2 (List.mem_flatMap.2 ⟨t, ht, hy⟩)
  refine ⟨?_, ?_, ?_⟩
  · rw [List.map_congr_left fun r hr => (h4 r hr).frequency]
    have := hdiv (fun a => (allActivities log).count a) (allActivities log).length
    rw [List.map_map] at this
    rw [show (st.map fun r => ((allActivities log).count r.1 : ℚ) / (allActivities log).length) = _ from rfl]
    refine this.trans ?_
    rw [hcount _ fun x hx => (h3 x).2 hx, div_self]
    have := List.length_pos_iff.2 hevents
    exact_mod_cast Nat.pos_iff_ne_zero.1 this
  · rw [List.map_congr_left fun r hr => (h4 r hr).aGivenStart]
    have := hends List.head? fun l hl => ⟨l.head hl, List.head_mem hl, List.head?_eq_some_head hl⟩
    rw [List.map_map] at this
    exact this
  · rw [List.map_congr_left fun r hr => (h4 r hr).aGivenEnd]
    have := hends List.getLast? fun l hl => ⟨l.getLast hl, List.getLast_mem hl, List.getLast?_eq_some_getLast hl⟩
    rw [List.map_map] at this
    exact this

/-- C121: the frequencies, and the probabilities to start (end) a trace, sum to one -/
theorem C121_distributions {R : Type} (log : Log V V V) (Kt Ke : List String) (hl : log ≠ []) (hu : Uniform Kt Ke log)
    (hKt : Kt.Pairwise (· < ·)) (hKe : Ke.Pairwise (· < ·)) (idAttr : Option String)
    (hcol : (idAttr.elim ["trace"] (fun _ => []) ++ ["Activity"] ++ Kt ++ Ke).Nodup) (hid : ∀ x, idAttr = some x → x ∈ Kt)
    (aggs : List ((List (Option V) → R) × String)) (haggs : ∀ g ∈ aggs, g.2 ∈ Ke) :
    ∃ st, activityStatistics log idAttr aggs = .ok st ∧ (st.map fun r => r.2.frequency).sum = 1 ∧
      (st.map fun r => r.2.aGivenStart).sum = 1 ∧ (st.map fun r => r.2.aGivenEnd).sum = 1 := by
  cases idAttr with
  | none =>
    obtain ⟨st, h1, h2, h3, h4⟩ := C121_activities log Kt Ke hl hu hKt hKe hcol aggs haggs
    exact ⟨st, h1, distributions_core log Kt Ke hl hu h2 h3 h4⟩
  | some x =>
    have hx := hid x rfl
    obtain ⟨st, h1, h2, h3, h4⟩ := C121_activities_by_attribute log Kt Ke hl hu hKt hKe hcol aggs haggs x hx
      (fun t => (t.attributes.get? x).getD t.id) fun t ht => by
        have := ((hu.traces t ht).2.1 x).2 hx
        obtain ⟨v, hv⟩ := Dict.mem_keys_iff.1 this
        rw [hv]; rfl
    exact ⟨st, h1, distributions_core log Kt Ke hl hu h2 h3 h4⟩

/-- C121: no activity statistics without traces -/
theorem C121_no_activities {R : Type} (idAttr : Option String) (aggs : List ((List (Option V) → R) × String)) :
    activityStatistics ([] : Log V V V) idAttr aggs = .error .index := rfl

/-- C121, deviation: an event without the attribute that is given as `trace_id_attribute` is not counted: here the activity occurs twice and has
the support 1 -/
theorem C121_missing_id_witness : ∃ log : Log Nat Nat Nat, allActivities log = [1, 1, 2] ∧
    (activityStatistics log (some "case") ([] : List ((List (Option Nat) → Nat) × String))).map (fun st => st.map fun r => (r.1, r.2.support, r.2.frequency)) =
      .ok [(1, 1, 1/2), (2, 1, 1/2)] :=
  ⟨[⟨5, [⟨1, [("case", 5)], none⟩, ⟨1, [], none⟩, ⟨2, [("case", 5)], none⟩], []⟩], rfl, by decide +kernel⟩

/-- the hypotheses are met, and the result is not trivial -/
example : ∃ log : Log Nat Nat Nat, log.length = 2 ∧ Uniform ["q"] ["w"] log ∧ (["trace", "Activity"] ++ ["q"] ++ ["w"]).Nodup ∧
    (activityStatistics log none [((fun l => (l.filterMap id).sum), "w")]).map (fun st => st.map fun r => (r.1, r.2.support, r.2.agg, r.2.frequency, r.2.endGivenA)) =
      .ok [(1, 3, [31], 3/4, 1/3), (2, 1, [12], 1/4, 1)] := by
  refine ⟨[⟨5, [⟨1, [("w", 10)], none⟩, ⟨1, [("w", 20)], none⟩, ⟨2, [("w", 12)], none⟩], [("q", 7)]⟩, ⟨3, [⟨1, [("w", 1)], none⟩], [("q", 8)]⟩], rfl, ⟨?_, ?_⟩, by decide, by decide +kernel⟩
  · intro t ht
    simp at ht
    rcases ht with rfl | rfl <;> refine ⟨by unfold Dict.WF; decide, ?_, by decide⟩ <;> intro k <;> simp [Dict.keys]
  · intro t ht e he
    simp at ht
    rcases ht with rfl | rfl <;> simp at he
    · rcases he with rfl | rfl | rfl <;> refine ⟨by unfold Dict.WF; decide, ?_⟩ <;> intro k <;> simp [Dict.keys]
    · subst he; refine ⟨by unfold Dict.WF; decide, ?_⟩; intro k; simp [Dict.keys]

/-- the same with an attribute for the id of the trace: the first and the last trace have the same value there -/
example : ∃ log : Log Nat Nat Nat, log.length = 3 ∧ Uniform ["trace"] ["w"] log ∧ (["Activity"] ++ ["trace"] ++ ["w"]).Nodup ∧
    (activityStatistics log (some "trace") [((fun l => (l.filterMap id).sum), "w")]).map (fun st => st.map fun r => (r.1, r.2.support, r.2.traces, r.2.frequencyTraces)) =
      .ok [(1, 3, 2, 2/3), (2, 1, 1, 1/3)] := by
  refine ⟨[⟨5, [⟨1, [("w", 10)], none⟩, ⟨2, [("w", 12)], none⟩], [("trace", 7)]⟩, ⟨3, [⟨1, [("w", 1)], none⟩], [("trace", 8)]⟩,
    ⟨4, [⟨1, [("w", 2)], none⟩], [("trace", 7)]⟩], rfl, ⟨?_, ?_⟩, by decide, by decide +kernel⟩
  · intro t ht
    simp at ht
    rcases ht with rfl | rfl | rfl <;> refine ⟨by unfold Dict.WF; decide, ?_, by decide⟩ <;> intro k <;> simp [Dict.keys]
  · intro t ht e he
    simp at ht
    rcases ht with rfl | rfl | rfl <;> simp at he
    · rcases he with rfl | rfl <;> refine ⟨by unfold Dict.WF; decide, ?_⟩ <;> intro k <;> simp [Dict.keys]
    · subst he; refine ⟨by unfold Dict.WF; decide, ?_⟩; intro k; simp [Dict.keys]
    · subst he; refine ⟨by unfold Dict.WF; decide, ?_⟩; intro k; simp [Dict.keys]

example : (traceStatistics (I := Nat) (V := Nat) [⟨0, [⟨'a', [], none⟩], []⟩, ⟨1, [⟨'a', [], none⟩, ⟨'b', [], none⟩], []⟩, ⟨2, [⟨'a', [], none⟩], []⟩]) = .ok ⟨3, 2, 1, 4/3, 2⟩ := by decide +kernel

example : Function.Injective (fun a : Char => [a]) ∧ (∀ a : Char, ¬ [',', ' '] <:+: [a]) ∧
    variantStatistics (I := Nat) (V := Nat) (fun a => [a]) [⟨0, [⟨'a', [], none⟩], []⟩, ⟨1, [⟨'a', [], none⟩, ⟨'b', [], none⟩], []⟩, ⟨2, [⟨'a', [], none⟩], []⟩] =
      [(['a'], 2), (['a', ',', ' ', 'b'], 1)] := by
  refine ⟨fun a b h => by simpa using h, fun a h => ?_, by decide +kernel⟩
  have := h.length_le
  simp at this
end

end Prolothar.LogStatistics
