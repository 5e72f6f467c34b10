import Verif.Model.LogTable
import Verif.Props.EventLog
import Verif.Lemmas.Transformer
/-
C117: the table of an event log (`to_pandas_df`). C118: reading it back (`create_from_pandas_df`).
-/
namespace Prolothar.LogTable
open Prolothar.EventLog
variable {V : Type}

/-- all traces have exactly the attributes `Kt`, all events exactly the attributes `Ke`, and no trace is empty -/
structure Uniform (Kt Ke : List String) (log : Log V V V) : Prop where
  traces : ∀ t ∈ log, t.attributes.WF ∧ (∀ k, k ∈ t.attributes.keys ↔ k ∈ Kt) ∧ t.events ≠ []
  events : ∀ t ∈ log, ∀ e ∈ t.events, e.attributes.WF ∧ ∀ k, k ∈ e.attributes.keys ↔ k ∈ Ke

/-- the events of the log, each with its trace, in order -/
def occurrences (log : Log V V V) : List (Trace V V V × Event V V) := log.flatMap fun t => t.events.map fun e => (t, e)

/-! ### sorting -/

theorem keys_sort {K l : List String} (hK : K.Pairwise (· < ·)) (hl : l.Nodup) (h : ∀ k, k ∈ l ↔ k ∈ K) :
    l.insertionSort (· ≤ ·) = K := by
  have hn : K.Nodup := hK.imp fun h => ne_of_lt h
  have hp : (l.insertionSort (· ≤ ·)).Perm K := (List.perm_insertionSort _ _).trans ((List.perm_ext_iff_of_nodup hl hn).2 h)
  exact hp.eq_of_pairwise' (List.pairwise_insertionSort (· ≤ ·) l) (hK.imp le_of_lt)

theorem items_sort {K : List String} {d : Dict String V} (hK : K.Pairwise (· < ·)) (hd : d.WF) (h : ∀ k, k ∈ d.keys ↔ k ∈ K) :
    (sortedItems d).map (fun p => some p.2) = K.map d.get? := by
  have hperm : (sortedItems d).Perm d := List.perm_insertionSort _ _
  have hs : ((sortedItems d).map Prod.fst).Pairwise (· ≤ ·) := by
    rw [List.pairwise_map]
    have : Std.Total (fun p q : String × V => p.1 ≤ q.1) := ⟨fun p q => le_total p.1 q.1⟩
    have : IsTrans (String × V) (fun p q : String × V => p.1 ≤ q.1) := ⟨fun _ _ _ a b => le_trans a b⟩
    exact List.pairwise_insertionSort (fun p q : String × V => p.1 ≤ q.1) d
  have hn : K.Nodup := hK.imp fun h => ne_of_lt h
  have hfst : (sortedItems d).map Prod.fst = K :=
    ((hperm.map Prod.fst).trans ((List.perm_ext_iff_of_nodup hd hn).2 h)).eq_of_pairwise' hs (hK.imp le_of_lt)
  rw [← hfst, List.map_map]
  refine List.map_congr_left fun p hp => ?_
  exact (Dict.get?_of_mem hd (hperm.mem_iff.1 hp)).symm

/-! ### the table -/

/-- the row the table should have for an event -/
def expectedRow (Kt Ke : List String) (appendId : Bool) (p : Trace V V V × Event V V) : List (Option V) :=
  (if appendId then [some p.1.id] else []) ++ Kt.map p.1.attributes.get? ++ [some p.2.activity] ++ Ke.map p.2.attributes.get?

/-- the columns the table should have -/
def expectedColumns (Kt Ke : List String) (appendId : Bool) : List String :=
  (if appendId then ["trace"] else []) ++ Kt ++ ["Activity"] ++ Ke

theorem makeFrame_ok {rows : List (List (Option V))} {cols : List String} (h0 : rows ≠ []) (h : ∀ r ∈ rows, r.length = cols.length) :
    makeFrame rows cols = .ok ⟨cols, rows⟩ := by
  have hm : (rows.map List.length).foldl max 0 = cols.length := by
    have key : ∀ (rows : List (List (Option V))) (a : Nat), (∀ r ∈ rows, r.length = cols.length) → a ≤ cols.length →
        (rows ≠ [] ∨ a = cols.length) → (rows.map List.length).foldl max a = cols.length := by
      intro rows
      induction rows with
      | nil => intro a _ _ h; rcases h with h | h; exact absurd rfl h; exact h
      | cons r rows ih =>
        intro a h1 h2 _
        rw [List.map_cons, List.foldl_cons, h1 r List.mem_cons_self, max_eq_right h2]
        exact ih _ (fun x hx => h1 x (List.mem_cons_of_mem _ hx)) le_rfl (.inr rfl)
    exact key rows 0 h (Nat.zero_le _) (.inl h0)
  unfold makeFrame
  simp only [hm, ne_eq, not_true, if_false]
  have : rows.map (fun r => r ++ List.replicate (cols.length - r.length) none) = rows := by
    conv_rhs => rw [← List.map_id rows]
    refine List.map_congr_left fun r hr => ?_
    simp [h r hr]
  rw [this]

/-- C117: the table has the sorted attribute names as columns and one row per event, in the order of the log; every cell holds the
value of the attribute the column is named after. -/
theorem C117_table (log : Log V V V) (Kt Ke : List String) (hl : log ≠ []) (hu : Uniform Kt Ke log)
    (hKt : Kt.Pairwise (· < ·)) (hKe : Ke.Pairwise (· < ·)) (b : Bool) :
    toFrame log b = .ok ⟨expectedColumns Kt Ke b, (occurrences log).map (expectedRow Kt Ke b)⟩ := by
  have hrow : ∀ t ∈ log, ∀ e ∈ t.events, tableRow b t e = expectedRow Kt Ke b (t, e) := by
    intro t ht e he
    unfold tableRow expectedRow
    rw [items_sort hKt (hu.traces t ht).1 (hu.traces t ht).2.1, items_sort hKe (hu.events t ht e he).1 (hu.events t ht e he).2]
  have hrows : (log.flatMap fun t => t.events.map fun e => tableRow b t e) = (occurrences log).map (expectedRow Kt Ke b) := by
    unfold occurrences
    rw [List.map_flatMap]
    refine List.flatMap_congr fun t ht => ?_
    rw [List.map_map]
    exact List.map_congr_left fun e he => hrow t ht e he
  cases log with
  | nil => exact absurd rfl hl
  | cons t0 log =>
    obtain ⟨w1, w2, w3⟩ := hu.traces t0 List.mem_cons_self
    cases he0 : t0.events with
    | nil => exact absurd he0 w3
    | cons e0 es =>
      have he0' : e0 ∈ t0.events := by rw [he0]; exact List.mem_cons_self
      obtain ⟨v1, v2⟩ := hu.events t0 List.mem_cons_self e0 he0'
      unfold toFrame
      rw [hrows]
      simp only [he0, bind, Except.bind]
      rw [keys_sort hKt w1 w2, keys_sort hKe v1 v2]
      refine makeFrame_ok ?_ ?_
      · unfold occurrences; simp [he0]
      · intro r hr
        obtain ⟨p, _, rfl⟩ := List.mem_map.1 hr
        unfold expectedRow
        cases b <;> simp

/-- C117: no table for a log without traces -/
theorem C117_empty (b : Bool) : toFrame ([] : Log V V V) b = .error .index := rfl

/-- C117 fails for events with different attributes: the value 2 of `b` is put under the column `a`, without an error. -/
theorem C117_misplaced :
    toFrame [(⟨7, [⟨8, [("a", 1)], none⟩, ⟨9, [("b", 2)], none⟩], []⟩ : Trace Nat Nat Nat)] false =
      .ok ⟨["Activity", "a"], [[some 8, some 1], [some 9, some 2]]⟩ := by decide +kernel

/-! ### columns of the table -/

theorem cell_of_zip {cols : List String} {row : List (Option V)} {c : String} {v : Option V} (hn : cols.Nodup)
    (hl : row.length = cols.length) (h : (c, v) ∈ cols.zip row) : cell cols c row = v := by
  unfold cell
  obtain ⟨i, hi, he⟩ := List.getElem_of_mem h
  rw [List.length_zip] at hi
  rw [List.getElem_zip] at he
  have h1 : cols[i]'(by omega) = c := congrArg Prod.fst he
  have h2 : row[i]'(by omega) = v := congrArg Prod.snd he
  rw [← h1, hn.idxOf_getElem, List.getElem?_eq_getElem (by omega), h2]
  rfl

theorem row_length (Kt Ke : List String) (b : Bool) (p : Trace V V V × Event V V) :
    (expectedRow Kt Ke b p).length = (expectedColumns Kt Ke b).length := by
  unfold expectedRow expectedColumns
  cases b <;> simp

theorem zip_row (Kt Ke : List String) (p : Trace V V V × Event V V) :
    (expectedColumns Kt Ke true).zip (expectedRow Kt Ke true p) =
      ("trace", some p.1.id) :: (Kt.map (fun k => (k, p.1.attributes.get? k)) ++
        ("Activity", some p.2.activity) :: Ke.map fun k => (k, p.2.attributes.get? k)) := by
  unfold expectedRow expectedColumns
  have hz : ∀ (K : List String) (f : String → Option V), K.zip (K.map f) = K.map fun k => (k, f k) := by
    intro K f
    induction K with
    | nil => rfl
    | cons k K ih => simp [ih]
  simp only [if_true, List.append_assoc, List.cons_append, List.nil_append, List.zip_cons_cons]
  rw [List.zip_append (by simp), List.zip_cons_cons, hz, hz]

section
variable {Kt Ke : List String} (hn : (expectedColumns Kt Ke true).Nodup)
include hn

theorem cell_trace (p : Trace V V V × Event V V) : cell (expectedColumns Kt Ke true) "trace" (expectedRow Kt Ke true p) = some p.1.id :=
  cell_of_zip hn (row_length ..) (by rw [zip_row]; exact List.mem_cons_self)

theorem cell_activity (p : Trace V V V × Event V V) :
    cell (expectedColumns Kt Ke true) "Activity" (expectedRow Kt Ke true p) = some p.2.activity :=
  cell_of_zip hn (row_length ..) (by rw [zip_row]; simp)

theorem cell_traceAttr (p : Trace V V V × Event V V) {k : String} (hk : k ∈ Kt) :
    cell (expectedColumns Kt Ke true) k (expectedRow Kt Ke true p) = p.1.attributes.get? k :=
  cell_of_zip hn (row_length ..) (by
    rw [zip_row]
    exact List.mem_cons_of_mem _ (List.mem_append_left _ (List.mem_map.2 ⟨k, hk, rfl⟩)))

theorem cell_eventAttr (p : Trace V V V × Event V V) {k : String} (hk : k ∈ Ke) :
    cell (expectedColumns Kt Ke true) k (expectedRow Kt Ke true p) = p.2.attributes.get? k :=
  cell_of_zip hn (row_length ..) (by
    rw [zip_row]
    exact List.mem_cons_of_mem _ (List.mem_append_right _ (List.mem_cons_of_mem _ (List.mem_map.2 ⟨k, hk, rfl⟩))))

omit hn in
theorem column_eq {rows : List (Trace V V V × Event V V)} {err : PyErr} {c : String} {g : Trace V V V × Event V V → Option V}
    (hc : c ∈ expectedColumns Kt Ke true) (h : ∀ p, cell (expectedColumns Kt Ke true) c (expectedRow Kt Ke true p) = g p) :
    Frame.column ⟨expectedColumns Kt Ke true, rows.map (expectedRow Kt Ke true)⟩ err c = .ok (rows.map g) := by
  unfold Frame.column
  simp only [hc, if_true, List.map_map]
  rw [show (cell (expectedColumns Kt Ke true) c ∘ expectedRow Kt Ke true) = g from funext h]

theorem column_trace (rows : List (Trace V V V × Event V V)) (err : PyErr) :
    Frame.column ⟨expectedColumns Kt Ke true, rows.map (expectedRow Kt Ke true)⟩ err "trace" = .ok (rows.map fun p => some p.1.id) :=
  column_eq (by simp [expectedColumns]) (cell_trace hn)

theorem column_activity (rows : List (Trace V V V × Event V V)) (err : PyErr) :
    Frame.column ⟨expectedColumns Kt Ke true, rows.map (expectedRow Kt Ke true)⟩ err "Activity" = .ok (rows.map fun p => some p.2.activity) :=
  column_eq (by simp [expectedColumns]) (cell_activity hn)

theorem column_traceAttr (rows : List (Trace V V V × Event V V)) (err : PyErr) {k : String} (hk : k ∈ Kt) :
    Frame.column ⟨expectedColumns Kt Ke true, rows.map (expectedRow Kt Ke true)⟩ err k = .ok (rows.map fun p => p.1.attributes.get? k) :=
  column_eq (by simp [expectedColumns, hk]) fun p => cell_traceAttr hn p hk

theorem column_eventAttr (rows : List (Trace V V V × Event V V)) (err : PyErr) {k : String} (hk : k ∈ Ke) :
    Frame.column ⟨expectedColumns Kt Ke true, rows.map (expectedRow Kt Ke true)⟩ err k = .ok (rows.map fun p => p.2.attributes.get? k) :=
  column_eq (by simp [expectedColumns, hk]) fun p => cell_eventAttr hn p hk
end

/-! ### groups -/

section
variable [LinearOrder V]

theorem groupCells_map (rows : List (Trace V V V × Event V V)) (g : Trace V V V × Event V V → V) (f : Trace V V V × Event V V → Option V) (k : V) :
    groupCells (rows.map fun p => some (g p)) (rows.map f) k = (rows.filter fun p => g p = k).map f := by
  unfold groupCells
  induction rows with
  | nil => rfl
  | cons p rows ih =>
    simp only [List.map_cons, List.zip_cons_cons, List.filter_cons]
    by_cases h : g p = k
    · simp only [h, decide_true, if_true, List.map_cons]
      rw [ih]
    · have : ¬ some (g p) = some k := fun hc => h (Option.some.inj hc)
      simp only [h, this, decide_false]
      exact ih

/-- the rows of one trace -/
theorem occurrences_filter {log : Log V V V} (hid : (log.map Trace.id).Nodup) {t : Trace V V V} (ht : t ∈ log) :
    (occurrences log).filter (fun p => p.1.id = t.id) = t.events.map fun e => (t, e) := by
  unfold occurrences
  induction log with
  | nil => cases ht
  | cons u log ih =>
    rw [List.map_cons, List.nodup_cons] at hid
    rw [List.flatMap_cons, List.filter_append]
    have hconst : ∀ (u : Trace V V V), (u.events.map fun e => (u, e)).filter (fun p => decide (p.1.id = t.id)) =
        if u.id = t.id then u.events.map fun e => (u, e) else [] := by
      intro u
      by_cases h : u.id = t.id
      · rw [if_pos h, List.filter_eq_self.2]
        intro p hp
        obtain ⟨e, _, rfl⟩ := List.mem_map.1 hp
        simp [h]
      · rw [if_neg h, List.filter_eq_nil_iff.2]
        intro p hp
        obtain ⟨e, _, rfl⟩ := List.mem_map.1 hp
        simp [h]
    rw [hconst]
    rcases List.mem_cons.1 ht with rfl | ht
    · rw [if_pos rfl, List.filter_eq_nil_iff.2, List.append_nil]
      intro p hp
      obtain ⟨v, hv, hp⟩ := List.mem_flatMap.1 hp
      obtain ⟨e, _, rfl⟩ := List.mem_map.1 hp
      simp only [decide_eq_true_eq]
      intro hc
      exact hid.1 (hc ▸ List.mem_map_of_mem hv)
    · have : u.id ≠ t.id := fun hc => hid.1 (hc ▸ List.mem_map_of_mem ht)
      rw [if_neg this, List.nil_append]
      exact ih hid.2 ht

/-- the group keys of the trace column are the sorted ids -/
theorem groupKeys_ids {log : Log V V V} (hid : (log.map Trace.id).Nodup) (hne : ∀ t ∈ log, t.events ≠ []) :
    groupKeys ((occurrences log).map fun p => some p.1.id) = (log.map Trace.id).insertionSort (· ≤ ·) := by
  unfold groupKeys
  have h1 : ((occurrences log).map fun p => some p.1.id).filterMap id = (occurrences log).map fun p => p.1.id := by
    rw [List.filterMap_map]
    induction occurrences log with
    | nil => rfl
    | cons p l ih => simp
  rw [h1]
  have hperm : (((occurrences log).map fun p => p.1.id).dedup).Perm (log.map Trace.id) := by
    rw [List.perm_ext_iff_of_nodup (List.nodup_dedup _) hid]
    intro k
    rw [List.mem_dedup]
    unfold occurrences
    constructor
    · intro h
      obtain ⟨p, hp, rfl⟩ := List.mem_map.1 h
      obtain ⟨t, ht, hp⟩ := List.mem_flatMap.1 hp
      obtain ⟨e, _, rfl⟩ := List.mem_map.1 hp
      exact List.mem_map_of_mem ht
    · intro h
      obtain ⟨t, ht, rfl⟩ := List.mem_map.1 h
      obtain ⟨e, he⟩ := List.exists_mem_of_ne_nil _ (hne t ht)
      exact List.mem_map.2 ⟨(t, e), List.mem_flatMap.2 ⟨t, ht, List.mem_map_of_mem he⟩, rfl⟩
  exact (((List.perm_insertionSort _ _).trans hperm).trans (List.perm_insertionSort _ _).symm).eq_of_pairwise'
    (List.pairwise_insertionSort (· ≤ ·) _) (List.pairwise_insertionSort (· ≤ ·) _)

/-! ### C118 -/

/-- the trace `t'` was read back from the trace `t`: same id, same activities and event attributes, same trace attributes, and the
trace id as a new attribute -/
structure Recovered (t t' : Trace V V V) : Prop where
  id : t'.id = t.id
  events : List.Forall₂ (fun e e' : Event V V => e'.activity = e.activity ∧ e'.attributes.Same e.attributes) t.events t'.events
  attributes : ∀ k, t'.attributes.get? k = if k = "trace" then some t.id else t.attributes.get? k

/-- attributes `cs` of `src` written into `d` -/
def copyKeys (src : Dict String V) (cs : List String) (d : Dict String V) : Dict String V :=
  cs.foldl (fun d c => match src.get? c with
    | some v => d.put c v
    | none => d) d

omit [LinearOrder V] in
theorem get?_copyKeys (src : Dict String V) (cs : List String) (d : Dict String V) (k : String) :
    (copyKeys src cs d).get? k = if k ∈ cs ∧ (src.get? k).isSome then src.get? k else d.get? k := by
  unfold copyKeys
  induction cs generalizing d with
  | nil => simp
  | cons c cs ih =>
    rw [List.foldl_cons, ih]
    by_cases h1 : k ∈ cs ∧ (src.get? k).isSome
    · rw [if_pos h1, if_pos ⟨List.mem_cons_of_mem _ h1.1, h1.2⟩]
    · rw [if_neg h1]
      by_cases h2 : k = c
      · subst h2
        cases h3 : src.get? k with
        | none => simp
        | some v => simp [Dict.get?_put_self]
      · have : ¬ (k ∈ c :: cs ∧ (src.get? k).isSome) := by
          rintro ⟨h4, h5⟩
          rcases List.mem_cons.1 h4 with h4 | h4
          · exact h2 h4
          · exact h1 ⟨h4, h5⟩
        rw [if_neg this]
        cases h3 : src.get? c with
        | none => rfl
        | some v => exact Dict.get?_put_of_ne _ _ (Ne.symm h2)

/-- C118: reading the table of a log gives the log back, sorted by trace id, with the trace id as additional trace attribute. -/
theorem C118_round_trip (log : Log V V V) (Kt Ke : List String) (hl : log ≠ []) (hu : Uniform Kt Ke log)
    (hKt : Kt.Pairwise (· < ·)) (hKe : Ke.Pairwise (· < ·)) (hcol : (["trace", "Activity"] ++ Kt ++ Ke).Nodup)
    (hid : (log.map Trace.id).Nodup) :
    ∃ f sorted log', toFrame log true = .ok f ∧ fromFrame f "trace" "Activity" Ke Kt = .ok log' ∧
      sorted.Perm log ∧ (sorted.Pairwise fun t u => t.id < u.id) ∧ List.Forall₂ Recovered sorted log' := by
  have hn : (expectedColumns Kt Ke true).Nodup := by
    have : (expectedColumns Kt Ke true).Perm (["trace", "Activity"] ++ Kt ++ Ke) := by
      unfold expectedColumns
      simp only [if_true, List.cons_append, List.nil_append, List.append_assoc]
      refine List.Perm.cons _ ?_
      exact List.perm_middle
    exact this.nodup_iff.2 hcol
  have hne : ∀ t ∈ log, t.events ≠ [] := fun t ht => (hu.traces t ht).2.2
  have hKt' : ∀ c ∈ Kt, c ≠ "trace" := by
    rintro c hc rfl
    rw [List.append_assoc, List.cons_append, List.nodup_cons] at hcol
    exact hcol.1 (by simp [hc])
  have hKe' : ∀ c ∈ Ke, c ≠ "trace" := by
    rintro c hc rfl
    rw [List.append_assoc, List.cons_append, List.nodup_cons] at hcol
    exact hcol.1 (by simp [hc])
  -- the traces sorted by id
  have htot : Std.Total (fun t u : Trace V V V => t.id ≤ u.id) := ⟨fun p q => le_total p.id q.id⟩
  have htr : IsTrans (Trace V V V) (fun t u => t.id ≤ u.id) := ⟨fun _ _ _ a b => le_trans a b⟩
  let sorted := log.insertionSort fun t u => t.id ≤ u.id
  have hperm : sorted.Perm log := List.perm_insertionSort _ _
  have hsle : sorted.Pairwise fun t u => t.id ≤ u.id := List.pairwise_insertionSort _ _
  have hsid : (sorted.map Trace.id).Nodup := (hperm.map _).nodup_iff.2 hid
  have hslt : sorted.Pairwise fun t u => t.id < u.id := by
    have h2 : sorted.Pairwise fun t u => t.id ≠ u.id := List.pairwise_map.1 hsid
    exact (hsle.and h2).imp fun h => lt_of_le_of_ne h.1 h.2
  have hkeys : groupKeys ((occurrences log).map fun p => some p.1.id) = sorted.map Trace.id := by
    rw [groupKeys_ids hid hne]
    exact ((List.perm_insertionSort _ _).trans (hperm.map _).symm).eq_of_pairwise'
      (List.pairwise_insertionSort (· ≤ ·) _) (List.pairwise_map.2 hsle)
  refine ⟨_, sorted, sorted.map (fun t => ⟨t.id, t.events.map fun e => ⟨e.activity, copyKeys e.attributes Ke [], none⟩,
    copyKeys t.attributes Kt (Dict.put [] "trace" t.id)⟩), C117_table log Kt Ke hl hu hKt hKe true, ?_, hperm, hslt, ?_⟩
  · unfold fromFrame
    rw [column_trace hn]
    show List.mapM _ (groupKeys _) = _
    rw [hkeys, List.mapM_map]
    refine forall₂_mapM ?_
    rw [List.forall₂_map_right_iff, List.forall₂_same]
    intro t ht
    have htl : t ∈ log := hperm.mem_iff.1 ht
    have hgroup : ∀ f : Trace V V V × Event V V → Option V,
        groupCells ((occurrences log).map fun p => some p.1.id) ((occurrences log).map f) t.id = t.events.map fun e => f (t, e) := by
      intro f
      rw [groupCells_map _ (fun p => p.1.id), occurrences_filter hid htl, List.map_map]
      rfl
    have hother : ∀ {c : String} {g : Trace V V V × Event V V → Option V}, c ≠ "trace" → (∀ err, Frame.column ⟨expectedColumns Kt Ke true,
        (occurrences log).map (expectedRow Kt Ke true)⟩ err c = .ok ((occurrences log).map g)) →
        Frame.other ⟨expectedColumns Kt Ke true, (occurrences log).map (expectedRow Kt Ke true)⟩ "trace" c = .ok ((occurrences log).map g) := by
      intro c g h1 h2
      unfold Frame.other
      rw [if_neg h1, h2]
    have hnames : (t.events.map fun e => some e.activity).mapM readEvent = .ok (t.events.map fun e => (⟨e.activity, [], none⟩ : Event V V)) := by
      rw [List.mapM_map]
      refine forall₂_mapM ?_
      rw [List.forall₂_map_right_iff, List.forall₂_same]
      intro e _
      rfl
    have hev : ∀ (cs : List String) (h : Event V V → Event V V), (∀ c ∈ cs, c ∈ Ke) →
        cs.foldlM (eventStep ⟨expectedColumns Kt Ke true, (occurrences log).map (expectedRow Kt Ke true)⟩
          ((occurrences log).map fun p => some p.1.id) "trace" t.id) (t.events.map h) =
        .ok (t.events.map fun e => { h e with attributes := copyKeys e.attributes cs (h e).attributes }) := by
      intro cs
      induction cs with
      | nil => intro h _; rfl
      | cons c cs ih =>
        intro h hcs
        have hstep : eventStep ⟨expectedColumns Kt Ke true, (occurrences log).map (expectedRow Kt Ke true)⟩
            ((occurrences log).map fun p => some p.1.id) "trace" t.id (t.events.map h) c =
            .ok (t.events.map fun e => withAttr (h e) c (e.attributes.get? c)) := by
          unfold eventStep
          rw [hother (hKe' c (hcs c List.mem_cons_self)) fun err => column_eventAttr hn _ err (hcs c List.mem_cons_self)]
          show Except.ok _ = _
          rw [hgroup]
          congr 1
          induction t.events with
          | nil => rfl
          | cons e es ih => rw [List.map_cons, List.map_cons, List.zip_cons_cons, List.map_cons, ih, List.map_cons]
        rw [List.foldlM_cons, hstep]
        refine (ih _ fun c hc => hcs c (List.mem_cons_of_mem _ hc)).trans ?_
        congr 1
    have htrc : ∀ (cs : List String) (d : Dict String V), (∀ c ∈ cs, c ∈ Kt) →
        cs.foldlM (attrStep ⟨expectedColumns Kt Ke true, (occurrences log).map (expectedRow Kt Ke true)⟩
          ((occurrences log).map fun p => some p.1.id) "trace" t.id) d = .ok (copyKeys t.attributes cs d) := by
      intro cs
      induction cs with
      | nil => intro d _; rfl
      | cons c cs ih =>
        intro d hcs
        have hc := hcs c List.mem_cons_self
        obtain ⟨v, hv⟩ := Dict.mem_keys_iff.1 (((hu.traces t htl).2.1 c).2 hc)
        obtain ⟨e, es, hes⟩ := List.exists_cons_of_ne_nil (hne t htl)
        have hstep : attrStep ⟨expectedColumns Kt Ke true, (occurrences log).map (expectedRow Kt Ke true)⟩
            ((occurrences log).map fun p => some p.1.id) "trace" t.id d c = .ok (d.put c v) := by
          unfold attrStep
          rw [hother (hKt' c hc) fun err => column_traceAttr hn _ err hc]
          show (match (groupCells _ _ _)[0]? with
            | some (some v) => Except.ok (d.put c v)
            | _ => _) = _
          rw [hgroup, hes, List.map_cons, List.getElem?_cons_zero, hv]
        rw [List.foldlM_cons, hstep]
        refine (ih _ fun c hc => hcs c (List.mem_cons_of_mem _ hc)).trans ?_
        unfold copyKeys
        rw [List.foldl_cons, hv]
    show readTrace _ _ _ _ _ _ t.id = _
    unfold readTrace
    rw [hother (by decide) fun err => column_activity hn _ err]
    show (do
      let es ← (groupCells _ _ _).mapM readEvent
      let es ← Ke.foldlM _ es
      let attrs ← Kt.foldlM _ _
      Trace.new t.id es attrs) = _
    rw [hgroup, hnames]
    show (do
      let es ← Ke.foldlM _ _
      let attrs ← Kt.foldlM _ _
      Trace.new t.id es attrs) = _
    rw [hev Ke _ fun _ h => h]
    show (do
      let attrs ← Kt.foldlM _ _
      Trace.new t.id _ attrs) = _
    rw [htrc Kt _ fun _ h => h]
    show Trace.new t.id _ _ = _
    unfold Trace.new
    rw [if_neg (by simpa using hne t htl)]
  · rw [List.forall₂_map_right_iff, List.forall₂_same]
    intro t ht
    have htl : t ∈ log := hperm.mem_iff.1 ht
    refine ⟨rfl, ?_, ?_⟩
    · rw [List.forall₂_map_right_iff, List.forall₂_same]
      intro e he
      refine ⟨rfl, fun k => ?_⟩
      show (copyKeys e.attributes Ke []).get? k = _
      rw [get?_copyKeys]
      by_cases hk : k ∈ Ke
      · obtain ⟨v, hv⟩ := Dict.mem_keys_iff.1 (((hu.events t htl e he).2 k).2 hk)
        rw [if_pos ⟨hk, by rw [hv]; rfl⟩]
      · rw [if_neg fun h => hk h.1]
        rw [Dict.get?_eq_none_iff.2 fun h => hk (((hu.events t htl e he).2 k).1 h)]
        rfl
    · intro k
      show (copyKeys t.attributes Kt (Dict.put [] "trace" t.id)).get? k = _
      rw [get?_copyKeys]
      by_cases hk : k ∈ Kt
      · obtain ⟨v, hv⟩ := Dict.mem_keys_iff.1 (((hu.traces t htl).2.1 k).2 hk)
        rw [if_pos ⟨hk, by rw [hv]; rfl⟩, if_neg (hKt' k hk)]
      · rw [if_neg fun h => hk h.1]
        by_cases hk2 : k = "trace"
        · subst hk2; rw [if_pos rfl]; exact Dict.get?_put_self _ _ _
        · rw [if_neg hk2, Dict.get?_put_of_ne _ _ (Ne.symm hk2)]
          rw [Dict.get?_eq_none_iff.2 fun h => hk (((hu.traces t htl).2.1 k).1 h)]
          rfl
end

/-- C118 fails for logs in which two traces have the same id: they are read back as one trace. -/
theorem C118_same_id :
    (toFrame [(⟨1, [⟨8, [], none⟩], []⟩ : Trace Nat Nat Nat), ⟨1, [⟨9, [], none⟩], []⟩] true >>= fun f => fromFrame f "trace" "Activity" [] []) =
      .ok [⟨1, [⟨8, [], none⟩, ⟨9, [], none⟩], [("trace", 1)]⟩] := by decide +kernel

end Prolothar.LogTable
