import Verif.Model.Frame
import Verif.Props.Dataset
import Verif.Lemmas.ArffExport
import Mathlib.Data.List.Induction
/-
C142: datasets and data frames.
-/
namespace Prolothar.Data
open Prolothar.Spec.Data
variable {τ : Type}

theorem rowGet_ok {columns : List String} {row : List Val} {n : String} (hn : columns.Nodup) (hl : row.length = columns.length) (hm : n ∈ columns) :
    ∃ v, rowGet columns row n = .ok v ∧ Dict.get? (columns.zip row) n = some v := by
  have h1 : ¬ 1 < columns.count n := by
    have := List.nodup_iff_count_le_one.mp hn n
    omega
  have h2 : n ∈ Dict.keys (columns.zip row) := by
    unfold Dict.keys
    rw [List.map_fst_zip (by omega)]
    exact hm
  obtain ⟨v, hv⟩ := Dict.mem_keys_iff.mp h2
  refine ⟨v, ?_, hv⟩
  unfold rowGet
  rw [if_neg h1]
  exact getItem_some hv

theorem rowFeatures_ok {columns : List String} {row : List Val} (hn : columns.Nodup) (hl : row.length = columns.length) :
    ∀ (names : List String) (f : Dict String Val), (∀ n ∈ names, n ∈ columns) → f.WF →
    ∃ g, names.foldlM (fun f n => do let v ← rowGet columns row n; return f.put n v) f = (.ok g : Py (Dict String Val)) ∧ g.WF ∧
      ∀ n, g.get? n = if n ∈ names then Dict.get? (columns.zip row) n else f.get? n
  | [], f, _, hf => ⟨f, rfl, hf, fun n => by simp⟩
  | m :: names, f, hm, hf => by
    obtain ⟨v, h1, h2⟩ := rowGet_ok (row := row) hn hl (hm m List.mem_cons_self)
    obtain ⟨g, h3, h4, h5⟩ := rowFeatures_ok hn hl names (f.put m v) (fun n h => hm n (List.mem_cons_of_mem _ h)) (hf.put _ _)
    refine ⟨g, ?_, h4, fun n => ?_⟩
    · rw [List.foldlM_cons, h1]
      exact h3
    · rw [h5]
      by_cases h6 : n ∈ names
      · simp [h6]
      · by_cases h7 : m = n
        · subst h7
          simp [h6, Dict.get?_put_self, h2]
        · have : ¬ n = m := fun h => h7 h.symm
          simp [h6, this, Dict.get?_put_of_ne _ _ h7]

/-- what `create_from_pandas` has built after some rows -/
structure Built (columns cat num : List String) (done : List (Val × List Val)) (s : List (Inst Unit) × Dataset) : Prop where
  len : s.1.length = done.length
  cons : Consistent (frameHeap s.1) s.2
  inst : s.2.instances = List.range done.length
  catEq : s.2.catNames = cat
  numEq : s.2.numNames = num
  attrs : ∀ n, n ∈ s.2.attrs.keys ↔ n ∈ cat ++ num
  row : ∀ (i : Nat) e, done[i]? = some e → (frameHeap s.1 i).id = e.1 ∧
    ∀ n, (frameHeap s.1 i).features.get? n = if n ∈ cat ++ num then Dict.get? (columns.zip e.2) n else none

theorem built_step {columns cat num : List String} (hn : columns.Nodup) (hsub : ∀ n ∈ cat ++ num, n ∈ columns)
    {done : List (Val × List Val)} {s : List (Inst Unit) × Dataset} (hb : Built columns cat num done s) {e : Val × List Val}
    (hl : e.2.length = columns.length) (hid : ∀ x ∈ done, x.1 ≠ e.1) :
    ∃ s', frameStep columns (cat ++ num) s e = .ok s' ∧ Built columns cat num (done ++ [e]) s' := by
  obtain ⟨f, h1, h2, h3⟩ := rowFeatures_ok (row := e.2) hn hl (cat ++ num) [] hsub Dict.WF.nil
  have h3' : ∀ n, f.get? n = if n ∈ cat ++ num then Dict.get? (columns.zip e.2) n else none := h3
  have hkeys : ∀ n, n ∈ f.keys ↔ n ∈ cat ++ num := by
    intro n
    rw [Dict.mem_keys_iff]
    constructor
    · rintro ⟨v, hv⟩
      rw [h3'] at hv
      by_contra hc
      rw [if_neg hc] at hv; cases hv
    · intro hm
      obtain ⟨v, _, hv⟩ := rowGet_ok (row := e.2) hn hl (hsub n hm)
      exact ⟨v, by rw [h3', if_pos hm]; exact hv⟩
  let l := s.1 ++ [(⟨e.1, f, ()⟩ : Inst Unit)]
  have hold : ∀ i, i < s.1.length → frameHeap l i = frameHeap s.1 i := by
    intro i hi
    simp only [frameHeap, l, List.getD, List.getElem?_append_left hi]
  have hnew : frameHeap l s.1.length = ⟨e.1, f, ()⟩ := by
    simp [frameHeap, l, List.getD]
  have hlt : ∀ a ∈ s.2.instances, a < s.1.length := by
    intro a ha
    rw [hb.inst, List.mem_range] at ha
    rw [hb.len]; exact ha
  have hc : Consistent (frameHeap l) s.2 := Consistent.congr hb.cons fun a ha => hold a (hlt a ha)
  have hids : ∀ b ∈ s.2.instances, (frameHeap l b).id ≠ (frameHeap l s.1.length).id := by
    intro b hbm
    rw [hold b (hlt b hbm), hnew]
    have hlt' : b < done.length := by rw [← hb.len]; exact hlt b hbm
    have := hb.row b done[b] (List.getElem?_eq_getElem hlt')
    rw [this.1]
    exact hid _ (List.getElem_mem hlt')
  have hfit : ∀ n, n ∈ (frameHeap l s.1.length).features.keys ↔ n ∈ s.2.attrs.keys := by
    intro n
    rw [hnew, hb.attrs]
    exact hkeys n
  obtain ⟨d', h4, h5, h6, h7, h8⟩ := (C58_add_instance (frameHeap l) s.2 s.1.length).1 ⟨hfit, hids⟩
  refine ⟨(l, d'), ?_, ?_⟩
  · unfold frameStep rowFeatures
    rw [h1]
    show ((s.2.addInstance (frameHeap l) s.1.length) >>= _) = _
    rw [h4]; rfl
  · constructor
    · show (s.1 ++ [_]).length = _
      simp [hb.len]
    · exact addInstance_consistent hc (by rw [hnew]; exact h2) h4
    · show d'.instances = _
      rw [h5, hb.inst, hb.len]
      simp [List.range_succ]
    · exact h7.trans hb.catEq
    · exact h8.trans hb.numEq
    · intro n
      show n ∈ d'.attrs.keys ↔ _
      rw [h6]; exact hb.attrs n
    · intro i x hx
      by_cases hi : i < done.length
      · rw [List.getElem?_append_left hi] at hx
        have := hb.row i x hx
        rw [← hb.len] at hi
        show (frameHeap l i).id = x.1 ∧ _
        have ho := hold i hi
        constructor
        · rw [ho]; exact this.1
        · intro n
          show (frameHeap l i).features.get? n = _
          rw [ho]; exact this.2 n
      · have hi2 : i = done.length := by
          have := (List.getElem?_eq_some_iff.mp hx).1
          simp at this
          omega
        subst hi2
        simp at hx
        subst hx
        rw [← hb.len]
        show (frameHeap l s.1.length).id = e.1 ∧ ∀ n, (frameHeap l s.1.length).features.get? n = _
        rw [hnew]
        exact ⟨rfl, h3'⟩

theorem built_all {columns cat num : List String} (hn : columns.Nodup) (hsub : ∀ n ∈ cat ++ num, n ∈ columns) :
    ∀ (todo done : List (Val × List Val)) (s : List (Inst Unit) × Dataset), Built columns cat num done s →
      (∀ e ∈ todo, e.2.length = columns.length) → ((done ++ todo).map (·.1)).Nodup →
      ∃ s', todo.foldlM (frameStep columns (cat ++ num)) s = .ok s' ∧ Built columns cat num (done ++ todo) s'
  | [], done, s, hb, _, _ => ⟨s, rfl, by simpa using hb⟩
  | e :: todo, done, s, hb, hl, hnd => by
    have hid : ∀ x ∈ done, x.1 ≠ e.1 := by
      intro x hx he
      rw [List.map_append, List.map_cons, List.nodup_append] at hnd
      exact hnd.2.2 x.1 (List.mem_map_of_mem hx) e.1 List.mem_cons_self he
    obtain ⟨s1, h1, h2⟩ := built_step hn hsub hb (hl e List.mem_cons_self) hid
    obtain ⟨s2, h3, h4⟩ := built_all hn hsub todo (done ++ [e]) s1 h2 (fun x hx => hl x (List.mem_cons_of_mem _ hx)) (by simpa using hnd)
    refine ⟨s2, ?_, by simpa using h4⟩
    rw [List.foldlM_cons, h1]
    exact h3

/-- C142: `create_from_pandas` of a well-formed data frame with a unique index: a consistent dataset with one instance per row, in order, with
the index as id and exactly the values of the requested columns; other columns are ignored. -/
theorem C142_create (f : Frame) (cat num : List String) (hn : f.columns.Nodup) (hsub : ∀ n ∈ cat ++ num, n ∈ f.columns) (hd : (cat ++ num).Nodup)
    (hlen : f.rows.length = f.index.length) (hrow : ∀ r ∈ f.rows, r.length = f.columns.length) (hidx : f.index.Nodup) :
    ∃ h d, createFromFrame f cat num = .ok (h, d) ∧ Consistent h d ∧ d.catNames = cat ∧ d.numNames = num ∧
      d.instances.length = f.index.length ∧
      ∀ (i : Nat) id row, f.index[i]? = some id → f.rows[i]? = some row → ∃ a, d.instances[i]? = some a ∧ (h a).id = id ∧
        (∀ n, n ∈ (h a).features.keys ↔ n ∈ cat ++ num) ∧
        ∀ n ∈ cat ++ num, ∀ (j : Nat), f.columns[j]? = some n → (h a).features.get? n = row[j]? := by
  have h0 : Built f.columns cat num [] ([], Dataset.new cat num) :=
    ⟨rfl, new_consistent _ hd, rfl, rfl, rfl, fun n => by rw [mem_keys_new, List.mem_append], fun i e h => by simp at h⟩
  obtain ⟨s, h1, h2⟩ := built_all hn hsub (f.index.zip f.rows) [] _ h0
    (fun e he => hrow e.2 (List.of_mem_zip (a := e.1) (b := e.2) he).2) (by rw [List.nil_append, List.map_fst_zip (by omega)]; exact hidx)
  rw [List.nil_append] at h2
  have hzl : (f.index.zip f.rows).length = f.index.length := by rw [List.length_zip]; omega
  refine ⟨frameHeap s.1, s.2, ?_, h2.cons, h2.catEq, h2.numEq, by rw [h2.inst, List.length_range, hzl], ?_⟩
  · unfold createFromFrame
    rw [h1]; rfl
  · intro i id row hi hr
    have hz : (f.index.zip f.rows)[i]? = some (id, row) := by
      rw [List.getElem?_zip_eq_some]; exact ⟨hi, hr⟩
    have hilt : i < (f.index.zip f.rows).length := (List.getElem?_eq_some_iff.mp hz).1
    obtain ⟨h3, h4⟩ := h2.row i _ hz
    have him : s.2.instances[i]? = some i := by rw [h2.inst, List.getElem?_range hilt]
    refine ⟨i, him, h3, ?_, ?_⟩
    · intro n
      rw [← h2.attrs]
      exact (h2.cons.features i (List.mem_of_getElem? him)).2 n
    · intro n hnm j hj
      rw [h4 n, if_pos hnm]
      have hrl := hrow row (List.mem_of_getElem? hr)
      have hjlt := (List.getElem?_eq_some_iff.mp hj).1
      have hget : (f.columns.zip row)[j]? = some (n, row[j]'(by omega)) := by
        rw [List.getElem?_zip_eq_some]
        exact ⟨hj, List.getElem?_eq_getElem (by omega)⟩
      rw [List.getElem?_eq_getElem (by omega)]
      refine Dict.get?_of_mem ?_ (List.mem_of_getElem? hget)
      unfold Dict.WF Dict.keys
      rw [List.map_fst_zip (by simp only []; omega)]
      exact hn

/-- C142: `to_dataframe` of a consistent dataset: the index has the ids, the columns are the categorical and then the numerical attributes,
and a cell is the feature of the instance. -/
theorem C142_to_frame {h : Heap τ} {d : Dataset} (hc : Consistent h d) : ∃ f, d.toFrame h = .ok f ∧
    f.index = d.instances.map (fun a => (h a).id) ∧ f.columns = d.catNames ++ d.numNames ∧ f.rows.length = d.instances.length ∧
    ∀ (i a : Nat), d.instances[i]? = some a → ∃ row, f.rows[i]? = some row ∧ row.length = f.columns.length ∧
      ∀ (j : Nat) n, f.columns[j]? = some n → row[j]? = (h a).features.get? n := by
  have hf : ∀ a ∈ d.instances, ∀ n ∈ d.catNames ++ d.numNames, (h a).features.getItem n = .ok (((h a).features.get? n).getD (.num 0)) ∧
      (h a).features.get? n = some (((h a).features.get? n).getD (.num 0)) := by
    intro a ha n hn
    have : n ∈ (h a).features.keys := ((hc.features a ha).2 n).mpr ((mem_names hc).mpr (List.mem_append.mp hn))
    obtain ⟨v, hv⟩ := Dict.mem_keys_iff.mp this
    rw [getItem_some hv, hv]
    exact ⟨rfl, rfl⟩
  have hrows : d.instances.mapM (fun a => (d.catNames ++ d.numNames).mapM fun n => (h a).features.getItem n) =
      (.ok (d.instances.map fun a => (d.catNames ++ d.numNames).map fun n => ((h a).features.get? n).getD (.num 0)) : Py _) :=
    mapM_ok_map fun a ha => mapM_ok_map fun n hn => (hf a ha n hn).1
  refine ⟨_, by unfold Dataset.toFrame; simp only [hrows]; rfl, rfl, rfl, by simp, ?_⟩
  intro i a hi
  refine ⟨(d.catNames ++ d.numNames).map fun n => ((h a).features.get? n).getD (.num 0), ?_, by simp, ?_⟩
  · show (List.map _ _)[i]? = _
    rw [List.getElem?_map, hi]; rfl
  · intro j n hj
    have hj' : (d.catNames ++ d.numNames)[j]? = some n := hj
    rw [List.getElem?_map, hj']
    exact (hf a (List.mem_of_getElem? hi) n (List.mem_of_getElem? hj')).2.symm

/-- C142: reading the data frame of a dataset gives a dataset with the same attributes and, in the same order, instances with the same ids and
features. -/
theorem C142_roundtrip {h : Heap τ} {d : Dataset} (hr : Reachable h d) : ∃ f h' d', d.toFrame h = .ok f ∧
    createFromFrame f d.catNames d.numNames = .ok (h', d') ∧ Consistent h' d' ∧ d'.catNames = d.catNames ∧ d'.numNames = d.numNames ∧
    d'.instances.length = d.instances.length ∧
    ∀ (i a : Nat), d.instances[i]? = some a → ∃ b, d'.instances[i]? = some b ∧ (h' b).id = (h a).id ∧
      ∀ n, (h' b).features.get? n = (h a).features.get? n := by
  have hc := C58_consistent hr
  obtain ⟨f, e1, e2, e3, e4, e5⟩ := C142_to_frame hc
  have hrow : ∀ r ∈ f.rows, r.length = f.columns.length := by
    intro r hm
    obtain ⟨i, hi⟩ := List.getElem?_of_mem hm
    have hlt : i < d.instances.length := by rw [← e4]; exact (List.getElem?_eq_some_iff.mp hi).1
    obtain ⟨row, h1, h2, _⟩ := e5 i d.instances[i] (List.getElem?_eq_getElem hlt)
    rw [hi] at h1; cases h1
    exact h2
  obtain ⟨h', d', c1, c2, c3, c4, c5, c6⟩ := C142_create f d.catNames d.numNames (by rw [e3]; exact catNum_nodup hc) (by rw [e3]; exact fun n h => h)
    (catNum_nodup hc) (by rw [e2, e4, List.length_map]) hrow (by rw [e2]; exact hc.ids)
  refine ⟨f, h', d', e1, c1, c2, c3, c4, by rw [c5, e2, List.length_map], ?_⟩
  intro i a hi
  obtain ⟨row, r1, r2, r3⟩ := e5 i a hi
  obtain ⟨b, b1, b2, b3, b4⟩ := c6 i (h a).id row (by rw [e2, List.getElem?_map, hi]; rfl) r1
  refine ⟨b, b1, b2, fun n => ?_⟩
  by_cases hn : n ∈ d.catNames ++ d.numNames
  · obtain ⟨j, hj⟩ := List.getElem?_of_mem hn
    rw [← e3] at hj
    rw [b4 n hn j hj, r3 j n hj]
  · have h1 : (h' b).features.get? n = none := Dict.get?_eq_none_iff.mpr (by rw [b3]; exact hn)
    have h2 : (h a).features.get? n = none := by
      apply Dict.get?_eq_none_iff.mpr
      rw [(hc.features a (List.mem_of_getElem? hi)).2, mem_names hc, ← List.mem_append]
      exact hn
    rw [h1, h2]

theorem foldlM_error {α β : Type} {f : β → α → Py β} {e : PyErr} (pre : List α) (x : α) (post : List α) (s s' : β)
    (h1 : pre.foldlM f s = .ok s') (h2 : f s' x = .error e) : (pre ++ x :: post).foldlM f s = .error e := by
  rw [List.foldlM_append, h1]
  show (List.foldlM f s' (x :: post)) = _
  rw [List.foldlM_cons, h2]; rfl

/-- C142: an index value that occurs twice raises ValueError; a requested column that is missing raises KeyError if there is a row. -/
theorem C142_errors (f : Frame) (cat num : List String) (hn : f.columns.Nodup) (hd : (cat ++ num).Nodup)
    (hlen : f.rows.length = f.index.length) (hrow : ∀ r ∈ f.rows, r.length = f.columns.length) :
    ((∀ n ∈ cat ++ num, n ∈ f.columns) → ¬ f.index.Nodup → createFromFrame f cat num = .error .value) ∧
    ((∃ n ∈ cat ++ num, n ∉ f.columns) → f.index ≠ [] → createFromFrame f cat num = .error .key) := by
  constructor
  · intro hsub hidx
    have h0 : Built f.columns cat num [] ([], Dataset.new cat num) :=
      ⟨rfl, new_consistent _ hd, rfl, rfl, rfl, fun n => by rw [mem_keys_new, List.mem_append], fun i e h => by simp at h⟩
    have hex : ∃ pre e post, f.index.zip f.rows = pre ++ e :: post ∧ (pre.map (·.1)).Nodup ∧ ∃ x ∈ pre, x.1 = e.1 := by
      have : ¬ ((f.index.zip f.rows).map (·.1)).Nodup := by rw [List.map_fst_zip (by omega)]; exact hidx
      clear h0 hidx
      generalize f.index.zip f.rows = l at this
      induction l using List.reverseRecOn with
      | nil => exact absurd List.nodup_nil this
      | append_singleton l e ih =>
        by_cases hl : (l.map (·.1)).Nodup
        · refine ⟨l, e, [], rfl, hl, ?_⟩
          by_contra hc
          push Not at hc
          apply this
          rw [List.map_append, List.nodup_append]
          refine ⟨hl, by simp, ?_⟩
          intro a ha b hb
          obtain ⟨x, hx, rfl⟩ := List.mem_map.mp ha
          have : b = e.1 := by simpa using hb
          rw [this]; exact hc x hx
        · obtain ⟨pre, x, post, h1, h2⟩ := ih hl
          exact ⟨pre, x, post ++ [e], by rw [h1]; simp, h2⟩
    obtain ⟨pre, e, post, hz, hnd, x, hx, hxe⟩ := hex
    have hlens : ∀ y ∈ f.index.zip f.rows, y.2.length = f.columns.length :=
      fun y hy => hrow y.2 (List.of_mem_zip (a := y.1) (b := y.2) hy).2
    obtain ⟨s, h1, h2⟩ := built_all hn hsub pre [] _ h0 (fun y hy => hlens y (by rw [hz]; exact List.mem_append_left _ hy)) (by simpa using hnd)
    rw [List.nil_append] at h2
    unfold createFromFrame
    rw [hz, foldlM_error pre e post _ s h1]
    · rfl
    · obtain ⟨g, g1, g2, g3⟩ := rowFeatures_ok (row := e.2) hn (hlens e (by rw [hz]; simp)) (cat ++ num) [] hsub Dict.WF.nil
      unfold frameStep rowFeatures
      rw [g1]
      show (s.2.addInstance (frameHeap (s.1 ++ [⟨e.1, g, ()⟩])) s.1.length >>= _) = _
      rw [(C58_add_instance _ s.2 s.1.length).2 ?_]
      · rfl
      · rintro ⟨_, hids⟩
        obtain ⟨i, hi⟩ := List.getElem?_of_mem hx
        have hlt : i < pre.length := (List.getElem?_eq_some_iff.mp hi).1
        have him : i ∈ s.2.instances := by rw [h2.inst]; exact List.mem_range.mpr hlt
        apply hids i him
        have hrowi := (h2.row i x hi).1
        have e1 : frameHeap (s.1 ++ [⟨e.1, g, ()⟩]) i = frameHeap s.1 i := by
          simp only [frameHeap, List.getD, List.getElem?_append_left (show i < s.1.length by rw [h2.len]; exact hlt)]
        have e2 : frameHeap (s.1 ++ [⟨e.1, g, ()⟩]) s.1.length = ⟨e.1, g, ()⟩ := by simp [frameHeap, List.getD]
        rw [e1, e2, hrowi, hxe]
  · rintro ⟨n, hnm, hnc⟩ hne
    have hrf : ∀ (row : List Val), row.length = f.columns.length → ∀ (names : List String) (g : Dict String Val), (∃ n ∈ names, n ∉ f.columns) →
        names.foldlM (fun f' n => do let v ← rowGet f.columns row n; return f'.put n v) g = (.error .key : Py (Dict String Val)) := by
      intro row hrl names
      induction names with
      | nil => rintro g ⟨_, h, _⟩; cases h
      | cons m names ih =>
        rintro g ⟨k, hk, hkc⟩
        rw [List.foldlM_cons]
        by_cases hm : m ∈ f.columns
        · obtain ⟨v, h1, _⟩ := rowGet_ok (row := row) hn hrl hm
          rw [h1]
          refine ih _ ⟨k, ?_, hkc⟩
          rcases List.mem_cons.mp hk with rfl | h
          · exact absurd hm hkc
          · exact h
        · have : rowGet f.columns row m = .error .key := by
            unfold rowGet
            rw [if_neg (by rw [List.count_eq_zero_of_not_mem hm]; omega)]
            unfold Dict.getItem
            rw [Dict.get?_eq_none_iff.mpr]
            unfold Dict.keys
            rw [List.map_fst_zip (by omega)]
            exact hm
          rw [this]; rfl
    unfold createFromFrame
    match hz : f.index.zip f.rows with
    | [] =>
      have := congrArg List.length hz
      rw [List.length_zip] at this
      have h0 : f.index.length = 0 := by
        rw [hlen, Nat.min_self] at this
        exact this
      exact absurd (List.length_eq_zero_iff.mp h0) hne
    | e :: l =>
      have hl : e.2.length = f.columns.length := hrow e.2 (List.of_mem_zip (a := e.1) (b := e.2) (l₁ := f.index) (by rw [hz]; simp)).2
      rw [List.foldlM_cons]
      have : frameStep f.columns (cat ++ num) ([], Dataset.new cat num) e = .error .key := by
        unfold frameStep rowFeatures
        rw [hrf e.2 hl (cat ++ num) [] ⟨n, hnm, hnc⟩]; rfl
      rw [this]; rfl

example : ∃ f h' d', exData.toFrame exHeap = .ok f ∧ createFromFrame f exData.catNames exData.numNames = .ok (h', d') ∧ d'.instances.length = 3 := by
  obtain ⟨f, h', d', h1, h2, _, _, _, h3, _⟩ := C142_roundtrip exData_reachable
  exact ⟨f, h', d', h1, h2, h3⟩

/-- a frame with an unused column and a numeric index -/
example : (createFromFrame ⟨[.num 3, .num 1], ["size", "x", "colour"], [[.num 1, .num 2, .str "red"], [.num 5, .num 2, .str "blue"]]⟩ ["colour"] ["size"]).toOption.map
    (fun r => (r.2.instances.map fun a => ((r.1 a).id, (r.1 a).features), r.2.attrs)) =
    some ([(.num 3, [("colour", .str "red"), ("size", .num 1)]), (.num 1, [("colour", .str "blue"), ("size", .num 5)])],
      [("colour", ⟨true, [.str "red", .str "blue"]⟩), ("size", ⟨false, [.num 1, .num 5]⟩)]) := by decide +kernel

end Prolothar.Data
