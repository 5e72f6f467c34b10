import Verif.Lemmas.ArffCut
import Verif.Spec.ArffCut
/-
C197: an ARFF text of which only a part was written.
-/
namespace Prolothar.Data
open Prolothar.Spec.Data Prolothar.Spec.Arff Prolothar.Spec.ArffCut

variable {τ : Type}

theorem cells_value (str : Val → Text) (d : Dataset) (x : Inst τ) {j : Nat} {n : String} (hj : (d.catNames ++ d.numNames)[j]? = some n) :
    ∃ c, (d.cells str x)[j]? = some c ∧ c.value = str (valueOf x n) := by
  unfold Dataset.cells
  by_cases hjc : j < d.catNames.length
  · rw [List.getElem?_append_left hjc] at hj
    rw [List.getElem?_append_left (by simpa using hjc), List.getElem?_map, hj]
    exact ⟨_, rfl, rfl⟩
  · rw [List.getElem?_append_right (by omega)] at hj
    rw [List.getElem?_append_right (by simp; omega), List.getElem?_map, List.length_map, hj]
    exact ⟨_, rfl, rfl⟩

/-- the rows of a dataset can be read -/
theorem rows_ok {str : Val → Text} {h : Heap τ} {d : Dataset} (hc : Consistent h d) (hp : Printable str h d)
    (hne : d.catNames ++ d.numNames ≠ []) : ∀ r ∈ d.instances.map (fun a => d.cells str (h a)), RowOk r ∧ r.length = (d.cols str).length := by
  intro r hr
  obtain ⟨a, ha, rfl⟩ := List.mem_map.1 hr
  have := cells_ok hc hp hne ha (e := []) (by simp)
  rw [List.append_nil] at this
  exact ⟨this, cells_length _ _ _⟩

theorem cols_length (str : Val → Text) (d : Dataset) : (d.cols str).length = (d.catNames ++ d.numNames).length := by
  rw [← cols_names str d, List.length_map]

theorem cols_nodup {h : Heap τ} {d : Dataset} (hc : Consistent h d) (str : Val → Text) : ((d.cols str).map Col.name).Nodup := by
  rw [cols_names]; exact catNum_nodup hc

/-- reading a table whose rows are those of the dataset, up to the last cell of the last row -/
theorem read_cut {str : Val → Text} {h : Heap τ} {d : Dataset} (hc : Consistent h d) (hp : Printable str h d) {rel : Text} (hrel : OneLine rel)
    {rows' : List (List Cell)} (hr' : ∀ r ∈ rows', RowOk r ∧ r.length = (d.cols str).length) (hle : rows'.length ≤ d.instances.length)
    (hval : ∀ (i a j : Nat) (r' : List Cell) (c' c : Cell), rows'[i]? = some r' → d.instances[i]? = some a → r'[j]? = some c' →
      (d.cells str (h a))[j]? = some c → c'.value <+: c.value ∧ (i + 1 < rows'.length ∨ j + 1 < (d.cols str).length → c'.value = c.value)) :
    ∃ h' d', createFromArff (tableText rel (d.cols str) rows') = .ok (h', d') ∧ Consistent h' d' ∧ RowsCut str h d h' d' ∧
      d'.instances.length = rows'.length := by
  obtain ⟨d', h1, h2, h3, h4, h5⟩ := read_table (rel := rel) (fun c hc => notBreak (hrel c hc)) (cols_ok hc hp) (cols_nodup hc str) hr'
  have hlen : d'.instances.length = rows'.length := by rw [h5, List.length_range]
  refine ⟨_, d', h1, h2, ⟨⟨by rw [h3, cols_cat], by rw [h4, cols_num]⟩, by omega, ?_⟩, hlen⟩
  intro i a hi hil
  rw [hlen] at hil
  have ha := List.mem_of_getElem? hi
  refine ⟨i, by rw [h5, List.getElem?_range hil], rfl, ?_⟩
  intro n hn
  obtain ⟨j, hj⟩ := List.getElem?_of_mem hn
  have hjl : j < (d.catNames ++ d.numNames).length := (List.getElem?_eq_some_iff.1 hj).1
  obtain ⟨c, hcj, hcv⟩ := cells_value str d (h a) hj
  have hri : rows'[i]? = some rows'[i] := List.getElem?_eq_getElem hil
  have hrl := (hr' _ (List.getElem_mem hil)).2
  have hjr : j < (rows'[i]).length := by rw [hrl, cols_length]; exact hjl
  have hcj' : (rows'[i])[j]? = some (rows'[i])[j] := List.getElem?_eq_getElem hjr
  obtain ⟨hv1, hv2⟩ := hval i a j _ _ c hri hi hcj' hcj
  refine ⟨valueOf (h a) n, ((rows'[i])[j]).value, valueOf_get hc ha hn, ?_, by rw [← hcv]; exact hv1, ?_⟩
  · exact arffHeap_get (cols_nodup hc str) hri (by rw [hrl, List.length_map]) (by rw [cols_names]; exact hj) hcj'
  · intro hcase
    rw [← hcv]
    refine hv2 ?_
    rcases hcase with hcase | hcase
    · left; omega
    · right
      by_contra hnot
      apply hcase
      rw [cols_length] at hnot
      rw [List.getLast?_eq_getElem?, ← hj]
      congr 1
      omega

/-- reading a table with the first rows of the dataset and a row whose last cell is a prefix -/
theorem read_cut_last {str : Val → Text} {h : Heap τ} {d : Dataset} (hc : Consistent h d) (hp : Printable str h d)
    (hne : d.catNames ++ d.numNames ≠ []) {rel : Text} (hrel : OneLine rel) {k m : Nat} {row : List Cell} {c c' : Cell}
    (k1 : (d.instances.map fun a => d.cells str (h a))[k]? = some row) (k2 : row[m]? = some c) (k3 : c'.value <+: c.value)
    (k4 : RowOk (row.take m ++ [c'])) (k5 : m + 1 = (d.cols str).length) :
    ∃ h' d', createFromArff (tableText rel (d.cols str) ((d.instances.map fun a => d.cells str (h a)).take k ++ [row.take m ++ [c']])) = .ok (h', d') ∧
      Consistent h' d' ∧ RowsCut str h d h' d' ∧ d'.instances.length = k + 1 := by
  have hrows := rows_ok hc hp hne
  have hk := (List.getElem?_eq_some_iff.1 k1).1
  rw [List.length_map] at hk
  have hrow := hrows row (List.mem_of_getElem? k1)
  obtain ⟨h', d', e1, e2, e3, e4⟩ := read_cut hc hp hrel (rows' := (d.instances.map fun a => d.cells str (h a)).take k ++ [row.take m ++ [c']])
    (by
      intro r hm
      rcases List.mem_append.1 hm with hm | hm
      · exact hrows r (List.mem_of_mem_take hm)
      · rw [List.mem_singleton] at hm
        rw [hm]
        exact ⟨k4, by simp; omega⟩) (by simp; omega) (by
      intro i a j r' e' e q1 q2 q3 q4
      have htl : ((d.instances.map fun a => d.cells str (h a)).take k).length = k := by simp; omega
      by_cases hik : i < k
      · rw [List.getElem?_append_left (by omega), List.getElem?_take_of_lt hik, List.getElem?_map, q2] at q1
        injection q1 with q1
        subst q1
        rw [q3] at q4
        injection q4 with q4
        subst q4
        exact ⟨List.prefix_rfl, fun _ => rfl⟩
      · have hi : i = k := by
          have := (List.getElem?_eq_some_iff.1 q1).1
          rw [List.length_append, htl, List.length_singleton] at this
          omega
        subst hi
        rw [List.getElem?_append_right (by omega), htl, Nat.sub_self, List.getElem?_cons_zero] at q1
        injection q1 with q1
        subst q1
        rw [List.getElem?_map, q2] at k1
        injection k1 with k1
        have hml : m < row.length := by omega
        have htm : (row.take m).length = m := by simp; omega
        by_cases hjm : j < m
        · rw [List.getElem?_append_left (by omega), List.getElem?_take_of_lt hjm, ← k1, q4] at q3
          injection q3 with q3
          subst q3
          exact ⟨List.prefix_rfl, fun _ => rfl⟩
        · have hj : j = m := by
            have := (List.getElem?_eq_some_iff.1 q3).1
            rw [List.length_append, htm, List.length_singleton] at this
            omega
          subst hj
          rw [List.getElem?_append_right (by omega), htm, Nat.sub_self, List.getElem?_cons_zero] at q3
          injection q3 with q3
          subst q3
          rw [← k1, q4] at k2
          injection k2 with k2
          subst k2
          refine ⟨k3, fun hcase => ?_⟩
          rw [List.length_append, htl, List.length_singleton] at hcase
          omega)
  exact ⟨h', d', e1, e2, e3, by rw [e4]; simp; omega⟩

/-- **C197** (cut anywhere): for every prefix of the export of a dataset, reading raises a ValueError or a NotImplementedError, or gives
some of the first attributes and no instances, or all attributes and the first instances, where only the value of the last attribute of the
last instance may be wrong: it is a prefix of the printed value. -/
theorem C197_cut {str : Val → Text} {h : Heap τ} {d : Dataset} (hc : Consistent h d) (hp : Printable str h d)
    (hne : d.catNames ++ d.numNames ≠ []) {rel t : Text} (hrel : OneLine rel) (hx : d.exportArff str h rel = .ok t) {p : Text} (hpre : p <+: t) :
    createFromArff p = .error .value ∨ createFromArff p = .error .notImplemented ∨
    ∃ h' d', createFromArff p = .ok (h', d') ∧ Consistent h' d' ∧ (HeaderCut d d' ∨ RowsCut str h d h' d') := by
  have h0 := export_eq hc (ecols := []) (ecells := fun _ => []) rfl (fun _ => rfl) (.inl hne) hx
  simp only [List.append_nil] at h0
  rw [h0] at hpre
  have hrows := rows_ok hc hp hne
  rcases cut_table (fun c hc => notBreak (hrel c hc)) (cols_ok hc hp) (cols_nodup hc str) hrows hpre with e | e | ⟨j, e⟩ | ⟨k, hk, e | ⟨row, m, c, c', k1, k2, k3, k4, k5, e⟩⟩
  · exact .inl e
  · exact .inr (.inl e)
  · right; right
    have hpr : ∀ (f : Col → Bool), (((d.cols str).take j).filter f).map Col.name <+: ((d.cols str).filter f).map Col.name :=
      fun f => ((List.take_prefix j _).filter f).map _
    have hcat := hpr Col.isCat
    have hnum := hpr fun c => !c.isCat
    rw [cols_cat] at hcat
    rw [cols_num] at hnum
    refine ⟨_, _, e, new_consistent _ ?_, .inl ⟨rfl, ?_, hcat, hnum⟩⟩
    · refine ((cols_perm _).nodup_iff).2 ?_
      rw [List.map_take]
      exact (cols_nodup hc str).sublist (List.take_sublist _ _)
    · show (((d.cols str).take j).filter Col.isCat).map Col.name ++ (((d.cols str).take j).filter fun c => !c.isCat).map Col.name <+: _
      have : (((d.cols str).take j).filter Col.isCat).map Col.name ++ (((d.cols str).take j).filter fun c => !c.isCat).map Col.name =
          (d.catNames ++ d.numNames).take j := by
        unfold Dataset.cols
        rw [List.take_append, List.filter_append, List.filter_append, List.filter_eq_self.2, List.filter_eq_nil_iff.2, List.append_nil,
          List.filter_eq_nil_iff.2, List.filter_eq_self.2, List.nil_append, List.take_append, ← List.map_take, ← List.map_take]
        · simp [Function.comp_def, catCol, numCol]
        · intro c hm; obtain ⟨n, _, rfl⟩ := List.mem_map.1 (List.mem_of_mem_take hm); simp [isCat_numCol]
        · intro c hm; obtain ⟨n, _, rfl⟩ := List.mem_map.1 (List.mem_of_mem_take hm); simp [isCat_catCol]
        · intro c hm; obtain ⟨n, _, rfl⟩ := List.mem_map.1 (List.mem_of_mem_take hm); simp [isCat_numCol]
        · intro c hm; obtain ⟨n, _, rfl⟩ := List.mem_map.1 (List.mem_of_mem_take hm); exact isCat_catCol _ _ _
      rw [this]
      exact List.take_prefix _ _
  · right; right
    rw [List.length_map] at hk
    obtain ⟨h', d', e1, e2, e3, -⟩ := read_cut hc hp hrel (rows' := (d.instances.map fun a => d.cells str (h a)).take k)
      (fun r hm => hrows r (List.mem_of_mem_take hm)) (by simp) (by
        intro i a j r' c' c q1 q2 q3 q4
        have hik : i < k := by
          have := (List.getElem?_eq_some_iff.1 q1).1
          rw [List.length_take] at this
          omega
        rw [List.getElem?_take_of_lt hik, List.getElem?_map, q2] at q1
        injection q1 with q1
        subst q1
        rw [q3] at q4
        injection q4 with q4
        subst q4
        exact ⟨List.prefix_rfl, fun _ => rfl⟩)
    exact ⟨h', d', e.trans e1, e2, .inr e3⟩
  · right; right
    obtain ⟨h', d', e1, e2, e3, -⟩ := read_cut_last hc hp hne hrel k1 k2 k3 k4 k5
    exact ⟨h', d', e.trans e1, e2, .inr e3⟩

theorem csv_cells_last (q : Text) : ∀ (l : List Cell), (∀ c ∈ l, c.Ok) →
    csvLoop .startField [] (joinText [','] (l.map Cell.text ++ [q])) = l.map Cell.value ++ csvLoop .startField [] q
  | [], _ => rfl
  | c :: l, h => by
    have : ∃ y ys, l.map Cell.text ++ [q] = y :: ys := by
      cases hh : l.map Cell.text ++ [q] with
      | nil => simp at hh
      | cons y ys => exact ⟨y, ys, rfl⟩
    obtain ⟨y, ys, hy⟩ := this
    rw [List.map_cons, List.cons_append, hy, joinText, List.append_assoc, List.singleton_append, csv_cell (h c List.mem_cons_self), ← hy,
      csv_cells_last q l fun x hx => h x (List.mem_cons_of_mem _ hx)]
    rfl

theorem joinText_cut {sep : Text} : ∀ {l : List Text} {m : Nat} {x q : Text}, l[m]? = some x → q <+: x →
    joinText sep (l.take m ++ [q]) <+: joinText sep l
  | [], _, _, _, h, _ => by simp at h
  | [y], 0, x, q, h, hq => by
    simp only [List.getElem?_cons_zero, Option.some.injEq] at h
    subst h
    exact hq
  | y :: z :: l, 0, x, q, h, hq => by
    simp only [List.getElem?_cons_zero, Option.some.injEq] at h
    subst h
    show q <+: joinText sep (y :: z :: l)
    rw [joinText, List.append_assoc]
    exact hq.trans (List.prefix_append _ _)
  | [y], m + 1, x, q, h, hq => by simp at h
  | y :: z :: l, m + 1, x, q, h, hq => by
    rw [List.getElem?_cons_succ] at h
    have ih := joinText_cut (sep := sep) h hq
    have : ∃ w ws, (z :: l).take m ++ [q] = w :: ws := by
      cases hh : (z :: l).take m ++ [q] with
      | nil => simp at hh
      | cons y ys => exact ⟨y, ys, rfl⟩
    obtain ⟨w, ws, hw⟩ := this
    rw [List.take_succ_cons, List.cons_append, hw, joinText, joinText, ← hw]
    exact (List.prefix_append_right_inj _).2 ih

/-- a table with a cut last row -/
theorem cut_file {rel : Text} {cols : List Col} {rows : List (List Cell)} (hrel : ∀ c ∈ rel, isBreak c = false)
    (hc : ∀ c ∈ cols, ColOk c) (hn : (cols.map Col.name).Nodup) (hr : ∀ r ∈ rows, RowOk r ∧ r.length = cols.length)
    {row : List Cell} (hrow : RowOk row) (hl : row.length = cols.length) {m : Nat} {c : Cell} (hm : row[m]? = some c) {q : Text} (hq : q <+: c.text)
    (hne : joinText [','] ((row.take m).map Cell.text ++ [q]) ≠ []) : ∃ c' : Cell, c'.value <+: c.value ∧ RowOk (row.take m ++ [c']) ∧
    (splitLines (tableText rel cols rows ++ '\n' :: joinText [','] ((row.take m).map Cell.text ++ [q]))).foldlM arffStep ⟨[], [], [], false, []⟩ =
      .ok ⟨cols.map Col.name, (cols.filter Col.isCat).map Col.name, (cols.filter fun c => !c.isCat).map Col.name, true,
        (rows ++ [row.take m ++ [c']]).map (readRow (cols.map Col.name))⟩ := by
  have hml : m < row.length := (List.getElem?_eq_some_iff.1 hm).1
  have hpre : joinText [','] ((row.take m).map Cell.text ++ [q]) <+: rowText row := by
    rw [List.map_take]
    exact joinText_cut (by rw [List.getElem?_map, hm]; rfl) hq
  have hhead : (joinText [','] ((row.take m).map Cell.text ++ [q])).head? ≠ some '{' := by
    have := hrow.start
    obtain ⟨u, hu⟩ := hpre
    obtain ⟨x, xs, hx⟩ := List.exists_cons_of_ne_nil hne
    rw [← hu, hx] at this
    rw [hx]; exact this
  obtain ⟨c', k1, k2, k3, k4, k5⟩ := cut_cell (hrow.cells c (List.mem_of_getElem? hm)) hq
  have hcsv : csvRow (joinText [','] ((row.take m).map Cell.text ++ [q])) = (row.take m ++ [c']).map Cell.value := by
    rw [csvRow, if_neg hne, csv_cells_last q _ fun x hx => hrow.cells x (List.mem_of_mem_take hx), k3]
    simp
  have hok : RowOk (row.take m ++ [c']) := by
    have hhd : (rowText (row.take m ++ [c'])).head? = (joinText [','] ((row.take m).map Cell.text ++ [q])).head? := by
      cases ht : row.take m with
      | nil =>
        rw [ht] at hne
        exact k4 hne
      | cons x l =>
        unfold rowText
        show (joinText [','] (x.text :: ((l ++ [c']).map Cell.text))).head? = (joinText [','] (x.text :: (l.map Cell.text ++ [q]))).head?
        rw [List.map_append]
        have h1 : ∃ w ws, l.map Cell.text ++ [c'].map Cell.text = w :: ws := by
          cases hh : l.map Cell.text ++ [c'].map Cell.text with
          | nil => simp at hh
          | cons y ys => exact ⟨y, ys, rfl⟩
        have h2 : ∃ w ws, l.map Cell.text ++ [q] = w :: ws := by
          cases hh : l.map Cell.text ++ [q] with
          | nil => simp at hh
          | cons y ys => exact ⟨y, ys, rfl⟩
        obtain ⟨w, ws, h1⟩ := h1
        obtain ⟨v, vs, h2⟩ := h2
        rw [h1, h2, joinText, joinText]
        cases x.text <;> rfl
    refine ⟨?_, by rw [hhd]; exact hhead, ?_, ?_⟩
    · intro x hx
      rcases List.mem_append.1 hx with hx | hx
      · exact hrow.cells x (List.mem_of_mem_take hx)
      · rw [List.mem_singleton] at hx; subst hx; exact k1
    · intro he
      rw [he] at hhd
      obtain ⟨x, xs, hx⟩ := List.exists_cons_of_ne_nil hne
      rw [hx] at hhd
      cases hhd
    · intro x hx
      rcases mem_joinText hx with hx1 | ⟨y, hy, hx1⟩
      · rw [List.mem_singleton] at hx1; rw [hx1]; decide
      · obtain ⟨e, he, rfl⟩ := List.mem_map.1 hy
        rcases List.mem_append.1 he with he | he
        · exact hrow.line x (text_subset_row (List.mem_of_mem_take he) hx1)
        · rw [List.mem_singleton] at he
          rw [he] at hx1
          exact hrow.line x (text_subset_row (List.mem_of_getElem? hm) (k5 x hx1))
  refine ⟨c', k2, hok, ?_⟩
  clear hok
  have he : tableText rel cols rows ++ '\n' :: joinText [','] ((row.take m).map Cell.text ++ [q]) = ("@RELATION ".toList ++ quoted rel) ++
      (([[]] ++ cols.map Col.line ++ [[], "@DATA".toList] ++ rows.map rowText) ++ [joinText [','] ((row.take m).map Cell.text ++ [q])]).flatMap
        fun x => '\n' :: x := by
    rw [table_lines, List.append_assoc, List.flatMap_append (ys := [_])]
    simp
  have hlines := table_noBreak hrel hc fun r h => (hr r h).1
  have hfull := table_steps hrel hc hn hr
  rw [table_lines, foldlM_splitLines arffStep empty_step _ _ _ hlines] at hfull
  rw [he, foldlM_splitLines arffStep empty_step]
  · rw [← List.cons_append, List.foldlM_append, hfull]
    show List.foldlM _ _ _ = _
    have : parseInstance (joinText [','] ((row.take m).map Cell.text ++ [q])) (cols.map Col.name) = .ok (readRow (cols.map Col.name) (row.take m ++ [c'])) := by
      unfold parseInstance
      rw [if_neg hhead, hcsv]
      have := foldlM_dense_le ((row.take m ++ [c']).map Cell.value) [] (cols.map Col.name) [] (by simpa using hn) rfl (by simp; omega)
      simpa [readRow, List.map_map, Function.comp_def] using this
    rw [List.map_append, List.map_singleton]
    generalize joinText [','] ((row.take m).map Cell.text ++ [q]) = L at this hne
    rw [List.foldlM_cons]
    have hstep : arffStep ⟨cols.map Col.name, (cols.filter Col.isCat).map Col.name, (cols.filter fun c => !c.isCat).map Col.name, true,
        rows.map (readRow (cols.map Col.name))⟩ L = .ok ⟨cols.map Col.name, (cols.filter Col.isCat).map Col.name,
        (cols.filter fun c => !c.isCat).map Col.name, true, rows.map (readRow (cols.map Col.name)) ++ [readRow (cols.map Col.name) (row.take m ++ [c'])]⟩ := by
      unfold arffStep
      rw [if_pos ⟨rfl, hne⟩]
      dsimp only
      rw [this]
      rfl
    rw [hstep]
    rfl
  · intro x hx z hz
    rw [← List.cons_append] at hx
    rcases List.mem_append.1 hx with hx | hx
    · exact hlines x hx z hz
    · rw [List.mem_singleton] at hx
      subst hx
      exact hrow.line z (hpre.subset hz)

/-- reading a table with the first rows of the dataset -/
theorem read_first {str : Val → Text} {h : Heap τ} {d : Dataset} (hc : Consistent h d) (hp : Printable str h d)
    (hne : d.catNames ++ d.numNames ≠ []) {rel : Text} (hrel : OneLine rel) {k : Nat} (hk : k ≤ d.instances.length) :
    ∃ h' d', createFromArff (tableText rel (d.cols str) ((d.instances.map fun a => d.cells str (h a)).take k)) = .ok (h', d') ∧
      Consistent h' d' ∧ FirstInstances str h d k h' d' := by
  have hrows := rows_ok hc hp hne
  obtain ⟨d', h1, h2, h3, h4, h5⟩ := read_table (rel := rel) (fun c hc => notBreak (hrel c hc)) (cols_ok hc hp) (cols_nodup hc str)
    (rows := (d.instances.map fun a => d.cells str (h a)).take k) (fun r hm => hrows r (List.mem_of_mem_take hm))
  have h3' : d'.catNames = d.catNames := by rw [h3, cols_cat]
  have h4' : d'.numNames = d.numNames := by rw [h4, cols_num]
  rw [List.length_take, List.length_map, Nat.min_eq_left hk] at h5
  refine ⟨_, d', h1, h2, ⟨h3', h4'⟩, by rw [h5, List.length_range], ?_⟩
  intro i a hik hi
  have ha := List.mem_of_getElem? hi
  refine ⟨i, by rw [h5, List.getElem?_range hik], rfl, ?_⟩
  intro n
  by_cases hn : n ∈ d.catNames ++ d.numNames
  · obtain ⟨j, hj⟩ := List.getElem?_of_mem hn
    obtain ⟨c, hcj, hcv⟩ := cells_value str d (h a) hj
    have hri : ((d.instances.map fun a => d.cells str (h a)).take k)[i]? = some (d.cells str (h a)) := by
      rw [List.getElem?_take_of_lt hik, List.getElem?_map, hi]; rfl
    have := arffHeap_get (c := c) (cols_nodup hc str) hri (by rw [cells_length, List.length_map]) (by rw [cols_names]; exact hj) hcj
    rw [valueOf_get hc ha hn, this, hcv]; rfl
  · have e1 : (h a).features.get? n = none := by
      rw [Dict.get?_eq_none_iff, (hc.features a ha).2, mem_names hc, ← List.mem_append]; exact hn
    have e2 := (Dict.get?_eq_none_iff (d := (arffHeap (((d.instances.map fun a => d.cells str (h a)).take k).map
        (readRow ((d.cols str).map Col.name))) i).features) (k := n)).2 (by
      rw [(h2.features i (by rw [h5]; exact List.mem_range.2 hik)).2, mem_names h2, h3', h4', ← List.mem_append]; exact hn)
    rw [e1, e2]; rfl

theorem arffFile_snoc (rel : Text) (attributes : List (String × Text)) (rows : List (List Text)) (row : List Text) :
    arffFile rel attributes (rows ++ [row]) = arffFile rel attributes rows ++ '\n' :: commas row := by
  unfold arffFile
  rw [List.map_append, ← List.append_assoc, ← joinText_eq, ← joinText_eq, joinText_append, if_pos ⟨by simp, by simp⟩, List.append_assoc]
  rfl

theorem cut_file_text {str : Val → Text} {d : Dataset} (x : List (List Cell)) (rel : Text) (r : List Cell) (k m : Nat) (q : Text) :
    arffFile rel ((d.cols str).map fun c => (c.name, c.type)) ((x.map fun r => r.map Cell.text).take k ++ [(r.map Cell.text).take m ++ [q]]) =
      tableText rel (d.cols str) (x.take k) ++ '\n' :: joinText [','] ((r.take m).map Cell.text ++ [q]) := by
  rw [← List.map_take, arffFile_snoc, ← List.map_take, tableText_eq]
  unfold commas
  rw [joinText_eq]
  rfl

/-- **C197** (which cuts of rows are noticed): the export is a file with one row of cells per instance. Cut after a row, the file is read as
the first instances. Cut in a row before its last cell, reading raises a ValueError. Cut in the last cell of a row, reading succeeds, and
the instance is there, with a prefix of the last value. In both cases something of the row was written. -/
theorem C197_rows {str : Val → Text} {h : Heap τ} {d : Dataset} (hc : Consistent h d) (hp : Printable str h d)
    (hne : d.catNames ++ d.numNames ≠ []) {rel t : Text} (hrel : OneLine rel) (hx : d.exportArff str h rel = .ok t) :
    ∃ (attributes : List (String × Text)) (rows : List (List Text)), t = arffFile rel attributes rows ∧
      attributes.map Prod.fst = d.catNames ++ d.numNames ∧
      rows.length = d.instances.length ∧ (∀ r ∈ rows, r.length = (d.catNames ++ d.numNames).length) ∧
      (∀ k ≤ rows.length, ∃ h' d', createFromArff (arffFile rel attributes (rows.take k)) = .ok (h', d') ∧ Consistent h' d' ∧
        FirstInstances str h d k h' d') ∧
      ∀ (k m : Nat) (row : List Text) (cell q : Text), rows[k]? = some row → row[m]? = some cell → q <+: cell → commas (row.take m ++ [q]) ≠ [] →
        (m + 1 < row.length → createFromArff (arffFile rel attributes (rows.take k ++ [row.take m ++ [q]])) = .error .value) ∧
        (m + 1 = row.length → ∃ h' d', createFromArff (arffFile rel attributes (rows.take k ++ [row.take m ++ [q]])) = .ok (h', d') ∧
          Consistent h' d' ∧ RowsCut str h d h' d' ∧ d'.instances.length = k + 1) := by
  have h0 := export_eq hc (ecols := []) (ecells := fun _ => []) rfl (fun _ => rfl) (.inl hne) hx
  simp only [List.append_nil] at h0
  have hrows := rows_ok hc hp hne
  refine ⟨(d.cols str).map fun c => (c.name, c.type), (d.instances.map fun a => d.cells str (h a)).map fun r => r.map Cell.text,
    by rw [h0, tableText_eq], ?_, by simp, ?_, ?_, ?_⟩
  · rw [List.map_map, ← cols_names str]; rfl
  · intro r hr
    obtain ⟨r', hr', rfl⟩ := List.mem_map.1 hr
    rw [List.length_map, (hrows r' hr').2, cols_length]
  · intro k hk
    rw [← List.map_take, ← tableText_eq]
    exact read_first hc hp hne hrel (by simpa using hk)
  · intro k m row cell q h1 h2 h3 h5
    rw [List.getElem?_map] at h1
    obtain ⟨r, hr, rfl⟩ := Option.map_eq_some_iff.1 h1
    rw [List.getElem?_map] at h2
    obtain ⟨c, hcm, rfl⟩ := Option.map_eq_some_iff.1 h2
    have hrok := hrows r (List.mem_of_getElem? hr)
    have h5' : joinText [','] ((r.take m).map Cell.text ++ [q]) ≠ [] := by
      rw [List.map_take, joinText_eq]; exact h5
    obtain ⟨c', g1, g2, g3⟩ := cut_file (rel := rel) (fun c hc => notBreak (hrel c hc)) (cols_ok hc hp) (cols_nodup hc str)
      (rows := (d.instances.map fun a => d.cells str (h a)).take k) (fun r hm => hrows r (List.mem_of_mem_take hm)) hrok.1 hrok.2 hcm h3 h5'
    rw [cut_file_text]
    constructor
    · intro h4
      exact short_row (cols_nodup hc str) (fun r hm => (hrows r (List.mem_of_mem_take hm)).2) (by rw [List.length_map] at h4; simp; omega) g3
    · intro h4
      rw [List.length_map, hrok.2] at h4
      obtain ⟨h', d', e1, e2, e3, e4⟩ := read_cut_last hc hp hne hrel hr hcm g1 g2 h4
      refine ⟨h', d', ?_, e2, e3, e4⟩
      rw [← e1]
      refine create_congr ?_
      rw [g3, table_steps (fun c hc => notBreak (hrel c hc)) (cols_ok hc hp) (cols_nodup hc str)]
      intro x hx
      rcases List.mem_append.1 hx with hx | hx
      · exact hrows x (List.mem_of_mem_take hx)
      · rw [List.mem_singleton] at hx
        subst hx
        exact ⟨g2, by have := hrok.2; simp; omega⟩

/-! ### a wrong number -/

/-- the number 1 is printed as 12 -/
def cutStr : Val → Text := printVal fun q => if q = 1 then ['1', '2'] else ['3', '4']

theorem cutStr_printable : Printable cutStr mixedHeap mixedDataset := by
  refine ⟨?_, ?_, ?_⟩
  · intro n hn
    rcases (show n = "color" ∨ n = "size" by simpa [mixedDataset] using hn) with rfl | rfl
    · exact simple_of (by decide)
    · exact simple_of (by decide)
  · intro a ha n hn v hv
    have hn' : n = "color" := by simpa [mixedDataset] using hn
    subst hn'
    rcases (show a = 0 ∨ a = 1 by simpa [mixedDataset] using ha) with rfl | rfl
    · have := Option.some.inj hv; subst this; exact simple_of (by decide)
    · have := Option.some.inj hv; subst this; exact simple_of (by decide)
  · intro a ha n hn v hv
    have hn' : n = "size" := by simpa [mixedDataset] using hn
    subst hn'
    rcases (show a = 0 ∨ a = 1 by simpa [mixedDataset] using ha) with rfl | rfl
    · have := Option.some.inj hv; subst this; exact numberLike_of (by decide +kernel)
    · have := Option.some.inj hv; subst this; exact numberLike_of (by decide +kernel)

/-- **C197** (a wrong value is not noticed): there is a dataset whose export, without its last character, is read without an exception as
a dataset with the same number of instances, in which one number is wrong. -/
theorem C197_silent_witness : ∃ (str : Val → Text) (h : Heap Unit) (d : Dataset) (t p : Text), Consistent h d ∧ Printable str h d ∧
    d.exportArff str h "r".toList = .ok t ∧ p = t.dropLast ∧
    ∃ h' d', createFromArff p = .ok (h', d') ∧ d'.instances.length = d.instances.length ∧
      ∃ (i a b : Nat) (n : String) (v : Val) (w : String), d.instances[i]? = some a ∧ d'.instances[i]? = some b ∧ n ∈ d.numNames ∧
        (h a).features.get? n = some v ∧ (h' b).features.get? n = some (.str w) ∧ w.toList ≠ str v := by
  refine ⟨cutStr, mixedHeap, mixedDataset,
    "@RELATION \"r\"\n\n@ATTRIBUTE \"color\" {\"blue\",\"red,dark\"}\n@ATTRIBUTE \"size\" NUMERIC\n\n@DATA\n\"red,dark\",12\n\"blue\",34".toList, _,
    mixed_consistent, cutStr_printable, by decide +kernel, rfl, ?_⟩
  have hok : (createFromArff ("@RELATION \"r\"\n\n@ATTRIBUTE \"color\" {\"blue\",\"red,dark\"}\n@ATTRIBUTE \"size\" NUMERIC\n\n@DATA\n\"red,dark\",12\n\"blue\",34".toList.dropLast)).toOption.map
      (fun r => (r.2.instances, (r.1 1).features.get? "size")) = some ([0, 1], some (.str "3")) := by decide +kernel
  generalize createFromArff _ = res at hok
  cases res with
  | error e => cases hok
  | ok r =>
    have hok := Option.some.inj hok
    have h1 : r.2.instances = [0, 1] := congrArg Prod.fst hok
    have h2 : (r.1 1).features.get? "size" = some (.str "3") := congrArg Prod.snd hok
    exact ⟨r.1, r.2, rfl, by rw [h1]; rfl, 1, 1, 1, "size", .num 2, "3", rfl, by rw [h1]; rfl, by decide, rfl, h2, by decide⟩

/-- the hypotheses are met: the header, a row and the last cell can be cut -/
example : ∃ t, mixedDataset.exportArff cutStr mixedHeap "r".toList = .ok t ∧
    (∃ p, p <+: t ∧ createFromArff p = .error .notImplemented) ∧ (∃ p, p <+: t ∧ createFromArff p = .error .value) ∧
    ∀ p, p <+: t → createFromArff p = .error .value ∨ createFromArff p = .error .notImplemented ∨
      ∃ h' d', createFromArff p = .ok (h', d') ∧ Consistent h' d' ∧ (HeaderCut mixedDataset d' ∨ RowsCut cutStr mixedHeap mixedDataset h' d') := by
  have hx : mixedDataset.exportArff cutStr mixedHeap "r".toList =
      .ok "@RELATION \"r\"\n\n@ATTRIBUTE \"color\" {\"blue\",\"red,dark\"}\n@ATTRIBUTE \"size\" NUMERIC\n\n@DATA\n\"red,dark\",12\n\"blue\",34".toList := by
    decide +kernel
  have herr : ∀ (x : Py (Heap Unit × Dataset)) (e : PyErr), (match x with | .error e' => decide (e' = e) | .ok _ => false) = true → x = .error e := by
    intro x e hx
    cases x with
    | error e' => simp at hx; rw [hx]
    | ok _ => cases hx
  refine ⟨_, hx, ⟨"@RELATION \"r\"\n\n@ATTRIBUTE \"color\" {\"blue\",\"red,dark\"}\n@ATTRIBUTE \"size\" NUM".toList, by decide +kernel, herr _ _ (by decide +kernel)⟩,
    ⟨"@RELATION \"r\"\n\n@ATTRIBUTE \"color\" {\"blue\",\"red,dark\"}\n@ATTRIBUTE \"size\" NUMERIC\n\n@DATA\n\"red,da".toList, by decide +kernel, herr _ _ (by decide +kernel)⟩,
    fun p hp => C197_cut mixed_consistent cutStr_printable (by decide) (by
      intro c hc hb
      rw [← isBreak_iff] at hb
      rw [(show ∀ c ∈ "r".toList, isBreak c = false by decide) c hc] at hb
      cases hb) hx hp⟩

end Prolothar.Data
