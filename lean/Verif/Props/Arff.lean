import Verif.Lemmas.ArffExport
import Verif.Lemmas.LabelEncoding
/-
C126: datasets are written to and read from ARFF.
-/
namespace Prolothar.Data
open Prolothar.Spec.Data Prolothar.Spec.Arff

variable {τ : Type}

/-! ### export -/

/-- **C126** (export): if the values of every categorical attribute can be compared, the export succeeds. -/
theorem C126_export {str : Val → Text} {h : Heap τ} {d : Dataset} (hc : Consistent h d)
    (hcmp : ∀ n ∈ d.catNames, ∀ at', d.attrs.get? n = some at' → Comparable at'.values) (rel : Text) :
    ∃ t, d.exportArff str h rel = .ok t := by
  have h1 : ∃ t, d.header str = .ok t := by
    have : d.catNames.mapM (fun n => do
        let at' ← d.attrs.getItem n
        let vs ← pySorted at'.values
        return catLine str n vs) = (.ok (d.catNames.map fun n => catLine str n (d.sortedValues n)) : Py (List Text)) := by
      refine mapM_ok_map fun n hn => ?_
      obtain ⟨at', hat, _⟩ := (hc.categorical.2 n).1 hn
      obtain ⟨s, hs, _⟩ := pySorted_ok (hcmp n hn at' hat) (hc.values n at' hat).1
      rw [getItem_some hat]
      show (pySorted at'.values >>= _) = _
      rw [hs]
      show (Except.ok _ : Py _) = _
      unfold Dataset.sortedValues
      rw [hat, pySorted_eq hs]
    exact ⟨_, by unfold Dataset.header; rw [this]; rfl⟩
  obtain ⟨hd, h1⟩ := h1
  have h2 : d.instances.mapM (fun a => do
      let r ← d.row str (h a)
      return r ++ []) = (.ok (d.instances.map fun a => '\n' :: rowText (d.cells str (h a)) ++ []) : Py (List Text)) := by
    refine mapM_ok_map fun a ha => ?_
    rw [row_eq fun n hn => by rw [(hc.features a ha).2, mem_names hc]; exact List.mem_append.1 hn]
    rfl
  exact ⟨_, by unfold Dataset.exportArff Dataset.exportWith; rw [h1]; show ((List.mapM _ _ : Py _) >>= _) = _; rw [h2]; rfl⟩

/-- **C126** (mixed values): a categorical attribute with a number and a string among its values makes the export (and
hence `repr` and `==`) fail with a TypeError. -/
theorem C126_mixed_values_fail {str : Val → Text} {h : Heap τ} {d : Dataset} (hc : Consistent h d) {n : String}
    (hn : n ∈ d.catNames) {a b : Nat} (ha : a ∈ d.instances) (hb : b ∈ d.instances) {q : Rat} {s : String}
    (h1 : (h a).features.get? n = some (.num q)) (h2 : (h b).features.get? n = some (.str s)) (rel : Text) :
    d.exportArff str h rel = .error .type := by
  have key : ∀ l : List String, (∀ m ∈ l, m ∈ d.catNames) → n ∈ l → l.mapM (fun n => do
      let at' ← d.attrs.getItem n
      let vs ← pySorted at'.values
      return catLine str n vs) = (.error .type : Py (List Text)) := by
    intro l
    induction l with
    | nil => intro _ hm; cases hm
    | cons m l ih =>
      intro hl hm
      obtain ⟨at', hat, _⟩ := (hc.categorical.2 m).1 (hl m List.mem_cons_self)
      have hcase : pySorted at'.values = .error .type ∨ ∃ s, pySorted at'.values = .ok s := by
        unfold pySorted
        split
        · exact .inr ⟨_, rfl⟩
        · exact .inl rfl
      rw [List.mapM_cons, getItem_some hat]
      rcases hcase with he | ⟨s', he⟩
      · show (pySorted at'.values >>= _ : Py _) >>= _ = _
        rw [he]; rfl
      · rcases List.mem_cons.1 hm with rfl | hm'
        · have := mixed_sorted (l := at'.values) (((hc.values n at' hat).2 _).2 ⟨a, ha, h1⟩) (((hc.values n at' hat).2 _).2 ⟨b, hb, h2⟩) rfl rfl
          rw [he] at this; cases this
        · show (pySorted at'.values >>= _ : Py _) >>= _ = _
          rw [he]
          show (List.mapM _ _ >>= _ : Py _) = _
          rw [ih (fun x hx => hl x (List.mem_cons_of_mem _ hx)) hm']; rfl
  unfold Dataset.exportArff Dataset.exportWith Dataset.header
  rw [key _ (fun _ h => h) hn]; rfl

/-! ### reading what was written -/

/-- **C126** (round trip): reading the export of a dataset with at least one attribute gives a dataset with the same
attributes, and for every instance of the dataset an instance whose values are the printed values; the ids are the
positions. -/
theorem C126_roundtrip {str : Val → Text} {h : Heap τ} {d : Dataset} (hc : Consistent h d) (hp : Printable str h d)
    (hne : d.catNames ++ d.numNames ≠ []) {rel t : Text} (hrel : OneLine rel) (hx : d.exportArff str h rel = .ok t) :
    ∃ h' d', createFromArff t = .ok (h', d') ∧ Consistent h' d' ∧ d'.catNames = d.catNames ∧ d'.numNames = d.numNames ∧
      d'.instances.length = d.instances.length ∧
      ∀ (i a : Nat), d.instances[i]? = some a → ∃ b, d'.instances[i]? = some b ∧ (h' b).id = .num i ∧ SamePrinted str (h a) (h' b) := by
  obtain ⟨h', d', h1, h2, h3, h4, h5, h6⟩ := read_export hc hp hne hrel (ecols := []) (ecells := fun _ => []) rfl (fun _ => rfl)
    (by simp) (by simpa using catNum_nodup hc) (by simp) hx
  have h3' : d'.catNames = d.catNames := by simpa using h3
  have h4' : d'.numNames = d.numNames := by simpa using h4
  refine ⟨h', d', h1, h2, h3', h4', by rw [h5, List.length_range], ?_⟩
  intro i a hi
  obtain ⟨k1, k2, -⟩ := h6 i a hi
  have ha := List.mem_of_getElem? hi
  have hil : i < d.instances.length := (List.getElem?_eq_some_iff.1 hi).1
  refine ⟨i, by rw [h5, List.getElem?_range hil], k1, ?_⟩
  intro n
  by_cases hn : n ∈ d.catNames ++ d.numNames
  · rw [k2 n hn, valueOf_get hc ha hn]; rfl
  · have e1 : (h a).features.get? n = none := by
      rw [Dict.get?_eq_none_iff, (hc.features a ha).2, mem_names hc, ← List.mem_append]; exact hn
    have e2 : (h' i).features.get? n = none := by
      rw [Dict.get?_eq_none_iff, (h2.features i (by rw [h5]; exact List.mem_range.2 hil)).2, mem_names h2, h3', h4', ← List.mem_append]; exact hn
    rw [e1, e2]; rfl

theorem splitChar_length (c : Char) : ∀ s : Text, (splitChar c s).length = s.count c + 1
  | [] => rfl
  | x :: s => by
    rw [splitChar]
    have ih := splitChar_length c s
    by_cases hx : x = c
    · subst hx
      rw [if_pos rfl, List.length_cons, ih, List.count_cons_self]
    · rw [if_neg hx, List.count_cons_of_ne hx, ← ih]
      cases hs : splitChar c s with
      | nil => rw [hs] at ih; simp at ih
      | cons l ls => rfl

/-- the line of a column whose name or type has a space -/
theorem col_space {c : Col} (hsp : ' ' ∈ c.name.toList ∨ ' ' ∈ c.type) {s : ArffState} (hs : s.started = false) :
    arffStep s c.line = .error .value := by
  have h1 : (splitChar ' ' c.line).length ≠ 3 := by
    rw [splitChar_length]
    unfold Col.line quoted
    simp only [List.count_append, List.count_cons, List.count_nil]
    have : "@ATTRIBUTE ".toList.count ' ' = 1 := by decide
    rcases hsp with h | h
    · have := List.count_pos_iff.2 h
      simp; omega
    · have := List.count_pos_iff.2 h
      simp; omega
  unfold arffStep
  rw [if_neg (by simp [hs]), if_pos]
  · unfold attributeLine
    split
    · next h => rw [h] at h1; simp at h1
    · rfl
  · unfold Col.line lower
    rw [List.append_assoc, List.map_append]
    exact List.IsPrefix.trans (l₂ := "@ATTRIBUTE ".toList.map Char.toLower) (by decide) (List.prefix_append _ _)

/-- the line of a column without spaces is accepted -/
theorem col_accepted {c : Col} (hn : ' ' ∉ c.name.toList) (ht : ' ' ∉ c.type) (hk : c.type.head? = some '{' ∨ c.type = "NUMERIC".toList)
    {s : ArffState} (hs : s.started = false) : ∃ s', arffStep s c.line = .ok s' ∧ s'.started = false := by
  have h1 : splitChar ' ' c.line = ["@ATTRIBUTE".toList, quoted c.name.toList, c.type] := by
    have : c.line = "@ATTRIBUTE".toList ++ ' ' :: (quoted c.name.toList ++ ' ' :: c.type) := by
      unfold Col.line; simp
    rw [this, splitChar_append (by decide), splitChar_append, splitChar_ne ht]
    intro h
    rcases quoted_mem.1 h with h | h
    · exact absurd h (by decide)
    · exact hn h
  unfold arffStep
  rw [if_neg (by simp [hs]), if_pos]
  · unfold attributeLine
    rw [h1]
    simp only
    rcases hk with h | h
    · rw [if_pos h]; exact ⟨_, rfl, hs⟩
    · rw [if_neg (by rw [h]; decide), if_pos (by rw [h]; decide)]; exact ⟨_, rfl, hs⟩
  · unfold Col.line lower
    rw [List.append_assoc, List.map_append]
    exact List.IsPrefix.trans (l₂ := "@ATTRIBUTE ".toList.map Char.toLower) (by decide) (List.prefix_append _ _)

theorem cols_rejected : ∀ (cols : List Col) (s : ArffState), (∀ c ∈ cols, c.type.head? = some '{' ∨ c.type = "NUMERIC".toList) →
    s.started = false → (∃ c ∈ cols, ' ' ∈ c.name.toList ∨ ' ' ∈ c.type) → (cols.map Col.line).foldlM arffStep s = .error .value
  | [], _, _, _, h => by obtain ⟨c, hc, _⟩ := h; cases hc
  | c :: cols, s, hk, hs, h => by
    rw [List.map_cons, List.foldlM_cons]
    by_cases hsp : ' ' ∈ c.name.toList ∨ ' ' ∈ c.type
    · rw [col_space hsp hs]; rfl
    · rw [not_or] at hsp
      obtain ⟨s', h1, h2⟩ := col_accepted hsp.1 hsp.2 (hk c List.mem_cons_self) hs
      rw [h1]
      show List.foldlM _ _ _ = _
      refine cols_rejected cols s' (fun x hx => hk x (List.mem_cons_of_mem _ hx)) h2 ?_
      obtain ⟨x, hx, hxs⟩ := h
      rcases List.mem_cons.1 hx with rfl | hx
      · exact absurd hxs (by rw [not_or]; exact hsp)
      · exact ⟨x, hx, hxs⟩

theorem cols_known (str : Val → Text) (d : Dataset) : ∀ c ∈ d.cols str, c.type.head? = some '{' ∨ c.type = "NUMERIC".toList := by
  intro c hm
  rcases List.mem_append.1 hm with hm | hm
  · obtain ⟨n, _, rfl⟩ := List.mem_map.1 hm; exact .inl rfl
  · obtain ⟨n, _, rfl⟩ := List.mem_map.1 hm; exact .inr rfl

theorem mem_joinText_of {sep : Text} {c : Char} {x : Text} (hx : c ∈ x) : ∀ {l : List Text}, x ∈ l → c ∈ joinText sep l
  | [], h => by cases h
  | [y], h => by rw [List.mem_singleton] at h; subst h; exact hx
  | y :: z :: l, h => by
    rw [joinText]
    rcases List.mem_cons.1 h with rfl | h
    · exact List.mem_append_left _ (List.mem_append_left _ hx)
    · exact List.mem_append_right _ (mem_joinText_of hx h)

/-- the lines of the header have no line breaks -/
theorem cols_oneLine {str : Val → Text} {h : Heap τ} {d : Dataset} (hc : Consistent h d)
    (hname : ∀ n ∈ d.catNames ++ d.numNames, OneLine n.toList)
    (hcat : ∀ a ∈ d.instances, ∀ n ∈ d.catNames, ∀ v, (h a).features.get? n = some v → OneLine (str v)) :
    ∀ c ∈ d.cols str, ∀ x ∈ c.line, isBreak x = false := by
  have hline : ∀ c : Col, (∀ x ∈ c.name.toList, isBreak x = false) → (∀ x ∈ c.type, isBreak x = false) → ∀ x ∈ c.line, isBreak x = false := by
    intro c h1 h2 x hx
    unfold Col.line at hx
    rcases List.mem_append.1 hx with hx | hx
    · rcases List.mem_append.1 hx with hx | hx
      · exact (show ∀ c ∈ "@ATTRIBUTE ".toList, isBreak c = false by decide) x hx
      · rcases quoted_mem.1 hx with rfl | hx
        · decide
        · exact h1 x hx
    · rcases List.mem_cons.1 hx with rfl | hx
      · decide
      · exact h2 x hx
  intro c hm
  rcases List.mem_append.1 hm with hm | hm
  · obtain ⟨n, hn, rfl⟩ := List.mem_map.1 hm
    refine hline _ (fun x hx => notBreak (hname n (List.mem_append_left _ hn) x hx)) ?_
    intro x hx
    unfold catCol at hx
    rcases List.mem_cons.1 hx with rfl | hx
    · decide
    · rcases List.mem_append.1 hx with hx | hx
      · rcases mem_joinText hx with hx | ⟨y, hy, hx⟩
        · rw [List.mem_singleton] at hx; subst hx; decide
        · obtain ⟨v, hv, rfl⟩ := List.mem_map.1 hy
          obtain ⟨a, ha, hav⟩ := mem_sortedValues hc hv
          rcases quoted_mem.1 hx with rfl | hx
          · decide
          · exact notBreak (hcat a ha n hn v hav x hx)
      · rw [List.mem_singleton] at hx; subst hx; decide
  · obtain ⟨n, hn, rfl⟩ := List.mem_map.1 hm
    exact hline _ (fun x hx => notBreak (hname n (List.mem_append_right _ hn) x hx)) (show ∀ x ∈ "NUMERIC".toList, isBreak x = false by decide)

/-- **C126** (spaces): the own export cannot be read again if the name of an attribute or a categorical value contains a
space: reading raises a ValueError. -/
theorem C126_space_rejected {str : Val → Text} {h : Heap τ} {d : Dataset} (hc : Consistent h d)
    (hname : ∀ n ∈ d.catNames ++ d.numNames, OneLine n.toList)
    (hval : ∀ a ∈ d.instances, ∀ n v, (h a).features.get? n = some v → OneLine (str v))
    (hsp : (∃ n ∈ d.catNames ++ d.numNames, ' ' ∈ n.toList) ∨
      ∃ a ∈ d.instances, ∃ n ∈ d.catNames, ∃ v, (h a).features.get? n = some v ∧ ' ' ∈ str v)
    {rel t : Text} (hrel : OneLine rel) (hx : d.exportArff str h rel = .ok t) : createFromArff t = .error .value := by
  have h0 := export_eq hc (ecols := []) (ecells := fun _ => []) rfl (fun _ => rfl) (.inr fun _ _ => rfl) hx
  rw [List.append_nil] at h0
  have hcols : ∃ c ∈ d.cols str, ' ' ∈ c.name.toList ∨ ' ' ∈ c.type := by
    rcases hsp with ⟨n, hn, hs⟩ | ⟨a, ha, n, hn, v, hv, hs⟩
    · rw [← cols_names str] at hn
      obtain ⟨c, hc', rfl⟩ := List.mem_map.1 hn
      exact ⟨c, hc', .inl hs⟩
    · refine ⟨catCol str n (d.sortedValues n), List.mem_append_left _ (List.mem_map.2 ⟨n, hn, rfl⟩), .inr ?_⟩
      obtain ⟨at', hat, _⟩ := (hc.categorical.2 n).1 hn
      have hm : v ∈ d.sortedValues n := by
        unfold Dataset.sortedValues
        rw [hat]
        exact List.mem_insertionSort _ |>.2 (((hc.values n at' hat).2 v).2 ⟨a, ha, hv⟩)
      exact List.mem_cons_of_mem _ (List.mem_append_left _ (mem_joinText_of (quoted_mem.2 (.inr hs)) (List.mem_map.2 ⟨v, hm, rfl⟩)))
  have he : t = ("@RELATION ".toList ++ quoted rel) ++
      ([[]] ++ (d.cols str).map Col.line ++ ([[], "@DATA".toList] ++ d.instances.map fun a => rowText (d.cells str (h a)))).flatMap
        fun x => '\n' :: x := by
    rw [h0]
    unfold tableText
    simp [List.flatMap_append, List.flatMap_map]
  have hlines : (splitLines t).foldlM arffStep ⟨[], [], [], false, []⟩ = .error .value := by
    rw [he, foldlM_splitLines arffStep empty_step]
    · rw [List.foldlM_cons, relation_step _ _ rfl]
      show List.foldlM _ _ _ = _
      rw [List.foldlM_append, List.foldlM_append]
      rw [show List.foldlM arffStep (⟨[], [], [], false, []⟩ : ArffState) [[]] = .ok ⟨[], [], [], false, []⟩ by
        rw [List.foldlM_cons, empty_step]; rfl]
      show ((List.foldlM arffStep _ _) >>= fun s => List.foldlM arffStep s _ : Py _) = _
      rw [cols_rejected _ _ (cols_known str d) rfl hcols]; rfl
    · intro x hm c hcm
      simp only [List.mem_cons, List.mem_append, List.mem_map, List.not_mem_nil, or_false] at hm
      rcases hm with rfl | (rfl | ⟨k, hk, rfl⟩) | (rfl | rfl) | ⟨a, ha, rfl⟩
      · rcases List.mem_append.1 hcm with h | h
        · exact (show ∀ c ∈ "@RELATION ".toList, isBreak c = false by decide) c h
        · rcases quoted_mem.1 h with rfl | h
          · decide
          · exact notBreak (hrel c h)
      · cases hcm
      · exact cols_oneLine hc hname (fun a ha n _ => hval a ha n) k hk c hcm
      · cases hcm
      · exact (show ∀ c ∈ "@DATA".toList, isBreak c = false by decide) c hcm
      · rcases mem_joinText hcm with h | ⟨y, hy, h⟩
        · rw [List.mem_singleton] at h; subst h; decide
        · obtain ⟨ce, hce, rfl⟩ := List.mem_map.1 hy
          rcases List.mem_append.1 hce with hce | hce
          · obtain ⟨n, hn, rfl⟩ := List.mem_map.1 hce
            rcases quoted_mem.1 h with rfl | h
            · decide
            · exact notBreak (hval a ha n _ (valueOf_get hc ha (List.mem_append_left _ hn)) c h)
          · obtain ⟨n, hn, rfl⟩ := List.mem_map.1 hce
            exact notBreak (hval a ha n _ (valueOf_get hc ha (List.mem_append_right _ hn)) c h)
  unfold createFromArff
  rw [hlines]; rfl

/-- **C126** (no attributes): the instances of a dataset without attributes are lost: the dataset that is read is
empty. -/
theorem C126_no_attributes {str : Val → Text} {h : Heap τ} {d : Dataset} (hc : Consistent h d)
    (hno : d.catNames = [] ∧ d.numNames = []) {rel t : Text} (hrel : OneLine rel) (hx : d.exportArff str h rel = .ok t) :
    ∃ h' d', createFromArff t = .ok (h', d') ∧ d'.instances = [] ∧ d'.catNames = [] ∧ d'.numNames = [] := by
  have h0 := export_eq hc (ecols := []) (ecells := fun _ => []) rfl (fun _ => rfl) (.inr fun _ _ => rfl) hx
  have hcells : ∀ x : Inst τ, d.cells str x = [] := fun x => by unfold Dataset.cells; rw [hno.1, hno.2]; rfl
  have hcols : d.cols str = [] := by unfold Dataset.cols; rw [hno.1, hno.2]; rfl
  have he : t = ("@RELATION ".toList ++ quoted rel) ++ ([[], [], "@DATA".toList] ++ d.instances.map fun _ => []).flatMap fun x => '\n' :: x := by
    rw [h0]
    unfold tableText
    simp only [hcells, hcols, List.append_nil, List.flatMap_append, List.flatMap_map, rowText, List.map_nil, joinText]
    simp
  have hempty : ∀ (l : List Nat) (s : ArffState), (l.map fun _ => ([] : Text)).foldlM arffStep s = .ok s := by
    intro l
    induction l with
    | nil => exact fun s => rfl
    | cons a l ih => intro s; rw [List.map_cons, List.foldlM_cons, empty_step]; exact ih s
  have hlines : (splitLines t).foldlM arffStep ⟨[], [], [], false, []⟩ = .ok ⟨[], [], [], true, []⟩ := by
    rw [he, foldlM_splitLines arffStep empty_step]
    · rw [List.foldlM_cons, relation_step _ _ rfl]
      show List.foldlM _ _ _ = _
      rw [List.foldlM_append, List.foldlM_cons, empty_step]
      show (List.foldlM _ _ _ >>= _ : Py _) = _
      rw [List.foldlM_cons, empty_step]
      show (List.foldlM _ _ _ >>= _ : Py _) = _
      rw [List.foldlM_cons, data_step _ rfl]
      exact hempty _ _
    · intro x hm c hcm
      simp only [List.mem_cons, List.mem_append, List.mem_map, List.not_mem_nil, or_false] at hm
      rcases hm with rfl | (rfl | rfl | rfl) | ⟨a, ha, rfl⟩
      · rcases List.mem_append.1 hcm with h | h
        · exact (show ∀ c ∈ "@RELATION ".toList, isBreak c = false by decide) c h
        · rcases quoted_mem.1 h with rfl | h
          · decide
          · exact notBreak (hrel c h)
      · cases hcm
      · cases hcm
      · exact (show ∀ c ∈ "@DATA".toList, isBreak c = false by decide) c hcm
      · cases hcm
  refine ⟨arffHeap [], Dataset.new [] [], ?_, rfl, rfl, rfl⟩
  unfold createFromArff
  rw [hlines]; rfl

/-! ### equality -/

/-- **C126** (equality is sound): if two datasets with attributes are equal, they have the same attribute names in the same order and
the same number of instances, and the instances at the same position in the iteration order have the same printed
values. -/
theorem C126_equal_content {str : Val → Text} {h : Heap τ} {d e : Dataset} (hd : Consistent h d) (he : Consistent h e)
    (hpd : Printable str h d) (hpe : Printable str h e) (hnd : d.catNames ++ d.numNames ≠ []) (hne : e.catNames ++ e.numNames ≠ [])
    (heq : d.eqArff str h e = .ok true) :
    d.catNames = e.catNames ∧ d.numNames = e.numNames ∧ d.instances.length = e.instances.length ∧
    ∀ (i a b : Nat), d.instances[i]? = some a → e.instances[i]? = some b →
      ∀ n, ((h a).features.get? n).map str = ((h b).features.get? n).map str := by
  unfold Dataset.eqArff at heq
  obtain ⟨x, h1, h2⟩ := bindOk heq
  obtain ⟨y, h3, h4⟩ := bindOk h2
  injection h4 with h4
  have h5 : x = y := by simpa using h4
  subst h5
  have hrel : OneLine "Nameless Dataset".toList := by
    intro c hc hb
    rw [← isBreak_iff] at hb
    rw [(show ∀ c ∈ "Nameless Dataset".toList, isBreak c = false by decide) c hc] at hb
    cases hb
  obtain ⟨k1, d1, r1, -, r2, r3, r4, r5⟩ := C126_roundtrip hd hpd hnd hrel h3
  obtain ⟨k2, d2, q1, -, q2, q3, q4, q5⟩ := C126_roundtrip he hpe hne hrel h1
  rw [r1] at q1
  injection q1 with q1
  injection q1 with e1 e2
  subst e1 e2
  refine ⟨by rw [← r2, q2], by rw [← r3, q3], by rw [← r4, q4], ?_⟩
  intro i a b ha hb n
  obtain ⟨u, u1, -, u2⟩ := r5 i a ha
  obtain ⟨v, v1, -, v2⟩ := q5 i b hb
  rw [u1] at v1
  injection v1 with v1
  subst v1
  have := (u2 n).symm.trans (v2 n)
  cases hA : (h a).features.get? n <;> cases hB : (h b).features.get? n <;> rw [hA, hB] at this <;> simp at this ⊢
  have := congrArg String.toList this
  simpa using this

/-- **C126** (equality is reflexive): a dataset that can be exported is equal to itself. -/
theorem C126_equal_self {str : Val → Text} {h : Heap τ} {d : Dataset} (hc : Consistent h d)
    (hcmp : ∀ n ∈ d.catNames, ∀ at', d.attrs.get? n = some at' → Comparable at'.values) : d.eqArff str h d = .ok true := by
  obtain ⟨t, ht⟩ := C126_export (str := str) hc hcmp "Nameless Dataset".toList
  unfold Dataset.eqArff
  rw [ht]
  show (Except.ok _ : Py _) = _
  simp

/-- how values are printed: `p` prints numbers -/
def printVal (p : Rat → Text) : Val → Text
  | .num q => p q
  | .str s => s.toList

/-- four instances with one feature -/
def sampleHeap : Heap Unit := fun a =>
  if a = 0 then ⟨.num 0, [("x", .str "u")], ()⟩
  else if a = 1 then ⟨.num 1, [("x", .str "v")], ()⟩
  else if a = 2 then ⟨.num 7, [("x", .str "u")], ()⟩
  else ⟨.num 8, [("x", .str "a b")], ()⟩

/-- the dataset with the instances `l` -/
def sampleDataset (l : List Nat) : Py Dataset := l.foldlM (Dataset.addInstance sampleHeap) (Dataset.new ["x"] [])

theorem sample_reachable {l : List Nat} {d : Dataset} (h : sampleDataset l = .ok d) : Consistent sampleHeap d := by
  have key : ∀ (l : List Nat) (s : Dataset), Consistent sampleHeap s → ∀ {d}, l.foldlM (Dataset.addInstance sampleHeap) s = .ok d →
      Consistent sampleHeap d := by
    intro l
    induction l with
    | nil => intro s hs d h; injection h with h; exact h ▸ hs
    | cons a l ih =>
      intro s hs d h
      rw [List.foldlM_cons] at h
      obtain ⟨s', h1, h2⟩ := bindOk h
      refine ih s' (addInstance_consistent hs ?_ h1) h2
      unfold sampleHeap
      split
      · decide
      · split
        · decide
        · split <;> decide
  exact key l _ (new_consistent _ (by decide)) h

/-- **C126** (equality depends on the iteration order): datasets with the same instances which are iterated in different
orders are not equal. -/
theorem C126_order_matters : ∃ d e : Dataset, Consistent sampleHeap d ∧ Consistent sampleHeap e ∧
    (∀ a, a ∈ d.instances ↔ a ∈ e.instances) ∧ ∀ p, d.eqArff (printVal p) sampleHeap e = .ok false := by
  refine ⟨⟨[0, 1], [("x", ⟨true, [.str "u", .str "v"]⟩)], ["x"], []⟩, ⟨[1, 0], [("x", ⟨true, [.str "v", .str "u"]⟩)], ["x"], []⟩,
    sample_reachable (l := [0, 1]) (by rfl), sample_reachable (l := [1, 0]) (by rfl), by simp; tauto, fun p => ?_⟩
  rfl

/-- **C126** (equality ignores the ids): datasets whose instances have different ids are equal if the printed values are
the same. -/
theorem C126_ids_ignored : ∃ d e : Dataset, Consistent sampleHeap d ∧ Consistent sampleHeap e ∧
    (∀ a ∈ d.instances, ∀ b ∈ e.instances, (sampleHeap a).id ≠ (sampleHeap b).id) ∧ d.instances ≠ [] ∧
    ∀ p, d.eqArff (printVal p) sampleHeap e = .ok true := by
  refine ⟨⟨[0], [("x", ⟨true, [.str "u"]⟩)], ["x"], []⟩, ⟨[2], [("x", ⟨true, [.str "u"]⟩)], ["x"], []⟩,
    sample_reachable (l := [0]) (by rfl), sample_reachable (l := [2]) (by rfl), by decide, by simp, fun p => ?_⟩
  rfl

/-! ### the hypotheses are met -/

theorem simple_of {t : Text} (h : (t.all fun c => decide (c ≠ '"') && decide (c ≠ ' ') && !isBreak c) = true) : Simple t := by
  intro c hc
  have := List.all_eq_true.1 h c hc
  simp only [Bool.and_eq_true, decide_eq_true_eq, Bool.not_eq_true'] at this
  exact ⟨this.1.1, this.1.2, fun hb => by rw [← isBreak_iff, this.2] at hb; cases hb⟩

theorem numberLike_of {t : Text} (h : (!t.isEmpty && t.all fun c => decide (c ≠ ',') && decide (c ≠ '"') && decide (c ≠ '{') && !isBreak c) = true) :
    NumberLike t := by
  rw [Bool.and_eq_true] at h
  refine ⟨by rintro rfl; simp at h, fun c hc => ?_⟩
  have := List.all_eq_true.1 h.2 c hc
  simp only [Bool.and_eq_true, decide_eq_true_eq, Bool.not_eq_true'] at this
  exact ⟨this.1.1.1, this.1.1.2, this.1.2, fun hb => by rw [← isBreak_iff, this.2] at hb; cases hb⟩

/-- a dataset with a categorical and a numerical attribute -/
def mixedHeap : Heap Unit := fun a =>
  if a = 0 then ⟨.num 3, [("color", .str "red,dark"), ("size", .num 1)], ()⟩ else ⟨.num 5, [("color", .str "blue"), ("size", .num 2)], ()⟩

def mixedDataset : Dataset :=
  ⟨[0, 1], [("color", ⟨true, [.str "red,dark", .str "blue"]⟩), ("size", ⟨false, [.num 1, .num 2]⟩)], ["color"], ["size"]⟩

theorem mixed_consistent : Consistent mixedHeap mixedDataset := by
  have h0 := new_consistent mixedHeap (cat := ["color"]) (num := ["size"]) (by decide)
  have h1 := addInstance_consistent (a := 0) h0 (by decide) (d' := ⟨[0], [("color", ⟨true, [.str "red,dark"]⟩), ("size", ⟨false, [.num 1]⟩)], ["color"], ["size"]⟩) (by rfl)
  exact addInstance_consistent (a := 1) h1 (by decide) (by rfl)

/-- numbers are printed by their numerator -/
def sampleStr : Val → Text := printVal fun q => if q = 1 then ['1'] else ['2']

example : ∃ t, mixedDataset.exportArff sampleStr mixedHeap "r s".toList = .ok t ∧
    t = "@RELATION \"r s\"\n\n@ATTRIBUTE \"color\" {\"blue\",\"red,dark\"}\n@ATTRIBUTE \"size\" NUMERIC\n\n@DATA\n\"red,dark\",1\n\"blue\",2".toList ∧
    ∃ h' d', createFromArff t = .ok (h', d') ∧ d'.catNames = ["color"] ∧ d'.instances.length = 2 := by
  have hx : mixedDataset.exportArff sampleStr mixedHeap "r s".toList = .ok "@RELATION \"r s\"\n\n@ATTRIBUTE \"color\" {\"blue\",\"red,dark\"}\n@ATTRIBUTE \"size\" NUMERIC\n\n@DATA\n\"red,dark\",1\n\"blue\",2".toList := by
    decide +kernel
  refine ⟨_, hx, rfl, ?_⟩
  obtain ⟨h', d', h1, -, h2, -, h3, -⟩ := C126_roundtrip mixed_consistent (str := sampleStr) (by
    refine ⟨?_, ?_, ?_⟩
    · intro n hn
      rcases (show n = "color" ∨ n = "size" by simpa [mixedDataset] using hn) with rfl | rfl
      · exact simple_of (by decide)
      · exact simple_of (by decide)
    · intro a ha n hn v hv
      have hn' : n = "color" := by simpa [mixedDataset] using hn
      subst hn'
      rcases (show a = 0 ∨ a = 1 by simpa [mixedDataset] using ha) with rfl | rfl
      · have := Option.some.inj hv; subst this; exact simple_of (by decide)
      · have := Option.some.inj hv; subst this; exact simple_of (by decide)
    · intro a ha n hn v hv
      have hn' : n = "size" := by simpa [mixedDataset] using hn
      subst hn'
      rcases (show a = 0 ∨ a = 1 by simpa [mixedDataset] using ha) with rfl | rfl
      · have := Option.some.inj hv; subst this; exact numberLike_of (by decide +kernel)
      · have := Option.some.inj hv; subst this; exact numberLike_of (by decide +kernel)) (by decide)
    (by
      intro c hc hb
      rw [← isBreak_iff] at hb
      rw [(show ∀ c ∈ "r s".toList, isBreak c = false by decide) c hc] at hb
      cases hb) hx
  exact ⟨h', d', h1, h2, h3⟩

example : (do
    let d ← sampleDataset [3]
    let t ← d.exportArff sampleStr sampleHeap "r".toList
    let r ← createFromArff t
    return r.2.instances.length : Py Nat) = .error .value := by decide +kernel

end Prolothar.Data
