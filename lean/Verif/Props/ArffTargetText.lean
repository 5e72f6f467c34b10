import Verif.Props.ArffText
import Verif.Props.ArffTargets
/-
C127: the texts of the exports of datasets with targets.
-/
namespace Prolothar.Data
open Prolothar.Spec.Data Prolothar.Spec.Arff

variable {τ : Type}

/-- the extras do not decide whether the export succeeds -/
theorem exportWith_ok {str : Val → Text} {h : Heap τ} {d : Dataset} {rel t : Text} (hx : d.exportArff str h rel = .ok t) (extra : Text)
    (target : Inst τ → Text) (hc : Consistent h d) : ∃ t, d.exportWith str h rel extra target = .ok t := by
  unfold Dataset.exportArff Dataset.exportWith at hx
  obtain ⟨hd, h1, -⟩ := bindOk hx
  have h2 : d.instances.mapM (fun a => do
      let r ← d.row str (h a)
      return r ++ target (h a)) = (.ok (d.instances.map fun a => '\n' :: rowText (d.cells str (h a)) ++ target (h a)) : Py (List Text)) := by
    refine mapM_ok_map fun a ha => ?_
    rw [row_eq fun n hn => by rw [(hc.features a ha).2, mem_names hc]; exact List.mem_append.1 hn]
    rfl
  exact ⟨_, by unfold Dataset.exportWith; rw [h1]; show ((List.mapM _ _ : Py _) >>= _) = _; rw [h2]; rfl⟩

/-- all values that occur for a categorical attribute can be compared -/
def ComparableValues (h : Heap τ) (d : Dataset) : Prop :=
  ∀ n ∈ d.catNames, ∀ v w, Occurs h d n v → Occurs h d n w → v = w ∨ Lt v w ∨ Lt w v

theorem isArff_of {str : Val → Text} {h : Heap τ} {d : Dataset} (hc : Consistent h d) (hcmp : ComparableValues h d)
    (hne : d.catNames ++ d.numNames ≠ []) (rel : Text) {extra : Text} {target : Inst τ → Text} {ecols : List Col}
    {ecells : Inst τ → List Cell} (he : extra = ecols.flatMap fun c => '\n' :: c.line)
    (ht : ∀ x, target x = if ecells x = [] then [] else ',' :: rowText (ecells x)) :
    ∃ t, d.exportWith str h rel extra target = .ok t ∧
      IsArff str h d rel (ecols.map fun c => (c.name, c.type)) (fun x => (ecells x).map Cell.text) t := by
  have hcomp : ∀ n ∈ d.catNames, ∀ at', d.attrs.get? n = some at' → Comparable at'.values := by
    intro n hn at' hat v hv w hw
    obtain ⟨_, k2⟩ := hc.values n at' hat
    exact hcmp n hn v w ((k2 v).1 hv) ((k2 w).1 hw)
  obtain ⟨t0, ht0⟩ := C126_export (str := str) hc hcomp rel
  obtain ⟨t, hx⟩ := exportWith_ok ht0 extra target hc
  have h1 := export_eq hc he ht (.inl hne) hx
  rw [tableText_eq] at h1
  refine ⟨t, hx, d.sortedValues, _, h1.trans (congrFun (congrArg (arffFile rel) ?_) _), fun n hn => ?_, by simp, fun i a hi => ?_⟩
  · simp [Dataset.cols, catCol, numCol, categories, commas, joinText_eq, quoted, Function.comp_def]
  · obtain ⟨at', hat, _⟩ := (hc.categorical.2 n).1 hn
    obtain ⟨k1, k2⟩ := hc.values n at' hat
    obtain ⟨s, hs, hp, hl⟩ := pySorted_ok (hcomp n hn at' hat) k1
    have : d.sortedValues n = s := by unfold Dataset.sortedValues; rw [hat, pySorted_eq hs]
    rw [this]
    exact ⟨hl, fun v => by rw [hp.mem_iff]; exact k2 v⟩
  · have ha := List.mem_of_getElem? hi
    refine ⟨d.catNames.map fun n => quoted (str (valueOf (h a) n)), d.numNames.map fun n => str (valueOf (h a) n), ?_, ?_, ?_⟩
    · simp [hi, Dataset.cells, Cell.text, Function.comp_def]
    · rw [List.forall₂_map_right_iff, List.forall₂_same]
      intro n hn
      exact ⟨_, valueOf_get hc ha (List.mem_append_left _ hn), rfl⟩
    · rw [List.forall₂_map_right_iff, List.forall₂_same]
      intro n hn
      exact ⟨_, valueOf_get hc ha (List.mem_append_right _ hn), rfl⟩

theorem sortedStrings_lt {l : List String} (h : l.Nodup) : (sortedStrings l).Pairwise (· < ·) := by
  have h1 : (sortedStrings l).Pairwise (· ≤ ·) := List.pairwise_insertionSort _ _
  have h2 : (sortedStrings l).Nodup := (List.perm_insertionSort _ l).nodup_iff.2 h
  exact (h1.and h2).imp fun h => lt_of_le_of_ne h.1 h.2

/-- C127: the text of the export of a multi-label dataset: one further attribute per label in ascending order, whose cell is 1 if the
instance has the label and 0 otherwise. Without labels there is one empty cell (and hence a comma too many). -/
theorem C127_labels_text {str : Val → Text} {h : Heap (List String)} {d : LabelDs} (hr : LabelHistory h d) (hcmp : ComparableValues h d.base)
    (hne : d.base.catNames ++ d.base.numNames ≠ []) (pre : String) (rel : Text) :
    ∃ (ls : List String) (t : Text), ls.Pairwise (· < ·) ∧ (∀ l, l ∈ ls ↔ ∃ a ∈ d.base.instances, l ∈ (h a).target) ∧
      d.exportArff str h rel pre = .ok t ∧
      IsArff str h d.base rel (ls.map fun l => (pre ++ l, "{0,1}".toList))
        (fun x => if ls = [] then [[]] else ls.map fun l => if l ∈ x.target then "1".toList else "0".toList) t := by
  obtain ⟨k1, k2⟩ := C125_labels hr
  by_cases hl : d.labels = []
  · obtain ⟨t, t1, t2⟩ := isArff_of (str := str) (history_consistent_label hr) hcmp hne rel (extra := [])
      (target := fun _ => [',']) (ecols := []) (ecells := fun _ => [.plain []]) rfl (fun x => by rw [if_neg (by simp)]; rfl)
    refine ⟨[], t, .nil, fun l => ?_, ?_, ?_⟩
    · rw [← k2 l, hl]
    · unfold LabelDs.exportArff; rw [hl]; exact t1
    · exact t2
  · obtain ⟨t, t1, t2⟩ := isArff_of (str := str) (history_consistent_label hr) hcmp hne rel
      (labelCols_lines d.labels pre "{0,1}".toList " {0,1}".toList (by decide))
      (ecells := fun x => labelCells d.labels (labelCell x)) (fun x => labelCells_text hl (labelCell x))
    refine ⟨sortedStrings d.labels, t, sortedStrings_lt k1, fun l => by rw [mem_sortedStrings]; exact k2 l, t1, ?_⟩
    simp only [if_neg (sorted_ne_nil hl)]
    simpa [labelCols, labelCells, labelCell, Cell.text, Function.comp_def] using t2

/-- C127: the text of the export of a multiset dataset: one further numerical attribute per element in ascending order, whose cell is the
multiplicity. Without elements there is one empty cell. -/
theorem C127_multisets_text {str : Val → Text} {h : Heap (Dict String Int)} {d : MultisetDs} (hr : MultisetHistory h d)
    (hcmp : ComparableValues h d.base) (hne : d.base.catNames ++ d.base.numNames ≠ []) (pre : String) (rel : Text) :
    ∃ (ls : List String) (t : Text), ls.Pairwise (· < ·) ∧ (∀ l, l ∈ ls ↔ ∃ a ∈ d.base.instances, l ∈ (h a).target.keys) ∧
      d.exportArff str h rel pre = .ok t ∧
      IsArff str h d.base rel (ls.map fun l => (pre ++ l, "NUMERIC".toList))
        (fun x => if ls = [] then [[]] else ls.map fun l => (toString ((x.target.get? l).getD 0)).toList) t := by
  obtain ⟨k1, k2⟩ := C125_multiset_classes hr
  by_cases hl : d.classes = []
  · obtain ⟨t, t1, t2⟩ := isArff_of (str := str) (history_consistent_multiset hr) hcmp hne rel (extra := [])
      (target := fun _ => [',']) (ecols := []) (ecells := fun _ => [.plain []]) rfl (fun x => by rw [if_neg (by simp)]; rfl)
    refine ⟨[], t, .nil, fun l => ?_, ?_, ?_⟩
    · rw [← k2 l, hl]
    · unfold MultisetDs.exportArff; rw [hl]; exact t1
    · exact t2
  · obtain ⟨t, t1, t2⟩ := isArff_of (str := str) (history_consistent_multiset hr) hcmp hne rel
      (labelCols_lines d.classes pre "NUMERIC".toList " NUMERIC".toList (by decide))
      (ecells := fun x => labelCells d.classes fun l => intText ((x.target.get? l).getD 0)) (fun x => labelCells_text hl _)
    refine ⟨sortedStrings d.classes, t, sortedStrings_lt k1, fun l => by rw [mem_sortedStrings]; exact k2 l, t1, ?_⟩
    simp only [if_neg (sorted_ne_nil hl)]
    simpa [labelCols, labelCells, intText, Cell.text, Function.comp_def] using t2

/-- a text in brackets and quotes: the symbols of a sequence, separated by the separator -/
def bracketed (sep : Text) (s : List String) : Text := "\"[".toList ++ List.intercalate sep (s.map String.toList) ++ "]\"".toList

theorem seqText_eq (sep : Text) (s : List String) : seqText sep s = bracketed sep s := by
  unfold seqText bracketed quoted
  rw [joinText_eq, show "\"[".toList = ['"', '['] by decide, show "]\"".toList = [']', '"'] by decide]
  simp

/-- C127: the text of the export of a target sequence dataset: one further attribute whose values are the different sequences (in the
given order), and whose cell is the sequence of the instance. -/
theorem C127_sequences_text {str : Val → Text} {h : Heap (List String)} {d : SeqDs} (hr : SeqHistory h d) (hcmp : ComparableValues h d.base)
    (hne : d.base.catNames ++ d.base.numNames ≠ []) (name : String) (sep : Text) (sorted : List (List String)) (rel : Text) :
    ∃ t : Text, d.exportArff str h rel name.toList sep sorted = .ok t ∧
      IsArff str h d.base rel [(name, "{".toList ++ commas (sorted.map (bracketed sep)) ++ "}".toList)] (fun x => [bracketed sep x.target]) t := by
  obtain ⟨t, t1, t2⟩ := isArff_of (str := str) (history_consistent_seq hr) hcmp hne rel
    (ecols := [⟨name, '{' :: (joinText [','] (sorted.map (seqText sep)) ++ ['}'])⟩])
    (extra := "\n@ATTRIBUTE ".toList ++ quoted name.toList ++ " {".toList ++ joinText [','] (sorted.map (seqText sep)) ++ ['}'])
    (target := fun x => [','] ++ seqText sep x.target)
    (ecells := fun x => [.quoted (['['] ++ joinText sep (x.target.map String.toList) ++ [']'])])
    (by
      rw [List.flatMap_cons, List.flatMap_nil, List.append_nil, ← line_eq]
      simp)
    (fun x => by rw [if_neg (by simp)]; rfl)
  refine ⟨t, t1, ?_⟩
  have e1 : (sorted.map (seqText sep)) = sorted.map (bracketed sep) := List.map_congr_left fun s _ => seqText_eq sep s
  have e2 : ∀ x : Inst (List String), Cell.text (.quoted (['['] ++ joinText sep (x.target.map String.toList) ++ [']'])) = bracketed sep x.target :=
    fun x => seqText_eq sep x.target
  rw [e1] at t2
  simp only [List.map_cons, List.map_nil, e2] at t2
  rw [joinText_eq] at t2
  have e3 : "{".toList ++ commas (sorted.map (bracketed sep)) ++ "}".toList = '{' :: (List.intercalate [','] (sorted.map (bracketed sep)) ++ ['}']) := by
    unfold commas
    rw [show "{".toList = ['{'] by decide, show ",".toList = [','] by decide, show "}".toList = ['}'] by decide]
    simp
  rw [e3]
  exact t2

theorem classes_nodup {late : Bool} {h : Heap String} {d : ClassDs} {asked : List String} (hr : ClassHistory late h d asked) :
    d.classes.Nodup := by
  have key : d.classCounter.WF := by
    induction hr with
    | new h cat num hd => exact Dict.WF.nil
    | create _ _ ih => exact ih
    | add _ _ he ih =>
      unfold ClassDs.addInstance at he
      obtain ⟨b, -, h2⟩ := bindOk he
      obtain ⟨s, -, h4⟩ := bindOk h2
      cases h4
      exact ih.put _ _
    | remove _ he ih =>
      unfold ClassDs.removeAttribute at he
      obtain ⟨b, -, h2⟩ := bindOk he
      cases h2
      exact ih
    | addCat _ _ _ he ih =>
      unfold ClassDs.addCategorical at he
      obtain ⟨b, -, h2⟩ := bindOk he
      cases h2
      exact ih
    | addNum _ _ he ih =>
      unfold ClassDs.addNumerical at he
      obtain ⟨b, -, h2⟩ := bindOk he
      cases h2
      exact ih
    | askCategory _ _ _ ih => exact ih
    | askCategoryAndClass _ _ _ _ ih => exact ih
    | askClass c _ ih =>
      show ((readDefault _ c).2).WF
      unfold readDefault
      split
      · exact ih
      · exact ih.put _ _
  exact key

/-- C127: the text of the export of a classification dataset: one further attribute whose values are the classes in ascending order and
whose cell is the class of the instance. -/
theorem C127_classes_text {str : Val → Text} {h : Heap String} {d : ClassDs} {late : Bool} {asked : List String} (hr : ClassHistory late h d asked)
    (hcmp : ComparableValues h d.base) (hne : d.base.catNames ++ d.base.numNames ≠ []) (name : String) (rel : Text) :
    ∃ (cs : List String) (t : Text), cs.Pairwise (· < ·) ∧ (∀ c, c ∈ cs ↔ (∃ a ∈ d.base.instances, (h a).target = c) ∨ c ∈ asked) ∧
      d.exportArff str h rel name.toList = .ok t ∧
      IsArff str h d.base rel [(name, "{".toList ++ commas (cs.map fun c => "\"".toList ++ c.toList ++ "\"".toList) ++ "}".toList)]
        (fun x => ["\"".toList ++ x.target.toList ++ "\"".toList]) t := by
  obtain ⟨t, t1, t2⟩ := isArff_of (str := str) (classInv_history hr).base hcmp hne rel
    (ecols := [⟨name, '{' :: (joinText [','] ((sortedStrings d.classes).map fun c => quoted c.toList) ++ ['}'])⟩])
    (extra := "\n@ATTRIBUTE ".toList ++ quoted name.toList ++ " {".toList ++ joinText [','] ((sortedStrings d.classes).map fun c => quoted c.toList) ++ ['}'])
    (target := fun x => [','] ++ quoted x.target.toList)
    (ecells := fun x => [.quoted x.target.toList])
    (by
      rw [List.flatMap_cons, List.flatMap_nil, List.append_nil, ← line_eq]
      simp)
    (fun x => by rw [if_neg (by simp)]; rfl)
  refine ⟨sortedStrings d.classes, t, sortedStrings_lt (classes_nodup hr), fun c => by rw [mem_sortedStrings]; exact (C124_class_counts hr).2 c, t1, ?_⟩
  have e : "\"".toList = ['"'] := by decide
  have e3 : "{".toList ++ commas ((sortedStrings d.classes).map fun c => "\"".toList ++ c.toList ++ "\"".toList) ++ "}".toList =
      '{' :: (joinText [','] ((sortedStrings d.classes).map fun c => quoted c.toList) ++ ['}']) := by
    unfold commas quoted
    rw [joinText_eq, show "{".toList = ['{'] by decide, show ",".toList = [','] by decide, show "}".toList = ['}'] by decide, e]
    simp
  rw [e3, e]
  exact t2

/-- the hypotheses are met by a dataset with one attribute and two instances -/
example : ∃ (d : SeqDs) (t : Text), d.exportArff sampleStr arffSeqHeap "r".toList "s".toList [','] [["c"], ["a", "b"]] = .ok t ∧
    IsArff sampleStr arffSeqHeap d.base "r".toList [("s", "{\"[c]\",\"[a,b]\"}".toList)] (fun x => [bracketed [','] x.target]) t ∧ d.base.instances.length = 2 := by
  obtain ⟨t, t1, t2⟩ := C127_sequences_text (str := sampleStr) arffSeq_history (fun n hn => by cases hn) (by decide) "s" [','] [["c"], ["a", "b"]] "r".toList
  exact ⟨_, t, t1, t2, rfl⟩

end Prolothar.Data
