import Mathlib.Data.List.Dedup
import Verif.Lemmas.ArffSparse
import Verif.Lemmas.ArffTargets
/-
C127: datasets with targets are written to and read from ARFF.
-/
namespace Prolothar.Data
open Prolothar.Spec.Data Prolothar.Spec.Arff

/-! ### labels -/

theorem strAppend_inj {p a b : String} (h : p ++ a = p ++ b) : a = b := by
  have := congrArg String.toList h
  rw [String.toList_append, String.toList_append, List.append_cancel_left_eq] at this
  exact String.toList_injective this

theorem mem_sortedStrings {l : List String} {x : String} : x ∈ sortedStrings l ↔ x ∈ l := List.mem_insertionSort _

theorem sorted_ne_nil {l : List String} (h : l ≠ []) : sortedStrings l ≠ [] := by
  obtain ⟨x, l', rfl⟩ := List.exists_cons_of_ne_nil h
  intro h'
  have : x ∈ sortedStrings (x :: l') := mem_sortedStrings.2 List.mem_cons_self
  rw [h'] at this; cases this

theorem labelNames_nodup {names labels : List String} {pre : String} (hn : names.Nodup) (hl : labels.Nodup)
    (hdis : ∀ l ∈ labels, pre ++ l ∉ names) : (names ++ (sortedStrings labels).map (pre ++ ·)).Nodup := by
  refine List.nodup_append.2 ⟨hn, ?_, ?_⟩
  · exact ((List.perm_insertionSort _ labels).nodup_iff.2 hl).map fun a b h => strAppend_inj h
  · rintro x hx y hy rfl
    obtain ⟨l, hl', rfl⟩ := List.mem_map.1 hy
    exact hdis l (mem_sortedStrings.1 hl') hx

theorem filter_names {names labels ls : List String} {pre : String} (hdis : ∀ l ∈ labels, pre ++ l ∉ names)
    (hm : ∀ l, l ∈ ls ↔ ∃ k ∈ labels, l = pre ++ k) : names.filter (fun n => decide (n ∉ ls)) = names := by
  refine List.filter_eq_self.2 fun n hn => ?_
  simp only [decide_eq_true_eq]
  intro h
  obtain ⟨k, hk, rfl⟩ := (hm n).1 h
  exact hdis k hk hn

theorem filter_labels {labels ls : List String} {pre : String} (hm : ∀ l, l ∈ ls ↔ ∃ k ∈ labels, l = pre ++ k) :
    ((sortedStrings labels).map (pre ++ ·)).filter (fun n => decide (n ∉ ls)) = [] := by
  refine List.filter_eq_nil_iff.2 fun n hn => ?_
  obtain ⟨l, hl, rfl⟩ := List.mem_map.1 hn
  simp only [decide_eq_true_eq, not_not]
  exact (hm _).2 ⟨l, mem_sortedStrings.1 hl, rfl⟩

theorem history_consistent_label {h : Heap (List String)} {d : LabelDs} (hr : LabelHistory h d) : Consistent h d.base :=
  (history_inv (τ := List String) (D := LabelDs) (new := LabelDs.new) (base := LabelDs.base) (setBase := fun d b => { d with base := b })
    (add := LabelDs.addInstance) (fun _ _ => True) (fun _ _ => rfl) (fun _ _ => rfl)
    (fun h d a d' he => by
      unfold LabelDs.addInstance at he
      obtain ⟨b, h1, h2⟩ := bindOk he
      injection h2 with h2; rw [h1, ← h2])
    (fun _ _ => trivial) (fun _ _ _ _ => trivial) (fun _ _ _ _ _ _ _ => trivial) hr).1

theorem label_add (h : Heap (List String)) (d : LabelDs) (a : Nat) (b : Dataset) (hb : d.base.addInstance h a = .ok b) :
    ∃ d', LabelDs.addInstance h d a = .ok d' ∧ d'.base = b :=
  ⟨⟨b, updateSet d.labels (h a).target⟩, by unfold LabelDs.addInstance; rw [hb]; rfl, rfl⟩

/-- the cell of a label -/
def labelCell (x : Inst (List String)) (l : String) : Text := if l ∈ x.target then ['1'] else ['0']

theorem toLabelInst_eq {ls : List String} {x : Inst Unit} {g : String → Val} (hg : ∀ l ∈ ls, x.features.get? l = some (g l)) :
    toLabelInst ls x = .ok ⟨x.id, otherFeatures ls x.features,
      updateSet [] (ls.filter fun l => decide (g l = .num 1 ∨ g l = .str "1"))⟩ := by
  unfold toLabelInst
  rw [mapM_ok_map (g := g) fun l hl => getItem_some (hg l hl)]
  show (Except.ok _ : Py _) = _
  congr 3
  have : ∀ l : List String, ((l.zip (l.map g)).filter (fun e => decide (e.2 = Val.num 1 ∨ e.2 = Val.str "1"))).map (fun e => e.1) =
      l.filter fun l => decide (g l = .num 1 ∨ g l = .str "1") := by
    intro l
    induction l with
    | nil => rfl
    | cons a l ih =>
      rw [List.map_cons, List.zip_cons_cons, List.filter_cons, List.filter_cons]
      by_cases h : g a = .num 1 ∨ g a = .str "1"
      · rw [if_pos (by simpa using h), if_pos (by simpa using h), List.map_cons, ih]
      · rw [if_neg (by simpa using h), if_neg (by simpa using h), ih]
  exact this ls

theorem line_eq (name : String) (ty : Text) :
    "\n@ATTRIBUTE ".toList ++ quoted name.toList ++ ' ' :: ty = '\n' :: (Col.mk name ty).line := by
  unfold Col.line
  rw [show "\n@ATTRIBUTE ".toList = '\n' :: "@ATTRIBUTE ".toList by decide]
  rfl

/-- the columns of the labels -/
def labelCols (labels : List String) (pre : String) (ty : Text) : List Col := (sortedStrings labels).map fun l => ⟨pre ++ l, ty⟩

theorem labelCols_lines (labels : List String) (pre : String) (ty : Text) (sp : Text) (hs : sp = ' ' :: ty) :
    ((sortedStrings labels).flatMap fun l => "\n@ATTRIBUTE ".toList ++ quoted (pre ++ l).toList ++ sp) =
      (labelCols labels pre ty).flatMap fun c => '\n' :: c.line := by
  subst hs
  unfold labelCols
  rw [List.flatMap_map]
  simp only [line_eq]

theorem labelCols_names (labels : List String) (pre : String) (ty : Text) :
    (labelCols labels pre ty).map Col.name = (sortedStrings labels).map (pre ++ ·) := by
  unfold labelCols; rw [List.map_map]; rfl

theorem labelCols_ok {labels : List String} {pre : String} {ty : Text} (hls : ∀ l ∈ labels, Simple (pre ++ l).toList)
    (hty : ∀ x ∈ ty, x ≠ ' ' ∧ isBreak x = false) (hk : ty.head? = some '{' ∨ ty = "NUMERIC".toList) :
    ∀ c ∈ labelCols labels pre ty, ColOk c := by
  intro c hcm
  obtain ⟨l, hl, rfl⟩ := List.mem_map.1 hcm
  refine ⟨fun x hx => ?_, hty, hk⟩
  obtain ⟨k1, k2, k3⟩ := hls l (mem_sortedStrings.1 hl) x hx
  exact ⟨k1, k2, notBreak k3⟩

/-- the cells of the labels -/
def labelCells (labels : List String) (cell : String → Text) : List Cell := (sortedStrings labels).map fun l => .plain (cell l)

theorem labelCells_text {labels : List String} (h : labels ≠ []) (cell : String → Text) :
    [','] ++ enumCells (sortedStrings labels) cell = if labelCells labels cell = [] then [] else ',' :: rowText (labelCells labels cell) := by
  rw [if_neg (by unfold labelCells; simpa using sorted_ne_nil h), enumCells_eq]
  unfold rowText labelCells
  rw [List.map_map]; rfl

theorem filter_cols_cat {l : List Col} {b : Bool} (h : ∀ c ∈ l, c.isCat = b) :
    l.filter Col.isCat = (if b then l else []) ∧ l.filter (fun c => !c.isCat) = if b then [] else l := by
  cases b
  · exact ⟨List.filter_eq_nil_iff.2 fun c hc => by simp [h c hc], List.filter_eq_self.2 fun c hc => by simp [h c hc]⟩
  · exact ⟨List.filter_eq_self.2 fun c hc => h c hc, List.filter_eq_nil_iff.2 fun c hc => by simp [h c hc]⟩

/-- reading the raw dataset of a dataset with labels -/
theorem labelled_read {σ : Type} {str : Val → Text} {h : Heap σ} {d : Dataset} (hc : Consistent h d) (hp : Printable str h d)
    (hne : d.catNames ++ d.numNames ≠ []) {labels : List String} (hln : labels.Nodup) (hlab : labels ≠ []) {pre : String}
    (hls : ∀ l ∈ labels, Simple (pre ++ l).toList) (hdis : ∀ l ∈ labels, pre ++ l ∉ d.catNames ++ d.numNames)
    {ls : List String} (hm : ∀ l, l ∈ ls ↔ ∃ k ∈ labels, l = pre ++ k) {rel t : Text} (hrel : OneLine rel)
    {ty : Text} (hty : ∀ x ∈ ty, x ≠ ' ' ∧ isBreak x = false) (hk : ty.head? = some '{' ∨ ty = "NUMERIC".toList)
    {cell : Inst σ → String → Text} (hcell : ∀ x l, ∀ c ∈ cell x l, c ≠ '"' ∧ c ≠ ',' ∧ isBreak c = false)
    {extra : Text} {target : Inst σ → Text}
    (he : extra = (labelCols labels pre ty).flatMap fun c => '\n' :: c.line)
    (ht : ∀ x, target x = [','] ++ enumCells (sortedStrings labels) (cell x))
    (hx : d.exportWith str h rel extra target = .ok t) :
    ∃ rh rd, createFromArff t = .ok (rh, rd) ∧ rd.catNames.filter (fun n => decide (n ∉ ls)) = d.catNames ∧
      rd.numNames.filter (fun n => decide (n ∉ ls)) = d.numNames ∧ rd.instances = List.range d.instances.length ∧
      ∀ (i a : Nat), d.instances[i]? = some a → (rh i).id = .num i ∧
        (∀ n, (otherFeatures ls (rh i).features).get? n = ((h a).features.get? n).map fun v => Val.str (String.ofList (str v))) ∧
        ((otherFeatures ls (rh i).features).keys.Nodup ∧
          ∀ n, n ∈ (otherFeatures ls (rh i).features).keys ↔ n ∈ (Dataset.new d.catNames d.numNames).attrs.keys) ∧
        ∀ k ∈ labels, (rh i).features.get? (pre ++ k) = some (.str (String.ofList (cell (h a) k))) := by
  obtain ⟨rh, rd, r1, r2, r3, r4, r5, r6⟩ := read_export hc hp hne hrel
    (ecols := labelCols labels pre ty) (ecells := fun x => labelCells labels (cell x))
    he (fun x => (ht x).trans (labelCells_text hlab _)) (labelCols_ok hls hty hk)
    (by rw [labelCols_names]; exact labelNames_nodup (catNum_nodup hc) hln hdis)
    (by
      intro a ha
      refine ⟨by simp [labelCols, labelCells], fun c hcm => ?_⟩
      obtain ⟨l, hl, rfl⟩ := List.mem_map.1 hcm
      exact ⟨⟨fun hq => (hcell _ _ _ hq).1 rfl, fun hq => (hcell _ _ _ hq).2.1 rfl⟩, fun x hx => (hcell _ _ x hx).2.2⟩)
    hx
  have hb : ∀ c ∈ labelCols labels pre ty, c.isCat = decide (ty.head? = some '{') := by
    intro c hcm; obtain ⟨l, _, rfl⟩ := List.mem_map.1 hcm; rfl
  have hf := filter_cols_cat hb
  rw [hf.1] at r3
  rw [hf.2] at r4
  have hnames : ∀ b : Bool, (((if b then labelCols labels pre ty else []).map Col.name).filter fun n => decide (n ∉ ls)) = [] := by
    intro b
    cases b
    · rfl
    · rw [if_pos rfl, labelCols_names]; exact filter_labels hm
  have hnames' : ∀ b : Bool, (((if b then [] else labelCols labels pre ty).map Col.name).filter fun n => decide (n ∉ ls)) = [] := by
    intro b
    cases b
    · rw [if_neg (by simp), labelCols_names]; exact filter_labels hm
    · rfl
  have hnot : ∀ n ∈ d.catNames ++ d.numNames, n ∉ ls := by
    intro n hn h
    obtain ⟨k, hk, rfl⟩ := (hm n).1 h
    exact hdis k hk hn
  refine ⟨rh, rd, r1, ?_, ?_, r5, ?_⟩
  · rw [r3, List.filter_append, filter_names (fun l hl hh => hdis l hl (List.mem_append_left _ hh)) hm, hnames, List.append_nil]
  · rw [r4, List.filter_append, filter_names (fun l hl hh => hdis l hl (List.mem_append_right _ hh)) hm, hnames', List.append_nil]
  · intro i a hi
    obtain ⟨q1, q2, q3⟩ := r6 i a hi
    have ha := List.mem_of_getElem? hi
    have hil : i < d.instances.length := (List.getElem?_eq_some_iff.1 hi).1
    have hrf := r2.features i (by rw [r5]; exact List.mem_range.2 hil)
    have hmem : ∀ n, n ∈ (otherFeatures ls (rh i).features).keys ↔ n ∈ d.catNames ++ d.numNames := by
      intro n
      rw [keys_otherFeatures, List.mem_filter, hrf.2, mem_names r2, r3, r4]
      constructor
      · rintro ⟨hn, hnl⟩
        simp only [decide_eq_true_eq] at hnl
        rcases hn with hn | hn
        · rcases List.mem_append.1 hn with hn | hn
          · exact List.mem_append_left _ hn
          · have : n ∈ (((if decide (ty.head? = some '{') then labelCols labels pre ty else []).map Col.name).filter fun n => decide (n ∉ ls)) :=
              List.mem_filter.2 ⟨hn, by simpa using hnl⟩
            rw [hnames] at this; cases this
        · rcases List.mem_append.1 hn with hn | hn
          · exact List.mem_append_right _ hn
          · have : n ∈ (((if decide (ty.head? = some '{') then [] else labelCols labels pre ty).map Col.name).filter fun n => decide (n ∉ ls)) :=
              List.mem_filter.2 ⟨hn, by simpa using hnl⟩
            rw [hnames'] at this; cases this
      · intro hn
        refine ⟨?_, by simpa using hnot n hn⟩
        rcases List.mem_append.1 hn with hn | hn
        · exact .inl (List.mem_append_left _ hn)
        · exact .inr (List.mem_append_left _ hn)
    refine ⟨q1, ?_, ⟨?_, ?_⟩, ?_⟩
    · intro n
      by_cases hn : n ∈ d.catNames ++ d.numNames
      · rw [get?_otherFeatures, if_neg (hnot n hn), q2 n hn, valueOf_get hc ha hn]; rfl
      · rw [Dict.get?_eq_none_iff.2 (fun hh => hn ((hmem n).1 hh)), Dict.get?_eq_none_iff.2]
        · rfl
        · rw [(hc.features a ha).2, mem_names hc, ← List.mem_append]; exact hn
    · rw [keys_otherFeatures]; exact hrf.1.filter _
    · intro n; rw [hmem, mem_keys_new, List.mem_append]
    · intro k hk
      obtain ⟨j, hj⟩ := List.getElem?_of_mem (mem_sortedStrings.2 hk)
      exact q3 j (.plain (cell (h a) k)) ⟨pre ++ k, ty⟩ (by unfold labelCols; rw [List.getElem?_map, hj]; rfl)
        (by unfold labelCells; rw [List.getElem?_map, hj]; rfl)

/-- **C127** (labels): reading the export of a dataset with at least one attribute and at least one label gives the
same attributes, the printed values, the same labels (with the prefix) and for every instance the same set of labels. -/
theorem C127_labels_roundtrip {str : Val → Text} {h : Heap (List String)} {d : LabelDs} (hr : LabelHistory h d)
    (hp : Printable str h d.base) (hne : d.base.catNames ++ d.base.numNames ≠ []) (hlab : d.labels ≠ []) {pre : String}
    (hls : ∀ l ∈ d.labels, Simple (pre ++ l).toList) (hdis : ∀ l ∈ d.labels, pre ++ l ∉ d.base.catNames ++ d.base.numNames)
    {ls : List String} (hm : ∀ l, l ∈ ls ↔ ∃ k ∈ d.labels, l = pre ++ k) {rel t : Text} (hrel : OneLine rel)
    (hx : d.exportArff str h rel pre = .ok t) (h0 : Heap (List String)) {order : List String → List String}
    (ho : ∀ l : List String, (order l).Perm l) :
    ∃ h' d', LabelDs.createFromArff order t ls h0 = .ok (h', d') ∧ LabelHistory h' d' ∧
      d'.base.catNames.Perm d.base.catNames ∧ d'.base.numNames.Perm d.base.numNames ∧
      (∀ l, l ∈ d'.labels ↔ ∃ k ∈ d.labels, l = pre ++ k) ∧ d'.base.instances.length = d.base.instances.length ∧
      ∀ (i a : Nat), d.base.instances[i]? = some a → ∃ b, d'.base.instances[i]? = some b ∧ (h' b).id = .num i ∧
        SamePrinted str (h a) (h' b) ∧ ∀ l, l ∈ (h' b).target ↔ ∃ k ∈ (h a).target, l = pre ++ k := by
  have hc := history_consistent_label hr
  obtain ⟨hln, hlm⟩ := C125_labels hr
  obtain ⟨rh, rd, r1, r2, r3, r4, r5⟩ := labelled_read hc hp hne hln hlab hls hdis hm hrel (ty := "{0,1}".toList) (by decide) (.inl rfl)
    (cell := labelCell) (by
      intro x l
      unfold labelCell
      split <;> decide) (labelCols_lines _ _ _ _ (by decide)) (fun x => rfl) hx
  have hd1 := (List.nodup_append.1 (catNum_nodup hc)).1
  have hd2 := (List.nodup_append.1 (catNum_nodup hc)).2.1
  have hnd : (order d.base.catNames ++ order d.base.numNames).Nodup :=
    ((ho _).append (ho _)).nodup_iff.2 (catNum_nodup hc)
  have hkeys : ∀ n, n ∈ (Dataset.new d.base.catNames d.base.numNames).attrs.keys ↔
      n ∈ (Dataset.new (order d.base.catNames) (order d.base.numNames)).attrs.keys := by
    intro n
    rw [mem_keys_new, mem_keys_new, (ho _).mem_iff, (ho _).mem_iff]
  have hx5 : ∀ i < d.base.instances.length, ∃ a, d.base.instances[i]? = some a := fun i hi => ⟨_, List.getElem?_eq_getElem hi⟩
  have hg : ∀ i a, d.base.instances[i]? = some a → ∀ l ∈ ls, (rh i).features.get? l = some (((rh i).features.get? l).getD (.num 0)) := by
    intro i a hi l hl
    obtain ⟨k, hk, rfl⟩ := (hm l).1 hl
    rw [(r5 i a hi).2.2.2 k hk]; rfl
  let x : Nat → Inst (List String) := fun i => ⟨(rh i).id, otherFeatures ls (rh i).features,
    updateSet [] (ls.filter fun l => decide (((rh i).features.get? l).getD (.num 0) = .num 1 ∨ ((rh i).features.get? l).getD (.num 0) = .str "1"))⟩
  obtain ⟨h', d', c1, c2, c3, c4, c5, c6⟩ := convert_spec (σ := List String) (D := LabelDs) (new := LabelDs.new) (base := LabelDs.base)
    (setBase := fun d b => { d with base := b }) (add := LabelDs.addInstance) label_add (raw := rh) (conv := toLabelInst ls)
    (n := d.base.instances.length) (x := x)
    (fun i hi => by obtain ⟨a, ha⟩ := hx5 i hi; exact toLabelInst_eq (hg i a ha))
    (fun i hi => by obtain ⟨a, ha⟩ := hx5 i hi; exact (r5 i a ha).1)
    (d0 := LabelDs.new (order d.base.catNames) (order d.base.numNames)) (h0 := h0) (.new h0 _ _ hnd) (new_consistent _ hnd) rfl
    (fun i hi => by
      obtain ⟨a, ha⟩ := hx5 i hi
      exact ⟨(r5 i a ha).2.2.1.1, fun n => ((r5 i a ha).2.2.1.2 n).trans (hkeys n)⟩)
  have htarget : ∀ (i a : Nat), d.base.instances[i]? = some a → ∀ l, l ∈ (x i).target ↔ ∃ k ∈ (h a).target, l = pre ++ k := by
    intro i a hi l
    have ha := List.mem_of_getElem? hi
    show l ∈ updateSet [] _ ↔ _
    rw [(mem_updateSet _ _).2]
    simp only [List.not_mem_nil, false_or, List.mem_filter, decide_eq_true_eq]
    constructor
    · rintro ⟨hl, hv⟩
      obtain ⟨k, hk, rfl⟩ := (hm l).1 hl
      rw [(r5 i a hi).2.2.2 k hk] at hv
      refine ⟨k, ?_, rfl⟩
      unfold labelCell at hv
      by_contra hn
      rw [if_neg hn] at hv
      rcases hv with hv | hv
      · cases hv
      · injection hv with hv; exact absurd hv (by decide)
    · rintro ⟨k, hk, rfl⟩
      have hkl : k ∈ d.labels := (hlm k).2 ⟨a, ha, hk⟩
      refine ⟨(hm _).2 ⟨k, hkl, rfl⟩, .inr ?_⟩
      rw [(r5 i a hi).2.2.2 k hkl]
      unfold labelCell
      rw [if_pos hk]; rfl
  refine ⟨h', d', ?_, c2, c4.1 ▸ ho _, c4.2.1 ▸ ho _, ?_, by rw [c5, List.length_range], ?_⟩
  · unfold LabelDs.createFromArff
    rw [r1]
    show List.foldlM _ _ _ = _
    rw [r2, r3, r4, List.dedup_eq_self.2 hd1, List.dedup_eq_self.2 hd2]
    exact c1
  · intro l
    rw [(C125_labels c2).2]
    constructor
    · rintro ⟨i, hi, hl⟩
      rw [c5, List.mem_range] at hi
      obtain ⟨a, ha⟩ := hx5 i hi
      rw [c6 i hi, htarget i a ha] at hl
      obtain ⟨k, hk, rfl⟩ := hl
      exact ⟨k, (hlm k).2 ⟨a, List.mem_of_getElem? ha, hk⟩, rfl⟩
    · rintro ⟨k, hk, rfl⟩
      obtain ⟨a, ha, hka⟩ := (hlm k).1 hk
      obtain ⟨i, hi⟩ := List.getElem?_of_mem ha
      have hil : i < d.base.instances.length := (List.getElem?_eq_some_iff.1 hi).1
      exact ⟨i, by rw [c5]; exact List.mem_range.2 hil, by rw [c6 i hil, htarget i a hi]; exact ⟨k, hka, rfl⟩⟩
  · intro i a hi
    have hil : i < d.base.instances.length := (List.getElem?_eq_some_iff.1 hi).1
    refine ⟨i, by rw [c5, List.getElem?_range hil], ?_, ?_, ?_⟩
    · rw [c6 i hil]; exact (r5 i a hi).1
    · intro n; rw [c6 i hil]; exact (r5 i a hi).2.1 n
    · rw [c6 i hil]; exact htarget i a hi

/-- cells that can be read, after an empty first cell -/
theorem lead_row {e : List Cell} (hne : e ≠ []) (he : ∀ c ∈ e, c.Ok ∧ ∀ x ∈ c.text, isBreak x = false) : RowOk (.plain [] :: e) := by
  obtain ⟨c0, l0, rfl⟩ := List.exists_cons_of_ne_nil hne
  have ht : rowText (.plain [] :: c0 :: l0) = ',' :: rowText (c0 :: l0) := rfl
  refine ⟨?_, by rw [ht]; simp, by rw [ht]; simp, ?_⟩
  · intro c hc
    rcases List.mem_cons.1 hc with rfl | hc
    · exact ⟨by simp, by simp⟩
    · exact (he c hc).1
  · intro x hx
    rw [ht] at hx
    rcases List.mem_cons.1 hx with rfl | hx
    · decide
    · rcases mem_joinText hx with hx | ⟨y, hy, hx⟩
      · rw [List.mem_singleton] at hx; subst hx; decide
      · obtain ⟨c, hc', rfl⟩ := List.mem_map.1 hy
        exact (he c hc').2 x hx

/-- the text of a dataset without attributes: all rows begin with a comma -/
theorem export_no_attributes {σ : Type} {str : Val → Text} {h : Heap σ} {d : Dataset} (hno : d.catNames = [] ∧ d.numNames = [])
    {rel t extra : Text} {target : Inst σ → Text} {ecols : List Col} {ecells : Inst σ → List Cell}
    (he : extra = ecols.flatMap fun c => '\n' :: c.line) (hec : ∀ x, ecells x ≠ []) (ht : ∀ x, target x = ',' :: rowText (ecells x))
    (hx : d.exportWith str h rel extra target = .ok t) :
    t = tableText rel ecols (d.instances.map fun a => .plain [] :: ecells (h a)) := by
  unfold Dataset.exportWith at hx
  obtain ⟨hd, h1, h2⟩ := bindOk hx
  obtain ⟨rows, h3, h4⟩ := bindOk h2
  have h5 : rows = d.instances.map fun a => '\n' :: rowText (.plain [] :: ecells (h a)) := by
    refine mapM_eq_map h3 fun a ha y hy => ?_
    rw [row_eq (fun n hn => by rw [hno.1, hno.2] at hn; cases hn)] at hy
    injection hy with hy
    rw [← hy, ht]
    have : d.cells str (h a) = [] := by unfold Dataset.cells; rw [hno.1, hno.2]; rfl
    rw [this]
    obtain ⟨c0, l0, hc0⟩ := List.exists_cons_of_ne_nil (hec (h a))
    rw [hc0]; rfl
  injection h4 with h4
  have hcols : d.cols str = [] := by unfold Dataset.cols; rw [hno.1, hno.2]; rfl
  rw [← h4, h5, header_eq h1, he, hcols]
  unfold tableText
  rw [List.flatMap_map]
  simp [List.flatMap_def]

/-- **C127** (no labels): the export of a dataset with instances and attributes but without labels cannot be read again:
every row ends with a comma and reading raises an IndexError. -/
theorem C127_no_labels_rejected {str : Val → Text} {h : Heap (List String)} {d : LabelDs} (hr : LabelHistory h d)
    (hp : Printable str h d.base) (hne : d.base.catNames ++ d.base.numNames ≠ []) (hlab : d.labels = [])
    (hinst : d.base.instances ≠ []) {pre : String} {rel t : Text} (hrel : OneLine rel)
    (hx : d.exportArff str h rel pre = .ok t) (ls : List String) (h0 : Heap (List String)) :
    LabelDs.createFromArff order t ls h0 = .error .index := by
  have hc := history_consistent_label hr
  have hx' : d.base.exportWith str h rel [] (fun _ => [',']) = .ok t := by
    have : d.exportArff str h rel pre = d.base.exportWith str h rel [] (fun _ => [',']) := by
      unfold LabelDs.exportArff; rw [hlab]; rfl
    rw [← this]; exact hx
  have he := export_eq hc (ecols := []) (ecells := fun _ => [.plain []]) rfl (fun x => by rw [if_neg (by simp)]; rfl) (.inl hne) hx'
  have := read_table_long (rel := rel) (cols := d.base.cols str ++ []) (rows := d.base.instances.map fun a => d.base.cells str (h a) ++ [.plain []])
    (fun c hcr => notBreak (hrel c hcr)) (by rw [List.append_nil]; exact cols_ok hc hp) (by
      intro r hrm
      obtain ⟨a, ha, rfl⟩ := List.mem_map.1 hrm
      refine ⟨cells_ok hc hp hne ha ?_, ?_⟩
      · intro c hcm
        rw [List.mem_singleton] at hcm
        subst hcm
        exact ⟨⟨by simp, by simp⟩, fun x hx => by cases hx⟩
      · rw [List.append_nil, List.length_append, cells_length]; simp) (by simpa using hinst)
  unfold LabelDs.createFromArff
  rw [he, this]; rfl

/-- **C127** (no attributes): the export of a dataset with labels and instances but without attributes cannot be read
again: every row begins with a comma and reading raises an IndexError. -/
theorem C127_no_attributes_rejected {str : Val → Text} {h : Heap (List String)} {d : LabelDs}
    (hno : d.base.catNames = [] ∧ d.base.numNames = []) (hlab : d.labels ≠ [])
    (hinst : d.base.instances ≠ []) {pre : String} (hls : ∀ l ∈ d.labels, Simple (pre ++ l).toList) {rel t : Text} (hrel : OneLine rel)
    (hx : d.exportArff str h rel pre = .ok t) (ls : List String) (h0 : Heap (List String)) :
    LabelDs.createFromArff order t ls h0 = .error .index := by
  have hsn := sorted_ne_nil hlab
  have hx' : d.base.exportWith str h rel _ _ = .ok t := hx
  have he := export_no_attributes hno (ecols := labelCols d.labels pre "{0,1}".toList) (ecells := fun x => labelCells d.labels (labelCell x))
    (labelCols_lines _ _ _ _ (by decide)) (fun x => by unfold labelCells; simpa using hsn)
    (fun x => (labelCells_text hlab (labelCell x)).trans (if_neg (by unfold labelCells; simpa using hsn))) hx'
  have := read_table_long (rel := rel) (cols := labelCols d.labels pre "{0,1}".toList)
    (rows := d.base.instances.map fun a => .plain [] :: labelCells d.labels (labelCell (h a)))
    (fun c hcr => notBreak (hrel c hcr)) (labelCols_ok hls (by decide) (.inl rfl)) (by
      intro r hrm
      obtain ⟨a, ha, rfl⟩ := List.mem_map.1 hrm
      refine ⟨lead_row (by unfold labelCells; simpa using hsn) ?_, by simp [labelCols, labelCells]⟩
      intro c hcm
      obtain ⟨l, hl, rfl⟩ := List.mem_map.1 hcm
      unfold labelCell
      split
      · exact ⟨show '"' ∉ ['1'] ∧ ',' ∉ ['1'] by decide, show ∀ x ∈ ['1'], isBreak x = false by decide⟩
      · exact ⟨show '"' ∉ ['0'] ∧ ',' ∉ ['0'] by decide, show ∀ x ∈ ['0'], isBreak x = false by decide⟩)
    (by simpa using hinst)
  unfold LabelDs.createFromArff
  rw [he, this]; rfl

/-! ### multisets -/

theorem history_consistent_multiset {h : Heap (Dict String Int)} {d : MultisetDs} (hr : MultisetHistory h d) : Consistent h d.base :=
  (history_inv (τ := Dict String Int) (D := MultisetDs) (new := MultisetDs.new) (base := MultisetDs.base) (setBase := fun d b => { d with base := b })
    (add := MultisetDs.addInstance) (fun _ _ => True) (fun _ _ => rfl) (fun _ _ => rfl)
    (fun h d a d' he => by
      unfold MultisetDs.addInstance at he
      obtain ⟨b, h1, h2⟩ := bindOk he
      injection h2 with h2; rw [h1, ← h2])
    (fun _ _ => trivial) (fun _ _ _ _ => trivial) (fun _ _ _ _ _ _ _ => trivial) hr).1

theorem multiset_add (h : Heap (Dict String Int)) (d : MultisetDs) (a : Nat) (b : Dataset) (hb : d.base.addInstance h a = .ok b) :
    ∃ d', MultisetDs.addInstance h d a = .ok d' ∧ d'.base = b :=
  ⟨⟨b, Data.maxCounts d.maxCounts (h a).target, addCounts d.counts (h a).target⟩, by unfold MultisetDs.addInstance; rw [hb]; rfl, rfl⟩

theorem foldlM_multiset {x : Inst Unit} {g : String → Int} : ∀ (ls : List String) (m : Dict String Int),
    (∀ l ∈ ls, x.features.get? l = some (.str (String.ofList (intText (g l))))) →
    ∃ m', ls.foldlM (multisetStep x) m = .ok m' ∧ ∀ l, m'.get? l = if l ∈ ls then some (g l) else m.get? l
  | [], m, _ => ⟨m, rfl, fun l => by simp⟩
  | a :: ls, m, h => by
    have h1 : multisetStep x m a = .ok (m.put a (g a)) := by
      unfold multisetStep
      rw [getItem_some (h a List.mem_cons_self)]
      show (pyInt (String.ofList (intText (g a))).toList >>= _ : Py _) = _
      rw [String.toList_ofList, pyInt_intText]; rfl
    obtain ⟨m', h2, h3⟩ := foldlM_multiset ls (m.put a (g a)) fun l hl => h l (List.mem_cons_of_mem _ hl)
    refine ⟨m', by rw [List.foldlM_cons, h1]; exact h2, fun l => ?_⟩
    rw [h3]
    by_cases hl : l ∈ ls
    · simp [hl]
    · by_cases hla : l = a
      · subst hla; simp [hl, Dict.get?_put_self]
      · rw [if_neg hl, Dict.get?_put, if_neg (fun e => hla e.symm)]; simp [hl, hla]

/-- **C127** (multisets): reading the export of a dataset with at least one attribute and at least one class gives the
same attributes, the printed values, the same classes (with the prefix) and for every instance the same multiset,
where classes which do not occur in an instance have the explicit count 0. -/
theorem C127_multisets_roundtrip {str : Val → Text} {h : Heap (Dict String Int)} {d : MultisetDs} (hr : MultisetHistory h d)
    (hp : Printable str h d.base) (hne : d.base.catNames ++ d.base.numNames ≠ []) (hlab : d.classes ≠ []) {pre : String}
    (hls : ∀ l ∈ d.classes, Simple (pre ++ l).toList) (hdis : ∀ l ∈ d.classes, pre ++ l ∉ d.base.catNames ++ d.base.numNames)
    {ls : List String} (hm : ∀ l, l ∈ ls ↔ ∃ k ∈ d.classes, l = pre ++ k) {rel t : Text} (hrel : OneLine rel)
    (hx : d.exportArff str h rel pre = .ok t) (h0 : Heap (Dict String Int)) {order : List String → List String}
    (ho : ∀ l : List String, (order l).Perm l) :
    ∃ h' d', MultisetDs.createFromArff order t ls h0 = .ok (h', d') ∧ MultisetHistory h' d' ∧
      d'.base.catNames.Perm d.base.catNames ∧ d'.base.numNames.Perm d.base.numNames ∧
      (∀ l, l ∈ d'.classes ↔ ∃ k ∈ d.classes, l = pre ++ k) ∧ d'.base.instances.length = d.base.instances.length ∧
      ∀ (i a : Nat), d.base.instances[i]? = some a → ∃ b, d'.base.instances[i]? = some b ∧ (h' b).id = .num i ∧
        SamePrinted str (h a) (h' b) ∧ (∀ k ∈ d.classes, (h' b).target.get? (pre ++ k) = some (((h a).target.get? k).getD 0)) ∧
        ∀ l, l ∈ (h' b).target.keys ↔ l ∈ ls := by
  have hc := history_consistent_multiset hr
  obtain ⟨hln, hlm⟩ := C125_multiset_classes hr
  obtain ⟨rh, rd, r1, r2, r3, r4, r5⟩ := labelled_read hc hp hne hln hlab hls hdis hm hrel (ty := "NUMERIC".toList) (by decide) (.inr rfl)
    (cell := fun x l => intText ((x.target.get? l).getD 0)) (by
      intro x l c hcm
      rcases intText_chars hcm with rfl | hd
      · decide
      · refine ⟨?_, ?_, digit_notBreak hd⟩
        · rintro rfl; cases hd
        · rintro rfl; cases hd)
    (extra := (sortedStrings d.classes).flatMap fun l => numLine (pre ++ l).toList)
    (labelCols_lines d.classes pre "NUMERIC".toList " NUMERIC".toList (by decide)) (fun x => rfl) hx
  have hd1 := (List.nodup_append.1 (catNum_nodup hc)).1
  have hd2 := (List.nodup_append.1 (catNum_nodup hc)).2.1
  have hnd : (order d.base.catNames ++ order d.base.numNames).Nodup :=
    ((ho _).append (ho _)).nodup_iff.2 (catNum_nodup hc)
  have hkeys : ∀ n, n ∈ (Dataset.new d.base.catNames d.base.numNames).attrs.keys ↔
      n ∈ (Dataset.new (order d.base.catNames) (order d.base.numNames)).attrs.keys := by
    intro n
    rw [mem_keys_new, mem_keys_new, (ho _).mem_iff, (ho _).mem_iff]
  have hx5 : ∀ i < d.base.instances.length, ∃ a, d.base.instances[i]? = some a := fun i hi => ⟨_, List.getElem?_eq_getElem hi⟩
  have hg : ∀ i, ∃ m : Dict String Int, ∀ a, d.base.instances[i]? = some a → ls.foldlM (multisetStep (rh i)) [] = .ok m ∧
      (∀ k ∈ d.classes, m.get? (pre ++ k) = some (((h a).target.get? k).getD 0)) ∧ ∀ l, l ∈ m.keys ↔ l ∈ ls := by
    intro i
    cases hi : d.base.instances[i]? with
    | none => exact ⟨[], fun a ha => by cases ha⟩
    | some a =>
      let g : String → Int := fun l => ((h a).target.get? (String.ofList (l.toList.drop pre.toList.length))).getD 0
      have hdrop : ∀ k : String, String.ofList ((pre ++ k).toList.drop pre.toList.length) = k := by
        intro k
        rw [String.toList_append, List.drop_left, String.ofList_toList]
      obtain ⟨m, h1, h2⟩ := foldlM_multiset (x := rh i) (g := g) ls [] (by
        intro l hl
        obtain ⟨k, hk, rfl⟩ := (hm l).1 hl
        rw [(r5 i a hi).2.2.2 k hk]
        show _ = some (Val.str (String.ofList (intText (((h a).target.get? (String.ofList ((pre ++ k).toList.drop pre.toList.length))).getD 0))))
        rw [hdrop])
      refine ⟨m, fun b hb => ?_⟩
      cases hb
      refine ⟨h1, ?_, ?_⟩
      · intro k hk
        rw [h2, if_pos ((hm _).2 ⟨k, hk, rfl⟩)]
        show some (((h a).target.get? (String.ofList ((pre ++ k).toList.drop pre.toList.length))).getD 0) = _
        rw [hdrop]
      · intro l
        rw [Dict.mem_keys_iff, h2]
        by_cases hl : l ∈ ls
        · simp [hl]
        · simp [hl, Dict.get?]
  choose M hM using hg
  let x : Nat → Inst (Dict String Int) := fun i => ⟨(rh i).id, otherFeatures ls (rh i).features, M i⟩
  obtain ⟨h', d', c1, c2, c3, c4, c5, c6⟩ := convert_spec (σ := Dict String Int) (D := MultisetDs) (new := MultisetDs.new) (base := MultisetDs.base)
    (setBase := fun d b => { d with base := b }) (add := MultisetDs.addInstance) multiset_add (raw := rh) (conv := toMultisetInst ls)
    (n := d.base.instances.length) (x := x)
    (fun i hi => by
      obtain ⟨a, ha⟩ := hx5 i hi
      unfold toMultisetInst
      rw [(hM i a ha).1]; rfl)
    (fun i hi => by obtain ⟨a, ha⟩ := hx5 i hi; exact (r5 i a ha).1)
    (d0 := MultisetDs.new (order d.base.catNames) (order d.base.numNames)) (h0 := h0) (.new h0 _ _ hnd) (new_consistent _ hnd) rfl
    (fun i hi => by
      obtain ⟨a, ha⟩ := hx5 i hi
      exact ⟨(r5 i a ha).2.2.1.1, fun n => ((r5 i a ha).2.2.1.2 n).trans (hkeys n)⟩)
  refine ⟨h', d', ?_, c2, c4.1 ▸ ho _, c4.2.1 ▸ ho _, ?_, by rw [c5, List.length_range], ?_⟩
  · unfold MultisetDs.createFromArff
    rw [r1]
    show List.foldlM _ _ _ = _
    rw [r2, r3, r4, List.dedup_eq_self.2 hd1, List.dedup_eq_self.2 hd2]
    exact c1
  · intro l
    rw [(C125_multiset_classes c2).2]
    constructor
    · rintro ⟨i, hi, hl⟩
      rw [c5, List.mem_range] at hi
      obtain ⟨a, ha⟩ := hx5 i hi
      rw [c6 i hi] at hl
      exact (hm l).1 (((hM i a ha).2.2 l).1 hl)
    · rintro ⟨k, hk, rfl⟩
      obtain ⟨a, ha, hka⟩ := (hlm k).1 hk
      obtain ⟨i, hi⟩ := List.getElem?_of_mem ha
      have hil : i < d.base.instances.length := (List.getElem?_eq_some_iff.1 hi).1
      exact ⟨i, by rw [c5]; exact List.mem_range.2 hil, by rw [c6 i hil]; exact ((hM i a hi).2.2 _).2 ((hm _).2 ⟨k, hk, rfl⟩)⟩
  · intro i a hi
    have hil : i < d.base.instances.length := (List.getElem?_eq_some_iff.1 hi).1
    refine ⟨i, by rw [c5, List.getElem?_range hil], ?_, ?_, ?_, ?_⟩
    · rw [c6 i hil]; exact (r5 i a hi).1
    · intro n; rw [c6 i hil]; exact (r5 i a hi).2.1 n
    · rw [c6 i hil]; exact (hM i a hi).2.1
    · rw [c6 i hil]; exact (hM i a hi).2.2

/-! ### sequences -/

theorem history_consistent_seq {h : Heap (List String)} {d : SeqDs} (hr : SeqHistory h d) : Consistent h d.base :=
  (history_inv (τ := List String) (D := SeqDs) (new := SeqDs.new) (base := SeqDs.base) (setBase := fun d b => { d with base := b })
    (add := SeqDs.addInstance) (fun _ _ => True) (fun _ _ => rfl) (fun _ _ => rfl)
    (fun h d a d' he => by
      unfold SeqDs.addInstance at he
      obtain ⟨b, h1, h2⟩ := bindOk he
      injection h2 with h2; rw [h1, ← h2])
    (fun _ _ => trivial) (fun _ _ _ _ => trivial) (fun _ _ _ _ _ _ _ => trivial) hr).1

theorem seq_add (h : Heap (List String)) (d : SeqDs) (a : Nat) (b : Dataset) (hb : d.base.addInstance h a = .ok b) :
    ∃ d', SeqDs.addInstance h d a = .ok d' ∧ d'.base = b :=
  ⟨⟨b, updateSet d.symbols (h a).target⟩, by unfold SeqDs.addInstance; rw [hb]; rfl, rfl⟩

/-- the new dataset after removing the attribute of the sequences -/
theorem remove_new {σ : Type} (h : Heap σ) {cat num : List String} {name : String} (hn : (cat ++ [name] ++ num).Nodup) :
    ∃ b, (Dataset.new (cat ++ [name]) num).removeAttribute h name = .ok (h, b) ∧ b.catNames = cat ∧ b.numNames = num ∧ b.instances = [] := by
  have hcat : name ∉ cat := by
    intro hh
    exact (List.nodup_append.1 (List.nodup_append.1 hn).1).2.2 name hh name (by simp) rfl
  have hnum : name ∉ num := fun hh => (List.nodup_append.1 hn).2.2 name (by simp) name hh rfl
  refine ⟨{ (Dataset.new (cat ++ [name]) num) with attrs := (Dataset.new (cat ++ [name]) num).attrs.del name, catNames := cat }, ?_, rfl, rfl, rfl⟩
  unfold Dataset.removeAttribute
  rw [getItem_some (v := ⟨true, []⟩) (by rw [get?_new, if_neg hnum, if_pos (by simp)])]
  show (listRemove (cat ++ [name]) name >>= _ : Py _) = _
  rw [listRemove, if_pos (by simp), List.erase_append_right _ hcat]
  simp only [List.erase_cons_head, List.append_nil]
  rfl

theorem toSeqInst_eq {name : String} {x : Inst Unit} {J : Text} (hJ : PlainSymbol J)
    (hv : x.features.get? name = some (.str (String.ofList (['['] ++ J ++ [']'])))) :
    toSeqInst name x = .ok ⟨x.id, x.features.del name, (splitChar ',' J).map String.ofList⟩ := by
  have h1 : stripChars ['"', '[', ']'] (['['] ++ J ++ [']']) = J := by
    rw [List.singleton_append, stripChars_wrap (by simp) (by simp), stripChars_id]
    · intro c hcm hbad
      obtain ⟨k1, _, k3, k4, _⟩ := hJ c (List.mem_of_mem_head? hcm)
      simp only [List.mem_cons, List.not_mem_nil, or_false] at hbad
      rcases hbad with hb | hb | hb
      · exact k1 hb
      · exact k3 hb
      · exact k4 hb
    · intro c hcm hbad
      obtain ⟨k1, _, k3, k4, _⟩ := hJ c (List.mem_of_mem_getLast? hcm)
      simp only [List.mem_cons, List.not_mem_nil, or_false] at hbad
      rcases hbad with hb | hb | hb
      · exact k1 hb
      · exact k3 hb
      · exact k4 hb
  unfold toSeqInst
  rw [getItem_some hv]
  show (Except.ok (⟨x.id, x.features.del name, (splitChar ',' (stripChars ['"', '[', ']'] (String.ofList (['['] ++ J ++ [']'])).toList)).map String.ofList⟩ : Inst (List String)) : Py _) = _
  rw [String.toList_ofList, h1]

/-- what is read from the export of a dataset with target sequences and at least one attribute: the attributes
and the printed values; the sequences are written with the separator `sep`, but they are always split at commas. -/
theorem sequences_read {str : Val → Text} {h : Heap (List String)} {d : SeqDs} (hr : SeqHistory h d)
    (hp : Printable str h d.base) (hne : d.base.catNames ++ d.base.numNames ≠ []) {name : String} (hname : Simple name.toList)
    (hfresh : name ∉ d.base.catNames ++ d.base.numNames) {sep : Text} (hsep : PlainSymbol sep)
    (hsym : ∀ a ∈ d.base.instances, ∀ x ∈ (h a).target, PlainSymbol x.toList) {sorted : List (List String)}
    (hsort : sorted.Perm (d.uniqueSequences h)) {rel t : Text} (hrel : OneLine rel)
    (hx : d.exportArff str h rel name.toList sep sorted = .ok t) (h0 : Heap (List String)) :
    ∃ h' d', SeqDs.createFromArff t name h0 = .ok (h', d') ∧ SeqHistory h' d' ∧
      d'.base.catNames = d.base.catNames ∧ d'.base.numNames = d.base.numNames ∧ d'.base.instances.length = d.base.instances.length ∧
      ∀ (i a : Nat), d.base.instances[i]? = some a → ∃ b, d'.base.instances[i]? = some b ∧ (h' b).id = .num i ∧
        SamePrinted str (h a) (h' b) ∧
        (h' b).target = (splitChar ',' (joinText sep ((h a).target.map String.toList))).map String.ofList := by
  have hc := history_consistent_seq hr
  have hseq : ∀ a ∈ d.base.instances, PlainSymbol (joinText sep ((h a).target.map String.toList)) := by
    intro a ha c hcm
    rcases mem_joinText hcm with hcm | ⟨x, hxm, hcm⟩
    · exact hsep c hcm
    · obtain ⟨y, hy, rfl⟩ := List.mem_map.1 hxm
      exact hsym a ha y hy c hcm
  have hsorted : ∀ s ∈ sorted, ∃ a ∈ d.base.instances, (h a).target = s := by
    intro s hs
    exact ((C125_unique_sequences h d).2 s).1 (hsort.mem_iff.1 hs)
  let ty : Text := '{' :: (joinText [','] (sorted.map (seqText sep)) ++ ['}'])
  have hx' : d.base.exportWith str h rel _ _ = .ok t := hx
  obtain ⟨rh, rd, r1, r2, r3, r4, r5, r6⟩ := read_export hc hp hne hrel
    (ecols := [⟨name, ty⟩]) (ecells := fun x => [.quoted (['['] ++ joinText sep (x.target.map String.toList) ++ [']'])])
    (by
      rw [List.flatMap_cons, List.flatMap_nil, List.append_nil, ← line_eq]
      simp [ty])
    (fun x => by rw [if_neg (by simp)]; rfl)
    (by
      intro c hcm
      rw [List.mem_singleton] at hcm
      subst hcm
      refine ⟨fun x hxm => ?_, ?_, .inl rfl⟩
      · obtain ⟨k1, k2, k3⟩ := hname x hxm
        exact ⟨k1, k2, notBreak k3⟩
      · intro x hxm
        rcases List.mem_cons.1 hxm with rfl | hxm
        · decide
        · rcases List.mem_append.1 hxm with hxm | hxm
          · rcases mem_joinText hxm with hxm | ⟨y, hy, hxm⟩
            · rw [List.mem_singleton] at hxm; subst hxm; decide
            · obtain ⟨s, hs, rfl⟩ := List.mem_map.1 hy
              obtain ⟨a, ha, rfl⟩ := hsorted s hs
              rcases quoted_mem.1 hxm with rfl | hxm
              · decide
              · rcases List.mem_append.1 hxm with hxm | hxm
                · rcases List.mem_append.1 hxm with hxm | hxm
                  · rw [List.mem_singleton] at hxm; subst hxm; decide
                  · obtain ⟨_, k2, _, _, k5⟩ := hseq a ha x hxm
                    exact ⟨k2, notBreak k5⟩
                · rw [List.mem_singleton] at hxm; subst hxm; decide
          · rw [List.mem_singleton] at hxm; subst hxm; decide)
    (by
      refine List.nodup_append.2 ⟨catNum_nodup hc, by simp, ?_⟩
      rintro x hxm y hym rfl
      simp only [List.map_cons, List.map_nil, List.mem_singleton] at hym
      subst hym
      exact hfresh hxm)
    (by
      intro a ha
      refine ⟨rfl, fun c hcm => ?_⟩
      rw [List.mem_singleton] at hcm
      subst hcm
      have hall : ∀ x ∈ ['['] ++ joinText sep ((h a).target.map String.toList) ++ [']'], x ≠ '"' ∧ isBreak x = false := by
        intro x hxm
        rcases List.mem_append.1 hxm with hxm | hxm
        · rcases List.mem_append.1 hxm with hxm | hxm
          · rw [List.mem_singleton] at hxm; subst hxm; decide
          · obtain ⟨k1, _, _, _, k5⟩ := hseq a ha x hxm
            exact ⟨k1, notBreak k5⟩
        · rw [List.mem_singleton] at hxm; subst hxm; decide
      refine ⟨fun hq => (hall _ hq).1 rfl, fun x hxm => ?_⟩
      rcases quoted_mem.1 hxm with rfl | hxm
      · decide
      · exact (hall x hxm).2)
    hx'
  have r3' : rd.catNames = d.base.catNames ++ [name] := r3
  have r4' : rd.numNames = d.base.numNames := by rw [r4]; simp [Col.isCat, ty]
  have hnd : (d.base.catNames ++ [name] ++ d.base.numNames).Nodup := by
    have : (d.base.catNames ++ [name] ++ d.base.numNames).Perm (d.base.catNames ++ d.base.numNames ++ [name]) := by
      rw [List.append_assoc, List.append_assoc]
      exact List.Perm.append_left _ List.perm_append_comm
    rw [this.nodup_iff]
    refine List.nodup_append.2 ⟨catNum_nodup hc, by simp, ?_⟩
    rintro x hxm y hym rfl
    rw [List.mem_singleton] at hym
    subst hym
    exact hfresh hxm
  obtain ⟨b0, e1, e2, e3, e4⟩ := remove_new h0 hnd
  have hhist : SeqHistory h0 ⟨b0, []⟩ := .remove (.new h0 _ _ hnd) e1
  have hb0 := history_consistent_seq hhist
  have hx5 : ∀ i < d.base.instances.length, ∃ a, d.base.instances[i]? = some a := fun i hi => ⟨_, List.getElem?_eq_getElem hi⟩
  have hfeat : ∀ i < d.base.instances.length, (rh i).features.keys.Nodup ∧ ∀ n, n ∈ (rh i).features.keys ↔ n = name ∨ n ∈ d.base.catNames ++ d.base.numNames := by
    intro i hi
    have := r2.features i (by rw [r5]; exact List.mem_range.2 hi)
    refine ⟨this.1, fun n => ?_⟩
    rw [this.2, mem_names r2, r3', r4']
    simp only [List.mem_append, List.mem_singleton]
    tauto
  let x : Nat → Inst (List String) := fun i => ⟨(rh i).id, (rh i).features.del name,
    match d.base.instances[i]? with
    | some a => (splitChar ',' (joinText sep ((h a).target.map String.toList))).map String.ofList
    | none => []⟩
  obtain ⟨h', d', c1, c2, c3, c4, c5, c6⟩ := convert_spec (σ := List String) (D := SeqDs) (new := SeqDs.new) (base := SeqDs.base)
    (setBase := fun d b => { d with base := b }) (add := SeqDs.addInstance) seq_add (raw := rh) (conv := toSeqInst name)
    (n := d.base.instances.length) (x := x)
    (fun i hi => by
      obtain ⟨a, ha⟩ := hx5 i hi
      have hv := (r6 i a ha).2.2 0 _ _ rfl rfl
      have := toSeqInst_eq (hseq a (List.mem_of_getElem? ha)) hv
      rw [this]
      simp only [x, ha])
    (fun i hi => by obtain ⟨a, ha⟩ := hx5 i hi; exact (r6 i a ha).1)
    (d0 := ⟨b0, []⟩) (h0 := h0) hhist hb0 e4
    (fun i hi => by
      obtain ⟨f1, f2⟩ := hfeat i hi
      have hwf : (rh i).features.WF := f1
      refine ⟨hwf.del name, fun n => ?_⟩
      show n ∈ ((rh i).features.del name).keys ↔ n ∈ b0.attrs.keys
      rw [mem_names hb0]
      show _ ↔ n ∈ b0.catNames ∨ n ∈ b0.numNames
      rw [e2, e3, ← List.mem_append, Dict.mem_keys_iff, Dict.get?_del hwf]
      by_cases hnn : n = name
      · subst hnn; simp only [List.mem_append] at hfresh; simp [hfresh]
      · have h1 := f2 n
        rw [Dict.mem_keys_iff] at h1
        have hnn' : name ≠ n := fun e => hnn e.symm
        simp only [hnn, false_or] at h1
        simp only [hnn', if_false]
        exact h1)
  refine ⟨h', d', ?_, c2, c4.1.trans e2, c4.2.1.trans e3, by rw [c5, List.length_range], ?_⟩
  · unfold SeqDs.createFromArff
    rw [r1]
    show (Dataset.removeAttribute h0 (Dataset.new rd.catNames rd.numNames) name >>= _ : Py _) = _
    rw [r3', r4', e1]
    show List.foldlM _ _ _ = _
    rw [r5]
    exact c1
  · intro i a hi
    have ha := List.mem_of_getElem? hi
    have hil : i < d.base.instances.length := (List.getElem?_eq_some_iff.1 hi).1
    refine ⟨i, by rw [c5, List.getElem?_range hil], ?_, ?_, ?_⟩
    · rw [c6 i hil]; exact (r6 i a hi).1
    · intro n
      rw [c6 i hil]
      show ((rh i).features.del name).get? n = _
      obtain ⟨f1, f2⟩ := hfeat i hil
      rw [Dict.get?_del f1]
      by_cases hn : n ∈ d.base.catNames ++ d.base.numNames
      · have hnn : name ≠ n := by rintro rfl; exact hfresh hn
        simp only [hnn, if_false]
        rw [(r6 i a hi).2.1 n hn, valueOf_get hc ha hn]; rfl
      · have e5 : (h a).features.get? n = none := by
          rw [Dict.get?_eq_none_iff, (hc.features a ha).2, mem_names hc, ← List.mem_append]; exact hn
        rw [e5]
        split
        · rfl
        · next hnn =>
          rw [Dict.get?_eq_none_iff.2]
          · rfl
          · rw [f2, not_or]; exact ⟨fun e => hnn (by first | exact e | exact e.symm), hn⟩
    · rw [c6 i hil]; simp only [x, hi]

/-- what the read dataset `(h', d')` has in common with the written dataset `(h, d)`; the targets are described by `R` -/
def ReadAs (str : Val → Text) (h : Heap (List String)) (d : SeqDs) (h' : Heap (List String)) (d' : SeqDs)
    (R : List String → List String → Prop) : Prop :=
  SeqHistory h' d' ∧ d'.base.catNames = d.base.catNames ∧ d'.base.numNames = d.base.numNames ∧
  d'.base.instances.length = d.base.instances.length ∧
  ∀ (i a : Nat), d.base.instances[i]? = some a → ∃ b, d'.base.instances[i]? = some b ∧ (h' b).id = .num i ∧
    SamePrinted str (h a) (h' b) ∧ R (h a).target (h' b).target

theorem comma_plain : PlainSymbol [','] := by
  intro c hc
  rw [List.mem_singleton] at hc
  subst hc
  refine ⟨by decide, by decide, by decide, by decide, fun hb => ?_⟩
  rw [← isBreak_iff] at hb
  revert hb; decide

/-- **C127** (sequences, round trip): if the sequences are written with a comma as separator, reading gives the same
attributes, the printed values and the same sequences, provided that no sequence is empty and no symbol contains a comma. -/
theorem C127_sequences_roundtrip {str : Val → Text} {h : Heap (List String)} {d : SeqDs} (hr : SeqHistory h d)
    (hp : Printable str h d.base) (hne : d.base.catNames ++ d.base.numNames ≠ []) {name : String} (hname : Simple name.toList)
    (hfresh : name ∉ d.base.catNames ++ d.base.numNames)
    (hsym : ∀ a ∈ d.base.instances, (h a).target ≠ [] ∧ ∀ x ∈ (h a).target, PlainSymbol x.toList ∧ ',' ∉ x.toList) {sorted : List (List String)}
    (hsort : sorted.Perm (d.uniqueSequences h)) {rel t : Text} (hrel : OneLine rel)
    (hx : d.exportArff str h rel name.toList [','] sorted = .ok t) (h0 : Heap (List String)) :
    ∃ h' d', SeqDs.createFromArff t name h0 = .ok (h', d') ∧ ReadAs str h d h' d' fun s s' => s' = s := by
  obtain ⟨h', d', r1, r2, r3, r4, r5, r6⟩ := sequences_read hr hp hne hname hfresh comma_plain
    (fun a ha x hxm => ((hsym a ha).2 x hxm).1) hsort hrel hx h0
  refine ⟨h', d', r1, r2, r3, r4, r5, fun i a hi => ?_⟩
  obtain ⟨b, b1, b2, b3, b4⟩ := r6 i a hi
  refine ⟨b, b1, b2, b3, ?_⟩
  have hsa := hsym a (List.mem_of_getElem? hi)
  rw [b4, splitChar_join (by simpa using hsa.1), List.map_map]
  · simp [Function.comp_def, String.ofList_toList]
  · intro s hs
    obtain ⟨x, hxm, rfl⟩ := List.mem_map.1 hs
    exact (hsa.2 x hxm).2

/-- **C127** (default separator): sequences which are written with the default separator `;` (or any other text without a
comma) are not split: every sequence becomes a sequence with a single symbol. -/
theorem C127_default_separator {str : Val → Text} {h : Heap (List String)} {d : SeqDs} (hr : SeqHistory h d)
    (hp : Printable str h d.base) (hne : d.base.catNames ++ d.base.numNames ≠ []) {name : String} (hname : Simple name.toList)
    (hfresh : name ∉ d.base.catNames ++ d.base.numNames) {sep : Text} (hsep : PlainSymbol sep ∧ ',' ∉ sep)
    (hsym : ∀ a ∈ d.base.instances, ∀ x ∈ (h a).target, PlainSymbol x.toList ∧ ',' ∉ x.toList) {sorted : List (List String)}
    (hsort : sorted.Perm (d.uniqueSequences h)) {rel t : Text} (hrel : OneLine rel)
    (hx : d.exportArff str h rel name.toList sep sorted = .ok t) (h0 : Heap (List String)) :
    ∃ h' d', SeqDs.createFromArff t name h0 = .ok (h', d') ∧
      ReadAs str h d h' d' fun s s' => s' = [String.ofList (joinText sep (s.map String.toList))] := by
  obtain ⟨h', d', r1, r2, r3, r4, r5, r6⟩ := sequences_read hr hp hne hname hfresh hsep.1
    (fun a ha x hxm => (hsym a ha x hxm).1) hsort hrel hx h0
  refine ⟨h', d', r1, r2, r3, r4, r5, fun i a hi => ?_⟩
  obtain ⟨b, b1, b2, b3, b4⟩ := r6 i a hi
  refine ⟨b, b1, b2, b3, ?_⟩
  have hsa := hsym a (List.mem_of_getElem? hi)
  rw [b4, splitChar_ne]
  · rfl
  · intro hcm
    rcases mem_joinText hcm with hcm | ⟨s, hs, hcm⟩
    · exact hsep.2 hcm
    · obtain ⟨x, hxm, rfl⟩ := List.mem_map.1 hs
      exact (hsa x hxm).2 hcm

/-- **C127** (empty sequences): an empty sequence becomes the sequence with the empty symbol. -/
theorem C127_empty_sequence {str : Val → Text} {h : Heap (List String)} {d : SeqDs} (hr : SeqHistory h d)
    (hp : Printable str h d.base) (hne : d.base.catNames ++ d.base.numNames ≠ []) {name : String} (hname : Simple name.toList)
    (hfresh : name ∉ d.base.catNames ++ d.base.numNames) {sep : Text} (hsep : PlainSymbol sep)
    (hsym : ∀ a ∈ d.base.instances, ∀ x ∈ (h a).target, PlainSymbol x.toList) {sorted : List (List String)}
    (hsort : sorted.Perm (d.uniqueSequences h)) {rel t : Text} (hrel : OneLine rel)
    (hx : d.exportArff str h rel name.toList sep sorted = .ok t) (h0 : Heap (List String)) :
    ∃ h' d', SeqDs.createFromArff t name h0 = .ok (h', d') ∧ ReadAs str h d h' d' fun s s' => s = [] → s' = [""] := by
  obtain ⟨h', d', r1, r2, r3, r4, r5, r6⟩ := sequences_read hr hp hne hname hfresh hsep hsym hsort hrel hx h0
  refine ⟨h', d', r1, r2, r3, r4, r5, fun i a hi => ?_⟩
  obtain ⟨b, b1, b2, b3, b4⟩ := r6 i a hi
  refine ⟨b, b1, b2, b3, fun hs => ?_⟩
  rw [b4, hs]; rfl

/-! ### classes -/

/-- **C127** (classes): reading the export of a classification dataset as a plain dataset gives the attributes, a
further categorical attribute with the given name, and for every instance the printed values and the class. -/
theorem C127_class_column {str : Val → Text} {h : Heap String} {d : ClassDs} {late : Bool} {asked : List String}
    (hr : ClassHistory late h d asked)
    (hp : Printable str h d.base) (hne : d.base.catNames ++ d.base.numNames ≠ []) {name : String} (hname : Simple name.toList)
    (hfresh : name ∉ d.base.catNames ++ d.base.numNames) (hcls : ∀ c ∈ d.classes, Simple c.toList)
    {rel t : Text} (hrel : OneLine rel) (hx : d.exportArff str h rel name.toList = .ok t) :
    ∃ h' d', createFromArff t = .ok (h', d') ∧ Consistent h' d' ∧ d'.catNames = d.base.catNames ++ [name] ∧
      d'.numNames = d.base.numNames ∧ d'.instances.length = d.base.instances.length ∧
      ∀ (i a : Nat), d.base.instances[i]? = some a → ∃ b, d'.instances[i]? = some b ∧ (h' b).id = .num i ∧
        (∀ n v, (h a).features.get? n = some v → (h' b).features.get? n = some (.str (String.ofList (str v)))) ∧
        (h' b).features.get? name = some (.str (h a).target) := by
  have hc : Consistent h d.base := (classInv_history hr).base
  have hcl : ∀ a ∈ d.base.instances, Simple (h a).target.toList := fun a ha =>
    hcls _ (((C124_class_counts hr).2 _).2 (.inl ⟨a, ha, rfl⟩))
  let ty : Text := '{' :: (joinText [','] ((sortedStrings d.classes).map fun c => quoted c.toList) ++ ['}'])
  have hx' : d.base.exportWith str h rel _ _ = .ok t := hx
  obtain ⟨rh, rd, r1, r2, r3, r4, r5, r6⟩ := read_export hc hp hne hrel
    (ecols := [⟨name, ty⟩]) (ecells := fun x => [.quoted x.target.toList])
    (by
      rw [List.flatMap_cons, List.flatMap_nil, List.append_nil, ← line_eq]
      simp [ty])
    (fun x => by rw [if_neg (by simp)]; rfl)
    (by
      intro c hcm
      rw [List.mem_singleton] at hcm
      subst hcm
      refine ⟨fun x hxm => ?_, ?_, .inl rfl⟩
      · obtain ⟨k1, k2, k3⟩ := hname x hxm
        exact ⟨k1, k2, notBreak k3⟩
      · intro x hxm
        rcases List.mem_cons.1 hxm with rfl | hxm
        · decide
        · rcases List.mem_append.1 hxm with hxm | hxm
          · rcases mem_joinText hxm with hxm | ⟨y, hy, hxm⟩
            · rw [List.mem_singleton] at hxm; subst hxm; decide
            · obtain ⟨s, hs, rfl⟩ := List.mem_map.1 hy
              rcases quoted_mem.1 hxm with rfl | hxm
              · decide
              · obtain ⟨_, k2, k3⟩ := hcls s (mem_sortedStrings.1 hs) x hxm
                exact ⟨k2, notBreak k3⟩
          · rw [List.mem_singleton] at hxm; subst hxm; decide)
    (by
      refine List.nodup_append.2 ⟨catNum_nodup hc, by simp, ?_⟩
      rintro x hxm y hym rfl
      simp only [List.map_cons, List.map_nil, List.mem_singleton] at hym
      subst hym
      exact hfresh hxm)
    (by
      intro a ha
      refine ⟨rfl, fun c hcm => ?_⟩
      rw [List.mem_singleton] at hcm
      subst hcm
      refine ⟨fun hq => (hcl a ha _ hq).1 rfl, fun x hxm => ?_⟩
      rcases quoted_mem.1 hxm with rfl | hxm
      · decide
      · exact notBreak (hcl a ha x hxm).2.2)
    hx'
  refine ⟨rh, rd, r1, r2, r3, by rw [r4]; simp [Col.isCat, ty], by rw [r5, List.length_range], fun i a hi => ?_⟩
  have ha := List.mem_of_getElem? hi
  have hil : i < d.base.instances.length := (List.getElem?_eq_some_iff.1 hi).1
  obtain ⟨q1, q2, q3⟩ := r6 i a hi
  refine ⟨i, by rw [r5, List.getElem?_range hil], q1, ?_, ?_⟩
  · intro n v hv
    have hn : n ∈ d.base.catNames ++ d.base.numNames := by
      rw [List.mem_append, ← mem_names hc, ← (hc.features a ha).2, Dict.mem_keys_iff]; exact ⟨v, hv⟩
    have := valueOf_get hc ha hn
    rw [hv] at this
    rw [q2 n hn, ← Option.some.inj this]
  · have := q3 0 _ _ rfl rfl
    rw [this]
    show some (Val.str (String.ofList (h a).target.toList)) = _
    rw [String.ofList_toList]

/-! ### sparse files -/

theorem sparseRow_eq (es : List (Nat × Int)) :
    sparseRow es = '{' :: (joinText [','] (es.map fun e => intText e.1 ++ ' ' :: intText e.2) ++ ['}']) := by
  have h : ∀ n : Nat, (toString n).toList = intText n := fun n => by
    unfold intText
    rw [Int.toString_eq_repr, Int.repr_eq_if, if_pos (by omega)]; rfl
  unfold sparseRow
  congr 3

theorem sparseFile_eq (relation : Text) (names : List String) (rows : List (List (Nat × Int))) :
    sparseFile relation names rows = fileText relation (names.map fun n => ⟨n, "NUMERIC".toList⟩) (rows.map sparseRow) := by
  unfold sparseFile fileText
  rw [List.flatMap_map, List.flatMap_map]
  rfl

/-- **C126** (sparse files): from a file with numerical attributes and sparse rows, `create_from_arff` reads for every
row an instance with the listed numbers, where attributes which are not listed are 0. -/
theorem C126_sparse {rel : Text} (hrel : OneLine rel) {names : List String} (hn : names.Nodup) (hs : ∀ n ∈ names, Simple n.toList)
    {rows : List (List (Nat × Int))} (hr : ∀ r ∈ rows, (r.map (·.1)).Nodup ∧ ∀ e ∈ r, e.1 < names.length) :
    ∃ h d, createFromArff (sparseFile rel names rows) = .ok (h, d) ∧ Consistent h d ∧ d.catNames = [] ∧ d.numNames = names ∧
      d.instances.length = rows.length ∧ ∀ (i : Nat) (r : List (Nat × Int)), rows[i]? = some r → ∃ b, d.instances[i]? = some b ∧ (h b).id = .num i ∧
        (∀ j n, names[j]? = some n → ∀ v, (j, v) ∈ r → (h b).features.get? n = some (.num v)) ∧
        ∀ j n, names[j]? = some n → j ∉ r.map (·.1) → (h b).features.get? n = some (.num 0) := by
  let F : List (Nat × Int) → Dict String Val := fun r => match parseInstance (sparseRow r) names with | .ok d => d | .error _ => []
  have hF : ∀ r ∈ rows, parseInstance (sparseRow r) names = .ok (F r) ∧ (F r).keys = names ∧
      (∀ j n, names[j]? = some n → ∀ v, (j, v) ∈ r → (F r).get? n = some (.num v)) ∧
      ∀ j n, names[j]? = some n → j ∉ r.map (·.1) → (F r).get? n = some (.num 0) := by
    intro r h
    obtain ⟨d, h1, h2, h3, h4⟩ := parseInstance_sparse hn (hr r h).2 (hr r h).1
    have he : F r = d := by
      show (match parseInstance (sparseRow r) names with | .ok d => d | .error _ => []) = d
      rw [sparseRow_eq, h1]
    rw [he]
    exact ⟨h1, h2, h3, h4⟩
  have hnames : (names.map fun n => (⟨n, "NUMERIC".toList⟩ : Col)).map Col.name = names := by
    rw [List.map_map]; exact List.map_id _
  have hcat : (names.map fun n => (⟨n, "NUMERIC".toList⟩ : Col)).filter Col.isCat = [] := by
    rw [List.filter_eq_nil_iff]
    intro c hc
    obtain ⟨n, -, rfl⟩ := List.mem_map.1 hc
    show ¬ decide ("NUMERIC".toList.head? = some '{') = true
    decide
  have hnum : ((names.map fun n => (⟨n, "NUMERIC".toList⟩ : Col)).filter fun c => !c.isCat) = names.map fun n => ⟨n, "NUMERIC".toList⟩ := by
    rw [List.filter_eq_self]
    intro c hc
    obtain ⟨n, -, rfl⟩ := List.mem_map.1 hc
    show (!decide ("NUMERIC".toList.head? = some '{')) = true
    decide
  obtain ⟨d, h1, h2, h3, h4, h5⟩ := read_file (rel := rel) (cols := names.map fun n => ⟨n, "NUMERIC".toList⟩)
    (ls := rows.map fun r => (sparseRow r, F r)) (fun c hc => notBreak (hrel c hc))
    (by
      intro c hc
      obtain ⟨n, hm, rfl⟩ := List.mem_map.1 hc
      exact ⟨fun x hx => ⟨(hs n hm x hx).1, (hs n hm x hx).2.1, notBreak (hs n hm x hx).2.2⟩,
        (show ∀ c ∈ "NUMERIC".toList, c ≠ ' ' ∧ isBreak c = false by decide), .inr rfl⟩)
    (by rw [hnames]; exact hn)
    (by
      intro l hl
      obtain ⟨r, hm, rfl⟩ := List.mem_map.1 hl
      refine ⟨by rw [sparseRow_eq]; simp, fun c hc => ?_, by rw [hnames]; exact (hF r hm).1, by rw [hnames]; exact (hF r hm).2.1⟩
      have hc : c ∈ '{' :: (joinText [','] (r.map fun e => intText e.1 ++ ' ' :: intText e.2) ++ ['}']) := by
        rw [← sparseRow_eq]; exact hc
      rcases List.mem_cons.1 hc with rfl | hc
      · decide
      · rcases List.mem_append.1 hc with hc | hc
        · rcases mem_joinText hc with hc | ⟨y, hy, hc⟩
          · rw [List.mem_singleton] at hc; subst hc; decide
          · obtain ⟨e, -, rfl⟩ := List.mem_map.1 hy
            rcases entry_chars hc with rfl | rfl | hd
            · decide
            · decide
            · exact digit_notBreak hd
        · rw [List.mem_singleton] at hc; subst hc; decide)
  rw [List.map_map] at h1
  rw [List.map_map] at h1 h2
  refine ⟨_, d, by rw [sparseFile_eq]; exact h1, h2, by rw [h3, hcat]; rfl, by rw [h4, hnum, hnames], by rw [h5]; simp, fun i r hi => ?_⟩
  have hm := List.mem_of_getElem? hi
  have hil := (List.getElem?_eq_some_iff.1 hi).1
  refine ⟨i, by rw [h5, List.length_map, List.getElem?_range hil], rfl, ?_⟩
  have hf : (arffHeap (List.map ((fun x => x.2) ∘ fun r => (sparseRow r, F r)) rows) i).features = F r := by
    show List.getD _ _ _ = _
    simp [List.getD, hi]
  rw [hf]
  exact (hF r hm).2.2

/-! ### the hypotheses are met -/

example : ∃ h d, createFromArff (sparseFile "r".toList ["a", "b", "c"] [[(2, -7)], [], [(1, 10), (0, 3)]]) = .ok (h, d) ∧
    ∃ b, d.instances[0]? = some b ∧ (h b).features.get? "c" = some (.num (-7 : Int)) := by
  obtain ⟨h, d, h1, -, -, -, -, h2⟩ := C126_sparse (rel := "r".toList) (fun c hc hb => by
      rcases (show c = 'r' by simpa using hc) with rfl
      rw [← isBreak_iff] at hb; revert hb; decide) (names := ["a", "b", "c"]) (by decide) (fun n hn => by
      rcases (show n = "a" ∨ n = "b" ∨ n = "c" by simpa using hn) with rfl | rfl | rfl <;> exact simple_of (by decide))
    (rows := [[(2, -7)], [], [(1, 10), (0, 3)]]) (by decide)
  obtain ⟨b, h3, -, h4, -⟩ := h2 0 _ rfl
  exact ⟨h, d, h1, b, h3, h4 2 "c" rfl (-7) (by simp)⟩

example : sparseFile "r".toList ["a", "b"] [[(1, -7)], []] =
    "@RELATION \"r\"\n\n@ATTRIBUTE \"a\" NUMERIC\n@ATTRIBUTE \"b\" NUMERIC\n\n@DATA\n{1 -7}\n{}".toList := by decide +kernel

/-- **C126** (sparse files, other values): a sparse row with a value that is not an integer cannot be read (an example with
a decimal number and with a category). -/
theorem C126_sparse_integers_only : createFromArff "@ATTRIBUTE a NUMERIC\n@DATA\n{0 1.5}".toList = .error .value ∧
    createFromArff "@ATTRIBUTE a {x,y}\n@DATA\n{0 x}".toList = .error .value := by
  constructor <;> rfl

theorem one_printable {τ : Type} {h : Heap τ} {d : Dataset} (h1 : d.catNames = []) (h2 : d.numNames = ["n"])
    (hv : ∀ a ∈ d.instances, (h a).features = [("n", .num 1)] ∨ (h a).features = [("n", .num 2)]) : Printable sampleStr h d := by
  refine ⟨?_, ?_, ?_⟩
  · intro n hn
    rw [h1, h2] at hn
    rcases (show n = "n" by simpa using hn) with rfl
    exact simple_of (by decide)
  · intro a ha n hn
    rw [h1] at hn; cases hn
  · intro a ha n hn v hvv
    rw [h2] at hn
    rcases (show n = "n" by simpa using hn) with rfl
    rcases hv a ha with he | he <;> rw [he] at hvv <;> have := Option.some.inj hvv <;> subst this <;>
      exact numberLike_of (by decide +kernel)

theorem oneLine_of {t : Text} (h : ∀ c ∈ t, isBreak c = false) : OneLine t := by
  intro c hc hb
  rw [← isBreak_iff, h c hc] at hb
  cases hb

theorem plain_of {t : Text} (h : ∀ c ∈ t, c ≠ '"' ∧ c ≠ ' ' ∧ c ≠ '[' ∧ c ≠ ']' ∧ isBreak c = false) : PlainSymbol t := by
  intro c hc
  obtain ⟨k1, k2, k3, k4, k5⟩ := h c hc
  exact ⟨k1, k2, k3, k4, fun hb => by rw [← isBreak_iff, k5] at hb; cases hb⟩

/-- labels: two instances with different label sets -/
example : ∃ (h : Heap (List String)) (d : LabelDs) (t : Text), d.exportArff sampleStr h "r".toList "l_" = .ok t ∧
    ∃ h' d', LabelDs.createFromArff List.reverse t ["l_y", "l_x"] h = .ok (h', d') ∧ d'.base.instances.length = 2 := by
  let h : Heap (List String) := fun a => if a = 0 then ⟨.num 0, [("n", .num 1)], ["x"]⟩ else ⟨.num 1, [("n", .num 2)], ["y", "x"]⟩
  have h0 : LabelHistory h (LabelDs.new [] ["n"]) := .new _ _ _ (by decide)
  have h1 : LabelHistory h _ := .add (a := 0) h0 (by decide) rfl
  have h2 : LabelHistory h ⟨⟨[0, 1], [("n", ⟨false, [.num 1, .num 2]⟩)], [], ["n"]⟩, ["x", "y"]⟩ := .add (a := 1) h1 (by decide) rfl
  have hx : LabelDs.exportArff sampleStr h ⟨⟨[0, 1], [("n", ⟨false, [.num 1, .num 2]⟩)], [], ["n"]⟩, ["x", "y"]⟩ "r".toList "l_" =
    .ok "@RELATION \"r\"\n\n@ATTRIBUTE \"n\" NUMERIC\n@ATTRIBUTE \"l_x\" {0,1}\n@ATTRIBUTE \"l_y\" {0,1}\n\n@DATA\n1,1,0\n2,1,1".toList := by decide +kernel
  refine ⟨h, _, _, hx, ?_⟩
  obtain ⟨h', d', k1, -, -, -, -, k2, -⟩ := C127_labels_roundtrip h2 (one_printable rfl rfl (by decide)) (by decide) (by decide) (pre := "l_")
    (ls := ["l_y", "l_x"]) (fun l hl => by
      rcases (show l = "x" ∨ l = "y" by simpa using hl) with rfl | rfl <;> exact simple_of (by decide)) (by decide)
    (fun l => by
      show _ ↔ ∃ k ∈ ["x", "y"], _
      have e1 : "l_" ++ "x" = "l_x" := by decide
      have e2 : "l_" ++ "y" = "l_y" := by decide
      simp [e1, e2]; tauto) (oneLine_of (by decide)) hx h List.reverse_perm
  exact ⟨h', d', k1, k2⟩

/-- multisets: a count, an explicit zero and a missing count -/
example : ∃ (h : Heap (Dict String Int)) (d : MultisetDs) (t : Text), d.exportArff sampleStr h "r".toList "" = .ok t ∧
    ∃ h' d', MultisetDs.createFromArff List.reverse t ["x", "y"] h = .ok (h', d') ∧ d'.base.instances.length = 2 := by
  let h : Heap (Dict String Int) := fun a =>
    if a = 0 then ⟨.num 0, [("n", .num 1)], [("x", 12)]⟩ else ⟨.num 1, [("n", .num 2)], [("y", 0), ("x", 1)]⟩
  have h0 : MultisetHistory h (MultisetDs.new [] ["n"]) := .new _ _ _ (by decide)
  have h1 : MultisetHistory h _ := .add (a := 0) h0 (by decide) rfl
  have h2 : MultisetHistory h ⟨⟨[0, 1], [("n", ⟨false, [.num 1, .num 2]⟩)], [], ["n"]⟩, [("x", 12), ("y", 0)], [("x", 13), ("y", 0)]⟩ := .add (a := 1) h1 (by decide) rfl
  have hx : MultisetDs.exportArff sampleStr h ⟨⟨[0, 1], [("n", ⟨false, [.num 1, .num 2]⟩)], [], ["n"]⟩, [("x", 12), ("y", 0)], [("x", 13), ("y", 0)]⟩ "r".toList "" =
    .ok "@RELATION \"r\"\n\n@ATTRIBUTE \"n\" NUMERIC\n@ATTRIBUTE \"x\" NUMERIC\n@ATTRIBUTE \"y\" NUMERIC\n\n@DATA\n1,12,0\n2,1,0".toList := by decide +kernel
  refine ⟨h, _, _, hx, ?_⟩
  obtain ⟨h', d', k1, -, -, -, -, k2, -⟩ := C127_multisets_roundtrip h2 (one_printable rfl rfl (by decide)) (by decide) (by decide) (pre := "")
    (ls := ["x", "y"]) (fun l hl => by
      rcases (show l = "x" ∨ l = "y" by simpa [MultisetDs.classes, Dict.keys] using hl) with rfl | rfl <;> exact simple_of (by decide)) (by decide)
    (fun l => by
      show _ ↔ ∃ k ∈ ["x", "y"], _
      simp) (oneLine_of (by decide)) hx h List.reverse_perm
  exact ⟨h', d', k1, k2⟩

/-- sequences: a round trip with commas, and the loss of structure with the default separator -/
def arffSeqHeap : Heap (List String) := fun a => if a = 0 then ⟨.num 0, [("n", .num 1)], ["a", "b"]⟩ else ⟨.num 1, [("n", .num 2)], ["c"]⟩

theorem arffSeq_history : SeqHistory arffSeqHeap ⟨⟨[0, 1], [("n", ⟨false, [.num 1, .num 2]⟩)], [], ["n"]⟩, ["a", "b", "c"]⟩ := by
  have h0 : SeqHistory arffSeqHeap (SeqDs.new [] ["n"]) := .new _ _ _ (by decide)
  have h1 : SeqHistory arffSeqHeap _ := .add (a := 0) h0 (by decide) rfl
  exact .add (a := 1) h1 (by decide) rfl

theorem arffSeq_symbols : ∀ a ∈ [0, 1], (arffSeqHeap a).target ≠ [] ∧ ∀ x ∈ (arffSeqHeap a).target, PlainSymbol x.toList ∧ ',' ∉ x.toList := by
  intro a ha
  rcases (show a = 0 ∨ a = 1 by simpa using ha) with rfl | rfl
  · refine ⟨by decide, fun x hx => ?_⟩
    rcases (show x = "a" ∨ x = "b" by simpa [arffSeqHeap] using hx) with rfl | rfl <;> exact ⟨plain_of (by decide), by decide⟩
  · refine ⟨by decide, fun x hx => ?_⟩
    rcases (show x = "c" by simpa [arffSeqHeap] using hx) with rfl
    exact ⟨plain_of (by decide), by decide⟩

example : ∃ (d : SeqDs) (t : Text), d.exportArff sampleStr arffSeqHeap "r".toList "s".toList [','] [["c"], ["a", "b"]] = .ok t ∧
    ∃ h' d', SeqDs.createFromArff t "s" arffSeqHeap = .ok (h', d') ∧ ∃ b, d'.base.instances[0]? = some b ∧ (h' b).target = ["a", "b"] := by
  have hx : SeqDs.exportArff sampleStr arffSeqHeap ⟨⟨[0, 1], [("n", ⟨false, [.num 1, .num 2]⟩)], [], ["n"]⟩, ["a", "b", "c"]⟩
      "r".toList "s".toList [','] [["c"], ["a", "b"]] = .ok
    "@RELATION \"r\"\n\n@ATTRIBUTE \"n\" NUMERIC\n@ATTRIBUTE \"s\" {\"[c]\",\"[a,b]\"}\n\n@DATA\n1,\"[a,b]\"\n2,\"[c]\"".toList := by decide +kernel
  refine ⟨_, _, hx, ?_⟩
  obtain ⟨h', d', k1, k2⟩ := C127_sequences_roundtrip arffSeq_history (one_printable rfl rfl (by decide)) (by decide) (simple_of (by decide))
    (by decide) arffSeq_symbols (by decide) (oneLine_of (by decide)) hx arffSeqHeap
  obtain ⟨b, b1, -, -, b2⟩ := k2.2.2.2.2 0 0 rfl
  exact ⟨h', d', k1, b, b1, b2⟩

example : ∃ (d : SeqDs) (t : Text), d.exportArff sampleStr arffSeqHeap "r".toList "s".toList [';'] [["c"], ["a", "b"]] = .ok t ∧
    ∃ h' d', SeqDs.createFromArff t "s" arffSeqHeap = .ok (h', d') ∧ ∃ b, d'.base.instances[0]? = some b ∧ (h' b).target = ["a;b"] := by
  have hx : SeqDs.exportArff sampleStr arffSeqHeap ⟨⟨[0, 1], [("n", ⟨false, [.num 1, .num 2]⟩)], [], ["n"]⟩, ["a", "b", "c"]⟩
      "r".toList "s".toList [';'] [["c"], ["a", "b"]] = .ok
    "@RELATION \"r\"\n\n@ATTRIBUTE \"n\" NUMERIC\n@ATTRIBUTE \"s\" {\"[c]\",\"[a;b]\"}\n\n@DATA\n1,\"[a;b]\"\n2,\"[c]\"".toList := by decide +kernel
  refine ⟨_, _, hx, ?_⟩
  obtain ⟨h', d', k1, k2⟩ := C127_default_separator arffSeq_history (one_printable rfl rfl (by decide)) (by decide) (simple_of (by decide))
    (by decide) ⟨plain_of (by decide), by decide⟩ (fun a ha => (arffSeq_symbols a ha).2) (by decide) (oneLine_of (by decide)) hx arffSeqHeap
  obtain ⟨b, b1, -, -, b2⟩ := k2.2.2.2.2 0 0 rfl
  exact ⟨h', d', k1, b, b1, b2.trans (by decide)⟩

/-- classes -/
example : ∃ (h : Heap String) (d : ClassDs) (t : Text), d.exportArff sampleStr h "r".toList "c".toList = .ok t ∧
    ∃ h' d', createFromArff t = .ok (h', d') ∧ d'.catNames = ["c"] ∧ ∃ b ∈ d'.instances, (h' b).features.get? "c" = some (.str "no") := by
  let h : Heap String := fun a => if a = 0 then ⟨.num 0, [("n", .num 1)], "yes"⟩ else ⟨.num 1, [("n", .num 2)], "no"⟩
  have h0 : ClassHistory false h (ClassDs.new [] ["n"]) [] := .new _ _ _ (by decide)
  have h1 : ClassHistory false h _ [] := .add (a := 0) h0 (by decide) rfl
  have h2 : ClassHistory false h ⟨⟨[0, 1], [("n", ⟨false, [.num 1, .num 2]⟩)], [], ["n"]⟩, [], [], [("yes", 1), ("no", 1)]⟩ [] := .add (a := 1) h1 (by decide) rfl
  have hx : ClassDs.exportArff sampleStr h ⟨⟨[0, 1], [("n", ⟨false, [.num 1, .num 2]⟩)], [], ["n"]⟩, [], [], [("yes", 1), ("no", 1)]⟩ "r".toList "c".toList =
    .ok "@RELATION \"r\"\n\n@ATTRIBUTE \"n\" NUMERIC\n@ATTRIBUTE \"c\" {\"no\",\"yes\"}\n\n@DATA\n1,\"yes\"\n2,\"no\"".toList := by decide +kernel
  refine ⟨h, _, _, hx, ?_⟩
  obtain ⟨h', d', k1, -, k2, -, k3, k4⟩ := C127_class_column h2 (one_printable rfl rfl (by decide)) (by decide)
    (simple_of (by decide)) (by decide) (fun c hc => by
      rcases (show c = "yes" ∨ c = "no" by simpa [ClassDs.classes, Dict.keys] using hc) with rfl | rfl <;> exact simple_of (by decide)) (oneLine_of (by decide)) hx
  obtain ⟨b, b1, b2, -, b3⟩ := k4 1 1 rfl
  exact ⟨h', d', k1, k2, b, List.mem_of_getElem? b1, b3⟩

end Prolothar.Data
