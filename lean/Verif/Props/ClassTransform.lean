import Verif.Model.ClassTransform
import Verif.Props.TargetDatasets
/-
C203: the counts of a classification dataset after its attributes were recoded.
-/
set_option linter.unusedSectionVars false
namespace Prolothar.Data
open Prolothar.Spec.Data

/-- calls of `remove_attribute`, `add_categorical_attribute` and `add_numerical_attribute`, in any order and number, that return. `l` are
the names that were removed (they may have been added again). -/
inductive Edits (h : Heap String) (d : ClassDs) : List String → Heap String → ClassDs → Prop
  | none : Edits h d [] h d
  | remove {l h1 d1 h2 d2} {n : String} : Edits h d l h1 d1 → d1.removeAttribute h1 n = .ok (h2, d2) → Edits h d (n :: l) h2 d2
  | addCat {l h1 d1 h2 d2} {n : String} {vs : List Val} : Edits h d l h1 d1 → d1.addCategorical h1 n vs = .ok (h2, d2) → Edits h d l h2 d2
  | addNum {l h1 d1 h2 d2} {n : String} {vs : List Val} : Edits h d l h1 d1 → d1.addNumerical h1 n vs = .ok (h2, d2) → Edits h d l h2 d2

theorem removeC_inv {h h' : Heap String} {d d' : ClassDs} {n : String} (he : d.removeAttribute h n = .ok (h', d')) :
    d.base.removeAttribute h n = .ok (h', d'.base) ∧
    d'.catCounter = (if d.catCounter.has n then d.catCounter.del n else d.catCounter) ∧
    d'.catClassCounter = (if d.catClassCounter.has n then d.catClassCounter.del n else d.catClassCounter) ∧
    d'.classCounter = d.classCounter := by
  unfold ClassDs.removeAttribute at he
  rcases hb : d.base.removeAttribute h n with e | ⟨h1, b⟩
  · rw [hb] at he; cases he
  · rw [hb] at he
    cases he
    exact ⟨rfl, rfl, rfl, rfl⟩

theorem addCatC_inv {h h' : Heap String} {d d' : ClassDs} {n : String} {vs : List Val} (he : d.addCategorical h n vs = .ok (h', d')) :
    d.base.addCategorical h n vs = .ok (h', d'.base) ∧ d'.catCounter = d.catCounter ∧ d'.catClassCounter = d.catClassCounter ∧
    d'.classCounter = d.classCounter := by
  unfold ClassDs.addCategorical at he
  rcases hb : d.base.addCategorical h n vs with e | ⟨h1, b⟩
  · rw [hb] at he; cases he
  · rw [hb] at he
    cases he
    exact ⟨rfl, rfl, rfl, rfl⟩

theorem addNumC_inv {h h' : Heap String} {d d' : ClassDs} {n : String} {vs : List Val} (he : d.addNumerical h n vs = .ok (h', d')) :
    d.base.addNumerical h n vs = .ok (h', d'.base) ∧ d'.catCounter = d.catCounter ∧ d'.catClassCounter = d.catClassCounter ∧
    d'.classCounter = d.classCounter := by
  unfold ClassDs.addNumerical at he
  rcases hb : d.base.addNumerical h n vs with e | ⟨h1, b⟩
  · rw [hb] at he; cases he
  · rw [hb] at he
    cases he
    exact ⟨rfl, rfl, rfl, rfl⟩

/-- what such calls do to the counters -/
theorem edits_counters {h h' : Heap String} {d d' : ClassDs} {l : List String} (he : Edits h d l h' d') (w1 : d.catCounter.WF)
    (w2 : d.catClassCounter.WF) : d'.catCounter.WF ∧ d'.catClassCounter.WF ∧ d'.classCounter = d.classCounter ∧
    (∀ n v, val₂ d'.catCounter n v = if n ∈ l then 0 else val₂ d.catCounter n v) ∧
    ∀ n v, val₂ d'.catClassCounter n v = if n ∈ l then 0 else val₂ d.catClassCounter n v := by
  induction he with
  | none => exact ⟨w1, w2, rfl, by simp, by simp⟩
  | @remove l h1 d1 h2 d2 n _ he ih =>
    obtain ⟨i1, i2, i3, i4, i5⟩ := ih
    obtain ⟨_, e1, e2, e3⟩ := removeC_inv he
    rw [e1, e2, e3]
    refine ⟨wf_del i1 n, wf_del i2 n, i3, fun m v => ?_, fun m v => ?_⟩
    · rw [val₂_del i1, i4]
      by_cases hm : m = n
      · simp [hm]
      · simp [hm]
    · rw [val₂_del i2, i5]
      by_cases hm : m = n
      · simp [hm]
      · simp [hm]
  | addCat _ he ih =>
    obtain ⟨_, e1, e2, e3⟩ := addCatC_inv he
    rw [e1, e2, e3]
    exact ih
  | addNum _ he ih =>
    obtain ⟨_, e1, e2, e3⟩ := addNumC_inv he
    rw [e1, e2, e3]
    exact ih

/-- C203: calls that remove and add attributes leave the counts of the classes as they are. The counts of an attribute that was removed
are all 0, also if it was added again with other values; all other counts stay as they were. -/
theorem C203_edits {late : Bool} {h h' : Heap String} {d d' : ClassDs} {asked l : List String} (hr : ClassHistory late h d asked)
    (he : Edits h d l h' d') (n : String) (v : Val) (c : String) :
    (d'.classCount c).1 = (d.classCount c).1 ∧ d'.classes = d.classes ∧
    (d'.countForCategory n v).1 = (if n ∈ l then 0 else (d.countForCategory n v).1) ∧
    (d'.countForCategoryAndClass n v c).1 = if n ∈ l then 0 else (d.countForCategoryAndClass n v c).1 := by
  have hi := classInv_history hr
  obtain ⟨_, _, h3, h4, h5⟩ := edits_counters he hi.wf1 hi.wf2
  have a1 : ∀ d : ClassDs, (d.countForCategory n v).1 = val₂ d.catCounter n v := fun d => readDefault₂_fst _ _ _
  have a2 : ∀ d : ClassDs, (d.countForCategoryAndClass n v c).1 = val₂ d.catClassCounter n (v, c) := fun d => readDefault₂_fst _ _ _
  refine ⟨?_, ?_, ?_, ?_⟩
  · unfold ClassDs.classCount; rw [h3]
  · unfold ClassDs.classes; rw [h3]
  · rw [a1, a1, h4]
  · rw [a2, a2, h5]

theorem Edits.trans {h h1 h2 : Heap String} {d d1 d2 : ClassDs} {l l' : List String} (e1 : Edits h d l h1 d1) (e2 : Edits h1 d1 l' h2 d2) :
    Edits h d (l' ++ l) h2 d2 := by
  induction e2 with
  | none => exact e1
  | remove _ he ih => exact .remove ih he
  | addCat _ he ih => exact .addCat ih he
  | addNum _ he ih => exact .addNum ih he

/-- the label encoding recodes the attribute: its values are not 0, 1, 2, ... already -/
def Relabeled (p : Option (Dict String (List Val))) (n : String) (attr : Attr) : Prop :=
  ∃ pv, possibleValues p n attr = .ok pv ∧ ¬ (pv ≠ [] ∧ pv = (List.range pv.length).map fun i : Nat => Val.num (i : Rat))

/-- the one-hot encoding recodes the attribute: its values are not 0 and 1 already -/
def Expanded (p : Option (Dict String (List Val))) (n : String) (attr : Attr) : Prop :=
  ∃ pv, possibleValues p n attr = .ok pv ∧ pv ≠ [.num 0, .num 1]

theorem history_late {late : Bool} {h : Heap String} {d : ClassDs} {asked : List String} (hr : ClassHistory late h d asked) :
    ClassHistory true h d asked := by
  induction hr with
  | new h cat num hd => exact .new h cat num hd
  | create _ he ih => exact .create ih he
  | add _ hn he ih => exact .add ih hn he
  | remove _ he ih => exact .remove ih he
  | addCat _ hn _ he ih => exact .addCat ih hn (.inl rfl) he
  | addNum _ hn he ih => exact .addNum ih hn he
  | askCategory n v _ ih => exact .askCategory n v ih
  | askCategoryAndClass n v c _ ih => exact .askCategoryAndClass n v c ih
  | askClass c _ ih => exact .askClass c ih

theorem removed_absent {h h' : Heap String} {d d' : Dataset} (hc : Consistent h d) {n : String} (he : d.removeAttribute h n = .ok (h', d')) :
    n ∉ d'.attrs.keys := by
  have hn : n ∈ d.attrs.keys := by
    by_contra hc
    have : d.removeAttribute h n = .error .key := by
      unfold Dataset.removeAttribute Dict.getItem
      rw [Dict.get?_eq_none_iff.2 hc]; rfl
    rw [this] at he
    cases he
  obtain ⟨h1, d1, e1, _, _, e4, _⟩ := C58_remove_attribute hc hn
  rw [he] at e1
  cases e1
  rw [← Dict.get?_eq_none_iff, e4, if_pos rfl]

theorem labelAttrC_step {p : Option (Dict String (List Val))} {s s' : Heap String × ClassDs} {e : String × Attr}
    (he : labelAttrC p s e = .ok s') : labelAttr p (s.1, s.2.base) e = .ok (s'.1, s'.2.base) ∧
    (∃ l, Edits s.1 s.2 l s'.1 s'.2 ∧ ∀ n, n ∈ l ↔ n = e.1 ∧ Relabeled p e.1 e.2) ∧
    ∀ asked, ClassHistory true s.1 s.2 asked → ClassHistory true s'.1 s'.2 asked := by
  unfold labelAttrC at he
  unfold labelAttr
  rcases hp : possibleValues p e.1 e.2 with er | pv
  · rw [hp] at he; cases he
  · rw [hp] at he
    dsimp only [bind, Except.bind] at he ⊢
    by_cases hpv : pv ≠ [] ∧ pv = (List.range pv.length).map fun i : Nat => Val.num (i : Rat)
    · rw [if_pos hpv] at he
      cases he
      rw [if_pos hpv]
      refine ⟨rfl, ⟨[], .none, fun n => ?_⟩, fun _ h => h⟩
      constructor
      · intro h; cases h
      · rintro ⟨_, pv', h1, h2⟩
        rw [hp] at h1
        cases h1
        exact absurd hpv h2
    · rw [if_neg hpv] at he
      rw [if_neg hpv]
      rcases h1 : s.2.base.column s.1 e.1 with er | col
      · rw [h1] at he; cases he
      rw [h1] at he
      dsimp only at he ⊢
      rcases h2 : col.mapM (valueMap pv).getItem with er | enc
      · rw [h2] at he; cases he
      rw [h2] at he
      dsimp only at he ⊢
      rcases h3 : s.2.removeAttribute s.1 e.1 with er | ⟨ha, da⟩
      · rw [h3] at he; cases he
      rw [h3] at he
      dsimp only at he ⊢
      have he' : da.addCategorical ha e.1 enc = .ok (s'.1, s'.2) := he
      obtain ⟨r1, _⟩ := removeC_inv h3
      obtain ⟨r2, _⟩ := addCatC_inv he'
      rw [r1]
      refine ⟨r2, ⟨[e.1], .addCat (.remove .none h3) he', fun n => ?_⟩, fun asked hr => ?_⟩
      · rw [List.mem_singleton]
        exact ⟨fun h => ⟨h, pv, hp, hpv⟩, fun h => h.1⟩
      · exact .addCat (.remove hr h3) (removed_absent (classInv_history hr).base r1) (.inl rfl) he'

theorem labelLoopC {p : Option (Dict String (List Val))} : ∀ {L : List (String × Attr)} {s s' : Heap String × ClassDs},
    L.foldlM (labelAttrC p) s = .ok s' → L.foldlM (labelAttr p) (s.1, s.2.base) = .ok (s'.1, s'.2.base) ∧
    (∃ l, Edits s.1 s.2 l s'.1 s'.2 ∧ ∀ n, n ∈ l ↔ ∃ attr, (n, attr) ∈ L ∧ Relabeled p n attr) ∧
    ∀ asked, ClassHistory true s.1 s.2 asked → ClassHistory true s'.1 s'.2 asked
  | [], s, s', h => by
    cases h
    exact ⟨rfl, ⟨[], .none, by simp⟩, fun _ h => h⟩
  | e :: L, s, s', h => by
    rw [List.foldlM_cons] at h
    rcases hs : labelAttrC p s e with er | t
    · rw [hs] at h; cases h
    · rw [hs] at h
      have h : L.foldlM (labelAttrC p) t = .ok s' := h
      obtain ⟨a1, ⟨l1, a2, a3⟩, a4⟩ := labelAttrC_step hs
      obtain ⟨b1, ⟨l2, b2, b3⟩, b4⟩ := labelLoopC h
      refine ⟨?_, ⟨l2 ++ l1, a2.trans b2, fun n => ?_⟩, fun asked hr => b4 asked (a4 asked hr)⟩
      · rw [List.foldlM_cons, a1]; exact b1
      · rw [List.mem_append, a3, b3]
        constructor
        · rintro (⟨at', h1, h2⟩ | ⟨rfl, h2⟩)
          · exact ⟨at', by simp [h1], h2⟩
          · exact ⟨e.2, by simp, h2⟩
        · rintro ⟨at', h1, h2⟩
          rcases List.mem_cons.1 h1 with h1 | h1
          · right; rw [← h1]; exact ⟨rfl, h2⟩
          · exact .inl ⟨at', h1, h2⟩

theorem oneHotValueC_step {name join : String} {str : Val → String} : ∀ {pv : List Val} {s s' : Heap String × ClassDs},
    pv.foldlM (oneHotValueC name join str) s = .ok s' → pv.foldlM (oneHotValue name join str) (s.1, s.2.base) = .ok (s'.1, s'.2.base) ∧
    Edits s.1 s.2 [] s'.1 s'.2
  | [], s, s', h => by cases h; exact ⟨rfl, .none⟩
  | v :: pv, s, s', h => by
    rw [List.foldlM_cons] at h
    rcases hs : oneHotValueC name join str s v with er | t
    · rw [hs] at h; cases h
    · rw [hs] at h
      have h : pv.foldlM (oneHotValueC name join str) t = .ok s' := h
      obtain ⟨b1, b2⟩ := oneHotValueC_step h
      unfold oneHotValueC at hs
      rcases hc : s.2.base.column s.1 name with er | col
      · rw [hc] at hs; cases hs
      rw [hc] at hs
      have hs : s.2.addCategorical s.1 (name ++ join ++ str v) (col.map fun x => if x = v then Val.num 1 else Val.num 0) = .ok (t.1, t.2) := hs
      obtain ⟨r1, _⟩ := addCatC_inv hs
      refine ⟨?_, Edits.trans (.addCat .none hs) b2⟩
      rw [List.foldlM_cons]
      unfold oneHotValue
      dsimp only
      rw [hc]
      dsimp only [bind, Except.bind]
      rw [r1]
      exact b1

theorem oneHotLoopC {p : Option (Dict String (List Val))} {join : String} {str : Val → String} : ∀ {L : List (String × Attr)}
    {s s' : Heap String × ClassDs}, L.foldlM (oneHotAttrC p join str) s = .ok s' →
    L.foldlM (oneHotAttr p join str) (s.1, s.2.base) = .ok (s'.1, s'.2.base) ∧
    ∃ l, Edits s.1 s.2 l s'.1 s'.2 ∧ ∀ n, n ∈ l ↔ ∃ attr, (n, attr) ∈ L ∧ Expanded p n attr
  | [], s, s', h => by
    cases h
    exact ⟨rfl, [], .none, by simp⟩
  | e :: L, s, s', h => by
    rw [List.foldlM_cons] at h
    rcases hs : oneHotAttrC p join str s e with er | t
    · rw [hs] at h; cases h
    · rw [hs] at h
      have h : L.foldlM (oneHotAttrC p join str) t = .ok s' := h
      obtain ⟨b1, l2, b2, b3⟩ := oneHotLoopC h
      have hstep : oneHotAttr p join str (s.1, s.2.base) e = .ok (t.1, t.2.base) ∧
          ∃ l, Edits s.1 s.2 l t.1 t.2 ∧ ∀ n, n ∈ l ↔ n = e.1 ∧ Expanded p e.1 e.2 := by
        unfold oneHotAttrC at hs
        unfold oneHotAttr
        rcases hp : possibleValues p e.1 e.2 with er | pv
        · rw [hp] at hs; cases hs
        · rw [hp] at hs
          dsimp only [bind, Except.bind] at hs ⊢
          by_cases hpv : pv = [.num 0, .num 1]
          · rw [if_pos hpv] at hs
            cases hs
            rw [if_pos hpv]
            refine ⟨rfl, [], .none, fun n => ?_⟩
            constructor
            · intro h; cases h
            · rintro ⟨_, pv', h1, h2⟩
              rw [hp] at h1
              cases h1
              exact absurd hpv h2
          · rw [if_neg hpv] at hs
            rw [if_neg hpv]
            rcases h1 : pv.foldlM (oneHotValueC e.1 join str) s with er | u
            · rw [h1] at hs; cases hs
            rw [h1] at hs
            dsimp only at hs ⊢
            have hs : u.2.removeAttribute u.1 e.1 = .ok (t.1, t.2) := hs
            obtain ⟨r1, r2⟩ := oneHotValueC_step h1
            obtain ⟨r3, _⟩ := removeC_inv hs
            rw [r1]
            refine ⟨r3, [e.1], .remove r2 hs, fun n => ?_⟩
            rw [List.mem_singleton]
            exact ⟨fun h => ⟨h, pv, hp, hpv⟩, fun h => h.1⟩
      obtain ⟨a1, l1, a2, a3⟩ := hstep
      refine ⟨?_, l2 ++ l1, a2.trans b2, fun n => ?_⟩
      · rw [List.foldlM_cons, a1]; exact b1
      · rw [List.mem_append, a3, b3]
        constructor
        · rintro (⟨at', h1, h2⟩ | ⟨rfl, h2⟩)
          · exact ⟨at', by simp [h1], h2⟩
          · exact ⟨e.2, by simp, h2⟩
        · rintro ⟨at', h1, h2⟩
          rcases List.mem_cons.1 h1 with h1 | h1
          · right; rw [← h1]; exact ⟨rfl, h2⟩
          · exact .inl ⟨at', h1, h2⟩

/-- C203: after the label encoding of a classification dataset with correct counts, the instances and attributes are those of C61. The
class counts are correct. All counts of the attributes that were recoded are 0; the counts of the other categorical attributes are
correct. -/
theorem C203_label {p : Option (Dict String (List Val))} {h h' : Heap String} {d d' : ClassDs} {asked : List String}
    (hr : ClassHistory false h d asked) (he : labelEncodeC p h d = .ok (h', d')) :
    labelEncode p h d.base = .ok (h', d'.base) ∧
    (∀ c, (d'.classCount c).1 = number d'.base.instances fun a => (h' a).target = c) ∧
    ∀ n attr, d.base.attrs.get? n = some attr → attr.categorical = true → ∀ v c,
      (Relabeled p n attr → (d'.countForCategory n v).1 = 0 ∧ (d'.countForCategoryAndClass n v c).1 = 0) ∧
      (¬ Relabeled p n attr →
        (d'.countForCategory n v).1 = number d.base.instances (fun a => (h a).features.get? n = some v) ∧
        (d'.countForCategoryAndClass n v c).1 = number d.base.instances fun a => (h a).features.get? n = some v ∧ (h a).target = c) := by
  obtain ⟨h1, ⟨l, h2, h3⟩, h4⟩ := labelLoopC he
  have hi := classInv_history hr
  refine ⟨h1, (C124_class_counts (h4 asked (history_late hr))).1, fun n attr hn hcat v c => ?_⟩
  obtain ⟨_, _, e3, e4⟩ := C203_edits hr h2 n v c
  have hmem : n ∈ l ↔ Relabeled p n attr := by
    rw [h3]
    constructor
    · rintro ⟨at', hm, hR⟩
      have : d.base.attrs.get? n = some at' := Dict.get?_of_mem hi.base.names (List.mem_filter.1 hm).1
      rw [hn] at this
      cases this
      exact hR
    · intro hR
      exact ⟨attr, List.mem_filter.2 ⟨Dict.mem_of_get? hn, hcat⟩, hR⟩
  have hc : n ∈ d.base.catNames := (hi.base.categorical.2 n).2 ⟨attr, hn, hcat⟩
  rw [e3, e4]
  refine ⟨fun hR => ?_, fun hR => ?_⟩
  · rw [if_pos (hmem.2 hR), if_pos (hmem.2 hR)]
    exact ⟨rfl, rfl⟩
  · rw [if_neg (fun h => hR (hmem.1 h)), if_neg (fun h => hR (hmem.1 h))]
    exact (C124_category_counts hr n v c).1 hc

/-- C203: after the one-hot encoding the counts of the recoded attributes are 0 (they are gone), and those of the new attributes are 0
as well, although they are categorical attributes of the dataset. The class counts stay correct, and so do the counts of the
categorical attributes that were not recoded. -/
theorem C203_one_hot {p : Option (Dict String (List Val))} {join : String} {str : Val → String} {h h' : Heap String} {d d' : ClassDs}
    {asked : List String} (hr : ClassHistory false h d asked) (he : oneHotEncodeC p join str h d = .ok (h', d')) :
    oneHotEncode p join str h d.base = .ok (h', d'.base) ∧
    (∀ c, (d'.classCount c).1 = number d.base.instances fun a => (h a).target = c) ∧
    (∀ n, n ∉ d.base.catNames → ∀ v c, (d'.countForCategory n v).1 = 0 ∧ (d'.countForCategoryAndClass n v c).1 = 0) ∧
    ∀ n attr, d.base.attrs.get? n = some attr → attr.categorical = true → ∀ v c,
      (Expanded p n attr → (d'.countForCategory n v).1 = 0 ∧ (d'.countForCategoryAndClass n v c).1 = 0) ∧
      (¬ Expanded p n attr →
        (d'.countForCategory n v).1 = number d.base.instances (fun a => (h a).features.get? n = some v) ∧
        (d'.countForCategoryAndClass n v c).1 = number d.base.instances fun a => (h a).features.get? n = some v ∧ (h a).target = c) := by
  obtain ⟨h1, l, h2, h3⟩ := oneHotLoopC he
  have hi := classInv_history hr
  refine ⟨h1, fun c => ?_, fun n hn v c => ?_, fun n attr hn hcat v c => ?_⟩
  · rw [(C203_edits hr h2 "" (.num 0) c).1]
    exact (C124_class_counts hr).1 c
  · obtain ⟨_, _, e3, e4⟩ := C203_edits hr h2 n v c
    obtain ⟨z1, z2⟩ := (C124_category_counts hr n v c).2 hn
    rw [e3, e4, z1, z2]
    constructor <;> split <;> rfl
  · obtain ⟨_, _, e3, e4⟩ := C203_edits hr h2 n v c
    have hmem : n ∈ l ↔ Expanded p n attr := by
      rw [h3]
      constructor
      · rintro ⟨at', hm, hR⟩
        have : d.base.attrs.get? n = some at' := Dict.get?_of_mem hi.base.names (List.mem_filter.1 hm).1
        rw [hn] at this
        cases this
        exact hR
      · intro hR
        exact ⟨attr, List.mem_filter.2 ⟨Dict.mem_of_get? hn, hcat⟩, hR⟩
    have hc : n ∈ d.base.catNames := (hi.base.categorical.2 n).2 ⟨attr, hn, hcat⟩
    rw [e3, e4]
    refine ⟨fun hR => ?_, fun hR => ?_⟩
    · rw [if_pos (hmem.2 hR), if_pos (hmem.2 hR)]
      exact ⟨rfl, rfl⟩
    · rw [if_neg (fun h => hR (hmem.1 h)), if_neg (fun h => hR (hmem.1 h))]
      exact (C124_category_counts hr n v c).1 hc

/-- C203: instances that are added afterwards are counted on top of these wrong counts: after the label encoding, the counts of a recoded
attribute are the numbers among the instances that were added later -/
theorem C203_later {h : Heap String} {asked : List String} : ∀ {later : List Nat} {d d' : ClassDs},
    ClassHistory true h d asked → (∀ a ∈ later, (h a).features.keys.Nodup) → later.foldlM (ClassDs.addInstance h) d = .ok d' →
    ∀ n ∈ d.base.catNames, ∀ v c,
      (d'.countForCategory n v).1 = (d.countForCategory n v).1 + number later (fun a => (h a).features.get? n = some v) ∧
      (d'.countForCategoryAndClass n v c).1 =
        (d.countForCategoryAndClass n v c).1 + number later fun a => (h a).features.get? n = some v ∧ (h a).target = c
  | [], d, d', hr, hn, he, n, hc, v, c => by
    cases he
    simp [number]
  | a :: later, d, d', hr, hn, he, n, hc, v, c => by
    rw [List.foldlM_cons] at he
    rcases h1 : d.addInstance h a with er | d1
    · rw [h1] at he; cases he
    rw [h1] at he
    have he : later.foldlM (ClassDs.addInstance h) d1 = .ok d' := he
    have hi := classInv_history hr
    obtain ⟨b, hb⟩ := class_add_inv h1
    obtain ⟨hf, hid, _⟩ := addInstance_inv hb
    obtain ⟨d2, e1, _, _, e4, _, _⟩ := classInv_add hi (hn a (by simp)) hf hid
    rw [h1] at e1
    have e1 := Except.ok.inj e1
    subst e1
    obtain ⟨r1, r2⟩ := C203_later (.add hr (hn a (by simp)) h1) (fun x hx => hn x (by simp [hx])) he n (by rw [e4]; exact hc) v c
    obtain ⟨s, f1, _, _, f4, f5⟩ := countCategories (x := h a) d.base.catNames (d.catCounter, d.catClassCounter)
      hi.base.categorical.1 (fun n hn => (hf n).2 (cat_mem hi.base hn)) hi.wf1 hi.wf2
    have hd1 : d1.catCounter = s.1 ∧ d1.catClassCounter = s.2 := by
      unfold ClassDs.addInstance at h1
      rw [addInstance_ok (h := h) (d := d.base) hf hid] at h1
      have h1 : (d.base.catNames.foldlM (countCategory (h a)) (d.catCounter, d.catClassCounter) >>= fun s => (pure _ : Py ClassDs)) = _ := h1
      rw [f1] at h1
      cases h1
      exact ⟨rfl, rfl⟩
    have a1 : ∀ d : ClassDs, (d.countForCategory n v).1 = val₂ d.catCounter n v := fun d => readDefault₂_fst _ _ _
    have a2 : ∀ d : ClassDs, (d.countForCategoryAndClass n v c).1 = val₂ d.catClassCounter n (v, c) := fun d => readDefault₂_fst _ _ _
    have g1 : (d1.countForCategory n v).1 = (d.countForCategory n v).1 + if (h a).features.get? n = some v then 1 else 0 := by
      rw [a1, a1, hd1.1, f4]; simp [hc]
    have g2 : (d1.countForCategoryAndClass n v c).1 =
        (d.countForCategoryAndClass n v c).1 + if (h a).features.get? n = some v ∧ (h a).target = c then 1 else 0 := by
      rw [a2, a2, hd1.2, f5]; simp [hc]
    have hcons : ∀ (q : Nat → Prop) [DecidablePred q], number (a :: later) q = (if q a then 1 else 0) + number later q := by
      intro q _
      unfold number
      rw [List.filter_cons]
      by_cases hq : q a
      · simp [hq]; omega
      · simp [hq]
    constructor
    · rw [r1, g1, hcons]; omega
    · rw [r2, g2, hcons]; omega

/-- C203: the remedy: a dataset that is filled with the instances of the recoded dataset (as `get_subdataset` does) has correct counts -/
theorem C203_rebuilt {p : Option (Dict String (List Val))} {h h' : Heap String} {d d' : ClassDs} {asked : List String}
    (hr : ClassHistory false h d asked) (he : labelEncodeC p h d = .ok (h', d')) :
    ∃ s, d'.sub h' d'.base.instances = .ok s ∧ s.base.instances = d'.base.instances ∧ s.base.catNames = d'.base.catNames ∧
      ∀ n ∈ d'.base.catNames, ∀ v c,
        (s.countForCategory n v).1 = number d'.base.instances (fun a => (h' a).features.get? n = some v) ∧
        (s.countForCategoryAndClass n v c).1 = number d'.base.instances fun a => (h' a).features.get? n = some v ∧ (h' a).target = c := by
  obtain ⟨_, _, h4⟩ := labelLoopC he
  have hc : Consistent h' d'.base := (classInv_history (h4 asked (history_late hr))).base
  have hnd : d'.base.instances.Nodup := List.Nodup.of_map _ hc.ids
  obtain ⟨s, s1, _, s3, s4, s5⟩ := C124_parts hc hnd (fun a ha => ha)
  refine ⟨s, s1, s3, s4, fun n hn v c => ?_⟩
  have := (C124_category_counts s5 n v c).1 (by rw [s4]; exact hn)
  rw [s3] at this
  exact this

/-- the hypotheses are met: the dataset of C124 with three instances; all colours are counted before, none after the label encoding -/
example : (exClass.toOption.bind fun d => (labelEncodeC none exClassHeap d).toOption.map fun r =>
    ([(d.countForCategory "colour" (.str "red")).1, (r.2.countForCategory "colour" (.num 0)).1, (r.2.countForCategory "colour" (.num 1)).1,
      (r.2.countForCategory "colour" (.str "red")).1, (r.2.classCount "B").1],
     [0, 1, 2].map fun a => (r.1 a).features.get? "colour")) =
    some ([2, 0, 0, 0, 2], [some (.num 1), some (.num 0), some (.num 1)]) := by decide +kernel

end Prolothar.Data
