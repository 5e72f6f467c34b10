import Verif.Spec.TargetDatasets
import Verif.Props.Dataset
/-
C124: the statistics of datasets with a class label. C125: the targets of the other datasets.
-/
set_option linter.unusedSectionVars false
namespace Prolothar.Data
open Prolothar.Spec.Data

/-! ### counters -/

section
variable {κ : Type} [DecidableEq κ]

theorem addOne_get (c : Dict κ Nat) (k x : κ) : ((addOne c k).get? x).getD 0 = (c.get? x).getD 0 + if x = k then 1 else 0 := by
  unfold addOne
  rw [Dict.get?_put]
  by_cases h : k = x
  · subst h; simp
  · rw [if_neg h, if_neg (fun e => h e.symm)]; simp

theorem addOne_keys (c : Dict κ Nat) (k x : κ) : x ∈ (addOne c k).keys ↔ x ∈ c.keys ∨ x = k := by
  unfold addOne
  exact Dict.mem_keys_put.trans or_comm

theorem readDefault_fst (c : Dict κ Nat) (k : κ) : (readDefault c k).1 = (c.get? k).getD 0 := by
  unfold readDefault
  cases c.get? k <;> rfl

theorem readDefault_get (c : Dict κ Nat) (k x : κ) : ((readDefault c k).2.get? x).getD 0 = (c.get? x).getD 0 := by
  unfold readDefault
  cases hk : c.get? k with
  | some v => rfl
  | none =>
    show ((c.put k 0).get? x).getD 0 = _
    rw [Dict.get?_put]
    by_cases h : k = x
    · subst h; rw [if_pos rfl, hk]; rfl
    · rw [if_neg h]

theorem readDefault_keys (c : Dict κ Nat) (k x : κ) : x ∈ (readDefault c k).2.keys ↔ x ∈ c.keys ∨ x = k := by
  unfold readDefault
  cases hk : c.get? k with
  | some v =>
    show x ∈ c.keys ↔ _
    constructor
    · exact .inl
    · rintro (h | rfl)
      · exact h
      · exact Dict.mem_keys_iff.2 ⟨v, hk⟩
  | none => exact Dict.mem_keys_put.trans or_comm

/-- the value of a nested counter -/
def val₂ (c : Dict String (Dict κ Nat)) (n : String) (k : κ) : Nat := (((c.get? n).getD []).get? k).getD 0

theorem val₂_addOne (c : Dict String (Dict κ Nat)) (n m : String) (k x : κ) :
    val₂ (addOne₂ c n k) m x = val₂ c m x + if m = n ∧ x = k then 1 else 0 := by
  unfold val₂ addOne₂
  rw [Dict.get?_put]
  by_cases h : n = m
  · subst h
    rw [if_pos rfl]
    simp only [Option.getD_some, addOne_get, true_and]
  · rw [if_neg h, if_neg (fun e => h e.1.symm)]; simp

theorem readDefault₂_fst (c : Dict String (Dict κ Nat)) (n : String) (k : κ) : (readDefault₂ c n k).1 = val₂ c n k :=
  readDefault_fst _ _

theorem readDefault₂_val (c : Dict String (Dict κ Nat)) (n m : String) (k x : κ) :
    val₂ (readDefault₂ c n k).2 m x = val₂ c m x := by
  unfold readDefault₂ val₂
  simp only
  rw [Dict.get?_put]
  by_cases h : n = m
  · subst h
    rw [if_pos rfl]
    exact readDefault_get _ _ _
  · rw [if_neg h]

theorem val₂_del {c : Dict String (Dict κ Nat)} (hc : c.WF) (n m : String) (x : κ) :
    val₂ (if c.has n then c.del n else c) m x = if m = n then 0 else val₂ c m x := by
  unfold val₂ Dict.has
  cases hn : c.get? n with
  | none =>
    simp only [Option.isSome_none, Bool.false_eq_true, if_false]
    by_cases h : m = n
    · subst h; rw [if_pos rfl, hn]; rfl
    · rw [if_neg h]
  | some v =>
    simp only [Option.isSome_some, if_true]
    rw [Dict.get?_del hc]
    by_cases h : m = n
    · subst h; simp [Dict.get?]
    · rw [if_neg h, if_neg (fun e => h e.symm)]

theorem wf_del {c : Dict String (Dict κ Nat)} (hc : c.WF) (n : String) : Dict.WF (if c.has n then c.del n else c) := by
  split
  · exact hc.del _
  · exact hc

end

theorem number_append {α : Type} (l : List α) (x : α) (p : α → Prop) [DecidablePred p] :
    number (l ++ [x]) p = number l p + if p x then 1 else 0 := by
  unfold number
  rw [List.filter_append, List.length_append]
  by_cases h : p x <;> simp [h]

theorem number_congr {α : Type} (l : List α) {p q : α → Prop} [DecidablePred p] [DecidablePred q] (h : ∀ a ∈ l, (p a ↔ q a)) :
    number l p = number l q := by
  unfold number
  congr 1
  exact List.filter_congr fun a ha => decide_eq_decide.2 (h a ha)

theorem number_zero {α : Type} (l : List α) (p : α → Prop) [DecidablePred p] (h : ∀ a ∈ l, ¬ p a) : number l p = 0 := by
  unfold number
  rw [List.length_eq_zero_iff, List.filter_eq_nil_iff]
  intro a ha
  simpa using h a ha

/-! ### C124 -/

/-- what the loop of `add_instance` does to the counters -/
theorem countCategories {x : Inst String} : ∀ (names : List String) (s : Dict String (Dict Val Nat) × Dict String (Dict (Val × String) Nat)),
    names.Nodup → (∀ n ∈ names, n ∈ x.features.keys) → s.1.WF → s.2.WF →
    ∃ s', names.foldlM (countCategory x) s = .ok s' ∧ s'.1.WF ∧ s'.2.WF ∧
      (∀ n v, val₂ s'.1 n v = val₂ s.1 n v + if n ∈ names ∧ x.features.get? n = some v then 1 else 0) ∧
      ∀ n v c, val₂ s'.2 n (v, c) = val₂ s.2 n (v, c) + if n ∈ names ∧ x.features.get? n = some v ∧ x.target = c then 1 else 0
  | [], s, _, _, h1, h2 => ⟨s, rfl, h1, h2, by simp, by simp⟩
  | m :: names, s, hnd, hk, h1, h2 => by
    rw [List.nodup_cons] at hnd
    obtain ⟨w, hw⟩ := Dict.mem_keys_iff.1 (hk m (by simp))
    have hstep : countCategory x s m = .ok (addOne₂ s.1 m w, addOne₂ s.2 m (w, x.target)) := by
      unfold countCategory Dict.getItem
      rw [hw]; rfl
    obtain ⟨s', e1, e2, e3, e4, e5⟩ := countCategories names (addOne₂ s.1 m w, addOne₂ s.2 m (w, x.target)) hnd.2
      (fun n hn => hk n (by simp [hn])) (h1.put _ _) (h2.put _ _)
    refine ⟨s', by rw [List.foldlM_cons, hstep]; exact e1, e2, e3, ?_, ?_⟩
    · intro n v
      rw [e4, val₂_addOne]
      by_cases hn : n = m
      · subst hn
        simp only [hw, hnd.1, true_and, false_and, if_false, List.mem_cons, true_or, Option.some.injEq, Nat.add_zero]
        by_cases hv : v = w
        · subst hv; simp
        · rw [if_neg hv, if_neg (fun e => hv e.symm)]
      · rw [if_neg (fun e => hn e.1)]
        simp [hn]
    · intro n v c
      rw [e5, val₂_addOne]
      by_cases hn : n = m
      · subst hn
        simp only [hw, hnd.1, true_and, false_and, if_false, List.mem_cons, true_or, Option.some.injEq, Prod.mk.injEq, Nat.add_zero]
        by_cases hv : v = w ∧ c = x.target
        · obtain ⟨rfl, rfl⟩ := hv; simp
        · rw [if_neg hv, if_neg (fun e => hv ⟨e.1.symm, e.2.symm⟩)]
      · rw [if_neg (fun e => hn e.1)]
        simp [hn]

/-- the invariant of a classification dataset -/
structure ClassInv (late : Bool) (h : Heap String) (d : ClassDs) (asked : List String) : Prop where
  base : Consistent h d.base
  wf1 : d.catCounter.WF
  wf2 : d.catClassCounter.WF
  cls : ∀ c, (d.classCounter.get? c).getD 0 = number d.base.instances fun a => (h a).target = c
  keys : ∀ c, c ∈ d.classCounter.keys ↔ (∃ a ∈ d.base.instances, (h a).target = c) ∨ c ∈ asked
  cat : late = false → ∀ n v, val₂ d.catCounter n v =
    if n ∈ d.base.catNames then number d.base.instances fun a => (h a).features.get? n = some v else 0
  catCls : late = false → ∀ n v c, val₂ d.catClassCounter n (v, c) =
    if n ∈ d.base.catNames then number d.base.instances fun a => (h a).features.get? n = some v ∧ (h a).target = c else 0

theorem cat_mem {h : Heap String} {d : Dataset} (hc : Consistent h d) {n : String} (hn : n ∈ d.catNames) : n ∈ d.attrs.keys := by
  obtain ⟨at', h1, _⟩ := (hc.categorical.2 n).1 hn
  exact Dict.mem_keys_iff.2 ⟨_, h1⟩

theorem classInv_add {late : Bool} {h : Heap String} {d : ClassDs} {asked : List String} (hi : ClassInv late h d asked) {a : Nat}
    (hn : (h a).features.keys.Nodup) (hf : ∀ n, n ∈ (h a).features.keys ↔ n ∈ d.base.attrs.keys)
    (hid : ∀ b ∈ d.base.instances, (h b).id ≠ (h a).id) :
    ∃ d', d.addInstance h a = .ok d' ∧ ClassInv late h d' asked ∧ d'.base.instances = d.base.instances ++ [a] ∧
      d'.base.catNames = d.base.catNames ∧ d'.base.numNames = d.base.numNames ∧ d.base.addInstance h a = .ok d'.base := by
  have hok := addInstance_ok (h := h) (d := d.base) hf hid
  obtain ⟨s, e1, e2, e3, e4, e5⟩ := countCategories (x := h a) d.base.catNames (d.catCounter, d.catClassCounter)
    hi.base.categorical.1 (fun n hn => (hf n).2 (cat_mem hi.base hn)) hi.wf1 hi.wf2
  refine ⟨⟨{ d.base with instances := d.base.instances ++ [a], attrs := addedAttrs d.base.attrs (h a).features }, s.1, s.2,
    addOne d.classCounter (h a).target⟩, ?_, ?_, rfl, rfl, rfl, hok⟩
  · unfold ClassDs.addInstance
    rw [hok]
    show (d.base.catNames.foldlM (countCategory (h a)) (d.catCounter, d.catClassCounter) >>= fun s => (pure _ : Py ClassDs)) = _
    rw [e1]
    rfl
  · constructor
    · exact addInstance_consistent hi.base hn hok
    · exact e2
    · exact e3
    · intro c
      show ((addOne d.classCounter (h a).target).get? c).getD 0 = number (d.base.instances ++ [a]) _
      rw [addOne_get, number_append, hi.cls]
      congr 1
      simp only [eq_comm]
    · intro c
      show c ∈ (addOne d.classCounter (h a).target).keys ↔ (∃ b ∈ d.base.instances ++ [a], _) ∨ _
      rw [addOne_keys, hi.keys]
      constructor
      · rintro ((⟨b, hb, e⟩ | h) | rfl)
        · exact .inl ⟨b, by simp [hb], e⟩
        · exact .inr h
        · exact .inl ⟨a, by simp, rfl⟩
      · rintro (⟨b, hb, e⟩ | h)
        · rcases List.mem_append.1 hb with hb | hb
          · exact .inl (.inl ⟨b, hb, e⟩)
          · simp only [List.mem_singleton] at hb
            subst hb; exact .inr e.symm
        · exact .inl (.inr h)
    · intro hl n v
      show val₂ s.1 n v = if n ∈ d.base.catNames then number (d.base.instances ++ [a]) _ else 0
      rw [e4, hi.cat hl]
      by_cases hn : n ∈ d.base.catNames
      · rw [if_pos hn, if_pos hn, number_append]; simp [hn]
      · simp [hn]
    · intro hl n v c
      show val₂ s.2 n (v, c) = if n ∈ d.base.catNames then number (d.base.instances ++ [a]) _ else 0
      rw [e5, hi.catCls hl]
      by_cases hn : n ∈ d.base.catNames
      · rw [if_pos hn, if_pos hn, number_append]; simp [hn]
      · simp [hn]

theorem classInv_new (late : Bool) (h : Heap String) {cat num : List String} (hd : (cat ++ num).Nodup) :
    ClassInv late h (ClassDs.new cat num) [] where
  base := new_consistent h hd
  wf1 := Dict.WF.nil
  wf2 := Dict.WF.nil
  cls c := by rfl
  keys c := by simp [ClassDs.new, Dict.keys, Dataset.new]
  cat _ n v := by
    show 0 = if n ∈ cat then 0 else 0
    split <;> rfl
  catCls _ n v c := by
    show 0 = if n ∈ cat then 0 else 0
    split <;> rfl

theorem class_add_inv {h : Heap String} {d d' : ClassDs} {a : Nat} (he : d.addInstance h a = .ok d') :
    ∃ b, d.base.addInstance h a = .ok b := by
  unfold ClassDs.addInstance at he
  cases hb : d.base.addInstance h a with
  | error e => rw [hb] at he; cases he
  | ok b => exact ⟨b, rfl⟩

/-- changing the heap in a way that keeps targets and the features of the categorical attributes -/
theorem ClassInv.heap {late : Bool} {h h' : Heap String} {d d' : ClassDs} {asked : List String} (hi : ClassInv late h d asked)
    (hb : Consistent h' d'.base) (hin : d'.base.instances = d.base.instances)
    (hc1 : d'.catCounter = d.catCounter) (hc2 : d'.catClassCounter = d.catClassCounter) (hc3 : d'.classCounter = d.classCounter)
    (hcat : late = false → ∀ n, (n ∈ d'.base.catNames ↔ n ∈ d.base.catNames) ∨ d.base.instances = [])
    (ht : ∀ a ∈ d.base.instances, (h' a).target = (h a).target)
    (hft : late = false → ∀ a ∈ d.base.instances, ∀ n ∈ d.base.catNames, (h' a).features.get? n = (h a).features.get? n) :
    ClassInv late h' d' asked where
  base := hb
  wf1 := hc1 ▸ hi.wf1
  wf2 := hc2 ▸ hi.wf2
  cls c := by
    rw [hc3, hin, hi.cls]
    exact number_congr _ fun a ha => by rw [ht a ha]
  keys c := by
    rw [hc3, hin, hi.keys]
    refine or_congr_left (exists_congr fun a => and_congr_right fun ha => by rw [ht a ha])
  cat hl n v := by
    rw [hc1, hin, hi.cat hl]
    rcases hcat hl n with h1 | h1
    · by_cases hn : n ∈ d.base.catNames
      · rw [if_pos hn, if_pos (h1.2 hn)]
        exact number_congr _ fun a ha => by rw [hft hl a ha n hn]
      · rw [if_neg hn, if_neg (fun e => hn (h1.1 e))]
    · rw [h1]; simp [number]
  catCls hl n v c := by
    rw [hc2, hin, hi.catCls hl]
    rcases hcat hl n with h1 | h1
    · by_cases hn : n ∈ d.base.catNames
      · rw [if_pos hn, if_pos (h1.2 hn)]
        exact number_congr _ fun a ha => by rw [hft hl a ha n hn, ht a ha]
      · rw [if_neg hn, if_neg (fun e => hn (h1.1 e))]
    · rw [h1]; simp [number]

theorem classInv_history {late : Bool} {h : Heap String} {d : ClassDs} {asked : List String} (hr : ClassHistory late h d asked) :
    ClassInv late h d asked := by
  induction hr with
  | new h cat num hd => exact classInv_new late h hd
  | @create h h' d l _ he ih =>
    exact ih.heap (Consistent.congr ih.base he) rfl rfl rfl rfl (fun _ _ => .inl Iff.rfl) (fun a ha => by rw [he a ha])
      (fun _ a ha n _ => by rw [he a ha])
  | @add h d d' l a _ hn he ih =>
    obtain ⟨b, hb⟩ := class_add_inv he
    obtain ⟨hf, hid, _⟩ := addInstance_inv hb
    obtain ⟨d'', e1, e2, _⟩ := classInv_add ih hn hf hid
    rw [he] at e1
    cases e1
    exact e2
  | @remove h h' d d' l n _ he ih =>
    unfold ClassDs.removeAttribute at he
    have hn : n ∈ d.base.attrs.keys := by
      by_contra hc
      have : d.base.removeAttribute h n = .error .key := by
        unfold Dataset.removeAttribute Dict.getItem
        rw [Dict.get?_eq_none_iff.2 hc]; rfl
      rw [this] at he
      cases he
    obtain ⟨h1, b, e1, e2, e3, e4, e5, e6, e7, e8⟩ := removeAttribute_spec ih.base hn
    rw [e1] at he
    have he := Except.ok.inj he
    rw [Prod.mk.injEq] at he
    obtain ⟨rfl, rfl⟩ := he
    have hmem : ∀ m, m ∈ b.catNames ↔ m ∈ d.base.catNames ∧ m ≠ n := by
      intro m
      rw [e7, ih.base.categorical.1.mem_erase_iff]
      exact and_comm
    have hget : ∀ a ∈ d.base.instances, ∀ m, m ≠ n → (h1 a).features.get? m = (h a).features.get? m := by
      intro a ha m hm
      rw [e6 a ha]
      show ((h a).features.del n).get? m = _
      rw [Dict.get?_del (ih.base.features a ha).1, if_neg (fun e => hm e.symm)]
    have htar : ∀ a ∈ d.base.instances, (h1 a).target = (h a).target := fun a ha => by rw [e6 a ha]
    constructor
    · exact e2
    · exact wf_del ih.wf1 n
    · exact wf_del ih.wf2 n
    · intro c
      show (d.classCounter.get? c).getD 0 = number b.instances _
      rw [e3, ih.cls]
      exact number_congr _ fun a ha => by rw [htar a ha]
    · intro c
      show c ∈ d.classCounter.keys ↔ (∃ a ∈ b.instances, _) ∨ _
      rw [e3, ih.keys]
      exact or_congr_left (exists_congr fun a => and_congr_right fun ha => by rw [htar a ha])
    · intro hl m v
      show val₂ (if d.catCounter.has n then d.catCounter.del n else d.catCounter) m v = if m ∈ b.catNames then number b.instances _ else 0
      rw [val₂_del ih.wf1, ih.cat hl, e3]
      by_cases hm : m = n
      · rw [if_pos hm, if_neg (fun e => ((hmem m).1 e).2 hm)]
      · rw [if_neg hm]
        by_cases hc : m ∈ d.base.catNames
        · rw [if_pos hc, if_pos ((hmem m).2 ⟨hc, hm⟩)]
          exact number_congr _ fun a ha => by rw [hget a ha m hm]
        · rw [if_neg hc, if_neg (fun e => hc ((hmem m).1 e).1)]
    · intro hl m v c
      show val₂ (if d.catClassCounter.has n then d.catClassCounter.del n else d.catClassCounter) m (v, c) =
        if m ∈ b.catNames then number b.instances _ else 0
      rw [val₂_del ih.wf2, ih.catCls hl, e3]
      by_cases hm : m = n
      · rw [if_pos hm, if_neg (fun e => ((hmem m).1 e).2 hm)]
      · rw [if_neg hm]
        by_cases hc : m ∈ d.base.catNames
        · rw [if_pos hc, if_pos ((hmem m).2 ⟨hc, hm⟩)]
          exact number_congr _ fun a ha => by rw [hget a ha m hm, htar a ha]
        · rw [if_neg hc, if_neg (fun e => hc ((hmem m).1 e).1)]
  | @addCat h h' d d' l n vs _ hn hlate he ih =>
    unfold ClassDs.addCategorical at he
    by_cases hl : vs.length = d.base.instances.length
    · obtain ⟨h1, b, e1, e2, e3, e4, e5, e6, e7, e8⟩ := C58_add_categorical ih.base hn hl
      rw [e1] at he
      have he := Except.ok.inj he
      rw [Prod.mk.injEq] at he
      obtain ⟨rfl, rfl⟩ := he
      have hval : ∀ a ∈ d.base.instances, (h1 a).target = (h a).target ∧ ∀ m ∈ d.base.catNames, (h1 a).features.get? m = (h a).features.get? m := by
        intro a ha
        obtain ⟨i, v, hi, hv⟩ := exists_value hl.symm ha
        obtain ⟨_, q2, q3⟩ := e8 i a v hi hv
        refine ⟨q2, fun m hm => ?_⟩
        rw [q3, if_neg]
        rintro rfl
        exact hn (cat_mem ih.base hm)
      refine ih.heap e2 e3 rfl rfl rfl ?_ (fun a ha => (hval a ha).1) (fun _ a ha => (hval a ha).2)
      intro hf m
      rcases hlate with h | h
      · rw [hf] at h; cases h
      · exact .inr h
    · rw [(C58_add_attribute_length h d.base n hl).1] at he
      cases he
  | @addNum h h' d d' l n vs _ hn he ih =>
    unfold ClassDs.addNumerical at he
    by_cases hl : vs.length = d.base.instances.length
    · obtain ⟨h1, b, e1, e2, e3, e4, e5, e6, e7, e8⟩ := C58_add_numerical ih.base hn hl
      rw [e1] at he
      have he := Except.ok.inj he
      rw [Prod.mk.injEq] at he
      obtain ⟨rfl, rfl⟩ := he
      have hval : ∀ a ∈ d.base.instances, (h1 a).target = (h a).target ∧ ∀ m ∈ d.base.catNames, (h1 a).features.get? m = (h a).features.get? m := by
        intro a ha
        obtain ⟨i, v, hi, hv⟩ := exists_value hl.symm ha
        obtain ⟨_, q2, q3⟩ := e8 i a v hi hv
        refine ⟨q2, fun m hm => ?_⟩
        rw [q3, if_neg]
        rintro rfl
        exact hn (cat_mem ih.base hm)
      refine ih.heap e2 e3 rfl rfl rfl ?_ (fun a ha => (hval a ha).1) (fun _ a ha => (hval a ha).2)
      intro _ m
      exact .inl (by show m ∈ b.catNames ↔ _; rw [e5])
    · rw [(C58_add_attribute_length h d.base n hl).2] at he
      cases he
  | @askCategory h d l n v _ ih =>
    exact { ih with
      wf1 := by exact ih.wf1.put _ _
      cat := fun hl m w => by
        show val₂ (readDefault₂ d.catCounter n v).2 m w = _
        rw [readDefault₂_val]; exact ih.cat hl m w }
  | @askCategoryAndClass h d l n v c _ ih =>
    exact { ih with
      wf2 := by exact ih.wf2.put _ _
      catCls := fun hl m w c' => by
        show val₂ (readDefault₂ d.catClassCounter n (v, c)).2 m (w, c') = _
        rw [readDefault₂_val]; exact ih.catCls hl m w c' }
  | @askClass h d l c _ ih =>
    exact { ih with
      cls := fun x => by
        show ((readDefault d.classCounter c).2.get? x).getD 0 = _
        rw [readDefault_get]; exact ih.cls x
      keys := fun x => by
        show x ∈ (readDefault d.classCounter c).2.keys ↔ _
        rw [readDefault_keys, ih.keys, List.mem_cons]
        show (_ ∨ _) ∨ _ ↔ (∃ a ∈ d.base.instances, (h a).target = x) ∨ _
        rw [or_assoc, or_comm (a := x ∈ l)] }

/-- C124: after any history of calls in which categorical attributes are only added to the empty dataset, the counts of
a categorical attribute are the numbers of instances with that value (and that class); for any other name they are 0. -/
theorem C124_category_counts {h : Heap String} {d : ClassDs} {asked : List String} (hr : ClassHistory false h d asked)
    (n : String) (v : Val) (c : String) :
    (n ∈ d.base.catNames →
      (d.countForCategory n v).1 = number d.base.instances (fun a => (h a).features.get? n = some v) ∧
      (d.countForCategoryAndClass n v c).1 =
        number d.base.instances (fun a => (h a).features.get? n = some v ∧ (h a).target = c)) ∧
    (n ∉ d.base.catNames → (d.countForCategory n v).1 = 0 ∧ (d.countForCategoryAndClass n v c).1 = 0) := by
  have hi := classInv_history hr
  have e1 : (d.countForCategory n v).1 = _ := (readDefault₂_fst _ _ _).trans (hi.cat rfl n v)
  have e2 : (d.countForCategoryAndClass n v c).1 = _ := (readDefault₂_fst _ _ _).trans (hi.catCls rfl n v c)
  rw [e1, e2]
  exact ⟨fun hn => by rw [if_pos hn, if_pos hn]; exact ⟨rfl, rfl⟩, fun hn => by rw [if_neg hn, if_neg hn]; exact ⟨rfl, rfl⟩⟩

/-- C124: after any history of calls the count of a class is the number of instances with that label, and the set of
classes consists of the labels of the instances and the labels that were asked for. -/
theorem C124_class_counts {late : Bool} {h : Heap String} {d : ClassDs} {asked : List String} (hr : ClassHistory late h d asked) :
    (∀ c, (d.classCount c).1 = number d.base.instances fun a => (h a).target = c) ∧
    ∀ c, c ∈ d.classes ↔ (∃ a ∈ d.base.instances, (h a).target = c) ∨ c ∈ asked :=
  ⟨fun c => (readDefault_fst _ _).trans ((classInv_history hr).cls c), (classInv_history hr).keys⟩

/-- C124: parts of a dataset have correct counts, whatever the history of the dataset was. -/
theorem C124_parts {h : Heap String} {d : ClassDs} (hc : Consistent h d.base) {l : List Nat} (hnd : l.Nodup)
    (hl : ∀ a ∈ l, a ∈ d.base.instances) :
    ∃ s, d.sub h l = .ok s ∧ d.base.sub h l = .ok s.base ∧ s.base.instances = l ∧ s.base.catNames = d.base.catNames ∧
      ClassHistory false h s [] := by
  have key : ∀ (l : List Nat) (s : ClassDs), ClassHistory false h s [] → SameAttrs d.base s.base → (s.base.instances ++ l).Nodup →
      (∀ a ∈ s.base.instances ++ l, a ∈ d.base.instances) →
      ∃ s', l.foldlM (ClassDs.addInstance h) s = .ok s' ∧ l.foldlM (Dataset.addInstance h) s.base = .ok s'.base ∧
        ClassHistory false h s' [] ∧ s'.base.instances = s.base.instances ++ l ∧ s'.base.catNames = s.base.catNames := by
    intro l
    induction l with
    | nil => exact fun s h1 _ _ _ => ⟨s, rfl, rfl, h1, by simp, rfl⟩
    | cons a l ih =>
      intro s h1 h2 h3 h4
      have ha := h4 a (by simp)
      have hi := classInv_history h1
      have hid : ∀ b ∈ s.base.instances, (h b).id ≠ (h a).id := by
        intro b hb he
        have := id_inj hc (h4 b (by simp [hb])) ha he
        subst this
        rw [List.nodup_append] at h3
        exact h3.2.2 b hb b (by simp) rfl
      obtain ⟨t, f1, f2, f3, f4⟩ := add_same (a := a) hi.base h2 (hc.features a ha) hid
      obtain ⟨hfit, _, _⟩ := addInstance_inv f1
      obtain ⟨s1, e1, e2, e3, e4, e5, e6⟩ := classInv_add hi (hc.features a ha).1 hfit hid
      rw [f1] at e6
      have e6 := Except.ok.inj e6
      subst e6
      obtain ⟨s2, g1, g2, g3, g4, g5⟩ := ih s1 (.add h1 (hc.features a ha).1 e1) f3 (by rw [e3]; simpa using h3)
        (by rw [e3]; simpa using h4)
      refine ⟨s2, by rw [List.foldlM_cons, e1]; exact g1, by rw [List.foldlM_cons, f1]; exact g2, g3, by rw [g4, e3]; simp, by rw [g5, e4]⟩
  obtain ⟨s, e1, e2, e3, e4, e5⟩ := key l (ClassDs.new d.base.catNames d.base.numNames)
    (.new h _ _ (catNum_nodup hc)) (new_sameAttrs hc) (by simpa [ClassDs.new, Dataset.new] using hnd)
    (by simpa [ClassDs.new, Dataset.new] using hl)
  exact ⟨s, e1, e2, by rw [e4]; simp [ClassDs.new, Dataset.new], by rw [e5]; rfl, e3⟩

/-- C124, disagreement: a categorical attribute that is added to a dataset is not counted, whatever its values are. -/
theorem C124_added_attribute_not_counted {h h' : Heap String} {d d' : ClassDs} {asked : List String}
    (hr : ClassHistory false h d asked) {n : String} (hn : n ∉ d.base.attrs.keys) {vs : List Val}
    (he : d.addCategorical h n vs = .ok (h', d')) (v : Val) (c : String) :
    n ∈ d'.base.catNames ∧ (d'.countForCategory n v).1 = 0 ∧ (d'.countForCategoryAndClass n v c).1 = 0 := by
  have hcat : n ∉ d.base.catNames := fun hm => hn (cat_mem (classInv_history hr).base hm)
  have h0 := (C124_category_counts hr n v c).2 hcat
  unfold ClassDs.addCategorical Dataset.addCategorical at he
  split at he
  · cases he
  · have he := Except.ok.inj he
    rw [Prod.mk.injEq] at he
    obtain ⟨_, rfl⟩ := he
    exact ⟨by simp, h0⟩

/-- C124, disagreement: asking for the count of an unknown label makes it a class of the dataset. -/
theorem C124_query_adds_class (d : ClassDs) {c : String} (hc : c ∉ d.classes) :
    (d.classCount c).1 = 0 ∧ c ∈ (d.classCount c).2.classes := by
  have h0 : (d.classCounter.get? c) = none := Dict.get?_eq_none_iff.2 hc
  refine ⟨(readDefault_fst _ _).trans (by rw [h0]; rfl), ?_⟩
  exact (readDefault_keys d.classCounter c c).2 (.inr rfl)

/-- the hypotheses are met: a dataset with three instances; counts, a query for an unknown label and an attribute that is
added later -/
def exClassHeap : Heap String := fun a =>
  if a = 0 then ⟨.str "i", [("colour", .str "red"), ("size", .num 1)], "A"⟩
  else if a = 1 then ⟨.str "j", [("size", .num 2), ("colour", .str "blue")], "B"⟩
  else if a = 2 then ⟨.str "k", [("size", .num 2), ("colour", .str "red")], "B"⟩
  else ⟨.str "", [], ""⟩

/-- the dataset with these instances -/
def exClass : Py ClassDs := [0, 1, 2].foldlM (ClassDs.addInstance exClassHeap) (ClassDs.new ["colour"] ["size"])

theorem exClass_history : ∃ d, exClass = .ok d ∧ ClassHistory false exClassHeap d [] ∧ d.base.instances = [0, 1, 2] := by
  have h0 : ClassHistory false exClassHeap (ClassDs.new ["colour"] ["size"]) [] := .new _ _ _ (by decide)
  have h1 : ClassHistory false exClassHeap _ [] := .add (a := 0) h0 (by decide) rfl
  have h2 : ClassHistory false exClassHeap _ [] := .add (a := 1) h1 (by decide) rfl
  exact ⟨_, rfl, .add (a := 2) h2 (by decide) rfl, rfl⟩

example : (exClass.toOption.map fun d => [(d.countForCategory "colour" (.str "red")).1,
    (d.countForCategoryAndClass "colour" (.str "red") "B").1, (d.classCount "B").1, (d.countForCategory "size" (.num 2)).1]) =
    some [2, 1, 2, 0] := by rfl

example : (exClass.toOption.map fun d => (d.classCount "X").2.classes) = some ["A", "B", "X"] := by rfl

example : (exClass.toOption.bind fun d => (d.addCategorical exClassHeap "shape" [.str "s", .str "t", .str "s"]).toOption.map
    fun r => ((r.2.countForCategory "shape" (.str "s")).1, (r.1 0).features.get? "shape")) = some (0, some (.str "s")) := by rfl

/-! ### C125 -/

section
variable {τ D : Type} {new : List String → List String → D} {base : D → Dataset} {setBase : D → Dataset → D}
  {add : Heap τ → D → Nat → Py D}

/-- a property of the dataset that depends on the targets of its instances, in the order of insertion -/
theorem history_inv (I : List τ → D → Prop) (hbn : ∀ cat num, base (new cat num) = Dataset.new cat num)
    (hbs : ∀ d b, base (setBase d b) = b) (hba : ∀ h d a d', add h d a = .ok d' → (base d).addInstance h a = .ok (base d'))
    (h0 : ∀ cat num, I [] (new cat num)) (hs : ∀ l d b, I l d → I l (setBase d b))
    (ha : ∀ l h d a d', I l d → add h d a = .ok d' → I (l ++ [(h a).target]) d')
    {h : Heap τ} {d : D} (hr : TargetHistory new base setBase add h d) :
    Consistent h (base d) ∧ I ((base d).instances.map fun a => (h a).target) d := by
  induction hr with
  | new h cat num hd => rw [hbn]; exact ⟨new_consistent h hd, h0 cat num⟩
  | @create h h' d _ he ih =>
    refine ⟨Consistent.congr ih.1 he, ?_⟩
    rw [List.map_congr_left (g := fun a => (h a).target) fun a ha => by rw [he a ha]]
    exact ih.2
  | @add h d d' a _ hn he ih =>
    have hb := hba h d a d' he
    refine ⟨addInstance_consistent ih.1 hn hb, ?_⟩
    obtain ⟨_, _, e⟩ := addInstance_inv hb
    rw [e]
    show I ((_ ++ [a]).map _) d'
    rw [List.map_append]
    exact ha _ h d a d' ih.2 he
  | @remove h h' d b n _ he ih =>
    have hn : n ∈ (base d).attrs.keys := by
      by_contra hc
      have : (base d).removeAttribute h n = .error .key := by
        unfold Dataset.removeAttribute Dict.getItem
        rw [Dict.get?_eq_none_iff.2 hc]; rfl
      rw [this] at he
      cases he
    obtain ⟨h1, b1, e1, e2, e3, _, _, e6, _⟩ := removeAttribute_spec ih.1 hn
    rw [he] at e1
    have e1 := Except.ok.inj e1
    rw [Prod.mk.injEq] at e1
    obtain ⟨rfl, rfl⟩ := e1
    rw [hbs]
    refine ⟨e2, ?_⟩
    rw [e3, List.map_congr_left (g := fun a => (h a).target) fun a ha => by rw [e6 a ha]]
    exact hs _ _ _ ih.2
  | @addCat h h' d b n vs _ hn he ih =>
    by_cases hl : vs.length = (base d).instances.length
    · obtain ⟨h1, b1, e1, e2, e3, _, _, _, _, e8⟩ := C58_add_categorical ih.1 hn hl
      rw [he] at e1
      have e1 := Except.ok.inj e1
      rw [Prod.mk.injEq] at e1
      obtain ⟨rfl, rfl⟩ := e1
      rw [hbs]
      refine ⟨e2, ?_⟩
      rw [e3, List.map_congr_left (g := fun a => (h a).target) fun a ha => by
        obtain ⟨i, v, hi, hv⟩ := exists_value hl.symm ha
        exact (e8 i a v hi hv).2.1]
      exact hs _ _ _ ih.2
    · rw [(C58_add_attribute_length h (base d) n hl).1] at he
      cases he
  | @addNum h h' d b n vs _ hn he ih =>
    by_cases hl : vs.length = (base d).instances.length
    · obtain ⟨h1, b1, e1, e2, e3, _, _, _, _, e8⟩ := C58_add_numerical ih.1 hn hl
      rw [he] at e1
      have e1 := Except.ok.inj e1
      rw [Prod.mk.injEq] at e1
      obtain ⟨rfl, rfl⟩ := e1
      rw [hbs]
      refine ⟨e2, ?_⟩
      rw [e3, List.map_congr_left (g := fun a => (h a).target) fun a ha => by
        obtain ⟨i, v, hi, hv⟩ := exists_value hl.symm ha
        exact (e8 i a v hi hv).2.1]
      exact hs _ _ _ ih.2
    · rw [(C58_add_attribute_length h (base d) n hl).2] at he
      cases he

end

theorem mem_updateSet {α : Type} [DecidableEq α] (l : List α) : ∀ s : List α, (s.Nodup → (updateSet s l).Nodup) ∧
    ∀ x, x ∈ updateSet s l ↔ x ∈ s ∨ x ∈ l := by
  induction l with
  | nil => exact fun s => ⟨fun h => h, fun x => by simp [updateSet]⟩
  | cons y l ih =>
    intro s
    have hs : updateSet s (y :: l) = updateSet (if y ∈ s then s else s ++ [y]) l := rfl
    rw [hs]
    split
    · next hy =>
      refine ⟨(ih s).1, fun x => ?_⟩
      rw [(ih s).2, List.mem_cons]
      constructor
      · rintro (h | h)
        · exact .inl h
        · exact .inr (.inr h)
      · rintro (h | rfl | h)
        · exact .inl h
        · exact .inl hy
        · exact .inr h
    · next hy =>
      refine ⟨fun hn => (ih _).1 ?_, fun x => ?_⟩
      · refine List.nodup_append.2 ⟨hn, by simp, ?_⟩
        rintro a ha b hb rfl
        simp only [List.mem_singleton] at hb
        exact hy (hb ▸ ha)
      · rw [(ih _).2, List.mem_append, List.mem_singleton, List.mem_cons, or_assoc]

/-- C125: the set of labels of a multi-label dataset consists of the labels of its instances. -/
theorem C125_labels {h : Heap (List String)} {d : LabelDs} (hr : LabelHistory h d) :
    d.labels.Nodup ∧ ∀ x, x ∈ d.labels ↔ ∃ a ∈ d.base.instances, x ∈ (h a).target := by
  have := (history_inv (τ := List String) (D := LabelDs) (new := LabelDs.new) (base := LabelDs.base) (setBase := fun d b => { d with base := b })
    (add := LabelDs.addInstance) (fun l d => d.labels.Nodup ∧ ∀ x, x ∈ d.labels ↔ ∃ t ∈ l, x ∈ t) (fun _ _ => rfl) (fun _ _ => rfl)
    (fun h d a d' he => by
      unfold LabelDs.addInstance at he
      cases hb : d.base.addInstance h a with
      | error e => rw [hb] at he; cases he
      | ok b => rw [hb] at he; cases he; rfl)
    (fun _ _ => ⟨List.nodup_nil, by simp [LabelDs.new]⟩) (fun _ _ _ h => h)
    (fun l h d a d' hI he => by
      unfold LabelDs.addInstance at he
      cases hb : d.base.addInstance h a with
      | error e => rw [hb] at he; cases he
      | ok b =>
        rw [hb] at he
        cases he
        obtain ⟨m1, m2⟩ := mem_updateSet (h a).target d.labels
        refine ⟨m1 hI.1, fun x => ?_⟩
        show x ∈ updateSet d.labels (h a).target ↔ _
        rw [m2, hI.2]
        simp [or_and_right, exists_or]) hr).2
  simpa using this

/-- C125: the symbols of a target sequence dataset are those of the sequences of its instances, at the time they were
added. -/
theorem C125_symbols {h : Heap (List String)} {d : SeqDs} (hr : SeqHistory h d) :
    d.symbols.Nodup ∧ ∀ x, x ∈ d.symbols ↔ ∃ a ∈ d.base.instances, x ∈ (h a).target := by
  have := (history_inv (τ := List String) (D := SeqDs) (new := SeqDs.new) (base := SeqDs.base) (setBase := fun d b => { d with base := b })
    (add := SeqDs.addInstance) (fun l d => d.symbols.Nodup ∧ ∀ x, x ∈ d.symbols ↔ ∃ t ∈ l, x ∈ t) (fun _ _ => rfl) (fun _ _ => rfl)
    (fun h d a d' he => by
      unfold SeqDs.addInstance at he
      cases hb : d.base.addInstance h a with
      | error e => rw [hb] at he; cases he
      | ok b => rw [hb] at he; cases he; rfl)
    (fun _ _ => ⟨List.nodup_nil, by simp [SeqDs.new]⟩) (fun _ _ _ h => h)
    (fun l h d a d' hI he => by
      unfold SeqDs.addInstance at he
      cases hb : d.base.addInstance h a with
      | error e => rw [hb] at he; cases he
      | ok b =>
        rw [hb] at he
        cases he
        obtain ⟨m1, m2⟩ := mem_updateSet (h a).target d.symbols
        refine ⟨m1 hI.1, fun x => ?_⟩
        show x ∈ updateSet d.symbols (h a).target ↔ _
        rw [m2, hI.2]
        simp [or_and_right, exists_or]) hr).2
  simpa using this

theorem addCounts_keys (m : Dict String Int) : ∀ c : Dict String Int, (c.WF → (addCounts c m).WF) ∧
    ∀ x, x ∈ (addCounts c m).keys ↔ x ∈ c.keys ∨ x ∈ m.keys := by
  induction m with
  | nil => exact fun c => ⟨fun h => h, fun x => by simp [addCounts, Dict.keys]⟩
  | cons e m ih =>
    intro c
    have hs : addCounts c (e :: m) = addCounts (c.put e.1 ((c.get? e.1).getD 0 + e.2)) m := rfl
    rw [hs]
    refine ⟨fun hw => (ih _).1 (hw.put _ _), fun x => ?_⟩
    rw [(ih _).2, Dict.mem_keys_put]
    simp only [Dict.keys, List.map_cons, List.mem_cons]
    rw [or_comm (a := x = e.1), or_assoc]

theorem addCounts_get (m : Dict String Int) (hm : m.WF) (x : String) : ∀ c : Dict String Int,
    ((addCounts c m).get? x).getD 0 = (c.get? x).getD 0 + (m.get? x).getD 0 := by
  induction m with
  | nil => intro c; simp [addCounts, Dict.get?]
  | cons e m ih =>
    intro c
    obtain ⟨h1, h2⟩ := List.nodup_cons.1 hm
    have hs : addCounts c (e :: m) = addCounts (c.put e.1 ((c.get? e.1).getD 0 + e.2)) m := rfl
    rw [hs, ih h2, Dict.get?_put]
    by_cases hx : e.1 = x
    · subst hx
      have : Dict.get? m e.1 = none := Dict.get?_eq_none_iff.2 h1
      simp [Dict.get?, this]
    · simp [Dict.get?, hx]

theorem maxCounts_get (m : Dict String Int) (hm : m.WF) (x : String) : ∀ c : Dict String Int, 0 ≤ (c.get? x).getD 0 →
    ((Data.maxCounts c m).get? x).getD 0 = max ((c.get? x).getD 0) ((m.get? x).getD 0) := by
  induction m with
  | nil => intro c hc; simp [Data.maxCounts, Dict.get?, hc]
  | cons e m ih =>
    intro c hc
    obtain ⟨h1, h2⟩ := List.nodup_cons.1 hm
    have hs : Data.maxCounts c (e :: m) = Data.maxCounts (c.put e.1 (max ((c.get? e.1).getD 0) e.2)) m := rfl
    by_cases hx : e.1 = x
    · subst hx
      have hn : Dict.get? m e.1 = none := Dict.get?_eq_none_iff.2 h1
      rw [hs, ih h2 _ (by rw [Dict.get?_put_self]; simp [hc]), Dict.get?_put_self, hn]
      simp [Dict.get?, hc]
    · rw [hs, ih h2 _ (by rw [Dict.get?_put_of_ne _ _ hx]; exact hc), Dict.get?_put_of_ne _ _ hx]
      simp [Dict.get?, hx]

/-- C125: the counters of a multiset dataset: the number of occurrences of an element is the sum of its multiplicities over the instances; the
greatest multiplicity is 0 or taken by an instance, and no multiplicity is greater. -/
theorem C125_multiset_counts {h : Heap (Dict String Int)} {d : MultisetDs} (hr : MultisetHistory h d)
    (hw : ∀ a ∈ d.base.instances, (h a).target.WF) (x : String) :
    (d.counts.get? x).getD 0 = (d.base.instances.map fun a => ((h a).target.get? x).getD 0).sum ∧
    (∀ a ∈ d.base.instances, ((h a).target.get? x).getD 0 ≤ (d.maxCounts.get? x).getD 0) ∧
    ((d.maxCounts.get? x).getD 0 = 0 ∨ ∃ a ∈ d.base.instances, ((h a).target.get? x).getD 0 = (d.maxCounts.get? x).getD 0) := by
  have := (history_inv (τ := Dict String Int) (D := MultisetDs) (new := MultisetDs.new) (base := MultisetDs.base) (setBase := fun d b => { d with base := b })
    (add := MultisetDs.addInstance) (fun l d => (∀ t ∈ l, t.WF) → (d.counts.get? x).getD 0 = (l.map fun t => (t.get? x).getD 0).sum ∧
      0 ≤ (d.maxCounts.get? x).getD 0 ∧ (∀ t ∈ l, (t.get? x).getD 0 ≤ (d.maxCounts.get? x).getD 0) ∧
      ((d.maxCounts.get? x).getD 0 = 0 ∨ ∃ t ∈ l, (t.get? x).getD 0 = (d.maxCounts.get? x).getD 0)) (fun _ _ => rfl) (fun _ _ => rfl)
    (fun h d a d' he => by
      unfold MultisetDs.addInstance at he
      cases hb : d.base.addInstance h a with
      | error e => rw [hb] at he; cases he
      | ok b => rw [hb] at he; cases he; rfl)
    (fun _ _ _ => by simp [MultisetDs.new, Dict.get?]) (fun _ _ _ h => h)
    (fun l h d a d' hI he => by
      unfold MultisetDs.addInstance at he
      cases hb : d.base.addInstance h a with
      | error e => rw [hb] at he; cases he
      | ok b =>
        rw [hb] at he
        cases he
        intro hw
        obtain ⟨i1, i2, i3, i4⟩ := hI fun t ht => hw t (by simp [ht])
        have ht := hw (h a).target (by simp)
        show ((addCounts d.counts (h a).target).get? x).getD 0 = _ ∧ 0 ≤ ((Data.maxCounts d.maxCounts (h a).target).get? x).getD 0 ∧
          (∀ t ∈ _, _ ≤ ((Data.maxCounts d.maxCounts (h a).target).get? x).getD 0) ∧
          (((Data.maxCounts d.maxCounts (h a).target).get? x).getD 0 = 0 ∨ ∃ t ∈ _, _ = ((Data.maxCounts d.maxCounts (h a).target).get? x).getD 0)
        rw [addCounts_get _ ht, maxCounts_get _ ht _ _ i2, i1]
        refine ⟨by simp, le_max_of_le_left i2, fun t ht => ?_, ?_⟩
        · rcases List.mem_append.1 ht with h' | h'
          · exact le_max_of_le_left (i3 t h')
          · rw [List.mem_singleton.1 h']; exact le_max_right _ _
        · rcases le_total ((d.maxCounts.get? x).getD 0) (((h a).target.get? x).getD 0) with h' | h'
          · exact .inr ⟨(h a).target, by simp, (max_eq_right h').symm⟩
          · rw [max_eq_left h']
            rcases i4 with i4 | ⟨t, t1, t2⟩
            · exact .inl i4
            · exact .inr ⟨t, by simp [t1], t2⟩) hr).2
  have := this (by simpa using hw)
  refine ⟨by rw [this.1, List.map_map]; rfl, fun a ha => this.2.2.1 _ (List.mem_map_of_mem ha), ?_⟩
  rcases this.2.2.2 with h' | ⟨t, t1, t2⟩
  · exact .inl h'
  · obtain ⟨a, ha, rfl⟩ := List.mem_map.1 t1
    exact .inr ⟨a, ha, t2⟩

/-- C125: the classes of a multiset dataset are the elements that occur in the multisets of its instances (as keys,
whatever their multiplicity). -/
theorem C125_multiset_classes {h : Heap (Dict String Int)} {d : MultisetDs} (hr : MultisetHistory h d) :
    d.classes.Nodup ∧ ∀ x, x ∈ d.classes ↔ ∃ a ∈ d.base.instances, x ∈ (h a).target.keys := by
  have := (history_inv (τ := Dict String Int) (D := MultisetDs) (new := MultisetDs.new) (base := MultisetDs.base) (setBase := fun d b => { d with base := b })
    (add := MultisetDs.addInstance) (fun l d => d.counts.WF ∧ ∀ x, x ∈ d.counts.keys ↔ ∃ t ∈ l, x ∈ t.keys) (fun _ _ => rfl) (fun _ _ => rfl)
    (fun h d a d' he => by
      unfold MultisetDs.addInstance at he
      cases hb : d.base.addInstance h a with
      | error e => rw [hb] at he; cases he
      | ok b => rw [hb] at he; cases he; rfl)
    (fun _ _ => ⟨Dict.WF.nil, by simp [MultisetDs.new, Dict.keys]⟩) (fun _ _ _ h => h)
    (fun l h d a d' hI he => by
      unfold MultisetDs.addInstance at he
      cases hb : d.base.addInstance h a with
      | error e => rw [hb] at he; cases he
      | ok b =>
        rw [hb] at he
        cases he
        obtain ⟨m1, m2⟩ := addCounts_keys (h a).target d.counts
        refine ⟨m1 hI.1, fun x => ?_⟩
        show x ∈ (addCounts d.counts (h a).target).keys ↔ _
        rw [m2, hI.2]
        simp [or_and_right, exists_or]) hr).2
  unfold MultisetDs.classes
  unfold Dict.WF at this
  simpa using this

/-- C125: `compute_set_of_unique_sequences` gives the set of target sequences of the instances. -/
theorem C125_unique_sequences (h : Heap (List String)) (d : SeqDs) :
    (d.uniqueSequences h).Nodup ∧ ∀ s, s ∈ d.uniqueSequences h ↔ ∃ a ∈ d.base.instances, (h a).target = s := by
  have e : d.uniqueSequences h = updateSet [] (d.base.instances.map fun a => (h a).target) := by
    unfold SeqDs.uniqueSequences updateSet
    rw [List.foldl_map]
  rw [e]
  obtain ⟨m1, m2⟩ := mem_updateSet (d.base.instances.map fun a => (h a).target) []
  refine ⟨m1 List.nodup_nil, fun s => ?_⟩
  rw [m2]
  simp

/-- the number of occurrences of `e` in the target sequences of the instances -/
def occurrences (h : Heap (List String)) (l : List Nat) (e : String) : Nat := (l.map fun a => (h a).target.count e).sum

theorem foldl_addOne {κ : Type} [DecidableEq κ] (l : List κ) : ∀ (c : Dict κ Nat), (c.WF → (l.foldl addOne c).WF) ∧
    (∀ x, x ∈ (l.foldl addOne c).keys ↔ x ∈ c.keys ∨ x ∈ l) ∧
    ∀ x, ((l.foldl addOne c).get? x).getD 0 = (c.get? x).getD 0 + number l fun y => y = x := by
  induction l with
  | nil => exact fun c => ⟨fun h => h, fun x => by simp, fun x => by simp [number]⟩
  | cons y l ih =>
    intro c
    rw [List.foldl_cons]
    obtain ⟨h1, h2, h3⟩ := ih (addOne c y)
    refine ⟨fun hw => h1 (hw.put _ _), fun x => ?_, fun x => ?_⟩
    · rw [h2, addOne_keys, List.mem_cons, or_assoc]
    · rw [h3, addOne_get]
      unfold number
      rw [List.filter_cons]
      by_cases hx : y = x
      · subst hx; simp; omega
      · rw [if_neg (fun e => hx e.symm)]; simp [hx]

theorem countSequence_fold (h : Heap (List String)) (l : List Nat) : ∀ s : Dict (List String) Nat × Dict String Nat,
    l.foldl (countSequence h) s = ((l.map fun a => (h a).target).foldl addOne s.1, (l.flatMap fun a => (h a).target).foldl addOne s.2) := by
  induction l with
  | nil => intro s; rfl
  | cons a l ih =>
    intro s
    rw [List.foldl_cons, ih, List.map_cons, List.foldl_cons, List.flatMap_cons, List.foldl_append]
    rfl

theorem freqLe_total : Std.Total freqLe where
  total x y := by unfold freqLe; omega

theorem freqLe_trans : IsTrans _ freqLe where
  trans x y z h1 h2 := by unfold freqLe at *; omega

/-- C125: `get_sequences_ordered_by_frequency` lists every target sequence of the dataset once, in increasing order of
the number of instances with that sequence, and among equally frequent ones in increasing order of the sum of the
frequencies of their events. -/
theorem C125_ordered_by_frequency (h : Heap (List String)) (d : SeqDs) :
    let freq := fun s : List String => number d.base.instances fun a => (h a).target = s
    let weight := fun s : List String => (s.map (occurrences h d.base.instances)).sum
    (d.orderedSequences h).Nodup ∧ (∀ s, s ∈ d.orderedSequences h ↔ ∃ a ∈ d.base.instances, (h a).target = s) ∧
    (d.orderedSequences h).Pairwise fun s t => freq s < freq t ∨ (freq s = freq t ∧ weight s ≤ weight t) := by
  intro freq weight
  unfold SeqDs.orderedSequences
  rw [countSequence_fold]
  simp only
  obtain ⟨a1, a2, a3⟩ := foldl_addOne (d.base.instances.map fun a => (h a).target) []
  obtain ⟨b1, b2, b3⟩ := foldl_addOne (d.base.instances.flatMap fun a => (h a).target) []
  generalize hseq : (d.base.instances.map fun a => (h a).target).foldl addOne [] = seqs at a1 a2 a3
  generalize hev : (d.base.instances.flatMap fun a => (h a).target).foldl addOne [] = events at b1 b2 b3
  have hwf := a1 Dict.WF.nil
  have hperm := List.perm_insertionSort freqLe (withWeights events seqs)
  have hkeys : (withWeights events seqs).map (·.1) = seqs.keys := by simp [withWeights, Dict.keys]
  have hfreq : ∀ s, (seqs.get? s).getD 0 = freq s := by
    intro s
    rw [a3]
    show 0 + _ = _
    rw [Nat.zero_add]
    show number _ _ = number _ _
    unfold number
    rw [List.filter_map, List.length_map]
    rfl
  have hocc : ∀ x, (events.get? x).getD 0 = occurrences h d.base.instances x := by
    intro x
    rw [b3]
    show 0 + _ = _
    rw [Nat.zero_add]
    unfold number occurrences
    generalize d.base.instances = l
    induction l with
    | nil => rfl
    | cons a l ih =>
      rw [List.flatMap_cons, List.filter_append, List.length_append, ih, List.map_cons, List.sum_cons]
      congr 1
      rw [List.count, List.countP_eq_length_filter]
      rfl
  have hshape : ∀ e ∈ withWeights events seqs, e.2.1 = freq e.1 ∧ e.2.2 = weight e.1 := by
    intro e he
    obtain ⟨⟨s, k⟩, hk, rfl⟩ := List.mem_map.1 he
    have := Dict.get?_of_mem hwf hk
    refine ⟨?_, ?_⟩
    · show k = freq s
      rw [← hfreq, this]; rfl
    · show (s.map fun x => (events.get? x).getD 0).sum = (s.map _).sum
      simp only [hocc]
  refine ⟨?_, ?_, ?_⟩
  · rw [(hperm.map _).nodup_iff, hkeys]
    exact hwf
  · intro s
    rw [(hperm.map _).mem_iff, hkeys, a2]
    simp [Dict.keys]
  · have := freqLe_total
    have := freqLe_trans
    rw [List.pairwise_map]
    have hp := List.pairwise_insertionSort freqLe (withWeights events seqs)
    refine hp.imp_of_mem ?_
    intro x y hx hy hxy
    obtain ⟨x1, x2⟩ := hshape x (hperm.mem_iff.1 hx)
    obtain ⟨y1, y2⟩ := hshape y (hperm.mem_iff.1 hy)
    unfold freqLe at hxy
    rw [x1, x2, y1, y2] at hxy
    exact hxy

/-- three instances with target sequences -/
def exSeqHeap : Heap (List String) := fun a =>
  if a = 0 then ⟨.str "i", [], ["a", "b"]⟩
  else if a = 1 then ⟨.str "j", [], ["c"]⟩
  else if a = 2 then ⟨.str "k", [], ["b"]⟩
  else ⟨.str "l", [], ["c"]⟩

/-- the dataset with these instances -/
def exSeq : Py SeqDs := [0, 1, 2, 3].foldlM (SeqDs.addInstance exSeqHeap) (SeqDs.new [] [])

theorem exSeq_history : ∃ d, exSeq = .ok d ∧ SeqHistory exSeqHeap d ∧ d.base.instances = [0, 1, 2, 3] := by
  have h0 : SeqHistory exSeqHeap (SeqDs.new [] []) := .new _ _ _ (by decide)
  have h1 : SeqHistory exSeqHeap _ := .add (a := 0) h0 (by decide) rfl
  have h2 : SeqHistory exSeqHeap _ := .add (a := 1) h1 (by decide) rfl
  have h3 : SeqHistory exSeqHeap _ := .add (a := 2) h2 (by decide) rfl
  exact ⟨_, rfl, .add (a := 3) h3 (by decide) rfl, rfl⟩

example : (exSeq.toOption.map fun d => (d.orderedSequences exSeqHeap, d.symbols, d.uniqueSequences exSeqHeap)) =
    some ([["b"], ["a", "b"], ["c"]], ["a", "b", "c"], [["a", "b"], ["c"], ["b"]]) := by decide +kernel

/-- C125, disagreement: changing the target sequence of an instance with `set_target_sequence` leaves the recorded symbols
of the dataset unchanged. -/
theorem C125_symbols_stale : ∃ (h h' : Heap (List String)) (d : SeqDs), SeqHistory h d ∧ (∀ a ≠ 0, h' a = h a) ∧
    h' 0 = { h 0 with target := ["z"] } ∧ 0 ∈ d.base.instances ∧ "z" ∉ d.symbols ∧ "a" ∈ d.symbols ∧
    ∀ a ∈ d.base.instances, "a" ∉ (h' a).target := by
  obtain ⟨d, h1, h2, h3⟩ := exSeq_history
  have hsym : exSeq.toOption.map (·.symbols) = some ["a", "b", "c"] := by decide +kernel
  rw [h1] at hsym
  have hsym : d.symbols = ["a", "b", "c"] := Option.some.inj hsym
  refine ⟨exSeqHeap, upd exSeqHeap 0 { exSeqHeap 0 with target := ["z"] }, d, h2, fun a ha => upd_ne _ _ ha, upd_self _ _ _, ?_⟩
  rw [h3, hsym]
  refine ⟨by simp, by simp, by simp, ?_⟩
  intro a ha
  simp only [List.mem_cons, List.not_mem_nil, or_false] at ha
  rcases ha with rfl | rfl | rfl | rfl <;> simp [upd, exSeqHeap]

/-- C125, disagreement: `MultiLabelInstance.copy` does not copy the set of labels. If the targets are addresses of label sets
in a store, then for every instance of a dataset the copy of the dataset has an instance with the same set object: a label
that is added to the set of the copy is a label of the original. -/
theorem C125_copy_shares_label_sets {h : Heap Nat} {d : Dataset} (hc : Consistent h d) {next : Nat}
    (hf : ∀ a ∈ d.instances, a < next) :
    ∃ h' d', d.copy h next = .ok (h', d') ∧ ∀ a ∈ d.instances, ∃ a' ∈ d'.instances, a' ≠ a ∧ (h' a').id = (h' a).id ∧
      ∀ (store : Nat → List String) (x : String),
        x ∈ upd store (h' a').target (x :: store (h' a').target) (h' a).target := by
  obtain ⟨h', d', e1, _, _, _, _, e2, e3, _, e4⟩ := C102_copy hc hf
  refine ⟨h', d', e1, fun a ha => ?_⟩
  have hm : h a ∈ d'.instances.map h' := by rw [e4]; exact List.mem_map_of_mem ha
  obtain ⟨a', ha', he⟩ := List.mem_map.1 hm
  refine ⟨a', ha', ?_, ?_, fun store x => ?_⟩
  · have := e3 a' ha'
    have := hf a ha
    omega
  · rw [he, e2 a (hf a ha)]
  · rw [he, e2 a (hf a ha), upd_self]
    simp

/-- the hypotheses of `C125_labels` and `C125_multiset_classes` are met -/
example : ∃ (h : Heap (List String)) (d : LabelDs), LabelHistory h d ∧ d.labels = ["x", "y"] ∧ d.base.instances = [0, 1] := by
  let h : Heap (List String) := fun a => if a = 0 then ⟨.num 0, [("n", .num 5)], ["x"]⟩ else ⟨.num 1, [("n", .num 5)], ["y", "x"]⟩
  have h0 : LabelHistory h (LabelDs.new ["n"] []) := .new _ _ _ (by decide)
  have h1 : LabelHistory h _ := .add (a := 0) h0 (by decide) rfl
  exact ⟨h, _, .add (a := 1) h1 (by decide) rfl, rfl, rfl⟩

example : ∃ (h : Heap (Dict String Int)) (d : MultisetDs), MultisetHistory h d ∧ d.classes = ["x", "y"] ∧ d.base.instances = [0, 1] := by
  let h : Heap (Dict String Int) := fun a =>
    if a = 0 then ⟨.num 0, [("n", .num 5)], [("x", 2)]⟩ else ⟨.num 1, [("n", .num 5)], [("y", 0), ("x", 1)]⟩
  have h0 : MultisetHistory h (MultisetDs.new [] ["n"]) := .new _ _ _ (by decide)
  have h1 : MultisetHistory h _ := .add (a := 0) h0 (by decide) rfl
  exact ⟨h, _, .add (a := 1) h1 (by decide) rfl, rfl, rfl⟩

end Prolothar.Data
