import Verif.Lemmas.DatasetSub
import Mathlib.Tactic.Linarith
/-
C58, C59, C102: datasets.
-/
namespace Prolothar.Data
open Prolothar.Spec.Data

variable {τ : Type}

/-- two instances of a dataset with a colour and a size -/
def exHeap : Heap Unit := fun a =>
  if a = 0 then ⟨.str "i", [("colour", .str "red"), ("size", .num 1)], ()⟩
  else if a = 1 then ⟨.str "j", [("size", .num 2), ("colour", .str "blue")], ()⟩
  else if a = 2 then ⟨.str "k", [("size", .num 2), ("colour", .str "red")], ()⟩
  else ⟨.str "", [], ()⟩

/-- the example dataset -/
def exData : Dataset :=
  ⟨[0, 1, 2], [("colour", ⟨true, [.str "red", .str "blue"]⟩), ("size", ⟨false, [.num 1, .num 2]⟩)], ["colour"], ["size"]⟩

theorem exData_built : (Dataset.new ["colour"] ["size"]).sub exHeap [0, 1, 2] = .ok exData := by rfl

theorem exData_reachable : Reachable exHeap exData := by
  have h0 : Reachable exHeap (Dataset.new ["colour"] ["size"]) := .new _ _ _ (by decide)
  have h1 : Reachable exHeap _ := .add (a := 0) h0 (by decide) rfl
  have h2 : Reachable exHeap _ := .add (a := 1) h1 (by decide) rfl
  exact .add (a := 2) h2 (by decide) rfl

/-! ### C58 -/

/-- C58: after any history of calls, ids are unique, every instance has exactly the attributes of the dataset, the
recorded unique values of every attribute are exactly those that occur, and the lists of attribute names are
correct. -/
theorem C58_consistent {h : Heap τ} {d : Dataset} (hr : Reachable h d) : Consistent h d := by
  induction hr with
  | new h cat num hd => exact new_consistent h hd
  | create _ he ih => exact Consistent.congr ih he
  | add _ hn he ih => exact addInstance_consistent ih hn he
  | @remove h h' d d' n _ he ih =>
    have hn : n ∈ d.attrs.keys := by
      by_contra hc
      unfold Dataset.removeAttribute Dict.getItem at he
      rw [Dict.get?_eq_none_iff.2 hc] at he
      cases he
    obtain ⟨h1, d1, e1, e2, _⟩ := removeAttribute_spec ih hn
    rw [he] at e1
    have := Except.ok.inj e1
    rw [Prod.mk.injEq] at this
    obtain ⟨rfl, rfl⟩ := this
    exact e2
  | addCat _ hn he ih =>
    unfold Dataset.addCategorical at he
    split at he
    · cases he
    · next hl =>
      rw [ne_eq, not_not] at hl
      have := Except.ok.inj he
      rw [Prod.mk.injEq] at this
      obtain ⟨rfl, rfl⟩ := this
      exact addAttr_consistent true ih hl hn
  | addNum _ hn he ih =>
    unfold Dataset.addNumerical at he
    split at he
    · cases he
    · next hl =>
      rw [ne_eq, not_not] at hl
      have := Except.ok.inj he
      rw [Prod.mk.injEq] at this
      obtain ⟨rfl, rfl⟩ := this
      exact addAttr_consistent false ih hl hn

/-- C58: an instance is accepted iff its features are the attributes of the dataset and its id is new; otherwise a
ValueError is raised (and the dataset, a value here, is unchanged: the checks come before any update). -/
theorem C58_add_instance (h : Heap τ) (d : Dataset) (a : Nat) :
    ((∀ n, n ∈ (h a).features.keys ↔ n ∈ d.attrs.keys) ∧ (∀ b ∈ d.instances, (h b).id ≠ (h a).id) →
      ∃ d', d.addInstance h a = .ok d' ∧ d'.instances = d.instances ++ [a] ∧ d'.attrs.keys = d.attrs.keys ∧
        d'.catNames = d.catNames ∧ d'.numNames = d.numNames) ∧
    (¬ ((∀ n, n ∈ (h a).features.keys ↔ n ∈ d.attrs.keys) ∧ ∀ b ∈ d.instances, (h b).id ≠ (h a).id) →
      d.addInstance h a = .error .value) :=
  ⟨fun hc => ⟨_, addInstance_ok hc.1 hc.2, rfl, keys_addedAttrs _ _, rfl, rfl⟩, fun hc => addInstance_error hc⟩

/-- C58: membership is decided by the id -/
theorem C58_contains (h : Heap τ) (d : Dataset) (a : Nat) : d.contains h a = true ↔ ∃ b ∈ d.instances, (h b).id = (h a).id := by
  unfold Dataset.contains; rw [decide_eq_true_eq]

/-- C58: removing an attribute removes it from the dataset and from each of its instances, and changes nothing else -/
theorem C58_remove_attribute {h : Heap τ} {d : Dataset} (hc : Consistent h d) {name : String} (hn : name ∈ d.attrs.keys) :
    ∃ h' d', d.removeAttribute h name = .ok (h', d') ∧ Consistent h' d' ∧ d'.instances = d.instances ∧
      (∀ n, d'.attrs.get? n = if n = name then none else d.attrs.get? n) ∧
      (∀ a, a ∉ d.instances → h' a = h a) ∧
      ∀ a ∈ d.instances, (h' a).id = (h a).id ∧ (h' a).target = (h a).target ∧
        ∀ n, (h' a).features.get? n = if n = name then none else (h a).features.get? n := by
  obtain ⟨h', d', e1, e2, e3, e4, e5, e6, _⟩ := removeAttribute_spec hc hn
  refine ⟨h', d', e1, e2, e3, fun n => ?_, e5, fun a ha => ?_⟩
  · rw [e4, Dict.get?_del hc.names]; simp [eq_comm]
  · rw [e6 a ha]
    refine ⟨rfl, rfl, fun n => ?_⟩
    show ((h a).features.del name).get? n = _
    rw [Dict.get?_del (hc.features a ha).1]; simp [eq_comm]

/-- C58: adding an attribute sets the value of each instance, in the order of iteration -/
theorem C58_add_categorical {h : Heap τ} {d : Dataset} (hc : Consistent h d) {name : String} (hn : name ∉ d.attrs.keys)
    {values : List Val} (hl : values.length = d.instances.length) :
    ∃ h' d', d.addCategorical h name values = .ok (h', d') ∧ Consistent h' d' ∧ d'.instances = d.instances ∧
      (∀ n, n ∈ d'.attrs.keys ↔ n ∈ d.attrs.keys ∨ n = name) ∧ d'.catNames = d.catNames ++ [name] ∧ d'.numNames = d.numNames ∧
      (∀ a, a ∉ d.instances → h' a = h a) ∧
      ∀ (i a : Nat) (v : Val), d.instances[i]? = some a → values[i]? = some v →
        (h' a).id = (h a).id ∧ (h' a).target = (h a).target ∧
        ∀ n, (h' a).features.get? n = if n = name then some v else (h a).features.get? n := by
  obtain ⟨s1, s2⟩ := setAll_zip (name := name) (h := h) hl.symm hc.nodup
  have he := show d.addCategorical h name values = _ by unfold Dataset.addCategorical; exact if_neg (by simpa using hl.symm)
  refine ⟨_, _, he, addAttr_consistent true hc hl.symm hn, rfl,
    fun n => ?_, rfl, rfl, s1, fun i a v hi hv => ?_⟩
  · exact Dict.mem_keys_put.trans or_comm
  · rw [s2 i a v hi hv]
    refine ⟨rfl, rfl, fun n => ?_⟩
    show ((h a).features.put name v).get? n = _
    rw [Dict.get?_put]; simp [eq_comm]

/-- C58: the same for numerical attributes -/
theorem C58_add_numerical {h : Heap τ} {d : Dataset} (hc : Consistent h d) {name : String} (hn : name ∉ d.attrs.keys)
    {values : List Val} (hl : values.length = d.instances.length) :
    ∃ h' d', d.addNumerical h name values = .ok (h', d') ∧ Consistent h' d' ∧ d'.instances = d.instances ∧
      (∀ n, n ∈ d'.attrs.keys ↔ n ∈ d.attrs.keys ∨ n = name) ∧ d'.catNames = d.catNames ∧ d'.numNames = d.numNames ++ [name] ∧
      (∀ a, a ∉ d.instances → h' a = h a) ∧
      ∀ (i a : Nat) (v : Val), d.instances[i]? = some a → values[i]? = some v →
        (h' a).id = (h a).id ∧ (h' a).target = (h a).target ∧
        ∀ n, (h' a).features.get? n = if n = name then some v else (h a).features.get? n := by
  obtain ⟨s1, s2⟩ := setAll_zip (name := name) (h := h) hl.symm hc.nodup
  have he := show d.addNumerical h name values = _ by unfold Dataset.addNumerical; exact if_neg (by simpa using hl.symm)
  refine ⟨_, _, he, addAttr_consistent false hc hl.symm hn, rfl,
    fun n => ?_, rfl, rfl, s1, fun i a v hi hv => ?_⟩
  · exact Dict.mem_keys_put.trans or_comm
  · rw [s2 i a v hi hv]
    refine ⟨rfl, rfl, fun n => ?_⟩
    show ((h a).features.put name v).get? n = _
    rw [Dict.get?_put]; simp [eq_comm]

/-- C58: with another number of values than instances, adding an attribute raises a ValueError -/
theorem C58_add_attribute_length (h : Heap τ) (d : Dataset) (name : String) {values : List Val}
    (hl : values.length ≠ d.instances.length) :
    d.addCategorical h name values = .error .value ∧ d.addNumerical h name values = .error .value := by
  constructor
  · unfold Dataset.addCategorical; rw [if_pos (fun e => hl e.symm)]
  · unfold Dataset.addNumerical; rw [if_pos (fun e => hl e.symm)]

/-- C58: adding an attribute with a name that is in use is not rejected and leaves the name twice in the list of
names -/
theorem C58_name_in_use :
    ((exData.addCategorical exHeap "colour" [.str "x", .str "y", .str "z"]).toOption.map fun r => r.2.catNames) =
      some ["colour", "colour"] := by rfl

/-- C58: assigning a feature of an instance directly makes the recorded values wrong -/
theorem C58_direct_assignment : ¬ Consistent
    (upd exHeap 0 ⟨.str "i", [("colour", .str "green"), ("size", .num 1)], ()⟩) exData := by
  intro hc
  have := (hc.values "colour" ⟨true, [.str "red", .str "blue"]⟩ rfl).2 (.str "green")
  have h2 := this.2 ⟨0, by simp [exData], rfl⟩
  simp at h2

example : Consistent exHeap exData := C58_consistent exData_reachable

/-! ### C59 -/

/-- C59: for every shuffle, `split` returns two consistent datasets with the attributes of the dataset; each instance
is in exactly one of them; the test set has the requested size, rounded up, so it is not empty if the dataset is
not. -/
theorem C59_split {h : Heap τ} {d : Dataset} (hc : Consistent h d) {p : Rat} (hp : 0 < p ∧ p < 1) {shuffled : List Nat}
    (hs : shuffled.Perm d.instances) :
    ∃ train test, d.split h p shuffled = .ok (train, test) ∧ Consistent h train ∧ Consistent h test ∧
      (train.instances ++ test.instances).Perm d.instances ∧
      train.catNames = d.catNames ∧ train.numNames = d.numNames ∧ test.catNames = d.catNames ∧ test.numNames = d.numNames ∧
      (d.instances.length * p ≤ test.instances.length ∧ (test.instances.length : Rat) < d.instances.length * p + 1) := by
  have hnd : shuffled.Nodup := hs.nodup_iff.2 hc.nodup
  have hm : ∀ a ∈ shuffled, a ∈ d.instances := fun a ha => hs.mem_iff.1 ha
  generalize hk : ⌊(d.instances.length : Rat) - d.instances.length * p⌋.toNat = k
  obtain ⟨s1, e1, e2, e3, e4⟩ := sub_spec hc (hnd.sublist (List.take_sublist k _)) fun a ha => hm a (List.mem_of_mem_take ha)
  obtain ⟨s2, f1, f2, f3, f4⟩ := sub_spec hc (hnd.sublist (List.drop_sublist k _)) fun a ha => hm a (List.mem_of_mem_drop ha)
  refine ⟨s1, s2, ?_, e2, f2, ?_, e3.1, e3.2.1, f3.1, f3.2.1, ?_⟩
  · unfold Dataset.split
    rw [if_neg (by rw [not_not]; exact hp)]
    simp only [hk]
    rw [e1, f1]; rfl
  · rw [e4, f4, List.take_append_drop]; exact hs
  · rw [f4, List.length_drop, hs.length_eq]
    have hlen : (0 : Rat) ≤ d.instances.length := Nat.cast_nonneg _
    have hx : (0 : Rat) ≤ d.instances.length - d.instances.length * p := by nlinarith
    have hfl : (0 : Int) ≤ ⌊(d.instances.length : Rat) - d.instances.length * p⌋ := Int.floor_nonneg.2 hx
    have hkq : ((k : Int) : Rat) = (⌊(d.instances.length : Rat) - d.instances.length * p⌋ : Rat) := by
      rw [← hk, Int.toNat_of_nonneg hfl]
    have h1 := Int.floor_le ((d.instances.length : Rat) - d.instances.length * p)
    have h2 := Int.lt_floor_add_one ((d.instances.length : Rat) - d.instances.length * p)
    rw [← hkq] at h1 h2
    have hkn : ((k : Int) : Rat) = (k : Rat) := by norm_cast
    rw [hkn] at h1 h2
    have hle : k ≤ d.instances.length := by
      have : (k : Rat) ≤ d.instances.length := by nlinarith [mul_nonneg hlen hp.1.le]
      exact_mod_cast this
    rw [Nat.cast_sub hle]
    constructor <;> linarith

/-- C59: proportions outside of (0,1) raise a ValueError -/
theorem C59_split_invalid (h : Heap τ) (d : Dataset) {p : Rat} (hp : ¬ (0 < p ∧ p < 1)) (shuffled : List Nat) :
    d.split h p shuffled = .error .value := by
  unfold Dataset.split; rw [if_pos hp]

/-- C59: for every shuffle, `random_subset` returns a consistent dataset with the requested number of instances of
the dataset; other sizes raise a ValueError -/
theorem C59_random_subset {h : Heap τ} {d : Dataset} (hc : Consistent h d) (size : Int) {shuffled : List Nat}
    (hs : shuffled.Perm d.instances) :
    if 0 ≤ size ∧ size ≤ d.instances.length then
      ∃ s, d.randomSubset h size shuffled = .ok s ∧ Consistent h s ∧ (s.instances.length : Int) = size ∧
        (∀ a ∈ s.instances, a ∈ d.instances) ∧ s.catNames = d.catNames ∧ s.numNames = d.numNames
    else d.randomSubset h size shuffled = .error .value := by
  split
  · next hsz =>
    obtain ⟨s, e1, e2, e3, e4⟩ := sub_spec hc ((hs.nodup_iff.2 hc.nodup).sublist (List.take_sublist size.toNat _))
      fun a ha => hs.mem_iff.1 (List.mem_of_mem_take ha)
    refine ⟨s, ?_, e2, ?_, ?_, e3.1, e3.2.1⟩
    · unfold Dataset.randomSubset; rw [if_neg (by omega)]; exact e1
    · rw [e4, List.length_take, hs.length_eq]; omega
    · rw [e4]; exact fun a ha => hs.mem_iff.1 (List.mem_of_mem_take ha)
  · unfold Dataset.randomSubset; rw [if_pos (by omega)]

/-- C59: `group_by_categorical_attribute` returns one consistent dataset for each value of the attribute, which
contains exactly the instances with that value. -/
theorem C59_group_by {h : Heap τ} {d : Dataset} (hc : Consistent h d) {name : String} {at' : Attr}
    (hat : d.attrs.get? name = some at') :
    ∃ g, d.groupBy h name = .ok g ∧ g.keys = at'.values ∧
      ∀ v s, g.get? v = some s → Consistent h s ∧ s.catNames = d.catNames ∧ s.numNames = d.numNames ∧
        ∀ a, a ∈ s.instances ↔ a ∈ d.instances ∧ (h a).features.get? name = some v := by
  have key : ∀ (l done : List Nat) (g : Dict Val Dataset), done ++ l = d.instances → g.keys = at'.values →
      (∀ v s, g.get? v = some s → Consistent h s ∧ SameAttrs d s ∧
        ∀ a, a ∈ s.instances ↔ a ∈ done ∧ (h a).features.get? name = some v) →
      ∃ g', l.foldlM (groupStep h name) g = .ok g' ∧ g'.keys = at'.values ∧
        ∀ v s, g'.get? v = some s → Consistent h s ∧ SameAttrs d s ∧
          ∀ a, a ∈ s.instances ↔ a ∈ d.instances ∧ (h a).features.get? name = some v := by
    intro l
    induction l with
    | nil =>
      intro done g h1 h2 h3
      rw [List.append_nil] at h1
      subst h1
      exact ⟨g, rfl, h2, h3⟩
    | cons a l ih =>
      intro done g h1 h2 h3
      have ha : a ∈ d.instances := by rw [← h1]; simp
      have hadone : a ∉ done := by
        have := hc.nodup
        rw [← h1, List.nodup_append] at this
        exact fun hm => this.2.2 a hm a (by simp) rfl
      obtain ⟨v, hv⟩ := Dict.mem_keys_iff.1 (((hc.features a ha).2 name).2 (Dict.mem_keys_iff.2 ⟨at', hat⟩))
      have hvin : v ∈ g.keys := by rw [h2]; exact ((hc.values name at' hat).2 v).2 ⟨a, ha, hv⟩
      obtain ⟨s, hs⟩ := Dict.mem_keys_iff.1 hvin
      obtain ⟨k1, k2, k3⟩ := h3 v s hs
      obtain ⟨s', e1, e2, e3, e4⟩ := add_same (a := a) k1 k2 (hc.features a ha) (by
        intro b hb he
        have hb' := ((k3 b).1 hb).1
        have := id_inj hc (by rw [← h1]; simp [hb']) ha he
        subst this; exact hadone hb')
      have hstep : groupStep h name g a = .ok (g.put v s') := by
        unfold groupStep Dict.getItem
        rw [hv]
        simp only [bind, Except.bind]
        rw [hs]
        simp only
        rw [e1]; rfl
      obtain ⟨g', f1, f2, f3⟩ := ih (done ++ [a]) (g.put v s') (by simpa using h1) (by rw [Dict.keys_put, if_pos hvin, h2]) (by
        intro w t hw
        rw [Dict.get?_put] at hw
        split at hw
        · next hvw =>
          obtain rfl := Option.some.inj hw
          subst hvw
          refine ⟨e2, e3, fun b => ?_⟩
          rw [e4, List.mem_append, List.mem_append, List.mem_singleton, k3 b]
          constructor
          · rintro (⟨hb1, hb2⟩ | rfl)
            · exact ⟨.inl hb1, hb2⟩
            · exact ⟨.inr rfl, hv⟩
          · rintro ⟨hb1 | rfl, hb2⟩
            · exact .inl ⟨hb1, hb2⟩
            · exact .inr rfl
        · next hvw =>
          obtain ⟨m1, m2, m3⟩ := h3 w t hw
          refine ⟨m1, m2, fun b => ?_⟩
          rw [m3 b, List.mem_append, List.mem_singleton]
          constructor
          · rintro ⟨hb1, hb2⟩; exact ⟨.inl hb1, hb2⟩
          · rintro ⟨hb1 | rfl, hb2⟩
            · exact ⟨hb1, hb2⟩
            · rw [hv] at hb2; exact absurd (Option.some.inj hb2) hvw)
      exact ⟨g', by rw [List.foldlM_cons, hstep]; exact f1, f2, f3⟩
  have hget0 : ∀ v s, Dict.get? (at'.values.map fun v => (v, Dataset.new d.catNames d.numNames)) v = some s →
      s = Dataset.new d.catNames d.numNames := by
    intro v s hs
    have := Dict.mem_of_get? hs
    obtain ⟨w, _, hw⟩ := List.mem_map.1 this
    exact (Prod.ext_iff.1 hw).2.symm
  obtain ⟨g, e1, e2, e3⟩ := key d.instances [] (at'.values.map fun v => (v, Dataset.new d.catNames d.numNames)) rfl
    (by unfold Dict.keys; rw [List.map_map]; simp [Function.comp_def]) (by
      intro v s hs
      obtain rfl := hget0 v s hs
      exact ⟨new_consistent h (catNum_nodup hc), new_sameAttrs hc, fun a => ⟨fun hm => (by cases hm), fun hm => (by cases hm.1)⟩⟩)
  refine ⟨g, ?_, e2, fun v s hs => ?_⟩
  · unfold Dataset.groupBy Dict.getItem
    rw [hat]; exact e1
  · obtain ⟨k1, k2, k3⟩ := e3 v s hs
    exact ⟨k1, k2.1, k2.2.1, k3⟩

/-- C59: the parts share their instances with the dataset. Removing an attribute of a non-empty part makes the
dataset itself inconsistent: it lists an attribute that some of its instances no longer have. -/
theorem C59_shared_instances {h : Heap τ} {d s : Dataset} (hc : Consistent h d) {l : List Nat} (hs : d.sub h l = .ok s)
    (hnd : l.Nodup) (hl : ∀ a ∈ l, a ∈ d.instances) (hne : l ≠ []) {name : String} (hn : name ∈ d.attrs.keys) :
    ∃ h' s', s.removeAttribute h name = .ok (h', s') ∧ Consistent h' s' ∧ ¬ Consistent h' d := by
  obtain ⟨s0, e1, e2, e3, e4⟩ := sub_spec hc hnd hl
  rw [hs] at e1
  obtain rfl := Except.ok.inj e1
  obtain ⟨h', s', f1, f2, f3, f4, f5, f6, _⟩ := removeAttribute_spec e2 ((e3.2.2 name).2 hn)
  refine ⟨h', s', f1, f2, fun hbad => ?_⟩
  obtain ⟨a, ha⟩ := List.exists_mem_of_ne_nil _ hne
  have h1 := ((hbad.features a (hl a ha)).2 name).2 hn
  rw [f6 a (by rw [e4]; exact ha)] at h1
  have h1 : name ∈ ((h a).features.del name).keys := h1
  rw [Dict.keys_del] at h1
  exact (hc.features a (hl a ha)).1.not_mem_erase h1

example : (exData.split exHeap (1/2) [2, 0, 1]).toOption.map (fun r => (r.1.instances, r.2.instances)) = some ([2], [0, 1]) := by
  unfold Dataset.split
  have : ⌊((exData.instances.length : Nat) : Rat) - ((exData.instances.length : Nat) : Rat) * (1/2)⌋ = 1 := by
    rw [show exData.instances.length = 3 from rfl, Int.floor_eq_iff]; norm_num
  rw [if_neg (by norm_num), this]
  rfl

example : (exData.groupBy exHeap "colour").toOption.map (fun g => g.map fun e => (e.1, e.2.instances)) =
    some [(.str "red", [0, 2]), (.str "blue", [1])] := by rfl

/-! ### C102 copy -/

/-- C102: a copy has an own copy of each instance with the same id, features and target, and existing instances are
not changed. All methods change only the instances of the dataset (C58), so copy and original are independent. -/
theorem C102_copy {h : Heap τ} {d : Dataset} (hc : Consistent h d) {next : Nat} (hf : ∀ a ∈ d.instances, a < next) :
    ∃ h' d', d.copy h next = .ok (h', d') ∧ Consistent h' d' ∧ d'.catNames = d.catNames ∧ d'.numNames = d.numNames ∧
      (∀ n, n ∈ d'.attrs.keys ↔ n ∈ d.attrs.keys) ∧
      (∀ a < next, h' a = h a) ∧ (∀ a ∈ d'.instances, next ≤ a) ∧ Consistent h' d ∧
      d'.instances.map h' = d.instances.map h := by
  have key : ∀ (l : List (Nat × Nat)) (k : Nat) (hh : Heap τ) (s : Dataset) (done : List Nat),
      l = (d.instances.drop k).zipIdx k → done = d.instances.take k → (∀ a < next, hh a = h a) → Consistent hh s → SameAttrs d s →
      s.instances = (List.range k).map (next + ·) → s.instances.map hh = done.map h → k ≤ d.instances.length →
      ∃ h' d', l.foldlM (fun (s : Heap τ × Dataset) e => do
          let h := upd s.1 (next + e.2) (s.1 e.1)
          let d ← s.2.addInstance h (next + e.2)
          return (h, d)) (hh, s) = (.ok (h', d') : Py (Heap τ × Dataset)) ∧ Consistent h' d' ∧ SameAttrs d d' ∧ (∀ a < next, h' a = h a) ∧
        (∀ a ∈ d'.instances, next ≤ a) ∧ d'.instances.map h' = d.instances.map h := by
    intro l
    induction l with
    | nil =>
      intro k hh s done hl hd h1 h2 h3 h4 h5 hk
      have hlen : d.instances.length ≤ k := by
        have := congrArg List.length hl
        rw [List.length_zipIdx, List.length_drop, List.length_nil] at this
        omega
      refine ⟨hh, s, rfl, h2, h3, h1, ?_, ?_⟩
      · rw [h4]
        intro a ha
        obtain ⟨i, _, rfl⟩ := List.mem_map.1 ha
        omega
      · rw [h5, hd, List.take_of_length_le hlen]
    | cons e l ih =>
      intro k hh s done hl hd h1 h2 h3 h4 h5 hk
      have hklt : k < d.instances.length := by
        by_contra hge
        rw [List.drop_eq_nil_of_le (by omega)] at hl
        cases hl
      rw [List.drop_eq_getElem_cons hklt, List.zipIdx_cons] at hl
      obtain ⟨rfl, hl'⟩ := List.cons.inj hl
      generalize hx : d.instances[k] = x at *
      have hxm : x ∈ d.instances := hx ▸ List.getElem_mem hklt
      have hxh : hh x = h x := h1 x (hf x hxm)
      have hsmem : ∀ b ∈ s.instances, b ≠ next + k := by
        rw [h4]
        intro b hb
        obtain ⟨i, hi, rfl⟩ := List.mem_map.1 hb
        rw [List.mem_range] at hi
        omega
      have hcong : Consistent (upd hh (next + k) (hh x)) s := Consistent.congr h2 fun b hb => upd_ne _ _ (hsmem b hb)
      have hmapc : s.instances.map (upd hh (next + k) (hh x)) = done.map h := by
        rw [← h5]
        exact List.map_congr_left fun b hb => upd_ne _ _ (hsmem b hb)
      obtain ⟨s', e1, e2, e3, e4⟩ := add_same (a := next + k) hcong h3 (by rw [upd_self, hxh]; exact hc.features x hxm) (by
        intro b hb he
        have hb1 : upd hh (next + k) (hh x) b ∈ done.map h := by
          rw [← hmapc]; exact List.mem_map_of_mem hb
        obtain ⟨c, hcd, hce⟩ := List.mem_map.1 hb1
        rw [← hce, upd_self, hxh] at he
        have hcm : c ∈ d.instances := by rw [hd] at hcd; exact List.mem_of_mem_take hcd
        have := id_inj hc hcm hxm he
        subst this
        have hnd := hc.nodup
        rw [← List.take_append_drop k d.instances, List.nodup_append] at hnd
        rw [hd] at hcd
        exact hnd.2.2 c hcd c (by rw [List.drop_eq_getElem_cons hklt, hx]; simp) rfl)
      have hstep : (do
          let h := upd hh (next + k) (hh x)
          let d ← s.addInstance h (next + k)
          return (h, d) : Py (Heap τ × Dataset)) = .ok (upd hh (next + k) (hh x), s') := by
        simp only [bind, Except.bind]; rw [e1]; rfl
      obtain ⟨h', d', f⟩ := ih (k + 1) (upd hh (next + k) (hh x)) s' (done ++ [x]) hl'
        (by rw [hd, List.take_succ_eq_append_getElem hklt, hx])
        (fun a ha => by rw [upd_ne _ _ (by omega)]; exact h1 a ha) e2 e3
        (by rw [e4, h4, List.range_succ]; simp)
        (by rw [e4, List.map_append, List.map_append, hmapc]; simp [hxh])
        (by omega)
      exact ⟨h', d', by rw [List.foldlM_cons]; simp only; rw [hstep]; exact f.1, f.2⟩
  obtain ⟨h', d', e1, e2, e3, e4, e5, e6⟩ := key (d.instances.zipIdx) 0 h (Dataset.new d.catNames d.numNames) [] (by simp) (by simp)
    (fun _ _ => rfl) (new_consistent h (catNum_nodup hc)) (new_sameAttrs hc) (by simp [Dataset.new]) (by simp [Dataset.new]) (by omega)
  exact ⟨h', d', e1, e2, e3.1, e3.2.1, e3.2.2, e4, e5, Consistent.congr hc fun a ha => e4 a (hf a ha), e6⟩

example : (exData.copy exHeap 3).toOption.map (fun r => r.2.instances) = some [3, 4, 5] := by rfl

end Prolothar.Data
