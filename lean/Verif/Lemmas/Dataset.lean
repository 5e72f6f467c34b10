import Verif.Spec.Dataset
/-
Every operation of a dataset keeps it consistent.
-/
namespace Prolothar.Data
open Prolothar.Spec.Data

variable {τ : Type}

theorem get?_map_val {κ ν μ : Type} [DecidableEq κ] (g : κ → ν → μ) : ∀ (d : Dict κ ν) (k : κ),
    Dict.get? (d.map fun e => (e.1, g e.1 e.2)) k = (d.get? k).map (g k)
  | [], k => rfl
  | (k', v) :: d, k => by
    rw [List.map_cons, Dict.get?, Dict.get?]
    by_cases h : k' = k
    · subst h; simp
    · rw [if_neg h, if_neg h, get?_map_val g d k]

theorem keys_map_val {κ ν μ : Type} (g : κ → ν → μ) (d : Dict κ ν) :
    Dict.keys (d.map fun e => (e.1, g e.1 e.2)) = d.keys := by
  unfold Dict.keys; rw [List.map_map]; rfl

/-- the attributes after adding an instance -/
def addedAttrs (attrs : Dict String Attr) (f : Dict String Val) : Dict String Attr :=
  attrs.map fun e => (e.1, (f.get? e.1).elim e.2 e.2.add)

theorem addAttrs_eq {f : Dict String Val} : ∀ (attrs : Dict String Attr), (∀ n ∈ attrs.keys, n ∈ f.keys) →
    (attrs.mapM fun e => do
      let v ← f.getItem e.1
      return (e.1, e.2.add v)) = (.ok (addedAttrs attrs f) : Py (Dict String Attr))
  | [], _ => rfl
  | (n, a) :: attrs, h => by
    have ih := addAttrs_eq attrs fun m hm => h m (List.mem_cons_of_mem _ hm)
    obtain ⟨v, hv⟩ := Dict.mem_keys_iff.1 (h n (by simp [Dict.keys]))
    rw [List.mapM_cons, ih]
    unfold Dict.getItem addedAttrs
    simp only [hv, List.map_cons]
    rfl

theorem get?_addedAttrs (attrs : Dict String Attr) (f : Dict String Val) (n : String) :
    (addedAttrs attrs f).get? n = (attrs.get? n).map fun a => (f.get? n).elim a a.add :=
  get?_map_val (fun n (a : Attr) => (f.get? n).elim a a.add) attrs n

theorem keys_addedAttrs (attrs : Dict String Attr) (f : Dict String Val) : (addedAttrs attrs f).keys = attrs.keys :=
  keys_map_val (fun n (a : Attr) => (f.get? n).elim a a.add) attrs

theorem mem_add {a : Attr} {v x : Val} : x ∈ (a.add v).values ↔ x ∈ a.values ∨ x = v := by
  unfold Attr.add
  split
  · next h => constructor
              · exact .inl
              · rintro (h' | rfl) <;> assumption
  · simp

theorem nodup_add {a : Attr} (h : a.values.Nodup) (v : Val) : (a.add v).values.Nodup := by
  unfold Attr.add
  split
  · exact h
  · next hv => exact List.nodup_append.2 ⟨h, by simp, by rintro x hx y hy rfl; simp at hy; subst hy; exact hv hx⟩

theorem cat_add (a : Attr) (v : Val) : (a.add v).categorical = a.categorical := by
  unfold Attr.add; split <;> rfl

theorem mem_toSet (l : List Val) (x : Val) : x ∈ toSet l ↔ x ∈ l := by
  have : ∀ (l s : List Val), x ∈ l.foldl (fun s v => if v ∈ s then s else s ++ [v]) s ↔ x ∈ s ∨ x ∈ l := by
    intro l
    induction l with
    | nil => simp
    | cons a l ih =>
      intro s
      rw [List.foldl_cons, ih]
      split
      · next h =>
        constructor
        · rintro (h' | h')
          · exact .inl h'
          · exact .inr (List.mem_cons_of_mem _ h')
        · rintro (h' | h')
          · exact .inl h'
          · rcases List.mem_cons.1 h' with rfl | h'
            · exact .inl h
            · exact .inr h'
      · simp [or_assoc]
  exact (this l []).trans (by simp)

theorem nodup_toSet (l : List Val) : (toSet l).Nodup := by
  have : ∀ (l s : List Val), s.Nodup → (l.foldl (fun s v => if v ∈ s then s else s ++ [v]) s).Nodup := by
    intro l
    induction l with
    | nil => exact fun s h => h
    | cons a l ih =>
      intro s hs
      rw [List.foldl_cons]
      refine ih _ ?_
      split
      · exact hs
      · next hv => exact List.nodup_append.2 ⟨hs, by simp, by rintro x hx y hy rfl; simp at hy; subst hy; exact hv hx⟩
  exact this l [] List.nodup_nil

/-! ### new datasets -/

theorem get?_foldl_put {c : Attr} (n : String) : ∀ (l : List String) (a : Dict String Attr),
    Dict.get? (l.foldl (fun a n => Dict.put a n c) a) n = if n ∈ l then some c else a.get? n
  | [], a => by simp
  | x :: l, a => by
    rw [List.foldl_cons, get?_foldl_put n l, Dict.get?_put]
    by_cases h : n ∈ l
    · simp [h]
    · by_cases hx : x = n
      · subst hx; simp
      · simp [h, hx, Ne.symm hx]

theorem wf_foldl_put {c : Attr} : ∀ (l : List String) (a : Dict String Attr), a.WF →
    Dict.WF (l.foldl (fun a n => Dict.put a n c) a)
  | [], _, h => h
  | _ :: l, _, h => wf_foldl_put l _ (h.put _ _)

theorem get?_new (cat num : List String) (n : String) : (Dataset.new cat num).attrs.get? n =
    if n ∈ num then some ⟨false, []⟩ else if n ∈ cat then some ⟨true, []⟩ else none := by
  unfold Dataset.new
  rw [get?_foldl_put, get?_foldl_put]; rfl

theorem mem_keys_new {cat num : List String} {n : String} : n ∈ (Dataset.new cat num).attrs.keys ↔ n ∈ cat ∨ n ∈ num := by
  rw [Dict.mem_keys_iff, get?_new]
  by_cases h : n ∈ num
  · simp [h]
  · by_cases h' : n ∈ cat <;> simp [h, h']

theorem new_consistent (h : Heap τ) {cat num : List String} (hd : (cat ++ num).Nodup) : Consistent h (Dataset.new cat num) := by
  rw [List.nodup_append] at hd
  obtain ⟨h1, h2, h3⟩ := hd
  constructor
  · exact List.nodup_nil
  · exact List.nodup_nil
  · exact wf_foldl_put _ _ (wf_foldl_put _ _ Dict.WF.nil)
  · intro a ha; cases ha
  · intro n at' hat
    rw [get?_new] at hat
    have : at'.values = [] := by
      split at hat
      · obtain rfl := Option.some.inj hat; rfl
      · split at hat
        · obtain rfl := Option.some.inj hat; rfl
        · cases hat
    rw [this]
    refine ⟨List.nodup_nil, fun v => ⟨fun hv => (by cases hv), ?_⟩⟩
    rintro ⟨a, ha, _⟩; cases ha
  · refine ⟨h1, fun n => ?_⟩
    show n ∈ cat ↔ _
    rw [get?_new]
    by_cases hn : n ∈ num
    · have : n ∉ cat := fun hc => h3 n hc n hn rfl
      simp [hn, this]
    · by_cases hc : n ∈ cat <;> simp [hn, hc]
  · refine ⟨h2, fun n => ?_⟩
    show n ∈ num ↔ _
    rw [get?_new]
    by_cases hn : n ∈ num
    · simp [hn]
    · by_cases hc : n ∈ cat <;> simp [hn, hc]

theorem Consistent.congr {h h' : Heap τ} {d : Dataset} (hc : Consistent h d) (he : ∀ a ∈ d.instances, h' a = h a) : Consistent h' d := by
  constructor
  · exact hc.nodup
  · rw [List.map_congr_left fun a ha => by rw [he a ha]]; exact hc.ids
  · exact hc.names
  · intro a ha; rw [he a ha]; exact hc.features a ha
  · intro n at' hat
    refine ⟨(hc.values n at' hat).1, fun v => ?_⟩
    rw [(hc.values n at' hat).2 v]
    refine exists_congr fun a => and_congr_right fun ha => ?_
    rw [he a ha]
  · exact hc.categorical
  · exact hc.numerical

/-! ### adding an instance -/

/-- the features of the instance are the attributes of the dataset -/
def Fits (h : Heap τ) (d : Dataset) (a : Nat) : Prop := ∀ n, n ∈ (h a).features.keys ↔ n ∈ d.attrs.keys

theorem addInstance_ok {h : Heap τ} {d : Dataset} {a : Nat} (hf : Fits h d a) (hid : ∀ b ∈ d.instances, (h b).id ≠ (h a).id) :
    d.addInstance h a = .ok { d with instances := d.instances ++ [a], attrs := addedAttrs d.attrs (h a).features } := by
  unfold Dataset.addInstance
  rw [if_neg (by rw [not_not]; exact ⟨fun n hn => (hf n).1 hn, fun n hn => (hf n).2 hn⟩),
    if_neg (by rintro ⟨b, hb, he⟩; exact hid b hb he), addAttrs_eq _ fun n hn => (hf n).2 hn]
  rfl

theorem addInstance_inv {h : Heap τ} {d d' : Dataset} {a : Nat} (he : d.addInstance h a = .ok d') :
    Fits h d a ∧ (∀ b ∈ d.instances, (h b).id ≠ (h a).id) ∧
      d' = { d with instances := d.instances ++ [a], attrs := addedAttrs d.attrs (h a).features } := by
  have hf : Fits h d a := by
    unfold Dataset.addInstance at he
    split at he
    · cases he
    · next hc => rw [not_not] at hc; exact fun n => ⟨hc.1 n, hc.2 n⟩
  have hid : ∀ b ∈ d.instances, (h b).id ≠ (h a).id := by
    unfold Dataset.addInstance at he
    split at he
    · cases he
    split at he
    · cases he
    · next hc => exact fun b hb e => hc ⟨b, hb, e⟩
  refine ⟨hf, hid, ?_⟩
  rw [addInstance_ok hf hid] at he
  exact (Except.ok.inj he).symm

theorem addInstance_error {h : Heap τ} {d : Dataset} {a : Nat} (hc : ¬ (Fits h d a ∧ ∀ b ∈ d.instances, (h b).id ≠ (h a).id)) :
    d.addInstance h a = .error .value := by
  unfold Dataset.addInstance
  split
  · rfl
  · next h1 =>
    rw [if_pos]
    by_contra h2
    rw [not_not] at h1
    exact hc ⟨fun n => ⟨h1.1 n, h1.2 n⟩, fun b hb e => h2 ⟨b, hb, e⟩⟩

theorem addInstance_consistent {h : Heap τ} {d d' : Dataset} {a : Nat} (hc : Consistent h d) (hn : (h a).features.keys.Nodup)
    (he : d.addInstance h a = .ok d') : Consistent h d' := by
  obtain ⟨hf, hid, rfl⟩ := addInstance_inv he
  have hnew : a ∉ d.instances := fun hm => hid a hm rfl
  constructor
  · exact List.nodup_append.2 ⟨hc.nodup, by simp, by rintro x hx y hy rfl; simp at hy; subst hy; exact hnew hx⟩
  · show ((d.instances ++ [a]).map _).Nodup
    rw [List.map_append, List.nodup_append]
    refine ⟨hc.ids, by simp, ?_⟩
    rintro x hx y hy rfl
    simp at hy
    obtain ⟨b, hb, hbe⟩ := List.mem_map.1 hx
    exact hid b hb (hbe.trans hy)
  · show (addedAttrs d.attrs (h a).features).keys.Nodup
    rw [keys_addedAttrs]; exact hc.names
  · intro b hb
    show _ ∧ ∀ n, _ ↔ n ∈ (addedAttrs d.attrs (h a).features).keys
    rw [keys_addedAttrs]
    rcases List.mem_append.1 hb with hb | hb
    · exact hc.features b hb
    · rw [List.mem_singleton] at hb; subst hb; exact ⟨hn, hf⟩
  · intro n at' hat
    have hat : (addedAttrs d.attrs (h a).features).get? n = some at' := hat
    rw [get?_addedAttrs] at hat
    cases hold : d.attrs.get? n with
    | none => rw [hold] at hat; cases hat
    | some at0 =>
      rw [hold] at hat
      obtain ⟨v0, hv0⟩ := Dict.mem_keys_iff.1 ((hf n).2 (Dict.mem_keys_iff.2 ⟨at0, hold⟩))
      rw [hv0] at hat
      have hat : at0.add v0 = at' := Option.some.inj hat
      subst hat
      obtain ⟨h1, h2⟩ := hc.values n at0 hold
      refine ⟨nodup_add h1 v0, fun v => ?_⟩
      rw [mem_add, h2]
      constructor
      · rintro (⟨b, hb, hbv⟩ | rfl)
        · exact ⟨b, List.mem_append_left _ hb, hbv⟩
        · exact ⟨a, by simp, hv0⟩
      · rintro ⟨b, hb, hbv⟩
        rcases List.mem_append.1 hb with hb | hb
        · exact .inl ⟨b, hb, hbv⟩
        · rw [List.mem_singleton] at hb; subst hb
          rw [hv0] at hbv
          exact .inr (Option.some.inj hbv).symm
  · refine ⟨hc.categorical.1, fun n => ?_⟩
    show n ∈ d.catNames ↔ ∃ at', (addedAttrs d.attrs (h a).features).get? n = some at' ∧ _
    rw [hc.categorical.2 n, get?_addedAttrs]
    cases d.attrs.get? n with
    | none => simp
    | some at0 => cases (h a).features.get? n <;> simp [cat_add]
  · refine ⟨hc.numerical.1, fun n => ?_⟩
    show n ∈ d.numNames ↔ ∃ at', (addedAttrs d.attrs (h a).features).get? n = some at' ∧ _
    rw [hc.numerical.2 n, get?_addedAttrs]
    cases d.attrs.get? n with
    | none => simp
    | some at0 => cases (h a).features.get? n <;> simp [cat_add]

/-! ### setting and removing features -/

theorem setAll_spec (name : String) : ∀ (l : List (Val × Nat)) (h : Heap τ), (l.map (·.2)).Nodup →
    (∀ a, a ∉ l.map (·.2) → setAll name h l a = h a) ∧
    ∀ e ∈ l, setAll name h l e.2 = { h e.2 with features := (h e.2).features.put name e.1 }
  | [], h, _ => ⟨fun _ _ => rfl, fun e he => by cases he⟩
  | (v, b) :: l, h, hnd => by
    rw [List.map_cons, List.nodup_cons] at hnd
    obtain ⟨h1, h2⟩ := setAll_spec name l (upd h b { h b with features := (h b).features.put name v }) hnd.2
    have hs : setAll name h ((v, b) :: l) = setAll name (upd h b { h b with features := (h b).features.put name v }) l := rfl
    rw [hs]
    constructor
    · intro a ha
      rw [List.map_cons, List.mem_cons, not_or] at ha
      rw [h1 a ha.2, upd_ne _ _ ha.1]
    · intro e he
      rcases List.mem_cons.1 he with rfl | he
      · rw [h1 b hnd.1, upd_self]
      · rw [h2 e he]
        have hne : e.2 ≠ b := by
          intro hh
          have := List.mem_map_of_mem (f := Prod.snd) he
          rw [hh] at this; exact hnd.1 this
        rw [upd_ne _ _ hne]

theorem zip_snd {values : List Val} {l : List Nat} (hl : l.length = values.length) : (values.zip l).map (·.2) = l := by
  have := List.map_snd_zip (l₁ := values) (l₂ := l) (by omega)
  exact this

theorem setAll_zip {name : String} {h : Heap τ} {values : List Val} {l : List Nat} (hl : l.length = values.length) (hnd : l.Nodup) :
    (∀ a, a ∉ l → setAll name h (values.zip l) a = h a) ∧
    ∀ (i : Nat) (a : Nat) (v : Val), l[i]? = some a → values[i]? = some v →
      setAll name h (values.zip l) a = { h a with features := (h a).features.put name v } := by
  have hz := zip_snd hl
  obtain ⟨h1, h2⟩ := setAll_spec name (values.zip l) h (by rw [hz]; exact hnd)
  rw [hz] at h1
  refine ⟨h1, fun i a v ha hv => h2 (v, a) ?_⟩
  exact List.mem_iff_getElem?.2 ⟨i, by rw [List.getElem?_zip_eq_some]; exact ⟨hv, ha⟩⟩

/-- pairs of instances and values -/
theorem exists_value {values : List Val} {l : List Nat} (hl : l.length = values.length) {a : Nat} (ha : a ∈ l) :
    ∃ (i : Nat) (v : Val), l[i]? = some a ∧ values[i]? = some v := by
  obtain ⟨i, hi, rfl⟩ := List.mem_iff_getElem.1 ha
  exact ⟨i, values[i], by simp [hi], by simp⟩

/-- both ways of adding an attribute -/
theorem addAttr_consistent {h : Heap τ} {d : Dataset} {name : String} {values : List Val} (c : Bool) (hc : Consistent h d)
    (hl : d.instances.length = values.length) (hn : name ∉ d.attrs.keys) :
    Consistent (setAll name h (values.zip d.instances))
      { d with attrs := d.attrs.put name ⟨c, toSet values⟩, catNames := if c then d.catNames ++ [name] else d.catNames,
               numNames := if c then d.numNames else d.numNames ++ [name] } := by
  obtain ⟨h1, h2⟩ := setAll_zip (name := name) (h := h) hl hc.nodup
  have hget : ∀ a ∈ d.instances, ∃ v, v ∈ values ∧ (setAll name h (values.zip d.instances)) a =
      { h a with features := (h a).features.put name v } := by
    intro a ha
    obtain ⟨i, v, hi, hv⟩ := exists_value hl ha
    exact ⟨v, List.mem_of_getElem? hv, h2 i a v hi hv⟩
  constructor
  · exact hc.nodup
  · show (d.instances.map _).Nodup
    rw [List.map_congr_left (g := fun a => (h a).id)]
    · exact hc.ids
    · intro a ha
      obtain ⟨v, _, hv⟩ := hget a ha
      rw [hv]
  · exact Dict.WF.put hc.names _ _
  · intro a ha
    obtain ⟨v, _, hv⟩ := hget a ha
    rw [hv]
    refine ⟨Dict.WF.put (hc.features a ha).1 _ _, fun n => ?_⟩
    show n ∈ ((h a).features.put name v).keys ↔ n ∈ (d.attrs.put name _).keys
    rw [Dict.mem_keys_put, Dict.mem_keys_put, (hc.features a ha).2]
  · intro n at' hat0
    have hat : (d.attrs.put name ⟨c, toSet values⟩).get? n = some at' := hat0
    rw [Dict.get?_put] at hat
    split at hat
    · next hnn =>
      have hat := Option.some.inj hat
      subst hnn hat
      refine ⟨nodup_toSet _, fun v => ?_⟩
      rw [mem_toSet]
      constructor
      · intro hv
        obtain ⟨i, hi, rfl⟩ := List.mem_iff_getElem.1 hv
        refine ⟨d.instances[i]'(by omega), List.getElem_mem _, ?_⟩
        rw [h2 i _ values[i] (by simp) (by simp)]
        exact Dict.get?_put_self _ _ _
      · rintro ⟨a, ha, hav⟩
        obtain ⟨v', hv', he⟩ := hget a ha
        rw [he] at hav
        have hav : ((h a).features.put name v').get? name = some v := hav
        rw [Dict.get?_put_self] at hav
        rw [← Option.some.inj hav]; exact hv'
    · next hnn =>
      obtain ⟨g1, g2⟩ := hc.values n at' hat
      refine ⟨g1, fun v => (g2 v).trans ?_⟩
      refine exists_congr fun a => and_congr_right fun ha => ?_
      obtain ⟨v', _, he⟩ := hget a ha
      rw [he]
      show _ ↔ ((h a).features.put name v').get? n = some v
      rw [Dict.get?_put_of_ne _ _ hnn]
  · have hnc : name ∉ d.catNames := fun hm => by
      obtain ⟨at', h3, _⟩ := (hc.categorical.2 name).1 hm
      exact hn (Dict.mem_keys_iff.2 ⟨at', h3⟩)
    constructor
    · show (if c = true then _ else _ : List String).Nodup
      cases c
      · exact hc.categorical.1
      · exact List.nodup_append.2 ⟨hc.categorical.1, by simp, by rintro x hx y hy rfl; simp at hy; subst hy; exact hnc hx⟩
    · intro n
      show n ∈ (if c = true then _ else _ : List String) ↔ ∃ at', (d.attrs.put name ⟨c, toSet values⟩).get? n = some at' ∧ _
      rw [Dict.get?_put]
      by_cases hnn : name = n
      · subst hnn
        cases c
        · simp [hnc]
        · simp
      · rw [if_neg hnn]
        cases c
        · exact hc.categorical.2 n
        · simp only [if_true, List.mem_append, List.mem_singleton, Ne.symm hnn, or_false]
          exact hc.categorical.2 n
  · have hnc : name ∉ d.numNames := fun hm => by
      obtain ⟨at', h3, _⟩ := (hc.numerical.2 name).1 hm
      exact hn (Dict.mem_keys_iff.2 ⟨at', h3⟩)
    constructor
    · show (if c = true then _ else _ : List String).Nodup
      cases c
      · exact List.nodup_append.2 ⟨hc.numerical.1, by simp, by rintro x hx y hy rfl; simp at hy; subst hy; exact hnc hx⟩
      · exact hc.numerical.1
    · intro n
      show n ∈ (if c = true then _ else _ : List String) ↔ ∃ at', (d.attrs.put name ⟨c, toSet values⟩).get? n = some at' ∧ _
      rw [Dict.get?_put]
      by_cases hnn : name = n
      · subst hnn
        cases c
        · simp
        · simp [hnc]
      · rw [if_neg hnn]
        cases c
        · simp only [Bool.false_eq_true, if_false, List.mem_append, List.mem_singleton, Ne.symm hnn, or_false]
          exact hc.numerical.2 n
        · exact hc.numerical.2 n

/-- what `remove_attribute` does to the instances -/
theorem removeAll_spec (name : String) : ∀ (l : List Nat) (h : Heap τ), l.Nodup → (∀ a ∈ l, name ∈ (h a).features.keys) →
    ∃ h', l.foldlM (fun h i => removeFeature h i name) h = (.ok h' : Py (Heap τ)) ∧ (∀ a, a ∉ l → h' a = h a) ∧
      ∀ a ∈ l, h' a = { h a with features := (h a).features.del name }
  | [], h, _, _ => ⟨h, rfl, fun _ _ => rfl, fun a ha => by cases ha⟩
  | b :: l, h, hnd, hk => by
    rw [List.nodup_cons] at hnd
    obtain ⟨v, hv⟩ := Dict.mem_keys_iff.1 (hk b (by simp))
    have hrf : removeFeature h b name = .ok (upd h b { h b with features := (h b).features.del name }) := by
      unfold removeFeature Dict.getItem; rw [hv]; rfl
    have hne : ∀ a ∈ l, a ≠ b := fun a ha e => hnd.1 (e ▸ ha)
    obtain ⟨h', e1, e2, e3⟩ := removeAll_spec name l (upd h b { h b with features := (h b).features.del name }) hnd.2
      fun a ha => by rw [upd_ne _ _ (hne a ha)]; exact hk a (List.mem_cons_of_mem _ ha)
    refine ⟨h', by rw [List.foldlM_cons, hrf]; exact e1, ?_, ?_⟩
    · intro a ha
      rw [List.mem_cons, not_or] at ha
      rw [e2 a ha.2, upd_ne _ _ ha.1]
    · intro a ha
      rcases List.mem_cons.1 ha with rfl | ha
      · rw [e2 a hnd.1, upd_self]
      · rw [e3 a ha, upd_ne _ _ (hne a ha)]

/-- `remove_attribute` on a consistent dataset -/
theorem removeAttribute_spec {h : Heap τ} {d : Dataset} {name : String} (hc : Consistent h d) (hn : name ∈ d.attrs.keys) :
    ∃ h' d', d.removeAttribute h name = .ok (h', d') ∧ Consistent h' d' ∧ d'.instances = d.instances ∧
      d'.attrs = d.attrs.del name ∧ (∀ a, a ∉ d.instances → h' a = h a) ∧
      (∀ a ∈ d.instances, h' a = { h a with features := (h a).features.del name }) ∧
      d'.catNames = d.catNames.erase name ∧ d'.numNames = d.numNames.erase name := by
  obtain ⟨at0, hat0⟩ := Dict.mem_keys_iff.1 hn
  obtain ⟨h', e1, e2, e3⟩ := removeAll_spec name d.instances h hc.nodup fun a ha => ((hc.features a ha).2 name).2 hn
  have hcat : (if at0.categorical then listRemove d.catNames name else .ok d.catNames : Py (List String)) = .ok (d.catNames.erase name) := by
    cases hb : at0.categorical with
    | true =>
      simp only [if_true]
      unfold listRemove
      rw [if_pos ((hc.categorical.2 name).2 ⟨at0, hat0, hb⟩)]
    | false =>
      simp only [Bool.false_eq_true, if_false]
      rw [List.erase_of_not_mem]
      intro hm
      obtain ⟨at1, h3, h4⟩ := (hc.categorical.2 name).1 hm
      rw [hat0] at h3
      rw [← Option.some.inj h3, hb] at h4; cases h4
  have hnum : (if at0.categorical then .ok d.numNames else listRemove d.numNames name : Py (List String)) = .ok (d.numNames.erase name) := by
    cases hb : at0.categorical with
    | true =>
      simp only [if_true]
      rw [List.erase_of_not_mem]
      intro hm
      obtain ⟨at1, h3, h4⟩ := (hc.numerical.2 name).1 hm
      rw [hat0] at h3
      rw [← Option.some.inj h3, hb] at h4; cases h4
    | false =>
      simp only [Bool.false_eq_true, if_false]
      unfold listRemove
      rw [if_pos ((hc.numerical.2 name).2 ⟨at0, hat0, hb⟩)]
  have hrun : d.removeAttribute h name =
      .ok (h', { d with attrs := d.attrs.del name, catNames := d.catNames.erase name, numNames := d.numNames.erase name }) := by
    unfold Dataset.removeAttribute Dict.getItem
    rw [hat0]
    simp only [bind, Except.bind] at hcat hnum e1 ⊢
    cases hb : at0.categorical with
    | true =>
      rw [hb] at hcat hnum
      simp only [if_true] at hcat hnum ⊢
      rw [hcat, ← Except.ok.inj hnum]
      simp only
      rw [e1]; rfl
    | false =>
      rw [hb] at hcat hnum
      simp only [Bool.false_eq_true, if_false] at hcat hnum ⊢
      rw [hnum, ← Except.ok.inj hcat]
      simp only
      rw [e1]; rfl
  have hkeys : ∀ {ν : Type} (f : Dict String ν), f.WF → ∀ n, n ∈ (f.del name).keys ↔ n ∈ f.keys ∧ n ≠ name := by
    intro ν f hf n
    rw [Dict.keys_del]
    exact ⟨fun hm => ⟨List.mem_of_mem_erase hm, fun e => by subst e; exact hf.not_mem_erase hm⟩,
      fun hm => (List.mem_erase_of_ne hm.2).2 hm.1⟩
  refine ⟨h', _, hrun, ?_, rfl, rfl, e2, e3, rfl, rfl⟩
  constructor
  · exact hc.nodup
  · show (d.instances.map _).Nodup
    rw [List.map_congr_left (g := fun a => (h a).id)]
    · exact hc.ids
    · intro a ha; rw [e3 a ha]
  · exact Dict.WF.del hc.names _
  · intro a ha
    rw [e3 a ha]
    refine ⟨Dict.WF.del (hc.features a ha).1 _, fun n => ?_⟩
    show n ∈ ((h a).features.del name).keys ↔ n ∈ (d.attrs.del name).keys
    rw [hkeys _ (hc.features a ha).1, hkeys _ hc.names, (hc.features a ha).2]
  · intro n at' hat0
    have hat : (d.attrs.del name).get? n = some at' := hat0
    rw [Dict.get?_del hc.names] at hat
    split at hat
    · cases hat
    · next hnn =>
      obtain ⟨g1, g2⟩ := hc.values n at' hat
      refine ⟨g1, fun v => (g2 v).trans ?_⟩
      refine exists_congr fun a => and_congr_right fun ha => ?_
      rw [e3 a ha]
      show _ ↔ ((h a).features.del name).get? n = some v
      rw [Dict.get?_del (hc.features a ha).1, if_neg hnn]
  · refine ⟨hc.categorical.1.erase _, fun n => ?_⟩
    show n ∈ d.catNames.erase name ↔ ∃ at', (d.attrs.del name).get? n = some at' ∧ _
    rw [Dict.get?_del hc.names]
    by_cases hnn : name = n
    · subst hnn; simp [hc.categorical.1.not_mem_erase]
    · rw [if_neg hnn, List.mem_erase_of_ne (Ne.symm hnn)]; exact hc.categorical.2 n
  · refine ⟨hc.numerical.1.erase _, fun n => ?_⟩
    show n ∈ d.numNames.erase name ↔ ∃ at', (d.attrs.del name).get? n = some at' ∧ _
    rw [Dict.get?_del hc.names]
    by_cases hnn : name = n
    · subst hnn; simp [hc.numerical.1.not_mem_erase]
    · rw [if_neg hnn, List.mem_erase_of_ne (Ne.symm hnn)]; exact hc.numerical.2 n

end Prolothar.Data
