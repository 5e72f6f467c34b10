import Verif.Lemmas.DatasetSub
import Verif.Spec.Transformer
/-
Transformations that replace attribute values.
-/
namespace Prolothar.Data
open Prolothar.Spec.Data

variable {τ : Type}

/-- the value of an instance -/
def val (h : Heap τ) (name : String) (a : Nat) : Val := ((h a).features.get? name).getD (.num 0)

theorem get?_val {h : Heap τ} {d : Dataset} (hc : Consistent h d) {name : String} (hn : name ∈ d.attrs.keys) {a : Nat}
    (ha : a ∈ d.instances) : (h a).features.get? name = some (val h name a) := by
  obtain ⟨v, hv⟩ := Dict.mem_keys_iff.1 (((hc.features a ha).2 name).2 hn)
  unfold val; rw [hv]; rfl

theorem mapM_ok_map {α β : Type} {f : α → Py β} {g : α → β} : ∀ {l : List α}, (∀ x ∈ l, f x = .ok (g x)) → l.mapM f = .ok (l.map g)
  | [], _ => rfl
  | x :: l, h => by
    rw [List.mapM_cons, h x (by simp), mapM_ok_map fun y hy => h y (List.mem_cons_of_mem _ hy)]; rfl

theorem column_ok {h : Heap τ} {d : Dataset} (hc : Consistent h d) {name : String} (hn : name ∈ d.attrs.keys) :
    d.column h name = .ok (d.instances.map (val h name)) := by
  unfold Dataset.column
  refine mapM_ok_map fun a ha => ?_
  unfold Dict.getItem; rw [get?_val hc hn ha]

/-- what happens when one attribute is recoded -/
structure RecodeOne (name : String) (g : Val → Val) (c : Bool) (h : Heap τ) (d : Dataset) (h' : Heap τ) (d' : Dataset) : Prop where
  consistent : Consistent h' d'
  instances : d'.instances = d.instances
  others : ∀ a, a ∉ d.instances → h' a = h a
  keeps : ∀ a ∈ d.instances, (h' a).id = (h a).id ∧ (h' a).target = (h a).target
  attr : ∃ at', d'.attrs.get? name = some at' ∧ at'.categorical = c
  attrs : ∀ n, n ≠ name → d'.attrs.get? n = d.attrs.get? n
  value : ∀ a ∈ d.instances, (h' a).features.get? name = ((h a).features.get? name).map g
  values : ∀ a ∈ d.instances, ∀ n, n ≠ name → (h' a).features.get? n = (h a).features.get? n

/-- both ways of adding an attribute -/
def Dataset.addAttr (c : Bool) (h : Heap τ) (d : Dataset) (name : String) (values : List Val) : Py (Heap τ × Dataset) :=
  if c then d.addCategorical h name values else d.addNumerical h name values

theorem addAttr_spec (c : Bool) {h : Heap τ} {d : Dataset} (hc : Consistent h d) {name : String} (hn : name ∉ d.attrs.keys)
    (k : Nat → Val) :
    ∃ h' d', d.addAttr c h name (d.instances.map k) = .ok (h', d') ∧ Consistent h' d' ∧ d'.instances = d.instances ∧
      (∀ n, n ≠ name → d'.attrs.get? n = d.attrs.get? n) ∧ (∃ at', d'.attrs.get? name = some at' ∧ at'.categorical = c) ∧
      (∀ a, a ∉ d.instances → h' a = h a) ∧
      ∀ a ∈ d.instances, h' a = { h a with features := (h a).features.put name (k a) } := by
  have hl : d.instances.length = (d.instances.map k).length := by simp
  obtain ⟨s1, s2⟩ := setAll_zip (name := name) (h := h) hl hc.nodup
  have hcon := addAttr_consistent c hc hl hn
  have he : d.addAttr c h name (d.instances.map k) = .ok (setAll name h ((d.instances.map k).zip d.instances),
      { d with attrs := d.attrs.put name ⟨c, toSet (d.instances.map k)⟩, catNames := if c then d.catNames ++ [name] else d.catNames,
               numNames := if c then d.numNames else d.numNames ++ [name] }) := by
    unfold Dataset.addAttr Dataset.addCategorical Dataset.addNumerical
    cases c
    · rw [if_neg (by simp)]; exact if_neg (by simp)
    · rw [if_pos rfl]; exact if_neg (by simp)
  refine ⟨_, _, he, hcon, rfl, fun n hne => ?_, ⟨⟨c, toSet (d.instances.map k)⟩, Dict.get?_put_self _ _ _, rfl⟩, s1, fun a ha => ?_⟩
  · exact Dict.get?_put_of_ne _ _ (Ne.symm hne)
  · obtain ⟨i, hi, rfl⟩ := List.mem_iff_getElem.1 ha
    exact s2 i _ _ (by simp) (by simp [hi])

/-- removing an attribute and adding it again with other values -/
theorem recode_spec (c : Bool) {h : Heap τ} {d : Dataset} (hc : Consistent h d) {name : String} (hn : name ∈ d.attrs.keys) (g : Val → Val) :
    ∃ h1 d1 h2 d2, d.removeAttribute h name = .ok (h1, d1) ∧
      d1.addAttr c h1 name (d.instances.map fun a => g (val h name a)) = .ok (h2, d2) ∧ RecodeOne name g c h d h2 d2 := by
  obtain ⟨h1, d1, e1, e2, e3, e4, e5, e6, _⟩ := removeAttribute_spec hc hn
  have hn1 : name ∉ d1.attrs.keys := by
    rw [e4, Dict.keys_del]; exact hc.names.not_mem_erase
  obtain ⟨h2, d2, f1, f2, f3, f4, f5, f6, f7⟩ := addAttr_spec c e2 hn1 fun a => g (val h name a)
  rw [e3] at f1 f3 f6 f7
  refine ⟨h1, d1, h2, d2, e1, f1, ⟨f2, f3, fun a ha => by rw [f6 a ha, e5 a ha], fun a ha => ?_, f5, fun n hne => ?_, fun a ha => ?_,
    fun a ha n hne => ?_⟩⟩
  · rw [f7 a ha, e6 a ha]; exact ⟨rfl, rfl⟩
  · rw [f4 n hne, e4, Dict.get?_del hc.names, if_neg (Ne.symm hne)]
  · rw [f7 a ha, get?_val hc hn ha]; exact Dict.get?_put_self _ _ _
  · rw [f7 a ha, e6 a ha]
    show ((((h a).features.del name)).put name _).get? n = _
    rw [Dict.get?_put_of_ne _ _ (Ne.symm hne), Dict.get?_del (hc.features a ha).1, if_neg (Ne.symm hne)]

/-- nothing is done -/
theorem recode_skip {h : Heap τ} {d : Dataset} (hc : Consistent h d) {name : String} {at' : Attr} (hat : d.attrs.get? name = some at')
    {g : Val → Val} (hg : ∀ a ∈ d.instances, ∀ v, (h a).features.get? name = some v → g v = v) :
    RecodeOne name g at'.categorical h d h d where
  consistent := hc
  instances := rfl
  others _ _ := rfl
  keeps _ _ := ⟨rfl, rfl⟩
  attr := ⟨at', hat, rfl⟩
  attrs _ _ := rfl
  value a ha := by
    cases hv : (h a).features.get? name with
    | none => rfl
    | some v => rw [Option.map_some, hg a ha v hv]
  values _ _ _ _ := rfl

/-- a transformer that recodes the selected attributes one after the other -/
theorem fold_recode {h : Heap τ} {d : Dataset} (hc : Consistent h d) (sel : Attr → Bool) (c : Attr → Bool) (f : String → Val → Val)
    (step : Heap τ × Dataset → String × Attr → Py (Heap τ × Dataset))
    (hstep : ∀ n at', d.attrs.get? n = some at' → sel at' = true → ∀ h1 d1, Consistent h1 d1 → d1.instances = d.instances →
      d1.attrs.get? n = some at' → (∀ a ∈ d.instances, (h1 a).features.get? n = (h a).features.get? n) →
      ∃ h2 d2, step (h1, d1) (n, at') = .ok (h2, d2) ∧ RecodeOne n (f n) (c at') h1 d1 h2 d2) :
    ∃ h' d', (d.attrs.filter fun e => sel e.2).foldlM step (h, d) = .ok (h', d') ∧ Consistent h' d' ∧ d'.instances = d.instances ∧
      (∀ a, a ∉ d.instances → h' a = h a) ∧ (∀ a ∈ d.instances, (h' a).id = (h a).id ∧ (h' a).target = (h a).target) ∧
      (∀ n, (d'.attrs.get? n).map (·.categorical) = (d.attrs.get? n).map fun at' => if sel at' then c at' else at'.categorical) ∧
      ∀ a ∈ d.instances, ∀ n, (h' a).features.get? n =
        ((h a).features.get? n).map fun v => if (d.attrs.get? n).any sel then f n v else v := by
  have key : ∀ (l : List (String × Attr)) (h1 : Heap τ) (d1 : Dataset), (l.map (·.1)).Nodup → (∀ e ∈ l, d.attrs.get? e.1 = some e.2 ∧ sel e.2 = true) →
      Consistent h1 d1 → d1.instances = d.instances →
      (∀ e ∈ l, d1.attrs.get? e.1 = some e.2 ∧ ∀ a ∈ d.instances, (h1 a).features.get? e.1 = (h a).features.get? e.1) →
      ∃ h' d', l.foldlM step (h1, d1) = .ok (h', d') ∧ Consistent h' d' ∧ d'.instances = d.instances ∧
        (∀ a, a ∉ d.instances → h' a = h1 a) ∧ (∀ a ∈ d.instances, (h' a).id = (h1 a).id ∧ (h' a).target = (h1 a).target) ∧
        (∀ n, (d'.attrs.get? n).map (·.categorical) =
          if n ∈ l.map (·.1) then (d.attrs.get? n).map c else (d1.attrs.get? n).map (·.categorical)) ∧
        ∀ a ∈ d.instances, ∀ n, (h' a).features.get? n =
          if n ∈ l.map (·.1) then ((h a).features.get? n).map (f n) else (h1 a).features.get? n := by
    intro l
    induction l with
    | nil =>
      intro h1 d1 _ _ g3 g4 _
      exact ⟨h1, d1, rfl, g3, g4, fun _ _ => rfl, fun _ _ => ⟨rfl, rfl⟩, fun n => by simp, fun a _ n => by simp⟩
    | cons e l ih =>
      intro h1 d1 g1 g2 g3 g4 g5
      obtain ⟨n0, at0⟩ := e
      rw [List.map_cons, List.nodup_cons] at g1
      obtain ⟨k1, k2⟩ := g5 (n0, at0) (by simp)
      obtain ⟨k3, k4⟩ := g2 (n0, at0) (by simp)
      obtain ⟨h2, d2, e1, r⟩ := hstep n0 at0 k3 k4 h1 d1 g3 g4 k1 k2
      have hne : ∀ e ∈ l, e.1 ≠ n0 := by
        intro e he hh
        have := List.mem_map_of_mem (f := Prod.fst) he
        rw [hh] at this; exact g1.1 this
      obtain ⟨h', d', q1, q2, q3, q4, q5, q6, q7⟩ := ih h2 d2 g1.2 (fun e he => g2 e (List.mem_cons_of_mem _ he)) r.consistent
        (r.instances.trans g4) (fun e he => by
          obtain ⟨z1, z2⟩ := g5 e (List.mem_cons_of_mem _ he)
          refine ⟨by rw [r.attrs _ (hne e he)]; exact z1, fun a ha => ?_⟩
          rw [r.values a (by rw [g4]; exact ha) _ (hne e he)]; exact z2 a ha)
      refine ⟨h', d', by rw [List.foldlM_cons, e1]; exact q1, q2, q3, fun a ha => ?_, fun a ha => ?_, fun n => ?_, fun a ha n => ?_⟩
      · rw [q4 a ha, r.others a (by rw [g4]; exact ha)]
      · obtain ⟨z1, z2⟩ := r.keeps a (by rw [g4]; exact ha)
        rw [(q5 a ha).1, (q5 a ha).2]; exact ⟨z1, z2⟩
      · rw [q6]
        by_cases hn : n = n0
        · subst hn
          rw [if_neg g1.1]
          simp only [List.map_cons, List.mem_cons, true_or, if_true]
          rw [k3]
          obtain ⟨at2, y1, y2⟩ := r.attr
          rw [y1]; simp [y2]
        · rw [r.attrs n hn]
          by_cases hm : n ∈ l.map (·.1)
          · rw [if_pos hm, if_pos (show n ∈ ((n0, at0) :: l).map (·.1) from List.mem_cons_of_mem _ hm)]
          · rw [if_neg hm, if_neg (show n ∉ ((n0, at0) :: l).map (·.1) by rw [List.map_cons, List.mem_cons, not_or]; exact ⟨hn, hm⟩)]
      · rw [q7 a ha]
        by_cases hn : n = n0
        · subst hn
          rw [if_neg g1.1]
          simp only [List.map_cons, List.mem_cons, true_or, if_true]
          rw [r.value a (by rw [g4]; exact ha), k2 a ha]
        · rw [r.values a (by rw [g4]; exact ha) n hn]
          by_cases hm : n ∈ l.map (·.1)
          · rw [if_pos hm, if_pos (show n ∈ ((n0, at0) :: l).map (·.1) from List.mem_cons_of_mem _ hm)]
          · rw [if_neg hm, if_neg (show n ∉ ((n0, at0) :: l).map (·.1) by rw [List.map_cons, List.mem_cons, not_or]; exact ⟨hn, hm⟩)]
  have hmem : ∀ e ∈ d.attrs.filter (fun e => sel e.2), d.attrs.get? e.1 = some e.2 ∧ sel e.2 = true := by
    intro e he
    rw [List.mem_filter] at he
    exact ⟨Dict.get?_of_mem hc.names he.1, he.2⟩
  have hin : ∀ n, n ∈ (d.attrs.filter fun e => sel e.2).map (·.1) ↔ (d.attrs.get? n).any sel = true := by
    intro n
    constructor
    · intro hm
      obtain ⟨e, he, rfl⟩ := List.mem_map.1 hm
      rw [(hmem e he).1]; exact (hmem e he).2
    · intro ha
      cases hat : d.attrs.get? n with
      | none => rw [hat] at ha; cases ha
      | some at' =>
        rw [hat] at ha
        exact List.mem_map.2 ⟨(n, at'), List.mem_filter.2 ⟨Dict.mem_of_get? hat, ha⟩, rfl⟩
  obtain ⟨h', d', q1, q2, q3, q4, q5, q6, q7⟩ := key (d.attrs.filter fun e => sel e.2) h d
    (hc.names.sublist ((List.filter_sublist).map _)) hmem hc rfl (fun e he => ⟨(hmem e he).1, fun _ _ => rfl⟩)
  refine ⟨h', d', q1, q2, q3, q4, q5, fun n => ?_, fun a ha n => ?_⟩
  · rw [q6 n]
    cases hat : d.attrs.get? n with
    | none => simp
    | some at' =>
      have := hin n
      rw [hat] at this
      cases hs : sel at' with
      | true => rw [if_pos (this.2 hs)]; simp [hs]
      | false => rw [if_neg (fun hm => by have := this.1 hm; simp [hs] at this)]; simp [hs]
  · rw [q7 a ha n]
    cases hs : (d.attrs.get? n).any sel with
    | true => rw [if_pos ((hin n).2 hs)]; simp
    | false => rw [if_neg (fun hm => by have := (hin n).1 hm; rw [hs] at this; cases this)]; simp

/-- the same as `Recoded` -/
theorem fold_recoded {h : Heap τ} {d : Dataset} (hc : Consistent h d) (sel : Attr → Bool) (c : Attr → Bool) (f : String → Val → Val)
    (step : Heap τ × Dataset → String × Attr → Py (Heap τ × Dataset))
    (hstep : ∀ n at', d.attrs.get? n = some at' → sel at' = true → ∀ h1 d1, Consistent h1 d1 → d1.instances = d.instances →
      d1.attrs.get? n = some at' → (∀ a ∈ d.instances, (h1 a).features.get? n = (h a).features.get? n) →
      ∃ h2 d2, step (h1, d1) (n, at') = .ok (h2, d2) ∧ RecodeOne n (f n) (c at') h1 d1 h2 d2)
    (f' : String → Val → Val) (hf : ∀ n at', d.attrs.get? n = some at' → ∀ v, f' n v = if sel at' then f n v else v)
    (toCat : String → Prop) (hcat : ∀ n at', d.attrs.get? n = some at' → ((if sel at' then c at' else at'.categorical) = true ↔
      at'.categorical = true ∨ toCat n)) :
    ∃ h' d', (d.attrs.filter fun e => sel e.2).foldlM step (h, d) = .ok (h', d') ∧ Recoded h d h' d' f' toCat := by
  obtain ⟨h', d', q1, q2, q3, q4, q5, q6, q7⟩ := fold_recode hc sel c f step hstep
  refine ⟨h', d', q1, ⟨q2, q3, q4, q5, fun n => ?_, fun n => ?_, fun a ha n => ?_⟩⟩
  · have := q6 n
    rw [Dict.mem_keys_iff, Dict.mem_keys_iff]
    cases h1 : d'.attrs.get? n <;> cases h2 : d.attrs.get? n <;> simp [h1, h2] at this ⊢
  · rw [q2.categorical.2, hc.categorical.2, Dict.mem_keys_iff]
    have := q6 n
    cases h1 : d'.attrs.get? n with
    | none =>
      cases h2 : d.attrs.get? n with
      | none => simp
      | some at' => simp [h1, h2] at this
    | some at1 =>
      cases h2 : d.attrs.get? n with
      | none => simp [h1, h2] at this
      | some at2 =>
        have hh := hcat n at2 h2
        simp only [h1, h2, Option.map_some, Option.some.injEq] at this
        rw [← this] at hh
        simpa using hh
  · rw [q7 a ha n]
    cases h2 : d.attrs.get? n with
    | none =>
      have : (h a).features.get? n = none := by
        rw [Dict.get?_eq_none_iff, (hc.features a ha).2, ← Dict.get?_eq_none_iff]; exact h2
      rw [this]; rfl
    | some at' =>
      congr 1
      funext v
      rw [hf n at' h2]; rfl

end Prolothar.Data
