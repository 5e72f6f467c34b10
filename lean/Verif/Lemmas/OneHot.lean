import Verif.Lemmas.LabelEncoding
/-
Transformations that add and remove attributes; transformations that raise.
-/
namespace Prolothar.Data
open Prolothar.Spec.Data

variable {τ : Type}

/-- only the attributes in `N` are touched -/
structure Step (N : String → Prop) (h : Heap τ) (d : Dataset) (h' : Heap τ) (d' : Dataset) : Prop where
  consistent : Consistent h' d'
  instances : d'.instances = d.instances
  others : ∀ a, a ∉ d.instances → h' a = h a
  keeps : ∀ a ∈ d.instances, (h' a).id = (h a).id ∧ (h' a).target = (h a).target
  attrs : ∀ n, ¬ N n → d'.attrs.get? n = d.attrs.get? n
  values : ∀ a ∈ d.instances, ∀ n, ¬ N n → (h' a).features.get? n = (h a).features.get? n

theorem Step.refl {h : Heap τ} {d : Dataset} (hc : Consistent h d) (N : String → Prop) : Step N h d h d :=
  ⟨hc, rfl, fun _ _ => rfl, fun _ _ => ⟨rfl, rfl⟩, fun _ _ => rfl, fun _ _ _ _ => rfl⟩

theorem Step.trans {N1 N2 N : String → Prop} {h1 h2 h3 : Heap τ} {d1 d2 d3 : Dataset} (s1 : Step N1 h1 d1 h2 d2) (s2 : Step N2 h2 d2 h3 d3)
    (g1 : ∀ n, N1 n → N n) (g2 : ∀ n, N2 n → N n) : Step N h1 d1 h3 d3 where
  consistent := s2.consistent
  instances := s2.instances.trans s1.instances
  others a ha := by rw [s2.others a (by rw [s1.instances]; exact ha), s1.others a ha]
  keeps a ha := by
    obtain ⟨z1, z2⟩ := s2.keeps a (by rw [s1.instances]; exact ha)
    rw [z1, z2]; exact s1.keeps a ha
  attrs n hn := by rw [s2.attrs n fun h => hn (g2 n h), s1.attrs n fun h => hn (g1 n h)]
  values a ha n hn := by
    rw [s2.values a (by rw [s1.instances]; exact ha) n fun h => hn (g2 n h), s1.values a ha n fun h => hn (g1 n h)]

theorem remove_step {h : Heap τ} {d : Dataset} (hc : Consistent h d) {name : String} (hn : name ∈ d.attrs.keys) :
    ∃ h' d', d.removeAttribute h name = .ok (h', d') ∧ Step (· = name) h d h' d' ∧ d'.attrs.get? name = none ∧
      ∀ a ∈ d.instances, (h' a).features.get? name = none := by
  obtain ⟨h', d', e1, e2, e3, e4, e5, e6, _⟩ := removeAttribute_spec hc hn
  refine ⟨h', d', e1, ⟨e2, e3, e5, fun a ha => ?_, fun n hne => ?_, fun a ha n hne => ?_⟩, ?_, fun a ha => ?_⟩
  · rw [e6 a ha]; exact ⟨rfl, rfl⟩
  · rw [e4, Dict.get?_del hc.names, if_neg (Ne.symm hne)]
  · rw [e6 a ha]
    show ((h a).features.del name).get? n = _
    rw [Dict.get?_del (hc.features a ha).1, if_neg (Ne.symm hne)]
  · rw [e4, Dict.get?_del hc.names, if_pos rfl]
  · rw [e6 a ha]
    show ((h a).features.del name).get? name = _
    rw [Dict.get?_del (hc.features a ha).1, if_pos rfl]

theorem add_step (c : Bool) {h : Heap τ} {d : Dataset} (hc : Consistent h d) {name : String} (hn : name ∉ d.attrs.keys) (k : Nat → Val) :
    ∃ h' d', d.addAttr c h name (d.instances.map k) = .ok (h', d') ∧ Step (· = name) h d h' d' ∧
      (∃ at', d'.attrs.get? name = some at' ∧ at'.categorical = c) ∧
      ∀ a ∈ d.instances, (h' a).features.get? name = some (k a) := by
  obtain ⟨h', d', f1, f2, f3, f4, f5, f6, f7⟩ := addAttr_spec c hc hn k
  refine ⟨h', d', f1, ⟨f2, f3, f6, fun a ha => ?_, f4, fun a ha n hne => ?_⟩, f5, fun a ha => ?_⟩
  · rw [f7 a ha]; exact ⟨rfl, rfl⟩
  · rw [f7 a ha]; exact Dict.get?_put_of_ne _ _ (Ne.symm hne)
  · rw [f7 a ha]; exact Dict.get?_put_self _ _ _

/-- removing the selected attributes -/
theorem removeSelected {h : Heap τ} {d : Dataset} (hc : Consistent h d) (sel : String × Attr → Bool) :
    ∃ h' d', (d.attrs.filter sel).foldlM (fun (s : Heap τ × Dataset) e => s.2.removeAttribute s.1 e.1) (h, d) = .ok (h', d') ∧
      Step (fun n => ∃ e ∈ d.attrs, sel e = true ∧ e.1 = n) h d h' d' ∧
      ∀ e ∈ d.attrs, sel e = true → d'.attrs.get? e.1 = none ∧ ∀ a ∈ d.instances, (h' a).features.get? e.1 = none := by
  have key : ∀ (l : List (String × Attr)) (h1 : Heap τ) (d1 : Dataset), (l.map (·.1)).Nodup → Consistent h1 d1 →
      (∀ e ∈ l, e.1 ∈ d1.attrs.keys) →
      ∃ h' d', l.foldlM (fun (s : Heap τ × Dataset) e => s.2.removeAttribute s.1 e.1) (h1, d1) = .ok (h', d') ∧
        Step (fun n => n ∈ l.map (·.1)) h1 d1 h' d' ∧
        ∀ e ∈ l, d'.attrs.get? e.1 = none ∧ ∀ a ∈ d1.instances, (h' a).features.get? e.1 = none := by
    intro l
    induction l with
    | nil => exact fun h1 d1 _ g2 _ => ⟨h1, d1, rfl, Step.refl g2 _, fun e he => by cases he⟩
    | cons e l ih =>
      intro h1 d1 g1 g2 g3
      rw [List.map_cons, List.nodup_cons] at g1
      obtain ⟨h2, d2, e1, e2, e3, e4⟩ := remove_step g2 (g3 e (by simp))
      have hne : ∀ x ∈ l, x.1 ≠ e.1 := by
        intro x hx hh
        have := List.mem_map_of_mem (f := Prod.fst) hx
        rw [hh] at this; exact g1.1 this
      obtain ⟨h3, d3, f1, f2, f3⟩ := ih h2 d2 g1.2 e2.consistent (fun x hx => by
        rw [Dict.mem_keys_iff, e2.attrs _ (hne x hx), ← Dict.mem_keys_iff]; exact g3 x (List.mem_cons_of_mem _ hx))
      refine ⟨h3, d3, by rw [List.foldlM_cons, e1]; exact f1, e2.trans f2 (fun n hn => by subst hn; simp) (fun n hn => by
        rw [List.map_cons]; exact List.mem_cons_of_mem _ hn), fun x hx => ?_⟩
      rcases List.mem_cons.1 hx with rfl | hx
      · refine ⟨by rw [f2.attrs _ g1.1]; exact e3, fun a ha => ?_⟩
        rw [f2.values a (by rw [e2.instances]; exact ha) _ g1.1]; exact e4 a ha
      · refine ⟨(f3 x hx).1, fun a ha => (f3 x hx).2 a (by rw [e2.instances]; exact ha)⟩
  obtain ⟨h', d', e1, e2, e3⟩ := key (d.attrs.filter sel) h d (hc.names.sublist ((List.filter_sublist).map _)) hc
    (fun e he => List.mem_map_of_mem (List.mem_filter.1 he).1)
  refine ⟨h', d', e1, (Step.refl hc _).trans e2 (fun n hn => hn) (fun n hn => ?_), fun e he hs => e3 e (List.mem_filter.2 ⟨he, hs⟩)⟩
  obtain ⟨e, he, rfl⟩ := List.mem_map.1 hn
  exact ⟨e, (List.mem_filter.1 he).1, (List.mem_filter.1 he).2, rfl⟩

/-! ### one-hot encoding -/

/-- the indicator of a value -/
def ind (x v : Val) : Val := if x = v then .num 1 else .num 0

theorem oneHotValues {name join : String} {str : Val → String} : ∀ (vs : List Val) (h : Heap τ) (d : Dataset), Consistent h d →
    name ∈ d.attrs.keys → (vs.map fun v => name ++ join ++ str v).Nodup → (∀ v ∈ vs, name ++ join ++ str v ∉ d.attrs.keys) →
    ∃ h' d', vs.foldlM (oneHotValue name join str) (h, d) = .ok (h', d') ∧
      Step (fun n => n ∈ vs.map fun v => name ++ join ++ str v) h d h' d' ∧
      ∀ v ∈ vs, (∃ at', d'.attrs.get? (name ++ join ++ str v) = some at' ∧ at'.categorical = true) ∧
        ∀ a ∈ d.instances, (h' a).features.get? (name ++ join ++ str v) = some (ind (val h name a) v)
  | [], h, d, hc, _, _, _ => ⟨h, d, rfl, Step.refl hc _, fun v hv => by cases hv⟩
  | v :: vs, h, d, hc, hn, hnd, hf => by
    rw [List.map_cons, List.nodup_cons] at hnd
    obtain ⟨h1, d1, e1, e2, e3, e4⟩ := add_step true hc (hf v (by simp)) fun a => ind (val h name a) v
    have hnn : name ≠ name ++ join ++ str v := fun he => by have := hf v (by simp); rw [← he] at this; exact this hn
    have hn1 : name ∈ d1.attrs.keys := by rw [Dict.mem_keys_iff, e2.attrs _ hnn, ← Dict.mem_keys_iff]; exact hn
    have hval : ∀ a ∈ d.instances, val h1 name a = val h name a := fun a ha => by
      unfold val; rw [e2.values a ha _ hnn]
    have hne : ∀ w ∈ vs, name ++ join ++ str w ≠ name ++ join ++ str v := fun w hw he =>
      hnd.1 (he ▸ List.mem_map_of_mem (f := fun v => name ++ join ++ str v) hw)
    obtain ⟨h2, d2, f1, f2, f3⟩ := oneHotValues vs h1 d1 e2.consistent hn1 hnd.2 (fun w hw => by
      rw [Dict.mem_keys_iff, e2.attrs _ (hne w hw), ← Dict.mem_keys_iff]; exact hf w (List.mem_cons_of_mem _ hw))
    have hstep : oneHotValue name join str (h, d) v = .ok (h1, d1) := by
      unfold oneHotValue
      simp only [bind, Except.bind]
      rw [column_ok hc hn]
      simp only
      rw [List.map_map]
      exact e1
    refine ⟨h2, d2, by rw [List.foldlM_cons, hstep]; exact f1, e2.trans f2 (fun n hh => by subst hh; simp) (fun n hh => by
      rw [List.map_cons]; exact List.mem_cons_of_mem _ hh), fun w hw => ?_⟩
    rcases List.mem_cons.1 hw with rfl | hw
    · refine ⟨by rw [f2.attrs _ hnd.1]; exact e3, fun a ha => ?_⟩
      rw [f2.values a (by rw [e2.instances]; exact ha) _ hnd.1]; exact e4 a ha
    · refine ⟨(f3 w hw).1, fun a ha => ?_⟩
      rw [(f3 w hw).2 a (by rw [e2.instances]; exact ha), hval a ha]

/-- encoding one attribute -/
theorem oneHotAttr_spec {possible : Option (Dict String (List Val))} {join : String} {str : Val → String} {h : Heap τ} {d : Dataset}
    (hc : Consistent h d) {name : String} {at' : Attr} (hat : d.attrs.get? name = some at') {s : List Val}
    (hpv : possibleValues possible name at' = .ok s) (hs : s ≠ [.num 0, .num 1])
    (hnd : (s.map fun v => name ++ join ++ str v).Nodup) (hf : ∀ v ∈ s, name ++ join ++ str v ∉ d.attrs.keys) :
    ∃ h' d', oneHotAttr possible join str (h, d) (name, at') = .ok (h', d') ∧
      Step (fun n => n = name ∨ n ∈ s.map fun v => name ++ join ++ str v) h d h' d' ∧
      d'.attrs.get? name = none ∧ (∀ a ∈ d.instances, (h' a).features.get? name = none) ∧
      ∀ v ∈ s, (∃ at', d'.attrs.get? (name ++ join ++ str v) = some at' ∧ at'.categorical = true) ∧
        ∀ a ∈ d.instances, (h' a).features.get? (name ++ join ++ str v) = some (ind (val h name a) v) := by
  have hn : name ∈ d.attrs.keys := Dict.mem_keys_iff.2 ⟨at', hat⟩
  obtain ⟨h1, d1, e1, e2, e3⟩ := oneHotValues (τ := τ) s h d hc hn hnd hf
  have hnn : name ∉ s.map fun v => name ++ join ++ str v := by
    intro hm
    obtain ⟨v, hv, he⟩ := List.mem_map.1 hm
    have := hf v hv
    rw [he] at this; exact this hn
  have hn1 : name ∈ d1.attrs.keys := by rw [Dict.mem_keys_iff, e2.attrs _ hnn, ← Dict.mem_keys_iff]; exact hn
  obtain ⟨h2, d2, f1, f2, f3, f4⟩ := remove_step e2.consistent hn1
  refine ⟨h2, d2, ?_, e2.trans f2 (fun n hh => .inr hh) (fun n hh => .inl hh), f3, fun a ha => f4 a (by rw [e2.instances]; exact ha),
    fun v hv => ?_⟩
  · unfold oneHotAttr
    simp only [bind, Except.bind]
    rw [hpv]
    simp only
    rw [if_neg hs, e1]
    exact f1
  · have hne : ¬ (name ++ join ++ str v = name) := fun he => by
      have := hf v hv
      rw [he] at this; exact this hn
    refine ⟨by rw [f2.attrs _ hne]; exact (e3 v hv).1, fun a ha => ?_⟩
    rw [f2.values a (by rw [e2.instances]; exact ha) _ hne]; exact (e3 v hv).2 a ha

theorem oneHot_loop {possible : Option (Dict String (List Val))} {join : String} {str : Val → String} (vs : String → List Val) :
    ∀ (l : List (String × Attr)) (h : Heap τ) (d : Dataset), (l.map (·.1)).Nodup → Consistent h d →
    (∀ e ∈ l, d.attrs.get? e.1 = some e.2 ∧ possibleValues possible e.1 e.2 = .ok (vs e.1)) →
    (∀ e ∈ l, vs e.1 ≠ [.num 0, .num 1] → ∀ v ∈ vs e.1, e.1 ++ join ++ str v ∉ d.attrs.keys) →
    (∀ e ∈ l, vs e.1 ≠ [.num 0, .num 1] → ((vs e.1).map fun v => e.1 ++ join ++ str v).Nodup) →
    (∀ e ∈ l, ∀ e' ∈ l, vs e.1 ≠ [.num 0, .num 1] → vs e'.1 ≠ [.num 0, .num 1] → ∀ v ∈ vs e.1, ∀ v' ∈ vs e'.1,
      e.1 ++ join ++ str v = e'.1 ++ join ++ str v' → e.1 = e'.1) →
    ∃ h' d', l.foldlM (oneHotAttr possible join str) (h, d) = .ok (h', d') ∧
      Step (fun n => ∃ e ∈ l, vs e.1 ≠ [.num 0, .num 1] ∧ (n = e.1 ∨ n ∈ (vs e.1).map fun v => e.1 ++ join ++ str v)) h d h' d' ∧
      ∀ e ∈ l, vs e.1 ≠ [.num 0, .num 1] → d'.attrs.get? e.1 = none ∧ (∀ a ∈ d.instances, (h' a).features.get? e.1 = none) ∧
        ∀ v ∈ vs e.1, (∃ at', d'.attrs.get? (e.1 ++ join ++ str v) = some at' ∧ at'.categorical = true) ∧
          ∀ a ∈ d.instances, (h' a).features.get? (e.1 ++ join ++ str v) = some (ind (val h e.1 a) v)
  | [], h, d, _, hc, _, _, _, _ => ⟨h, d, rfl, Step.refl hc _, fun e he => by cases he⟩
  | (n0, at0) :: l, h, d, hnd, hc, hg, hf, hn2, hdisj => by
    rw [List.map_cons, List.nodup_cons] at hnd
    have hne : ∀ x ∈ l, x.1 ≠ n0 := by
      intro x hx hh
      have := List.mem_map_of_mem (f := Prod.fst) hx
      rw [hh] at this; exact hnd.1 this
    obtain ⟨g1, g2⟩ := hg (n0, at0) (by simp)
    by_cases hskip : vs n0 = [.num 0, .num 1]
    · obtain ⟨h', d', e1, e2, e3⟩ := oneHot_loop vs l h d hnd.2 hc (fun e he => hg e (List.mem_cons_of_mem _ he))
        (fun e he => hf e (List.mem_cons_of_mem _ he)) (fun e he => hn2 e (List.mem_cons_of_mem _ he))
        (fun e he e' he' => hdisj e (List.mem_cons_of_mem _ he) e' (List.mem_cons_of_mem _ he'))
      have hstep : oneHotAttr possible join str (h, d) (n0, at0) = .ok (h, d) := by
        unfold oneHotAttr
        simp only [bind, Except.bind]
        rw [g2]
        simp only
        rw [if_pos hskip]; rfl
      refine ⟨h', d', by rw [List.foldlM_cons, hstep]; exact e1, e2.trans (Step.refl e2.consistent (fun _ => False)) ?_ (fun n hh => hh.elim), ?_⟩
      · rintro n ⟨e, he, h1⟩; exact ⟨e, List.mem_cons_of_mem _ he, h1⟩
      · intro e he hs
        rcases List.mem_cons.1 he with rfl | he
        · exact absurd hskip hs
        · exact e3 e he hs
    · obtain ⟨h1, d1, e1, e2, e3, e4, e5⟩ := oneHotAttr_spec (join := join) (str := str) hc g1 g2 hskip (hn2 _ (by simp) hskip) (hf _ (by simp) hskip)
      -- the attributes of later steps are not touched
      have huntouched : ∀ x ∈ l, ¬ (x.1 = n0 ∨ x.1 ∈ (vs n0).map fun v => n0 ++ join ++ str v) := by
        rintro x hx (hh | hh)
        · exact hne x hx hh
        · obtain ⟨v, hv, he⟩ := List.mem_map.1 hh
          have := hf (n0, at0) (by simp) hskip v hv
          rw [he] at this
          exact this (Dict.mem_keys_iff.2 ⟨_, (hg x (List.mem_cons_of_mem _ hx)).1⟩)
      have hgen : ∀ x ∈ l, vs x.1 ≠ [.num 0, .num 1] → ∀ v ∈ vs x.1,
          ¬ (x.1 ++ join ++ str v = n0 ∨ x.1 ++ join ++ str v ∈ (vs n0).map fun v => n0 ++ join ++ str v) := by
        rintro x hx hsx v hv (hh | hh)
        · have := hf x (List.mem_cons_of_mem _ hx) hsx v hv
          rw [hh] at this
          exact this (Dict.mem_keys_iff.2 ⟨_, g1⟩)
        · obtain ⟨w, hw, he⟩ := List.mem_map.1 hh
          exact hne x hx (hdisj x (List.mem_cons_of_mem _ hx) (n0, at0) (by simp) hsx hskip v hv w hw he.symm)
      obtain ⟨h2, d2, f1, f2, f3⟩ := oneHot_loop vs l h1 d1 hnd.2 e2.consistent (fun e he => by
          rw [e2.attrs _ (huntouched e he)]; exact hg e (List.mem_cons_of_mem _ he))
        (fun e he hs v hv => by
          rw [Dict.mem_keys_iff, e2.attrs _ (hgen e he hs v hv), ← Dict.mem_keys_iff]
          exact hf e (List.mem_cons_of_mem _ he) hs v hv)
        (fun e he => hn2 e (List.mem_cons_of_mem _ he))
        (fun e he e' he' => hdisj e (List.mem_cons_of_mem _ he) e' (List.mem_cons_of_mem _ he'))
      have hlater0 : ¬ ∃ e ∈ l, vs e.1 ≠ [.num 0, .num 1] ∧ (n0 = e.1 ∨ n0 ∈ (vs e.1).map fun v => e.1 ++ join ++ str v) := by
        rintro ⟨e, he, hs, hh | hh⟩
        · exact hne e he hh.symm
        · obtain ⟨v, hv, hev⟩ := List.mem_map.1 hh
          have := hf e (List.mem_cons_of_mem _ he) hs v hv
          rw [hev] at this
          exact this (Dict.mem_keys_iff.2 ⟨_, g1⟩)
      have hlater : ∀ v ∈ vs n0, ¬ ∃ e ∈ l, vs e.1 ≠ [.num 0, .num 1] ∧
          (n0 ++ join ++ str v = e.1 ∨ n0 ++ join ++ str v ∈ (vs e.1).map fun v => e.1 ++ join ++ str v) := by
        rintro v hv ⟨e, he, hs, hh | hh⟩
        · have := hf (n0, at0) (by simp) hskip v hv
          simp only at this
          rw [hh] at this
          exact this (Dict.mem_keys_iff.2 ⟨_, (hg e (List.mem_cons_of_mem _ he)).1⟩)
        · obtain ⟨w, hw, hew⟩ := List.mem_map.1 hh
          exact hne e he (hdisj e (List.mem_cons_of_mem _ he) (n0, at0) (by simp) hs hskip w hw v hv hew)
      refine ⟨h2, d2, by rw [List.foldlM_cons, e1]; exact f1, e2.trans f2 ?_ ?_, ?_⟩
      · intro n hh; exact ⟨(n0, at0), by simp, hskip, hh⟩
      · rintro n ⟨e, he, hh⟩; exact ⟨e, List.mem_cons_of_mem _ he, hh⟩
      · intro e he hs
        rcases List.mem_cons.1 he with rfl | he
        · refine ⟨by rw [f2.attrs _ hlater0]; exact e3, fun a ha => ?_, fun v hv => ⟨?_, fun a ha => ?_⟩⟩
          · rw [f2.values a (by rw [e2.instances]; exact ha) _ hlater0]; exact e4 a ha
          · rw [f2.attrs _ (hlater v hv)]; exact (e5 v hv).1
          · rw [f2.values a (by rw [e2.instances]; exact ha) _ (hlater v hv)]; exact (e5 v hv).2 a ha
        · obtain ⟨z1, z2, z3⟩ := f3 e he hs
          refine ⟨z1, fun a ha => z2 a (by rw [e2.instances]; exact ha), fun v hv => ⟨(z3 v hv).1, fun a ha => ?_⟩⟩
          rw [(z3 v hv).2 a (by rw [e2.instances]; exact ha)]
          congr 2
          unfold val; rw [e2.values a ha _ (huntouched e he)]

/-! ### errors -/

/-- if every step recodes its attribute or raises `err`, and some step raises, the transformation raises -/
theorem fold_error {h : Heap τ} {d : Dataset} (hc : Consistent h d) (sel : Attr → Bool) (good : String → Prop) (err : PyErr)
    (step : Heap τ × Dataset → String × Attr → Py (Heap τ × Dataset))
    (hstep : ∀ n at', d.attrs.get? n = some at' → sel at' = true → ∀ h1 d1, Consistent h1 d1 → d1.instances = d.instances →
      d1.attrs.get? n = some at' → (∀ a ∈ d.instances, (h1 a).features.get? n = (h a).features.get? n) →
      (good n → ∃ h2 d2 g c, step (h1, d1) (n, at') = .ok (h2, d2) ∧ RecodeOne n g c h1 d1 h2 d2) ∧
      (¬ good n → step (h1, d1) (n, at') = .error err))
    {n : String} {at' : Attr} (hn : d.attrs.get? n = some at') (hs : sel at' = true) (hbad : ¬ good n) :
    (d.attrs.filter fun e => sel e.2).foldlM step (h, d) = .error err := by
  have key : ∀ (l : List (String × Attr)) (h1 : Heap τ) (d1 : Dataset), (l.map (·.1)).Nodup →
      (∀ e ∈ l, d.attrs.get? e.1 = some e.2 ∧ sel e.2 = true) →
      Consistent h1 d1 → d1.instances = d.instances →
      (∀ e ∈ l, d1.attrs.get? e.1 = some e.2 ∧ ∀ a ∈ d.instances, (h1 a).features.get? e.1 = (h a).features.get? e.1) →
      (n, at') ∈ l → l.foldlM step (h1, d1) = .error err := by
    intro l
    induction l with
    | nil => intro _ _ _ _ _ _ _ hm; cases hm
    | cons e l ih =>
      intro h1 d1 g1 g2 g3 g4 g5 hm
      obtain ⟨n0, at0⟩ := e
      rw [List.map_cons, List.nodup_cons] at g1
      obtain ⟨k1, k2⟩ := g5 (n0, at0) (by simp)
      obtain ⟨k3, k4⟩ := g2 (n0, at0) (by simp)
      obtain ⟨s1, s2⟩ := hstep n0 at0 k3 k4 h1 d1 g3 g4 k1 k2
      by_cases hgood : good n0
      · obtain ⟨h2, d2, g, c, e1, r⟩ := s1 hgood
        have hne : ∀ e ∈ l, e.1 ≠ n0 := by
          intro e he hh
          have := List.mem_map_of_mem (f := Prod.fst) he
          rw [hh] at this; exact g1.1 this
        rw [List.foldlM_cons, e1]
        refine ih h2 d2 g1.2 (fun e he => g2 e (List.mem_cons_of_mem _ he)) r.consistent (r.instances.trans g4) (fun e he => ?_) ?_
        · obtain ⟨z1, z2⟩ := g5 e (List.mem_cons_of_mem _ he)
          refine ⟨by rw [r.attrs _ (hne e he)]; exact z1, fun a ha => ?_⟩
          rw [r.values a (by rw [g4]; exact ha) _ (hne e he)]; exact z2 a ha
        · rcases List.mem_cons.1 hm with hm | hm
          · rw [Prod.mk.injEq] at hm
            rw [hm.1] at hbad; exact absurd hgood hbad
          · exact hm
      · rw [List.foldlM_cons, s2 hgood]; rfl
  have hmem : ∀ e ∈ d.attrs.filter (fun e => sel e.2), d.attrs.get? e.1 = some e.2 ∧ sel e.2 = true := by
    intro e he
    rw [List.mem_filter] at he
    exact ⟨Dict.get?_of_mem hc.names he.1, he.2⟩
  exact key _ h d (hc.names.sublist ((List.filter_sublist).map _)) hmem hc rfl (fun e he => ⟨(hmem e he).1, fun _ _ => rfl⟩)
    (List.mem_filter.2 ⟨Dict.mem_of_get? hn, hs⟩)

end Prolothar.Data
