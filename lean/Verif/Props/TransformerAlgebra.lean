import Verif.Props.Transformer
import Verif.Props.Quantile
import Mathlib.Tactic.Linarith
/-
C170: repeating, combining and swapping dataset transformers.
-/
namespace Prolothar.Data
open Prolothar.Spec.Data

variable {τ : Type}

/-! ### Specification -/

/-- Two datasets that a user cannot tell apart, except by the order of their attributes: the same instances with the
same ids and targets, the same categorical and numerical attributes, the same values. -/
structure Alike (h1 : Heap τ) (d1 : Dataset) (h2 : Heap τ) (d2 : Dataset) : Prop where
  instances : d1.instances = d2.instances
  others : ∀ a, a ∉ d1.instances → h1 a = h2 a
  ids : ∀ a ∈ d1.instances, (h1 a).id = (h2 a).id ∧ (h1 a).target = (h2 a).target
  categorical : ∀ n, n ∈ d1.catNames ↔ n ∈ d2.catNames
  numerical : ∀ n, n ∈ d1.numNames ↔ n ∈ d2.numNames
  value : ∀ a ∈ d1.instances, ∀ n, (h1 a).features.get? n = (h2 a).features.get? n

/-- one transformer in place after the other -/
def both (f g : Heap τ → Dataset → Py (Heap τ × Dataset)) (h : Heap τ) (d : Dataset) : Py (Heap τ × Dataset) :=
  (f h d).bind fun r => g r.1 r.2

/-- both calls succeed and their results are alike -/
def SameResult (r s : Py (Heap τ × Dataset)) : Prop :=
  ∃ h1 d1 h2 d2, r = .ok (h1, d1) ∧ s = .ok (h2, d2) ∧ Alike h1 d1 h2 d2

/-! ### Auxiliary: what the transformers do, in one form -/

/-- keeps the attributes in `keep` and replaces every value `v` of attribute `n` by `f n v` -/
structure Maps (h : Heap τ) (d : Dataset) (h' : Heap τ) (d' : Dataset) (keep : String → Prop) (f : String → Val → Val) : Prop where
  consistent : Consistent h' d'
  instances : d'.instances = d.instances
  others : ∀ a, a ∉ d.instances → h' a = h a
  ids : ∀ a ∈ d.instances, (h' a).id = (h a).id ∧ (h' a).target = (h a).target
  categorical : ∀ n, n ∈ d'.catNames ↔ n ∈ d.catNames ∧ keep n
  numerical : ∀ n, n ∈ d'.numNames ↔ n ∈ d.numNames ∧ keep n
  value : ∀ a ∈ d.instances, ∀ n, keep n → (h' a).features.get? n = ((h a).features.get? n).map (f n)
  gone : ∀ a ∈ d.instances, ∀ n, ¬ keep n → (h' a).features.get? n = none

theorem Maps.trans {h h1 h2 : Heap τ} {d d1 d2 : Dataset} {k1 k2 : String → Prop} {f1 f2 : String → Val → Val}
    (m1 : Maps h d h1 d1 k1 f1) (m2 : Maps h1 d1 h2 d2 k2 f2) :
    Maps h d h2 d2 (fun n => k1 n ∧ k2 n) (fun n v => f2 n (f1 n v)) where
  consistent := m2.consistent
  instances := m2.instances.trans m1.instances
  others a ha := (m2.others a (by rw [m1.instances]; exact ha)).trans (m1.others a ha)
  ids a ha := by
    have h1 := m1.ids a ha
    have h2 := m2.ids a (by rw [m1.instances]; exact ha)
    exact ⟨h2.1.trans h1.1, h2.2.trans h1.2⟩
  categorical n := by rw [m2.categorical, m1.categorical, and_assoc]
  numerical n := by rw [m2.numerical, m1.numerical, and_assoc]
  value a ha n hk := by
    rw [m2.value a (by rw [m1.instances]; exact ha) n hk.2, m1.value a ha n hk.1, Option.map_map]
    rfl
  gone a ha n hk := by
    by_cases h2 : k2 n
    · rw [m2.value a (by rw [m1.instances]; exact ha) n h2, m1.gone a ha n fun h1 => hk ⟨h1, h2⟩]
      rfl
    · exact m2.gone a (by rw [m1.instances]; exact ha) n h2

theorem Maps.alike {h h1 h2 : Heap τ} {d d1 d2 : Dataset} {k1 k2 : String → Prop} {f1 f2 : String → Val → Val}
    (m1 : Maps h d h1 d1 k1 f1) (m2 : Maps h d h2 d2 k2 f2) (hk : ∀ n, n ∈ d.catNames ∨ n ∈ d.numNames → (k1 n ↔ k2 n))
    (hno : ∀ a ∈ d.instances, ∀ n, ¬ (n ∈ d.catNames ∨ n ∈ d.numNames) → (h a).features.get? n = none)
    (hf : ∀ n, k1 n → k2 n → ∀ v, Occurs h d n v → f1 n v = f2 n v) : Alike h1 d1 h2 d2 where
  instances := m1.instances.trans m2.instances.symm
  others a ha := by
    rw [m1.instances] at ha
    rw [m1.others a ha, m2.others a ha]
  ids a ha := by
    rw [m1.instances] at ha
    exact ⟨(m1.ids a ha).1.trans (m2.ids a ha).1.symm, (m1.ids a ha).2.trans (m2.ids a ha).2.symm⟩
  categorical n := by
    rw [m1.categorical, m2.categorical]
    exact and_congr_right fun hn => hk n (.inl hn)
  numerical n := by
    rw [m1.numerical, m2.numerical]
    exact and_congr_right fun hn => hk n (.inr hn)
  value a ha n := by
    rw [m1.instances] at ha
    by_cases hn : n ∈ d.catNames ∨ n ∈ d.numNames
    · by_cases h1 : k1 n
      · have h2 := (hk n hn).1 h1
        rw [m1.value a ha n h1, m2.value a ha n h2]
        cases hv : (h a).features.get? n with
        | none => rfl
        | some v => rw [Option.map_some, Option.map_some, hf n h1 h2 v ⟨a, ha, hv⟩]
      · rw [m1.gone a ha n h1, m2.gone a ha n fun h2 => h1 ((hk n hn).2 h2)]
    · have e1 : (h1 a).features.get? n = none := by
        by_cases h1 : k1 n
        · rw [m1.value a ha n h1, hno a ha n hn]; rfl
        · exact m1.gone a ha n h1
      have e2 : (h2 a).features.get? n = none := by
        by_cases h2 : k2 n
        · rw [m2.value a ha n h2, hno a ha n hn]; rfl
        · exact m2.gone a ha n h2
      rw [e1, e2]

theorem Maps.occurs {h h' : Heap τ} {d d' : Dataset} {k : String → Prop} {f : String → Val → Val} (m : Maps h d h' d' k f) {n : String}
    (hk : k n) (w : Val) : Occurs h' d' n w ↔ ∃ v, Occurs h d n v ∧ f n v = w := by
  constructor
  · rintro ⟨a, ha, hv⟩
    rw [m.instances] at ha
    rw [m.value a ha n hk] at hv
    obtain ⟨v, hv, he⟩ := Option.map_eq_some_iff.1 hv
    exact ⟨v, ⟨a, ha, hv⟩, he⟩
  · rintro ⟨v, ⟨a, ha, hv⟩, rfl⟩
    exact ⟨a, by rw [m.instances]; exact ha, by rw [m.value a ha n hk, hv]; rfl⟩

theorem mem_keys_names {h : Heap τ} {d : Dataset} (hc : Consistent h d) (n : String) :
    n ∈ d.attrs.keys ↔ n ∈ d.catNames ∨ n ∈ d.numNames := by
  rw [hc.categorical.2, hc.numerical.2, Dict.mem_keys_iff]
  constructor
  · rintro ⟨at', h1⟩
    cases hb : at'.categorical with
    | true => exact .inl ⟨at', h1, hb⟩
    | false => exact .inr ⟨at', h1, hb⟩
  · rintro (⟨at', h1, _⟩ | ⟨at', h1, _⟩) <;> exact ⟨at', h1⟩

theorem not_both {h : Heap τ} {d : Dataset} (hc : Consistent h d) {n : String} (h1 : n ∈ d.catNames) (h2 : n ∈ d.numNames) : False := by
  obtain ⟨a1, e1, c1⟩ := (hc.categorical.2 n).1 h1
  obtain ⟨a2, e2, c2⟩ := (hc.numerical.2 n).1 h2
  rw [e1] at e2
  rw [Option.some.inj e2, c2] at c1
  cases c1

theorem no_value {h : Heap τ} {d : Dataset} (hc : Consistent h d) :
    ∀ a ∈ d.instances, ∀ n, ¬ (n ∈ d.catNames ∨ n ∈ d.numNames) → (h a).features.get? n = none := by
  intro a ha n hn
  rw [Dict.get?_eq_none_iff, (hc.features a ha).2, mem_keys_names hc]
  exact hn

theorem Maps.refl {h : Heap τ} {d : Dataset} (hc : Consistent h d) : Maps h d h d (fun _ => True) (fun _ v => v) where
  consistent := hc
  instances := rfl
  others _ _ := rfl
  ids _ _ := ⟨rfl, rfl⟩
  categorical n := by simp
  numerical n := by simp
  value a _ n _ := by cases (h a).features.get? n <;> rfl
  gone _ _ _ hk := absurd trivial hk

theorem recoded_maps {h h' : Heap τ} {d d' : Dataset} {f : String → Val → Val} (hc : Consistent h d)
    (r : Recoded h d h' d' f (fun _ => False)) : Maps h d h' d' (fun _ => True) f where
  consistent := r.consistent
  instances := r.instances
  others := r.others
  ids := r.keeps
  categorical n := by rw [r.categorical]; simp
  numerical n := by
    have e1 := r.names n
    rw [mem_keys_names r.consistent, mem_keys_names hc] at e1
    have e2 := r.categorical n
    simp only [and_false, or_false] at e2
    simp only [and_true]
    constructor
    · intro hn
      rcases e1.1 (.inr hn) with h1 | h1
      · exact (not_both r.consistent (e2.2 h1) hn).elim
      · exact h1
    · intro hn
      rcases e1.2 (.inr hn) with h1 | h1
      · exact (not_both hc (e2.1 h1) hn).elim
      · exact h1
  value a ha n _ := r.value a ha n
  gone _ _ _ hk := absurd trivial hk

theorem attrs_maps {h h' : Heap τ} {d d' : Dataset} (hc : Consistent h d) (hc' : Consistent h' d') {k : String → Prop}
    (hi : d'.instances = d.instances) (ho : ∀ a, a ∉ d.instances → h' a = h a)
    (hids : ∀ a ∈ d.instances, (h' a).id = (h a).id ∧ (h' a).target = (h a).target)
    (hk : ∀ n, k n → d'.attrs.get? n = d.attrs.get? n ∧ ∀ a ∈ d.instances, (h' a).features.get? n = (h a).features.get? n)
    (hg : ∀ n, ¬ k n → d'.attrs.get? n = none ∧ ∀ a ∈ d.instances, (h' a).features.get? n = none) :
    Maps h d h' d' k (fun _ v => v) where
  consistent := hc'
  instances := hi
  others := ho
  ids := hids
  categorical n := by
    rw [hc'.categorical.2, hc.categorical.2]
    by_cases h1 : k n
    · rw [(hk n h1).1]; simp [h1]
    · rw [(hg n h1).1]; simp [h1]
  numerical n := by
    rw [hc'.numerical.2, hc.numerical.2]
    by_cases h1 : k n
    · rw [(hk n h1).1]; simp [h1]
    · rw [(hg n h1).1]; simp [h1]
  value a ha n h1 := by rw [(hk n h1).2 a ha]; cases (h a).features.get? n <;> rfl
  gone a ha n h1 := (hg n h1).2 a ha

theorem select_maps {h : Heap τ} {d : Dataset} (hc : Consistent h d) (names : List String) :
    ∃ h' d', selectAttributes names h d = .ok (h', d') ∧ Maps h d h' d' (fun n => n ∈ names) (fun _ v => v) := by
  obtain ⟨h', d', e1, e2, e3, e4, e5, e6⟩ := C104_select hc names
  refine ⟨h', d', e1, attrs_maps hc e2 e3 e4 (fun a ha => ⟨(e6 a ha).1, (e6 a ha).2.1⟩) (fun n hn => ⟨?_, fun a ha => ?_⟩) (fun n hn => ⟨?_, fun a ha => ?_⟩)⟩
  · rw [e5, if_pos hn]
  · rw [(e6 a ha).2.2, if_pos hn]
  · rw [e5, if_neg hn]
  · rw [(e6 a ha).2.2, if_neg hn]

theorem constant_maps {h : Heap τ} {d : Dataset} (hc : Consistent h d) :
    ∃ h' d', removeConstant h d = .ok (h', d') ∧ Maps h d h' d' (fun n => ¬ ∃ v, ∀ w, Occurs h d n w ↔ w = v) (fun _ v => v) := by
  obtain ⟨h', d', e1, e2, e3, e4, e5, e6⟩ := C104_remove_constant hc
  exact ⟨h', d', e1, attrs_maps hc e2 e3 e4 e5 (fun n hn => (e6 n).2 hn) fun n hn => (e6 n).1 (not_not.1 hn)⟩

theorem both_ok {f g : Heap τ → Dataset → Py (Heap τ × Dataset)} {h h1 h2 : Heap τ} {d d1 d2 : Dataset} (e1 : f h d = .ok (h1, d1))
    (e2 : g h1 d1 = .ok (h2, d2)) : both f g h d = .ok (h2, d2) := by
  unfold both; rw [e1]; exact e2

/-- the numbering of values is determined by the values -/
theorem numbering_unique {vs vs' : List Val} {code code' : Val → Nat} (hn : Numbering vs code) (hn' : Numbering vs' code')
    (hm : ∀ v, v ∈ vs ↔ v ∈ vs') (hc : Comparable vs) : ∀ v ∈ vs, code v = code' v := by
  have key : ∀ i v, v ∈ vs → code v = i → code' v = i := by
    intro i
    induction i using Nat.strongRecOn with
    | ind i ih =>
      intro v hv hi
      have hinj : ∀ {l : List Val} {c : Val → Nat}, Numbering l c → Comparable l → ∀ a ∈ l, ∀ b ∈ l, c a = c b → a = b := by
        intro l c hl hcl a ha b hb he
        rcases hcl a ha b hb with h | h | h
        · exact h
        · exact absurd he (hl.mono a ha b hb h).ne
        · exact absurd he (hl.mono b hb a ha h).ne'
      have hc' : Comparable vs' := fun a ha b hb => hc a ((hm a).2 ha) b ((hm b).2 hb)
      have hge : i ≤ code' v := by
        by_contra hlt
        push Not at hlt
        obtain ⟨w, hw, hwi⟩ := hn.onto (code' v) (by have := hn.range v hv; omega)
        have := ih (code' v) hlt w hw hwi
        have := hinj hn' hc' w ((hm w).1 hw) v ((hm v).1 hv) this
        subst this
        omega
      by_contra hne
      obtain ⟨w, hw, hwi⟩ := hn'.onto i (by have := hn'.range v ((hm v).1 hv); omega)
      have hwv := (hm w).2 hw
      rcases hc w hwv v hv with h | h | h
      · subst h; exact hne hwi
      · have h1 := hn.mono w hwv v hv h
        have := ih (code w) (by omega) w hwv rfl
        omega
      · have := hn'.mono v ((hm v).1 hv) w hw h
        omega
  exact fun v hv => (key _ v hv rfl).symm

/-! ### C170 -/

/-- C170: selecting attributes twice is selecting the common names -/
theorem C170_select_select {h : Heap τ} {d : Dataset} (hc : Consistent h d) (names names' common : List String)
    (hcommon : ∀ n, n ∈ common ↔ n ∈ names ∧ n ∈ names') :
    SameResult (both (selectAttributes names) (selectAttributes names') h d) (selectAttributes common h d) := by
  obtain ⟨h1, d1, e1, m1⟩ := select_maps hc names
  obtain ⟨h2, d2, e2, m2⟩ := select_maps m1.consistent names'
  obtain ⟨h3, d3, e3, m3⟩ := select_maps hc common
  exact ⟨h2, d2, h3, d3, both_ok e1 e2, e3, (m1.trans m2).alike m3 (fun n _ => (hcommon n).symm) (no_value hc) fun _ _ _ _ _ => rfl⟩

/-- C170: removing the attributes with one value a second time changes nothing, and removing them commutes with a
selection -/
theorem C170_remove_constant {h : Heap τ} {d : Dataset} (hc : Consistent h d) (names : List String) :
    SameResult (both removeConstant removeConstant h d) (removeConstant h d) ∧
    SameResult (both removeConstant (selectAttributes names) h d) (both (selectAttributes names) removeConstant h d) := by
  obtain ⟨h1, d1, e1, m1⟩ := constant_maps hc
  obtain ⟨h2, d2, e2, m2⟩ := constant_maps m1.consistent
  obtain ⟨h3, d3, e3, m3⟩ := select_maps m1.consistent names
  obtain ⟨h4, d4, e4, m4⟩ := select_maps hc names
  obtain ⟨h5, d5, e5, m5⟩ := constant_maps m4.consistent
  refine ⟨⟨h2, d2, h1, d1, both_ok e1 e2, e1, (m1.trans m2).alike m1 (fun n _ => ?_) (no_value hc) fun _ _ _ _ _ => rfl⟩,
    ⟨h3, d3, h5, d5, both_ok e1 e3, both_ok e4 e5, (m1.trans m3).alike (m4.trans m5) (fun n _ => ?_) (no_value hc) fun _ _ _ _ _ => rfl⟩⟩
  · refine ⟨fun hk => hk.1, fun hk => ⟨hk, fun hex => hk ?_⟩⟩
    obtain ⟨v, hv⟩ := hex
    refine ⟨v, fun w => ?_⟩
    rw [← hv w, m1.occurs hk]; simp
  · constructor
    · rintro ⟨hk, hn⟩
      refine ⟨hn, fun hex => hk ?_⟩
      obtain ⟨v, hv⟩ := hex
      refine ⟨v, fun w => ?_⟩
      rw [← hv w, m4.occurs hn]; simp
    · rintro ⟨hn, hk⟩
      refine ⟨fun hex => hk ?_, hn⟩
      obtain ⟨v, hv⟩ := hex
      refine ⟨v, fun w => ?_⟩
      rw [← hv w, m4.occurs hn]; simp

/-- the numerical attributes have numbers only -/
def Numbers (h : Heap τ) (d : Dataset) : Prop := ∀ n ∈ d.numNames, ∀ v, Occurs h d n v → ∃ q, v = .num q

/-- the numerical attributes have at least two different values -/
def Varied (h : Heap τ) (d : Dataset) : Prop := ∀ n ∈ d.numNames, ∃ v w, Occurs h d n v ∧ Occurs h d n w ∧ v ≠ w

/-- no categorical attribute has a number and a text -/
def OneKind (h : Heap τ) (d : Dataset) : Prop :=
  ∀ n ∈ d.catNames, ∀ v w, Occurs h d n v → Occurs h d n w → v = w ∨ Lt v w ∨ Lt w v

/-- auxiliary: `scale` is the affine map for the values of the attribute -/
def IsScale (lo hi : Rat) (h : Heap τ) (d : Dataset) (n : String) (scale : Val → Rat) : Prop :=
  ∃ mn mx, mn < mx ∧ Occurs h d n (.num mn) ∧ Occurs h d n (.num mx) ∧ (∀ q, Occurs h d n (.num q) → mn ≤ q ∧ q ≤ mx) ∧
    ∀ q, (scale (.num q) - lo) * (mx - mn) = (q - mn) * (hi - lo)

theorem scale_unique {lo hi : Rat} {h h' : Heap τ} {d d' : Dataset} {n : String} {s s' : Val → Rat} (hs : IsScale lo hi h d n s)
    (hs' : IsScale lo hi h' d' n s') (ho : ∀ v, Occurs h d n v ↔ Occurs h' d' n v) (q : Rat) : s (.num q) = s' (.num q) := by
  obtain ⟨mn, mx, h1, h2, h3, h4, h5⟩ := hs
  obtain ⟨mn', mx', h1', h2', h3', h4', h5'⟩ := hs'
  obtain rfl : mn = mn' := le_antisymm (h4 _ ((ho _).2 h2')).1 (h4' _ ((ho _).1 h2)).1
  obtain rfl : mx = mx' := le_antisymm (h4' _ ((ho _).1 h3)).2 (h4 _ ((ho _).2 h3')).2
  have hne : mx - mn ≠ 0 := by linarith [sub_pos.2 h1] |> fun (h : 0 < mx - mn) => h.ne'
  have := mul_right_cancel₀ hne ((h5 q).trans (h5' q).symm)
  linarith

theorem scale_maps (lo hi : Rat) {h : Heap τ} {d : Dataset} (hc : Consistent h d) (hnum : Numbers h d) (htwo : Varied h d) :
    ∃ h' d', ∃ scale : String → Val → Rat, minMaxScale lo hi h d = .ok (h', d') ∧
      Maps h d h' d' (fun _ => True) (fun n v => if n ∈ d.numNames then .num (scale n v) else v) ∧
      ∀ n ∈ d.numNames, IsScale lo hi h d n (scale n) := by
  obtain ⟨h', d', s, e1, e2, e3⟩ := C62_min_max (lo := lo) (hi := hi) hc hnum htwo
  exact ⟨h', d', s, e1, recoded_maps hc e2, e3⟩

/-- C170: scaling to a proper interval and then to another one is the same as scaling to the second one; in particular
scaling twice is the same as scaling once -/
theorem C170_scale_scale {lo hi lo' hi' : Rat} (hlt : lo < hi) {h : Heap τ} {d : Dataset} (hc : Consistent h d) (hnum : Numbers h d)
    (htwo : Varied h d) :
    SameResult (both (minMaxScale lo hi) (minMaxScale lo' hi') h d) (minMaxScale lo' hi' h d) := by
  obtain ⟨h1, d1, s1, e1, m1, k1⟩ := scale_maps lo hi hc hnum htwo
  have hocc : ∀ n ∈ d.numNames, ∀ w, Occurs h1 d1 n w ↔ ∃ v, Occurs h d n v ∧ .num (s1 n v) = w := by
    intro n hn w
    rw [m1.occurs trivial]
    simp only [if_pos hn]
  have hn1 : ∀ n, n ∈ d1.numNames ↔ n ∈ d.numNames := fun n => by rw [m1.numerical]; simp
  have hmono : ∀ n ∈ d.numNames, ∀ q q', q < q' ↔ s1 n (.num q) < s1 n (.num q') := by
    intro n hn
    obtain ⟨mn, mx, i1, i2, i3, i4, i5⟩ := k1 n hn
    exact (C62_range hlt i1 (scale := fun q => s1 n (.num q)) i5).2.2.2
  obtain ⟨h2, d2, s2, e2, m2, k2⟩ := scale_maps lo' hi' (h := h1) (d := d1) m1.consistent
    (by
      intro n hn v hv
      obtain ⟨w, _, rfl⟩ := (hocc n ((hn1 n).1 hn) v).1 hv
      exact ⟨_, rfl⟩)
    (by
      intro n hn
      obtain ⟨mn, mx, i1, i2, i3, _⟩ := k1 n ((hn1 n).1 hn)
      refine ⟨.num (s1 n (.num mn)), .num (s1 n (.num mx)), (hocc n ((hn1 n).1 hn) _).2 ⟨_, i2, rfl⟩,
        (hocc n ((hn1 n).1 hn) _).2 ⟨_, i3, rfl⟩, fun he => ?_⟩
      have := (hmono n ((hn1 n).1 hn) mn mx).1 i1
      rw [Val.num.inj he] at this
      exact lt_irrefl _ this)
  obtain ⟨h3, d3, s3, e3, m3, k3⟩ := scale_maps lo' hi' hc hnum htwo
  refine ⟨h2, d2, h3, d3, both_ok e1 e2, e3, (m1.trans m2).alike m3 (fun _ _ => by simp) (no_value hc) fun n _ _ v hv => ?_⟩
  by_cases hn : n ∈ d.numNames
  · have hn' := (hn1 n).2 hn
    simp only [if_pos hn, if_pos hn']
    congr 1
    obtain ⟨q, rfl⟩ := hnum n hn v hv
    obtain ⟨mn, mx, i1, i2, i3, i4, i5⟩ := k1 n hn
    obtain ⟨a, b, j1, j2, j3, j4, j5⟩ := k2 n hn'
    obtain ⟨mn', mx', l1, l2, l3, l4, l5⟩ := k3 n hn
    obtain rfl : mn = mn' := le_antisymm (i4 _ l2).1 (l4 _ i2).1
    obtain rfl : mx = mx' := le_antisymm (l4 _ i3).2 (i4 _ l3).2
    have hr := C62_range hlt i1 (scale := fun q => s1 n (.num q)) i5
    have ha : a = lo := by
      refine le_antisymm ?_ ?_
      · have := (j4 (s1 n (.num mn)) ((hocc n hn _).2 ⟨_, i2, rfl⟩)).1
        rw [show s1 n (.num mn) = lo from hr.1] at this; exact this
      · obtain ⟨w, hw, he⟩ := (hocc n hn _).1 j2
        obtain ⟨q0, rfl⟩ := hnum n hn w hw
        have := (hr.2.2.1 q0 (i4 q0 hw).1 (i4 q0 hw).2).1
        rw [← Val.num.inj he]; exact this
    have hb : b = hi := by
      refine le_antisymm ?_ ?_
      · obtain ⟨w, hw, he⟩ := (hocc n hn _).1 j3
        obtain ⟨q0, rfl⟩ := hnum n hn w hw
        have := (hr.2.2.1 q0 (i4 q0 hw).1 (i4 q0 hw).2).2
        rw [← Val.num.inj he]; exact this
      · have := (j4 (s1 n (.num mx)) ((hocc n hn _).2 ⟨_, i3, rfl⟩)).2
        rw [show s1 n (.num mx) = hi from hr.2.1] at this; exact this
    subst ha hb
    have q1 := i5 q
    have q2 := j5 (s1 n (.num q))
    have q3 := l5 q
    generalize s1 n (.num q) = y at q1 q2 ⊢
    generalize s2 n (.num y) = z at q2 ⊢
    generalize s3 n (.num q) = z' at q3 ⊢
    have hp : 0 < (b - a) * (mx - mn) := mul_pos (sub_pos.2 hlt) (sub_pos.2 i1)
    have : (z - lo') * ((b - a) * (mx - mn)) = (z' - lo') * ((b - a) * (mx - mn)) := by
      calc (z - lo') * ((b - a) * (mx - mn)) = ((z - lo') * (b - a)) * (mx - mn) := by ring
        _ = ((y - a) * (mx - mn)) * (hi' - lo') := by rw [q2]; ring
        _ = ((q - mn) * (hi' - lo')) * (b - a) := by rw [q1]; ring
        _ = (z' - lo') * ((b - a) * (mx - mn)) := by rw [← q3]; ring
    have := mul_right_cancel₀ hp.ne' this
    linarith
  · have hn' : n ∉ d1.numNames := fun hh => hn ((hn1 n).1 hh)
    simp only [if_neg hn, if_neg hn']

/-- C170: scaling to an interval of length 0 destroys the values: every further scaling raises a ZeroDivisionError -/
theorem C170_scale_to_point {lo lo' hi' : Rat} {h : Heap τ} {d : Dataset} (hc : Consistent h d) (hnum : Numbers h d) (htwo : Varied h d)
    (hne : d.numNames ≠ []) : both (minMaxScale lo lo) (minMaxScale lo' hi') h d = .error .zeroDivision := by
  obtain ⟨h1, d1, s1, e1, m1, k1⟩ := scale_maps lo lo hc hnum htwo
  obtain ⟨n, hn⟩ := List.exists_mem_of_ne_nil _ hne
  have hn1 : ∀ n, n ∈ d1.numNames ↔ n ∈ d.numNames := fun n => by rw [m1.numerical]; simp
  have hval : ∀ n ∈ d.numNames, ∀ w, Occurs h1 d1 n w → w = .num lo := by
    intro n hn w hw
    rw [m1.occurs trivial] at hw
    obtain ⟨v, hv, he⟩ := hw
    simp only [if_pos hn] at he
    obtain ⟨q, rfl⟩ := hnum n hn v hv
    obtain ⟨mn, mx, i1, i2, i3, i4, i5⟩ := k1 n hn
    have hz := i5 q
    rw [sub_self, mul_zero] at hz
    rcases mul_eq_zero.1 hz with h0 | h0
    · rw [← he, sub_eq_zero.1 h0]
    · linarith
  unfold both
  rw [e1]
  refine C62_constant (x := lo) m1.consistent (fun n hn v hv => ⟨lo, hval n ((hn1 n).1 hn) v hv⟩) ?_ ((hn1 n).2 hn) (hval n hn)
  obtain ⟨v, _, ⟨a, ha, _⟩, _⟩ := htwo n hn
  rw [m1.instances]
  exact List.ne_nil_of_mem ha

theorem label_maps {h : Heap τ} {d : Dataset} (hc : Consistent h d) (hone : OneKind h d) :
    ∃ h' d', ∃ (code : String → Val → Nat) (vs : String → List Val), labelEncode none h d = .ok (h', d') ∧
      Maps h d h' d' (fun _ => True) (fun n v => if n ∈ d.catNames then .num (code n v : Nat) else v) ∧
      ∀ n ∈ d.catNames, (vs n).Nodup ∧ (∀ v, v ∈ vs n ↔ Occurs h d n v) ∧ Numbering (vs n) (code n) := by
  obtain ⟨h', d', code, vs, e1, e2, e3⟩ := C61_label_encoding hc hone
  exact ⟨h', d', code, vs, e1, recoded_maps hc e2, e3⟩

/-- C170: scaling and label encoding can be swapped -/
theorem C170_scale_label {lo hi : Rat} {h : Heap τ} {d : Dataset} (hc : Consistent h d) (hnum : Numbers h d) (htwo : Varied h d)
    (hone : OneKind h d) :
    SameResult (both (minMaxScale lo hi) (labelEncode none) h d) (both (labelEncode none) (minMaxScale lo hi) h d) := by
  obtain ⟨h1, d1, s1, e1, m1, k1⟩ := scale_maps lo hi hc hnum htwo
  obtain ⟨h2, d2, c2, vs2, e2, m2, k2⟩ := label_maps hc hone
  have cat1 : ∀ n, n ∈ d1.catNames ↔ n ∈ d.catNames := fun n => by rw [m1.categorical]; simp
  have num2 : ∀ n, n ∈ d2.numNames ↔ n ∈ d.numNames := fun n => by rw [m2.numerical]; simp
  have occ1 : ∀ n ∈ d.catNames, ∀ v, Occurs h1 d1 n v ↔ Occurs h d n v := by
    intro n hn v
    rw [m1.occurs trivial]
    simp only [if_neg fun hh => not_both hc hn hh, exists_eq_right]
  have occ2 : ∀ n ∈ d.numNames, ∀ v, Occurs h2 d2 n v ↔ Occurs h d n v := by
    intro n hn v
    rw [m2.occurs trivial]
    simp only [if_neg fun hh => not_both hc hh hn, exists_eq_right]
  obtain ⟨h3, d3, c3, vs3, e3, m3, k3⟩ := label_maps (h := h1) (d := d1) m1.consistent (by
    intro n hn v w hv hw
    have hn := (cat1 n).1 hn
    exact hone n hn v w ((occ1 n hn v).1 hv) ((occ1 n hn w).1 hw))
  obtain ⟨h4, d4, s4, e4, m4, k4⟩ := scale_maps lo hi (h := h2) (d := d2) m2.consistent
    (by
      intro n hn v hv
      have hn := (num2 n).1 hn
      exact hnum n hn v ((occ2 n hn v).1 hv))
    (by
      intro n hn
      have hn := (num2 n).1 hn
      obtain ⟨v, w, i1, i2, i3⟩ := htwo n hn
      exact ⟨v, w, (occ2 n hn v).2 i1, (occ2 n hn w).2 i2, i3⟩)
  refine ⟨h3, d3, h4, d4, both_ok e1 e3, both_ok e2 e4, (m1.trans m3).alike (m2.trans m4) (fun _ _ => by simp) (no_value hc) fun n _ _ v hv => ?_⟩
  by_cases hcat : n ∈ d.catNames
  · have hnn : n ∉ d.numNames := fun hh => not_both hc hcat hh
    simp only [if_pos hcat, if_neg hnn, if_pos ((cat1 n).2 hcat), if_neg fun hh => hnn ((num2 n).1 hh)]
    obtain ⟨_, i2, i3⟩ := k3 n ((cat1 n).2 hcat)
    obtain ⟨_, j2, j3⟩ := k2 n hcat
    rw [numbering_unique i3 j3 (fun w => by rw [i2, j2, occ1 n hcat]) (fun a ha b hb => hone n hcat a b ((occ1 n hcat a).1 ((i2 a).1 ha)) ((occ1 n hcat b).1 ((i2 b).1 hb)))
      v ((i2 v).2 ((occ1 n hcat v).2 hv))]
  · have hcat1 : n ∉ d1.catNames := fun hh => hcat ((cat1 n).1 hh)
    simp only [if_neg hcat, if_neg hcat1]
    by_cases hn : n ∈ d.numNames
    · simp only [if_pos hn, if_pos ((num2 n).2 hn)]
      obtain ⟨q, rfl⟩ := hnum n hn v hv
      rw [scale_unique (k1 n hn) (k4 n ((num2 n).2 hn)) (fun v => (occ2 n hn v).symm) q]
    · simp only [if_neg hn, if_neg fun hh => hn ((num2 n).1 hh)]

/-- C170: a selection can be swapped with scaling and with label encoding -/
theorem C170_select_swap {lo hi : Rat} {h : Heap τ} {d : Dataset} (hc : Consistent h d) (names : List String) :
    (Numbers h d → Varied h d →
      SameResult (both (selectAttributes names) (minMaxScale lo hi) h d) (both (minMaxScale lo hi) (selectAttributes names) h d)) ∧
    (OneKind h d →
      SameResult (both (selectAttributes names) (labelEncode none) h d) (both (labelEncode none) (selectAttributes names) h d)) := by
  obtain ⟨h1, d1, e1, m1⟩ := select_maps hc names
  have occ1 : ∀ n ∈ names, ∀ v, Occurs h1 d1 n v ↔ Occurs h d n v := by
    intro n hn v
    rw [m1.occurs hn]; simp
  constructor
  · intro hnum htwo
    obtain ⟨h2, d2, s2, e2, m2, k2⟩ := scale_maps lo hi hc hnum htwo
    obtain ⟨h3, d3, s3, e3, m3, k3⟩ := scale_maps lo hi (h := h1) (d := d1) m1.consistent
      (by
        intro n hn v hv
        have hn := (m1.numerical n).1 hn
        exact hnum n hn.1 v ((occ1 n hn.2 v).1 hv))
      (by
        intro n hn
        have hn := (m1.numerical n).1 hn
        obtain ⟨v, w, i1, i2, i3⟩ := htwo n hn.1
        exact ⟨v, w, (occ1 n hn.2 v).2 i1, (occ1 n hn.2 w).2 i2, i3⟩)
    obtain ⟨h4, d4, e4, m4⟩ := select_maps m2.consistent names
    refine ⟨h3, d3, h4, d4, both_ok e1 e3, both_ok e2 e4, (m1.trans m3).alike (m2.trans m4) (fun _ _ => by simp) (no_value hc) fun n hk _ v hv => ?_⟩
    by_cases hn : n ∈ d.numNames
    · have hn1 := (m1.numerical n).2 ⟨hn, hk.1⟩
      simp only [if_pos hn, if_pos hn1]
      obtain ⟨q, rfl⟩ := hnum n hn v hv
      rw [scale_unique (k3 n hn1) (k2 n hn) (occ1 n hk.1) q]
    · simp only [if_neg hn, if_neg fun hh => hn ((m1.numerical n).1 hh).1]
  · intro hone
    obtain ⟨h2, d2, c2, vs2, e2, m2, k2⟩ := label_maps hc hone
    obtain ⟨h3, d3, c3, vs3, e3, m3, k3⟩ := label_maps (h := h1) (d := d1) m1.consistent (by
      intro n hn v w hv hw
      have hn := (m1.categorical n).1 hn
      exact hone n hn.1 v w ((occ1 n hn.2 v).1 hv) ((occ1 n hn.2 w).1 hw))
    obtain ⟨h4, d4, e4, m4⟩ := select_maps m2.consistent names
    refine ⟨h3, d3, h4, d4, both_ok e1 e3, both_ok e2 e4, (m1.trans m3).alike (m2.trans m4) (fun _ _ => by simp) (no_value hc) fun n hk _ v hv => ?_⟩
    by_cases hn : n ∈ d.catNames
    · have hn1 := (m1.categorical n).2 ⟨hn, hk.1⟩
      simp only [if_pos hn, if_pos hn1]
      obtain ⟨_, i2, i3⟩ := k3 n hn1
      obtain ⟨_, j2, j3⟩ := k2 n hn
      rw [numbering_unique j3 i3 (fun w => by rw [i2, j2, occ1 n hk.1]) (fun a ha b hb => hone n hn a b ((j2 a).1 ha) ((j2 b).1 hb)) v ((j2 v).2 hv)]
    · simp only [if_neg hn, if_neg fun hh => hn ((m1.categorical n).1 hh).1]

/-- C170: after removing the attributes with one value, scaling succeeds on every dataset with instances whose numerical attributes
have numbers only -/
theorem C170_remove_then_scale (lo hi : Rat) {h : Heap τ} {d : Dataset} (hc : Consistent h d) (hnum : Numbers h d) (hne : d.instances ≠ []) :
    ∃ r, both removeConstant (minMaxScale lo hi) h d = .ok r := by
  obtain ⟨h1, d1, e1, m1⟩ := constant_maps hc
  obtain ⟨a, ha⟩ := List.exists_mem_of_ne_nil _ hne
  obtain ⟨h2, d2, _, e2, _⟩ := scale_maps lo hi (h := h1) (d := d1) m1.consistent
    (by
      intro n hn v hv
      have hn := (m1.numerical n).1 hn
      rw [m1.occurs hn.2] at hv
      obtain ⟨w, hw, rfl⟩ := hv
      exact hnum n hn.1 w hw)
    (by
      intro n hn
      have hn := (m1.numerical n).1 hn
      obtain ⟨v, hv⟩ := Dict.mem_keys_iff.1 (((hc.features a ha).2 n).2 ((mem_keys_names hc n).2 (.inr hn.1)))
      have hocc : Occurs h d n v := ⟨a, ha, hv⟩
      have : ∃ w, Occurs h d n w ∧ w ≠ v := by
        by_contra hno
        push Not at hno
        exact hn.2 ⟨v, fun w => ⟨hno w, fun he => he ▸ hocc⟩⟩
      obtain ⟨w, hw, hwv⟩ := this
      exact ⟨v, w, (m1.occurs hn.2 v).2 ⟨v, hocc, rfl⟩, (m1.occurs hn.2 w).2 ⟨w, hw, rfl⟩, fun he => hwv he.symm⟩)
  exact ⟨(h2, d2), both_ok e1 e2⟩

theorem fold_noop {ι : Type} (step : Heap τ × Dataset → ι → Py (Heap τ × Dataset)) (s : Heap τ × Dataset) :
    ∀ l : List ι, (∀ e ∈ l, step s e = .ok s) → l.foldlM step s = .ok s
  | [], _ => rfl
  | e :: l, hl => by
    rw [List.foldlM_cons, hl e (by simp)]
    exact fold_noop step s l fun e he => hl e (List.mem_cons_of_mem _ he)

/-- auxiliary: the sorted values of an attribute whose values are 0, ..., m-1 -/
theorem sorted_range {l : List Val} (hnd : l.Nodup) {m : Nat} (hl : ∀ v, v ∈ l ↔ ∃ i < m, v = .num (i : Nat)) :
    pySorted l = .ok ((List.range m).map fun i : Nat => Val.num (i : Rat)) := by
  obtain ⟨s, e1, e2, e3⟩ := pySorted_ok (l := l) (by
    intro a ha b hb
    obtain ⟨i, _, rfl⟩ := (hl a).1 ha
    obtain ⟨j, _, rfl⟩ := (hl b).1 hb
    rcases Nat.lt_trichotomy i j with hh | hh | hh
    · exact .inr (.inl (.num (by exact_mod_cast hh)))
    · exact .inl (by rw [hh])
    · exact .inr (.inr (.num (by exact_mod_cast hh)))) hnd
  rw [e1]
  congr 1
  have hr : ((List.range m).map fun i : Nat => Val.num (i : Rat)).Pairwise Lt := by
    rw [List.pairwise_map]
    exact List.pairwise_lt_range.imp fun hh => .num (by exact_mod_cast hh)
  refine List.Perm.eq_of_pairwise (fun a b _ _ h1 h2 => absurd h2 h1.asymm) e3 hr ((List.perm_ext_iff_of_nodup (pairwise_nodup e3) (pairwise_nodup hr)).2 fun v => ?_)
  rw [e2.mem_iff, hl, List.mem_map]
  simp [eq_comm]

/-- auxiliary: label encoding leaves a dataset alone whose categorical attributes have the values 0, ..., m-1 -/
theorem label_noop {h : Heap τ} {d : Dataset} (hc : Consistent h d)
    (hr : ∀ n ∈ d.catNames, ∃ m, 0 < m ∧ ∀ v, Occurs h d n v ↔ ∃ i < m, v = .num (i : Nat)) : labelEncode none h d = .ok (h, d) := by
  refine fold_noop _ _ _ fun e he => ?_
  obtain ⟨he, hcat⟩ := List.mem_filter.1 he
  have hat := Dict.get?_of_mem hc.names he
  obtain ⟨m, hm, hv⟩ := hr e.1 ((mem_catNames hc hat).2 hcat)
  obtain ⟨k1, k2⟩ := hc.values e.1 e.2 hat
  have hs := sorted_range k1 (m := m) fun v => (k2 v).trans (hv v)
  unfold labelAttr possibleValues
  simp only [hs, bind, Except.bind]
  rw [if_pos]
  · rfl
  · constructor
    · intro h0
      have := congrArg List.length h0
      simp at this
      omega
    · simp

/-- auxiliary: one-hot encoding leaves a dataset alone whose categorical attributes have the values 0 and 1 -/
theorem oneHot_noop (join : String) (str : Val → String) {h : Heap τ} {d : Dataset} (hc : Consistent h d)
    (hr : ∀ n ∈ d.catNames, ∀ v, Occurs h d n v ↔ v = .num 0 ∨ v = .num 1) : oneHotEncode none join str h d = .ok (h, d) := by
  refine fold_noop _ _ _ fun e he => ?_
  obtain ⟨he, hcat⟩ := List.mem_filter.1 he
  have hat := Dict.get?_of_mem hc.names he
  obtain ⟨k1, k2⟩ := hc.values e.1 e.2 hat
  have hs := sorted_range k1 (m := 2) fun v => ((k2 v).trans (hr e.1 ((mem_catNames hc hat).2 hcat) v)).trans (by
    constructor
    · rintro (rfl | rfl)
      · exact ⟨0, by omega, rfl⟩
      · exact ⟨1, by omega, rfl⟩
    · rintro ⟨i, hi, rfl⟩
      rcases i with _ | _ | i
      · exact .inl rfl
      · exact .inr rfl
      · omega)
  have h01 : (List.range 2).map (fun i : Nat => Val.num (i : Rat)) = [.num 0, .num 1] := by decide +kernel
  unfold oneHotAttr possibleValues
  simp only [hs, bind, Except.bind, h01, if_true]
  rfl

/-- C170: a second label encoding changes nothing at all -/
theorem C170_label_twice {h : Heap τ} {d : Dataset} (hc : Consistent h d) (hone : OneKind h d) (hne : d.instances ≠ [])
    {h1 : Heap τ} {d1 : Dataset} (he : labelEncode none h d = .ok (h1, d1)) : labelEncode none h1 d1 = .ok (h1, d1) := by
  obtain ⟨h', d', code, vs, e1, m1, k1⟩ := label_maps hc hone
  rw [he] at e1
  obtain ⟨rfl, rfl⟩ := Prod.mk.inj (Except.ok.inj e1)
  refine label_noop m1.consistent fun n hn => ?_
  have hn : n ∈ d.catNames := ((m1.categorical n).1 hn).1
  obtain ⟨i1, i2, i3⟩ := k1 n hn
  refine ⟨(vs n).length, ?_, fun v => ?_⟩
  · obtain ⟨a, ha⟩ := List.exists_mem_of_ne_nil _ hne
    obtain ⟨v, hv⟩ := Dict.mem_keys_iff.1 (((hc.features a ha).2 n).2 ((mem_keys_names hc n).2 (.inl hn)))
    exact List.length_pos_of_mem ((i2 v).2 ⟨a, ha, hv⟩)
  · rw [m1.occurs trivial]
    simp only [if_pos hn]
    constructor
    · rintro ⟨w, hw, rfl⟩
      exact ⟨code n w, i3.range w ((i2 w).2 hw), rfl⟩
    · rintro ⟨i, hi, rfl⟩
      obtain ⟨w, hw, rfl⟩ := i3.onto i hi
      exact ⟨w, (i2 w).1 hw, rfl⟩

/-- C170: if every categorical attribute has at least two different values, neither a second one-hot encoding nor a label encoding
after a one-hot encoding changes anything. The names must be distinct and unused, as in `C60_one_hot`. -/
theorem C170_one_hot_twice {join join' : String} {str str' : Val → String} {h : Heap τ} {d : Dataset} (hc : Consistent h d) (hone : OneKind h d)
    (htwo : ∀ n ∈ d.catNames, ∃ v w, Occurs h d n v ∧ Occurs h d n w ∧ v ≠ w)
    (hfresh : ∀ n ∈ d.catNames, ∀ v, Occurs h d n v → n ++ join ++ str v ∉ d.attrs.keys)
    (hdist : ∀ n ∈ d.catNames, ∀ n' ∈ d.catNames, ∀ v, Occurs h d n v → ∀ v', Occurs h d n' v' →
      n ++ join ++ str v = n' ++ join ++ str v' → n = n' ∧ v = v')
    {h1 : Heap τ} {d1 : Dataset} (he : oneHotEncode none join str h d = .ok (h1, d1)) :
    oneHotEncode none join' str' h1 d1 = .ok (h1, d1) ∧ labelEncode none h1 d1 = .ok (h1, d1) := by
  have hvs : ∀ n at', d.attrs.get? n = some at' → ((d.attrs.get? n).map (·.values)).getD [] = at'.values := by
    intro n at' hat; rw [hat]; rfl
  have hmem : ∀ n ∈ d.catNames, ∀ v, v ∈ ((d.attrs.get? n).map (·.values)).getD [] ↔ Occurs h d n v := by
    intro n hn v
    obtain ⟨at', hat, _⟩ := (hc.categorical.2 n).1 hn
    rw [hvs n at' hat]
    exact (hc.values n at' hat).2 v
  obtain ⟨h', d', e1, e2, e3, e4, e5, e6, e7, e8, e9⟩ := C60_one_hot (possible := none) (join := join) (str := str) hc
    (fun n => ((d.attrs.get? n).map (·.values)).getD []) (by
      intro n hn
      refine ⟨?_, fun v hv w hw => hone n hn v w ((hmem n hn v).1 hv) ((hmem n hn w).1 hw), hmem n hn⟩
      obtain ⟨at', hat, _⟩ := (hc.categorical.2 n).1 hn
      show (((d.attrs.get? n).map (·.values)).getD []).Nodup
      rw [hvs n at' hat]
      exact (hc.values n at' hat).1)
    (fun n hn v hv => hfresh n hn v ((hmem n hn v).1 hv))
    (fun n hn n' hn' v hv v' hv' => hdist n hn n' hn' v ((hmem n hn v).1 hv) v' ((hmem n' hn' v').1 hv'))
  rw [he] at e1
  obtain ⟨rfl, rfl⟩ := Prod.mk.inj (Except.ok.inj e1)
  have hkey : ∀ n ∈ d1.catNames, ∀ v, Occurs h1 d1 n v ↔ v = .num 0 ∨ v = .num 1 := by
    intro m hm
    rcases (e7 m).1 hm with ⟨i1, i2⟩ | ⟨n, hn, i2, v, hv, rfl⟩
    · intro v
      rw [← i2 v, hmem m i1]
      unfold Occurs
      rw [e3]
      refine exists_congr fun a => and_congr_right fun ha => ?_
      rw [e8 a ha m ((mem_keys_names e2 m).2 (.inl hm)) ((mem_keys_names hc m).2 (.inl i1))]
    · intro x
      have hval := e9 n hn i2 v hv
      have hvo := (hmem n hn v).1 hv
      obtain ⟨v1, v2, o1, o2, hvv⟩ := htwo n hn
      have : ∃ w, Occurs h d n w ∧ w ≠ v := by
        by_cases h1 : v1 = v
        · exact ⟨v2, o2, fun h2 => hvv (h1.trans h2.symm)⟩
        · exact ⟨v1, o1, h1⟩
      obtain ⟨w, ⟨b, hb, hbw⟩, hwv⟩ := this
      obtain ⟨a, ha, hav⟩ := hvo
      constructor
      · rintro ⟨c, hcc, hx⟩
        rw [e3] at hcc
        rw [hval c hcc] at hx
        have hx := Option.some.inj hx
        split at hx
        · exact .inr hx.symm
        · exact .inl hx.symm
      · rintro (rfl | rfl)
        · refine ⟨b, by rw [e3]; exact hb, ?_⟩
          rw [hval b hb, hbw, if_neg]
          exact fun hh => hwv (Option.some.inj hh)
        · refine ⟨a, by rw [e3]; exact ha, ?_⟩
          rw [hval a ha, hav, if_pos rfl]
  refine ⟨oneHot_noop join' str' e2 hkey, label_noop e2 fun n hn => ⟨2, by omega, fun v => ?_⟩⟩
  rw [hkey n hn v]
  constructor
  · rintro (rfl | rfl)
    · exact ⟨0, by omega, rfl⟩
    · exact ⟨1, by omega, rfl⟩
  · rintro ⟨i, hi, rfl⟩
    rcases i with _ | _ | i
    · exact .inl rfl
    · exact .inr rfl
    · omega

/-- C170: the condition on the number of values is needed: the indicator of an attribute with one value is always 1, and is encoded
and renamed again -/
theorem C170_one_hot_witness :
    let h : Heap Unit := fun _ => { id := .num 0, features := [("a", .str "x")], target := () }
    let d : Dataset := ⟨[0], [("a", ⟨true, [.str "x"]⟩)], ["a"], []⟩
    let str : Val → String := fun v => match v with | .str s => s | .num _ => "1"
    (oneHotEncode none " " str h d).toOption.map (fun r => r.2.catNames) = some ["a x"] ∧
    (both (oneHotEncode none " " str) (oneHotEncode none " " str) h d).toOption.map (fun r => r.2.catNames) = some ["a x 1"] := by
  decide +kernel

/-- C170: after a discretization no numerical attribute is left, so a second discretization and a scaling change nothing -/
theorem C170_discretize_twice {bins : Nat} (hb : 2 ≤ bins) {bins' : Int} {fmt fmt' : Rat → String} {str str' : Val → String} {lo hi : Rat}
    {h : Heap τ} {d : Dataset} (hc : Consistent h d) (hnum : Numbers h d) {h1 : Heap τ} {d1 : Dataset}
    (he : quantileDiscretize bins fmt str h d = .ok (h1, d1)) :
    quantileDiscretize bins' fmt' str' h1 d1 = .ok (h1, d1) ∧ minMaxScale lo hi h1 d1 = .ok (h1, d1) := by
  obtain ⟨h', d', label, e1, e2, _⟩ := C103_quantile_discretization hb fmt str hc hnum
  rw [he] at e1
  obtain ⟨rfl, rfl⟩ := Prod.mk.inj (Except.ok.inj e1)
  have hnone : d1.attrs.filter (fun e => !e.2.categorical) = [] := by
    rw [List.filter_eq_nil_iff]
    intro e hmem hcat
    have hat := Dict.get?_of_mem e2.consistent.names hmem
    have hnn : e.1 ∈ d1.numNames := (mem_numNames e2.consistent hat).2 (by simpa using hcat)
    refine not_both e2.consistent ((e2.categorical e.1).2 ?_) hnn
    have hk := (e2.names e.1).1 ((mem_keys_names e2.consistent e.1).2 (.inr hnn))
    rcases (mem_keys_names hc e.1).1 hk with h1 | h1
    · exact .inl h1
    · exact .inr ⟨hk, h1⟩
  unfold quantileDiscretize minMaxScale
  rw [hnone]
  exact ⟨rfl, rfl⟩

/-! ### The hypotheses are met -/

theorem exData_numbers : Numbers exHeap exData := by
  rintro n hn v ⟨a, ha, hv⟩
  have hn : n = "size" := by simpa [exData] using hn
  subst hn
  have ha : a = 0 ∨ a = 1 ∨ a = 2 := by simpa [exData] using ha
  rcases ha with rfl | rfl | rfl <;> (cases hv; exact ⟨_, rfl⟩)

theorem exData_varied : Varied exHeap exData := by
  intro n hn
  have hn : n = "size" := by simpa [exData] using hn
  subst hn
  exact ⟨.num 1, .num 2, ⟨0, by decide, rfl⟩, ⟨1, by decide, rfl⟩, by decide⟩

example := C170_select_select (C58_consistent exData_reachable) ["size", "x"] ["x", "colour"] ["x"]
  (by
    intro n
    simp only [List.mem_cons, List.not_mem_nil, or_false]
    constructor
    · rintro rfl; simp
    · rintro ⟨rfl | rfl, h | h⟩ <;> revert h <;> decide +kernel)
example := C170_remove_constant (C58_consistent exData_reachable) ["size"]
example := C170_scale_scale (lo := 0) (hi := 1) (lo' := -1) (hi' := 1) (by decide +kernel) (C58_consistent exData_reachable) exData_numbers exData_varied
example := C170_scale_to_point (lo := 3) (lo' := 0) (hi' := 1) (C58_consistent exData_reachable) exData_numbers exData_varied (by decide)
example := C170_scale_label (lo := 0) (hi := 1) (C58_consistent exData_reachable) exData_numbers exData_varied exData_comparable
example := (C170_select_swap (lo := 0) (hi := 1) (C58_consistent exData_reachable) ["size"]).2 exData_comparable
example := C170_remove_then_scale 0 1 (C58_consistent exData_reachable) exData_numbers (by decide)
example {h1 : Heap Unit} {d1 : Dataset} := C170_label_twice (C58_consistent exData_reachable) exData_comparable (by decide) (h1 := h1) (d1 := d1)
example {h1 : Heap Unit} {d1 : Dataset} := C170_discretize_twice (bins := 2) (by decide) (bins' := 3) (C58_consistent exData_reachable) exData_numbers
  (fmt := fun _ => "") (fmt' := fun _ => "") (str := fun _ => "") (str' := fun _ => "") (lo := 0) (hi := 1) (h1 := h1) (d1 := d1)

/-- the hypotheses of `C170_one_hot_twice` hold for the example dataset -/
example {h1 : Heap Unit} {d1 : Dataset} := C170_one_hot_twice (join := " ") (join' := "=") (str := fun v => match v with | .str s => s | .num _ => "")
  (str' := fun _ => "") (C58_consistent exData_reachable) exData_comparable
  (by
    intro n hn
    have hn : n = "colour" := by simpa [exData] using hn
    subst hn
    exact ⟨.str "red", .str "blue", ⟨0, by decide, rfl⟩, ⟨1, by decide, rfl⟩, by decide⟩)
  (by
    rintro n hn v ⟨a, ha, hv⟩
    have hn : n = "colour" := by simpa [exData] using hn
    subst hn
    have ha : a = 0 ∨ a = 1 ∨ a = 2 := by simpa [exData] using ha
    rcases ha with rfl | rfl | rfl <;> (cases hv; decide +kernel))
  (by
    rintro n hn n' hn' v ⟨a, ha, hv⟩ v' ⟨a', ha', hv'⟩
    have hn : n = "colour" := by simpa [exData] using hn
    have hn' : n' = "colour" := by simpa [exData] using hn'
    subst hn hn'
    have ha : a = 0 ∨ a = 1 ∨ a = 2 := by simpa [exData] using ha
    have ha' : a' = 0 ∨ a' = 1 ∨ a' = 2 := by simpa [exData] using ha'
    rcases ha with rfl | rfl | rfl <;> rcases ha' with rfl | rfl | rfl <;> (cases hv; cases hv'; decide +kernel))
  (h1 := h1) (d1 := d1)

end Prolothar.Data
