import Verif.Props.TransformerLocal
import Verif.Spec.Columns
/-
C192: the parts of a dataset, for example for training and testing, are encoded alike if the possible values (or the bins) are given.
-/
namespace Prolothar.Data
open Prolothar.Spec.Data Prolothar.Spec.QBins
variable {τ : Type}

/-! ### columns -/

theorem columns_put (d : Dict String Attr) (n : String) (a : Attr) :
    (d.put n a).map (fun e => (e.1, e.2.categorical)) = Dict.put (d.map fun e => (e.1, e.2.categorical)) n a.categorical := by
  induction d with
  | nil => rfl
  | cons e d ih =>
    obtain ⟨k, v⟩ := e
    simp only [Dict.put, List.map_cons]
    split
    · rfl
    · rw [List.map_cons, ih]

theorem columns_del (d : Dict String Attr) (n : String) :
    (d.del n).map (fun e => (e.1, e.2.categorical)) = Dict.del (d.map fun e => (e.1, e.2.categorical)) n := by
  induction d with
  | nil => rfl
  | cons e d ih =>
    obtain ⟨k, v⟩ := e
    simp only [Dict.del, List.map_cons]
    split
    · rfl
    · rw [List.map_cons, ih]

theorem columns_addCategorical {h h' : Heap τ} {d d' : Dataset} {n : String} {vs : List Val} (he : d.addCategorical h n vs = .ok (h', d')) :
    columns d' = Dict.put (columns d) n true := by
  unfold Dataset.addCategorical at he
  split at he
  · cases he
  · cases he; exact columns_put _ _ _

theorem columns_addNumerical {h h' : Heap τ} {d d' : Dataset} {n : String} {vs : List Val} (he : d.addNumerical h n vs = .ok (h', d')) :
    columns d' = Dict.put (columns d) n false := by
  unfold Dataset.addNumerical at he
  split at he
  · cases he
  · cases he; exact columns_put _ _ _

theorem columns_removeAttribute {h h' : Heap τ} {d d' : Dataset} {n : String} (he : d.removeAttribute h n = .ok (h', d')) :
    columns d' = Dict.del (columns d) n := by
  simp only [Dataset.removeAttribute] at he
  obtain ⟨at', _, he⟩ := Petri.bind_eq_ok he
  by_cases hcat : at'.categorical = true
  · simp only [hcat, if_true] at he
    obtain ⟨cat, _, he⟩ := Petri.bind_eq_ok he
    obtain ⟨num, _, he⟩ := Petri.bind_eq_ok he
    obtain ⟨h1, hh, he⟩ := Petri.bind_eq_ok he
    cases he; exact columns_del _ _
  · simp only [hcat] at he
    obtain ⟨cat, _, he⟩ := Petri.bind_eq_ok he
    obtain ⟨num, _, he⟩ := Petri.bind_eq_ok he
    obtain ⟨h1, hh, he⟩ := Petri.bind_eq_ok he
    cases he; exact columns_del _ _

/-- the loop over a part of the attributes changes the columns in a way that depends on the columns only -/
theorem columns_fold {ι : Type} (step : Heap τ × Dataset → ι → Py (Heap τ × Dataset)) (g : ι → Dict String Bool → Dict String Bool)
    (hg : ∀ s e s', step s e = .ok s' → columns s'.2 = g e (columns s.2)) : ∀ (l : List ι) (s s' : Heap τ × Dataset),
    l.foldlM step s = .ok s' → columns s'.2 = l.foldl (fun c e => g e c) (columns s.2)
  | [], _, _, he => by cases he; rfl
  | e :: l, s, s', he => by
    rw [List.foldlM_cons] at he
    obtain ⟨s1, e1, he⟩ := Petri.bind_eq_ok he
    rw [columns_fold step g hg l s1 s' he, hg s e s1 e1]; rfl

/-- the attributes a transformer visits -/
theorem visited (q : String → Bool → Bool) (d : Dataset) :
    (d.attrs.filter fun e => q e.1 e.2.categorical).map (·.1) = ((columns d).filter fun e => q e.1 e.2).map (·.1) := by
  unfold columns
  induction d.attrs with
  | nil => rfl
  | cons e l ih =>
    simp only [List.map_cons, List.filter_cons]
    split <;> simp [ih]

/-- a transformer whose effect on the columns depends on nothing but the columns -/
def ByColumns (f : Heap τ → Dataset → Py (Heap τ × Dataset)) : Prop :=
  ∀ h1 d1 h1' d1' h2 d2 h2' d2', columns d1 = columns d2 → f h1 d1 = .ok (h1', d1') → f h2 d2 = .ok (h2', d2') → columns d1' = columns d2'

theorem byColumns_fold (q : String → Bool → Bool) (step : Heap τ × Dataset → String × Attr → Py (Heap τ × Dataset))
    (g : String → Dict String Bool → Dict String Bool)
    (hg : ∀ s e s', step s e = .ok s' → columns s'.2 = g e.1 (columns s.2)) :
    ByColumns fun h d => (d.attrs.filter fun e => q e.1 e.2.categorical).foldlM step (h, d) := by
  intro h1 d1 h1' d1' h2 d2 h2' d2' hcol e1 e2
  have k : ∀ (d : Dataset) (c : Dict String Bool), (d.attrs.filter fun e => q e.1 e.2.categorical).foldl (fun c e => g e.1 c) c =
      (((columns d).filter fun e => q e.1 e.2).map (·.1)).foldl (fun c n => g n c) c := by
    intro d c
    rw [← visited, List.foldl_map]
  have k1 := columns_fold step (fun e => g e.1) hg _ _ _ e1
  have k2 := columns_fold step (fun e => g e.1) hg _ _ _ e2
  dsimp only at k1 k2
  rw [k1, k2, k, k, hcol]

theorem columns_replaceCat {s s1 s' : Heap τ × Dataset} {n : String} {vs : List Val} (e1 : s.2.removeAttribute s.1 n = .ok s1)
    (e2 : s1.2.addCategorical s1.1 n vs = .ok s') : columns s'.2 = Dict.put (Dict.del (columns s.2) n) n true := by
  rw [columns_addCategorical (h' := s'.1) (d' := s'.2) e2, columns_removeAttribute (h' := s1.1) (d' := s1.2) e1]

/-- C192: if two datasets have the same columns in the same order, they still have after the same label encoding or one-hot encoding with given
possible values, the same discretization with learned bins, the same scaling, the same discretization into quantiles and the same selection of
attributes, whatever their instances are. -/
theorem C192_columns (p : Dict String (List Val)) (join : String) (str : Val → String) (fmt : Rat → String) (lo hi : Rat) (bins : Int)
    (names : List String) (fmtI : Ival → String) (dict : Dict String (List Ival)) :
    ByColumns (τ := τ) (labelEncode (some p)) ∧ ByColumns (τ := τ) (oneHotEncode (some p) join str) ∧
    ByColumns (τ := τ) (qbinsTransform fmtI dict) ∧ ByColumns (τ := τ) (minMaxScale lo hi) ∧
    ByColumns (τ := τ) (quantileDiscretize bins fmt str) ∧ ByColumns (τ := τ) (selectAttributes names) := by
  refine ⟨?_, ?_, ?_, ?_, ?_, ?_⟩
  · refine byColumns_fold (fun _ c => c) (labelAttr (some p)) (fun n c =>
      match p.getItem n >>= pySorted with
      | .ok pv => if pv ≠ [] ∧ pv = (List.range pv.length).map (fun i : Nat => Val.num (i : Rat)) then c else Dict.put (Dict.del c n) n true
      | .error _ => c) ?_
    intro s e s' he
    unfold labelAttr possibleValues at he
    dsimp only at he
    obtain ⟨pv, e1, he⟩ := Petri.bind_eq_ok he
    have e1' : (p.getItem e.1 >>= pySorted) = .ok pv := e1
    rw [e1']
    dsimp only
    split at he
    · rename_i hsk; rw [if_pos hsk]; cases he; rfl
    · rename_i hsk
      rw [if_neg hsk]
      obtain ⟨col, _, he⟩ := Petri.bind_eq_ok he
      obtain ⟨enc, _, he⟩ := Petri.bind_eq_ok he
      obtain ⟨s1, e2, he⟩ := Petri.bind_eq_ok he
      exact columns_replaceCat e2 he
  · refine byColumns_fold (fun _ c => c) (oneHotAttr (some p) join str) (fun n c =>
      match p.getItem n >>= pySorted with
      | .ok pv => if pv = [.num 0, .num 1] then c else Dict.del (pv.foldl (fun c v => Dict.put c (n ++ join ++ str v) true) c) n
      | .error _ => c) ?_
    intro s e s' he
    unfold oneHotAttr possibleValues at he
    dsimp only at he
    obtain ⟨pv, e1, he⟩ := Petri.bind_eq_ok he
    have e1' : (p.getItem e.1 >>= pySorted) = .ok pv := e1
    rw [e1']
    dsimp only
    split at he
    · rename_i hsk; rw [if_pos hsk]; cases he; rfl
    · rename_i hsk
      rw [if_neg hsk]
      obtain ⟨s1, e2, he⟩ := Petri.bind_eq_ok he
      rw [columns_removeAttribute (h' := s'.1) (d' := s'.2) he,
        columns_fold (oneHotValue e.1 join str) (fun v c => Dict.put c (e.1 ++ join ++ str v) true) ?_ pv s s1 e2]
      intro t v t' ht
      unfold oneHotValue at ht
      obtain ⟨col, _, ht⟩ := Petri.bind_eq_ok ht
      exact columns_addCategorical (h' := t'.1) (d' := t'.2) ht
  · refine byColumns_fold (fun _ c => !c) (qbinsAttr fmtI dict) (fun n c => Dict.put (Dict.del c n) n true) ?_
    intro s e s' he
    unfold qbinsAttr at he
    obtain ⟨b, _, he⟩ := Petri.bind_eq_ok he
    obtain ⟨col, _, he⟩ := Petri.bind_eq_ok he
    obtain ⟨l, _, he⟩ := Petri.bind_eq_ok he
    obtain ⟨s1, e2, he⟩ := Petri.bind_eq_ok he
    exact columns_replaceCat e2 he
  · refine byColumns_fold (fun _ c => !c) (minMaxAttr lo hi) (fun n c => Dict.put (Dict.del c n) n false) ?_
    intro s e s' he
    unfold minMaxAttr at he
    obtain ⟨col, _, he⟩ := Petri.bind_eq_ok he
    obtain ⟨_, _, he⟩ := Petri.bind_eq_ok he
    obtain ⟨_, _, he⟩ := Petri.bind_eq_ok he
    obtain ⟨_, _, he⟩ := Petri.bind_eq_ok he
    obtain ⟨_, _, he⟩ := Petri.bind_eq_ok he
    obtain ⟨s1, e2, he⟩ := Petri.bind_eq_ok he
    rw [columns_addNumerical (h' := s'.1) (d' := s'.2) he, columns_removeAttribute (h' := s1.1) (d' := s1.2) e2]
  · refine byColumns_fold (fun _ c => !c) (quantileAttr bins fmt str) (fun n c => Dict.put (Dict.del c n) n true) ?_
    intro s e s' he
    unfold quantileAttr at he
    obtain ⟨col, _, he⟩ := Petri.bind_eq_ok he
    obtain ⟨_, _, he⟩ := Petri.bind_eq_ok he
    obtain ⟨_, _, he⟩ := Petri.bind_eq_ok he
    obtain ⟨s1, e2, he⟩ := Petri.bind_eq_ok he
    exact columns_replaceCat e2 he
  · refine byColumns_fold (fun n _ => decide (n ∉ names)) (fun s e => s.2.removeAttribute s.1 e.1) (fun n c => Dict.del c n) ?_
    intro s e s' he
    exact columns_removeAttribute (h' := s'.1) (d' := s'.2) he

/-! ### the parts -/

theorem columns_addInstance {h : Heap τ} {d d' : Dataset} {a : Nat} (he : d.addInstance h a = .ok d') : columns d' = columns d := by
  obtain ⟨_, _, rfl⟩ := addInstance_inv he
  show (addedAttrs d.attrs _).map _ = _
  unfold addedAttrs columns
  rw [List.map_map]
  refine List.map_congr_left fun e _ => ?_
  simp only [Function.comp_apply]
  cases (h a).features.get? e.1 with
  | none => rfl
  | some v => simp only [Option.elim_some, cat_add]

theorem columns_sub {h : Heap τ} {d s : Dataset} {l : List Nat} (he : d.sub h l = .ok s) :
    columns s = columns (Dataset.new d.catNames d.numNames) := by
  have key : ∀ (l : List Nat) (s s' : Dataset), l.foldlM (Dataset.addInstance h) s = .ok s' → columns s' = columns s := by
    intro l
    induction l with
    | nil => intro s s' he; cases he; rfl
    | cons a l ih =>
      intro s s' he
      rw [List.foldlM_cons] at he
      obtain ⟨s1, e1, he⟩ := Petri.bind_eq_ok he
      rw [ih s1 s' he, columns_addInstance e1]
  exact key l _ s he

/-- C192: the parts of a split are consistent, have no instance in common, and have the same columns in the same order: first the categorical
attributes of the dataset, then the numerical ones. -/
theorem C192_split {h : Heap τ} {d : Dataset} (hc : Consistent h d) {p : Rat} {shuffled : List Nat} (hs : shuffled.Perm d.instances)
    {train test : Dataset} (he : d.split h p shuffled = .ok (train, test)) :
    Consistent h train ∧ Consistent h test ∧ (∀ a ∈ train.instances, a ∉ test.instances) ∧ columns train = columns test ∧
      columns train = d.catNames.map (fun n => (n, true)) ++ d.numNames.map (fun n => (n, false)) := by
  by_cases hp : 0 < p ∧ p < 1
  · obtain ⟨tr, te, k1, k2, k3, k4, _⟩ := C59_split hc hp hs
    rw [he] at k1
    cases k1
    have hnd := (k4.nodup_iff).2 hc.nodup
    unfold Dataset.split at he
    rw [if_neg (not_not.2 hp)] at he
    obtain ⟨s1, e1, he⟩ := Petri.bind_eq_ok he
    obtain ⟨s2, e2, he⟩ := Petri.bind_eq_ok he
    cases he
    refine ⟨k2, k3, fun a h1 h2 => (List.nodup_append.1 hnd).2.2 a h1 a h2 rfl, by rw [columns_sub e1, columns_sub e2], ?_⟩
    rw [columns_sub e1]
    have hn := catNum_nodup hc
    have key : ∀ (b : Bool) (l : List String) (c : Dict String Attr), (c.keys ++ l).Nodup →
        (l.foldl (fun a n => Dict.put a n (⟨b, []⟩ : Attr)) c).map (fun e => (e.1, e.2.categorical)) =
          c.map (fun e => (e.1, e.2.categorical)) ++ l.map (fun n => (n, b)) ∧
        (l.foldl (fun a n => Dict.put a n (⟨b, []⟩ : Attr)) c).keys = c.keys ++ l := by
      intro b l
      induction l with
      | nil => intro c _; simp
      | cons n l ih =>
        intro c hcn
        have hnc : n ∉ c.keys := fun hm => (List.nodup_append.1 hcn).2.2 n hm n (by simp) rfl
        have hput : ∀ (c : Dict String Attr), n ∉ c.keys → Dict.put c n ⟨b, []⟩ = c ++ [(n, ⟨b, []⟩)] := by
          intro c
          induction c with
          | nil => intro _; rfl
          | cons e c ihc =>
            obtain ⟨k, v⟩ := e
            intro hm
            simp only [Dict.keys, List.map_cons, List.mem_cons, not_or] at hm
            simp only [Dict.put]
            rw [if_neg (fun h => hm.1 h.symm), ihc hm.2]; rfl
        have hk : (Dict.put c n (⟨b, []⟩ : Attr)).keys = c.keys ++ [n] := by rw [hput c hnc]; simp [Dict.keys]
        obtain ⟨i1, i2⟩ := ih (Dict.put c n ⟨b, []⟩) (by rw [hk]; simpa using hcn)
        refine ⟨?_, ?_⟩
        · rw [List.foldl_cons, i1, hput c hnc]; simp
        · rw [List.foldl_cons, i2, hk]; simp
    obtain ⟨j1, j2⟩ := key true d.catNames [] (by simpa [Dict.keys] using hc.categorical.1)
    obtain ⟨j3, _⟩ := key false d.numNames _ (by rw [j2]; simpa [Dict.keys] using hn)
    show ((Dataset.new d.catNames d.numNames).attrs).map _ = _
    unfold Dataset.new
    dsimp only
    rw [j3, j1]; simp
  · rw [C59_split_invalid h d hp] at he; cases he

/-- C192: whatever is done to one part leaves another part as it is, if they have no instance in common. -/
theorem C192_isolated {f : Heap τ → Dataset → Py (Heap τ × Dataset)} (hf : Local f) {h h' : Heap τ} {d e d' : Dataset}
    (hdis : ∀ a ∈ d.instances, a ∉ e.instances) (hr : f h d = .ok (h', d')) :
    (∀ a ∈ e.instances, h' a = h a) ∧ (Consistent h e → Consistent h' e) := by
  have k : ∀ a ∈ e.instances, h' a = h a := fun a ha => (hf h d h' d' hr).2 a fun hd => hdis a hd ha
  exact ⟨k, fun hc => Consistent.congr hc k⟩

theorem recoded_before {h0 h h' : Heap τ} {d d' : Dataset} {f : String → Val → Val} {c : String → Prop} (hr : Recoded h d h' d' f c)
    (he : ∀ a ∈ d.instances, h a = h0 a) : ∀ a ∈ d.instances, ∀ n, (h' a).features.get? n = ((h0 a).features.get? n).map (f n) := by
  intro a ha n
  rw [hr.value a ha n, he a ha]

theorem occurs_congr {h h' : Heap τ} {d : Dataset} (he : ∀ a ∈ d.instances, h' a = h a) {n : String} {v : Val} :
    Occurs h' d n v ↔ Occurs h d n v := by
  constructor
  · rintro ⟨a, ha, hv⟩; exact ⟨a, ha, by rw [← he a ha]; exact hv⟩
  · rintro ⟨a, ha, hv⟩; exact ⟨a, ha, by rw [he a ha]; exact hv⟩

theorem countP_lt_range (k : Nat) : ∀ n, k ≤ n → (List.range n).countP (fun i => decide (i < k)) = k := by
  intro n hk
  obtain ⟨m, rfl⟩ := Nat.exists_eq_add_of_le hk
  induction m with
  | zero =>
    have : (List.range k).countP (fun i => decide (i < k)) = (List.range k).length := List.countP_eq_length.2 (by simp)
    simpa using this
  | succ m ih =>
    rw [← Nat.add_assoc, List.range_succ, List.countP_append, ih (by omega)]
    simp

/-- the numbering of comparable values is unique -/
theorem numbering_eq_count {l : List Val} (hnd : l.Nodup) (hc : Comparable l) {c : Val → Nat} (hn : Numbering l c) {v : Val} (hv : v ∈ l) :
    ∀ (q : Val → Bool), (∀ w ∈ l, q w = true ↔ Lt w v) → c v = l.countP q := by
  intro q hq
  have hperm : (l.map c).Perm (List.range l.length) := by
    refine (List.perm_ext_iff_of_nodup ?_ List.nodup_range).2 fun i => ?_
    · rw [List.nodup_map_iff_inj_on hnd]
      exact fun x hx y hy => (C61_injective hn hc hx hy).1
    · rw [List.mem_map, List.mem_range]
      constructor
      · rintro ⟨x, hx, rfl⟩; exact hn.range x hx
      · intro hi
        obtain ⟨x, hx, e⟩ := hn.onto i hi
        exact ⟨x, hx, e⟩
  have h1 := countP_lt_range (c v) l.length (hn.range v hv).le
  rw [← hperm.countP_eq, List.countP_map] at h1
  rw [← h1]
  refine (List.countP_congr fun w hw => ?_).symm
  rw [hq w hw]
  simp only [Function.comp_apply, decide_eq_true_eq]
  constructor
  · exact fun h => hn.mono w hw v hv h
  · intro h
    rcases hc w hw v hv with e | e | e
    · subst e; omega
    · exact e
    · have := hn.mono v hv w hw e; omega

theorem given_numbering_unique {l : List Val} (hnd : l.Nodup) (hc : Comparable l) {c c' : Val → Nat} (hn : Numbering l c) (hn' : Numbering l c')
    {v : Val} (hv : v ∈ l) : c v = c' v := by
  classical
  have hq : ∀ w ∈ l, (fun w => decide (Lt w v)) w = true ↔ Lt w v := fun w _ => by simp
  rw [numbering_eq_count hnd hc hn hv _ hq, numbering_eq_count hnd hc hn' hv _ hq]

/-- C192: label encoding of two parts, one after the other, with the same possible values: both succeed, and one and the same numbering of the
possible values is used for both, so equal values have equal numbers in both parts and different values have different numbers. Nothing else is
changed, and the first part is not affected by the encoding of the second one. -/
theorem C192_label_encoding {h : Heap τ} {d e : Dataset} (hc : Consistent h d) (hce : Consistent h e) (hdis : ∀ a ∈ d.instances, a ∉ e.instances)
    (hcat : e.catNames = d.catNames) (p : Dict String (List Val))
    (hp : ∀ n ∈ d.catNames, ∃ l, p.get? n = some l ∧ l.Nodup ∧ Comparable l ∧ ∀ v, Occurs h d n v ∨ Occurs h e n v → v ∈ l) :
    ∃ h1 d' h2 e', ∃ code : String → Val → Nat, labelEncode (some p) h d = .ok (h1, d') ∧ labelEncode (some p) h1 e = .ok (h2, e') ∧
      Consistent h2 d' ∧ Consistent h2 e' ∧
      (∀ a ∈ d.instances ++ e.instances, ∀ n, (h2 a).features.get? n =
        ((h a).features.get? n).map fun v => if n ∈ d.catNames then .num (code n v : Nat) else v) ∧
      ∀ n ∈ d.catNames, ∀ l, p.get? n = some l → Numbering l (code n) := by
  obtain ⟨h1, d', code, e1, r1, n1⟩ := C61_given_values hc p fun n hn => by
    obtain ⟨l, a1, a2, a3, a4⟩ := hp n hn
    exact ⟨l, a1, a2, a3, fun v hv => a4 v (.inl hv)⟩
  have hk : ∀ a ∈ e.instances, h1 a = h a := fun a ha => r1.others a fun hd => hdis a hd ha
  obtain ⟨h2, e', code2, e2, r2, n2⟩ := C61_given_values (Consistent.congr hce hk) p fun n hn => by
    rw [hcat] at hn
    obtain ⟨l, a1, a2, a3, a4⟩ := hp n hn
    exact ⟨l, a1, a2, a3, fun v hv => a4 v (.inr ((occurs_congr hk).1 hv))⟩
  have hk2 : ∀ a ∈ d.instances, h2 a = h1 a := fun a ha => r2.others a (hdis a ha)
  refine ⟨h1, d', h2, e', code, e1, e2, Consistent.congr r1.consistent fun a ha => hk2 a (by rw [← r1.instances]; exact ha), r2.consistent, ?_, n1⟩
  intro a ha n
  rcases List.mem_append.1 ha with ha | ha
  · rw [hk2 a ha, r1.value a ha n]
  · rw [recoded_before r2 hk a ha n, hcat]
    cases hg : (h a).features.get? n with
    | none => rfl
    | some v =>
      simp only [Option.map_some]
      split
      · rename_i hn
        obtain ⟨l, a1, a2, a3, a4⟩ := hp n hn
        rw [given_numbering_unique a2 a3 (n1 n hn l a1) (n2 n (by rw [hcat]; exact hn) l a1) (a4 v (.inr ⟨a, ha, hg⟩))]
      · rfl

/-- C192: with given possible values it does not matter whether the dataset is encoded before it is split or its parts are encoded after the
split: every instance gets the same values. -/
theorem C192_label_before_or_after {h : Heap τ} {d train test : Dataset} (hc : Consistent h d) {q : Rat} {shuffled : List Nat}
    (hs : shuffled.Perm d.instances) (he : d.split h q shuffled = .ok (train, test)) (p : Dict String (List Val))
    (hp : ∀ n ∈ d.catNames, ∃ l, p.get? n = some l ∧ l.Nodup ∧ Comparable l ∧ ∀ v, Occurs h d n v → v ∈ l) :
    ∃ hw dw h1 train' h2 test', labelEncode (some p) h d = .ok (hw, dw) ∧
      labelEncode (some p) h train = .ok (h1, train') ∧ labelEncode (some p) h1 test = .ok (h2, test') ∧
      ∀ a ∈ d.instances, ∀ n, (h2 a).features.get? n = (hw a).features.get? n := by
  obtain ⟨c1, c2, hdis, hcol, _⟩ := C192_split hc hs he
  have hq : 0 < q ∧ q < 1 := by
    by_contra hq
    rw [C59_split_invalid h d hq] at he; cases he
  obtain ⟨tr, te, k1, _, _, k4, k5, _, k6, _⟩ := C59_split hc hq hs
  rw [he] at k1; cases k1
  have hocc : ∀ n v, Occurs h train n v ∨ Occurs h test n v → Occurs h d n v := by
    rintro n v (⟨a, ha, hv⟩ | ⟨a, ha, hv⟩)
    · exact ⟨a, k4.mem_iff.1 (List.mem_append_left _ ha), hv⟩
    · exact ⟨a, k4.mem_iff.1 (List.mem_append_right _ ha), hv⟩
  obtain ⟨hw, dw, cw, w1, w2, w3⟩ := C61_given_values hc p hp
  obtain ⟨h1, d', h2, e', code, e1, e2, _, _, e3, e4⟩ := C192_label_encoding c1 c2 hdis (by rw [k5, k6]) p (by
    rw [k5]
    intro n hn
    obtain ⟨l, a1, a2, a3, a4⟩ := hp n hn
    exact ⟨l, a1, a2, a3, fun v hv => a4 v (hocc n v hv)⟩)
  refine ⟨hw, dw, h1, d', h2, e', w1, e1, e2, fun a ha n => ?_⟩
  rw [e3 a (k4.mem_iff.2 ha) n, w2.value a ha n, k5]
  cases hg : (h a).features.get? n with
  | none => rfl
  | some v =>
    simp only [Option.map_some]
    split
    · rename_i hn
      obtain ⟨l, a1, a2, a3, a4⟩ := hp n hn
      rw [given_numbering_unique a2 a3 (e4 n (by rw [k5]; exact hn) l a1) (w3 n hn l a1) (a4 v ⟨a, ha, hg⟩)]
    · rfl

/-- C192: one-hot encoding of two parts with the same columns, one after the other, with the same possible values: both succeed, the parts have
the same columns in the same order again, and an indicator is 1 exactly for the instances of both parts that had its value. A value of
an instance that is not among the possible values makes all indicators 0. -/
theorem C192_one_hot {p : Dict String (List Val)} {join : String} {str : Val → String} {h : Heap τ} {d e : Dataset}
    (hc : Consistent h d) (hce : Consistent h e) (hdis : ∀ a ∈ d.instances, a ∉ e.instances) (hcat : e.catNames = d.catNames)
    (hcol : columns d = columns e) (vs : String → List Val)
    (hvs : ∀ n ∈ d.catNames, (vs n).Nodup ∧ Comparable (vs n) ∧ p.get? n = some (vs n))
    (hfresh : ∀ n ∈ d.catNames, ∀ v ∈ vs n, n ++ join ++ str v ∉ (columns d).map (·.1))
    (hdist : ∀ n ∈ d.catNames, ∀ n' ∈ d.catNames, ∀ v ∈ vs n, ∀ v' ∈ vs n',
      n ++ join ++ str v = n' ++ join ++ str v' → n = n' ∧ v = v') :
    ∃ h1 d' h2 e', oneHotEncode (some p) join str h d = .ok (h1, d') ∧ oneHotEncode (some p) join str h1 e = .ok (h2, e') ∧
      Consistent h2 d' ∧ Consistent h2 e' ∧ columns d' = columns e' ∧
      ∀ n ∈ d.catNames, (¬ ∀ v, v ∈ vs n ↔ v = .num 0 ∨ v = .num 1) → ∀ v ∈ vs n, ∀ a ∈ d.instances ++ e.instances,
        (h2 a).features.get? (n ++ join ++ str v) = some (.num (if (h a).features.get? n = some v then 1 else 0)) := by
  have hkd : ∀ x : Dataset, (columns x).map (·.1) = x.attrs.keys := fun x => by unfold columns Dict.keys; rw [List.map_map]; rfl
  obtain ⟨h1, d', e1, c1, i1, o1, _, _, _, _, v1⟩ := C60_one_hot (possible := some p) (join := join) (str := str) hc vs hvs
    (by intro n hn v hv; rw [← hkd]; exact hfresh n hn v hv) hdist
  have hk : ∀ a ∈ e.instances, h1 a = h a := fun a ha => o1 a fun hd => hdis a hd ha
  obtain ⟨h2, e', e2, c2, i2, o2, _, _, _, _, v2⟩ := C60_one_hot (possible := some p) (join := join) (str := str) (Consistent.congr hce hk) vs
    (by rw [hcat]; exact hvs) (by rw [hcat]; intro n hn v hv; rw [← hkd, ← hcol]; exact hfresh n hn v hv) (by rw [hcat]; exact hdist)
  have hk2 : ∀ a ∈ d.instances, h2 a = h1 a := fun a ha => o2 a (hdis a ha)
  refine ⟨h1, d', h2, e', e1, e2, Consistent.congr c1 fun a ha => hk2 a (by rw [← i1]; exact ha), c2,
    (C192_columns p join str (fun _ => "") 0 0 0 [] (fun _ => "") []).2.1 _ _ _ _ _ _ _ _ hcol e1 e2, ?_⟩
  intro n hn hb v hv a ha
  rcases List.mem_append.1 ha with ha | ha
  · rw [hk2 a ha, v1 n hn hb v hv a ha]
  · rw [v2 n (by rw [hcat]; exact hn) hb v hv a ha, hk a ha]

/-- C192: bins that are learned on one part (for training) and used for it and another part (for testing): equal numbers become equal texts in
both parts, and the texts are those of the learned bins. -/
theorem C192_bins (fmt : Ival → String) (dict : Dict String (List Ival)) {h : Heap τ} {d e : Dataset} (hc : Consistent h d) (hce : Consistent h e)
    (hdis : ∀ a ∈ d.instances, a ∉ e.instances) (hnn : e.numNames = d.numNames)
    (hnum : ∀ n ∈ d.numNames, ∀ v, Occurs h d n v ∨ Occurs h e n v → ∃ q, v = .num q)
    (hb : ∀ n ∈ d.numNames, ∃ bins, dict.get? n = some bins ∧ bins ≠ [] ∧ Consecutive bins) :
    ∃ h1 d' h2 e', ∃ label : String → Rat → String, qbinsTransform fmt dict h d = .ok (h1, d') ∧ qbinsTransform fmt dict h1 e = .ok (h2, e') ∧
      Consistent h2 d' ∧ Consistent h2 e' ∧
      (∀ a ∈ d.instances ++ e.instances, ∀ n, (h2 a).features.get? n =
        ((h a).features.get? n).map fun v => if n ∈ d.numNames then .str (label n (numOf v)) else v) ∧
      ∀ n ∈ d.numNames, ∀ bins, dict.get? n = some bins → ∀ q,
        (∀ b ∈ bins, b.lo < q → q ≤ b.hi → label n q = fmt b) ∧
        ((∀ b ∈ bins, ¬ (b.lo < q ∧ q ≤ b.hi)) → ∃ b, bins.getLast? = some b ∧ label n q = fmt b) := by
  obtain ⟨h1, d', lab, e1, r1, n1⟩ := C135_transform fmt dict hc (fun n hn v hv => hnum n hn v (.inl hv)) hb
  have hk : ∀ a ∈ e.instances, h1 a = h a := fun a ha => r1.others a fun hd => hdis a hd ha
  obtain ⟨h2, e', lab2, e2, r2, n2⟩ := C135_transform fmt dict (Consistent.congr hce hk)
    (fun n hn v hv => hnum n (by rw [← hnn]; exact hn) v (.inr ((occurs_congr hk).1 hv))) (by rw [hnn]; exact hb)
  have hk2 : ∀ a ∈ d.instances, h2 a = h1 a := fun a ha => r2.others a (hdis a ha)
  refine ⟨h1, d', h2, e', lab, e1, e2, Consistent.congr r1.consistent fun a ha => hk2 a (by rw [← r1.instances]; exact ha), r2.consistent, ?_, n1⟩
  intro a ha n
  rcases List.mem_append.1 ha with ha | ha
  · rw [hk2 a ha, r1.value a ha n]
  · rw [recoded_before r2 hk a ha n, hnn]
    cases hg : (h a).features.get? n with
    | none => rfl
    | some v =>
      simp only [Option.map_some]
      split
      · rename_i hn
        obtain ⟨bins, b1, _, _⟩ := hb n hn
        obtain ⟨x1, x2⟩ := n1 n hn bins b1 (numOf v)
        obtain ⟨y1, y2⟩ := n2 n (by rw [hnn]; exact hn) bins b1 (numOf v)
        have : lab2 n (numOf v) = lab n (numOf v) := by
          by_cases hin : ∀ b ∈ bins, ¬ (b.lo < numOf v ∧ numOf v ≤ b.hi)
          · obtain ⟨b, c1, c2⟩ := x2 hin
            obtain ⟨b', c3, c4⟩ := y2 hin
            rw [c1] at c3
            rw [c2, c4, Option.some.inj c3]
          · push Not at hin
            obtain ⟨b, hbm, l1, l2⟩ := hin
            rw [x1 b hbm l1 l2, y1 b hbm l1 l2]
        rw [this]
      · rfl

/-! ### the deviations, and examples -/

/-- three instances with a colour and a number of doors -/
def ttHeap : Heap Unit := fun a =>
  if a = 0 then ⟨.num 0, [("colour", .str "blue"), ("doors", .num 0), ("size", .num 1)], ()⟩
  else if a = 1 then ⟨.num 1, [("colour", .str "red"), ("doors", .num 1), ("size", .num 2)], ()⟩
  else if a = 2 then ⟨.num 2, [("colour", .str "red"), ("doors", .num 5), ("size", .num 2)], ()⟩
  else ⟨.num 3, [("colour", .str "red"), ("doors", .num 5), ("size", .num 4)], ()⟩

/-- the dataset of these instances -/
def ttData : Dataset :=
  ⟨[0, 1, 2, 3], [("colour", ⟨true, [.str "blue", .str "red"]⟩), ("doors", ⟨true, [.num 0, .num 1, .num 5]⟩), ("size", ⟨false, [.num 1, .num 2, .num 4]⟩)],
    ["colour", "doors"], ["size"]⟩

theorem ttData_new : (Dataset.new ["colour", "doors"] ["size"]).sub ttHeap [0, 1, 2, 3] = .ok ttData := by rfl

/-- split into the first two instances for training and the other two for testing, transform both, and look at an attribute of instances 1
and 2, and at the columns -/
def ttRun (f : Heap Unit → Dataset → Py (Heap Unit × Dataset)) (n : String) :
    Option ((Option Val × Option Val) × List (String × Bool) × List (String × Bool)) :=
  (ttData.split ttHeap (1/2) [0, 1, 2, 3] >>= fun s => f ttHeap s.1 >>= fun r => f r.1 s.2 >>= fun t =>
    .ok (((t.1 1).features.get? n, (t.1 2).features.get? n), columns r.2, columns t.2)).toOption

/-- C192 (deviation): without given possible values, the parts are not encoded alike: `red` becomes 1 in the training part and 0 in the test
part. And the columns get a different order, because an attribute whose values are 0, 1, ... already is left where it is. -/
theorem C192_label_no_values_witness : ttRun (labelEncode none) "colour" =
    some ((some (.num 1), some (.num 0)), [("doors", true), ("size", false), ("colour", true)],
      [("size", false), ("colour", true), ("doors", true)]) := by
  decide +kernel

/-- with given values, both get the same number and the columns are the same -/
example : ttRun (labelEncode (some [("colour", [.str "blue", .str "red"]), ("doors", [.num 0, .num 1, .num 5])])) "colour" =
    some ((some (.num 1), some (.num 1)), [("size", false), ("colour", true), ("doors", true)],
      [("size", false), ("colour", true), ("doors", true)]) := by
  decide +kernel

/-- the texts of the values in the example -/
def ttStr : Val → String
  | .str s => s
  | .num q => if q = 0 then "0" else if q = 1 then "1" else "5"

/-- C192 (deviation): without given possible values, one-hot encoding gives the parts different columns: only the training part gets
a column for `blue`. -/
theorem C192_one_hot_no_values_witness : ttRun (oneHotEncode none "=" ttStr) "colour=red" =
    some ((some (.num 1), some (.num 1)), [("doors", true), ("size", false), ("colour=blue", true), ("colour=red", true)],
      [("size", false), ("colour=red", true), ("doors=5", true)]) := by
  decide +kernel

/-- C192 (deviation): the other transformers always look at the values of the part they are given. So equal numbers are scaled differently in
the parts, and an attribute can be removed from one part only. -/
theorem C192_other_transformers_witness :
    ttRun (minMaxScale 0 1) "size" = some ((some (.num 1), some (.num 0)), [("colour", true), ("doors", true), ("size", false)],
      [("colour", true), ("doors", true), ("size", false)]) ∧
    ttRun removeConstant "size" = some ((some (.num 2), some (.num 2)), [("colour", true), ("doors", true), ("size", false)],
      [("size", false)]) :=
  ⟨by decide +kernel, by decide +kernel⟩

theorem ttData_consistent : Consistent ttHeap ttData := by
  have key : ∀ (l : List Nat) (s s' : Dataset), Consistent ttHeap s → l.foldlM (Dataset.addInstance ttHeap) s = .ok s' → Consistent ttHeap s' := by
    intro l
    induction l with
    | nil => intro s s' hc he; cases he; exact hc
    | cons a l ih =>
      intro s s' hc he
      rw [List.foldlM_cons] at he
      obtain ⟨s1, e1, he⟩ := Petri.bind_eq_ok he
      refine ih s1 s' (addInstance_consistent hc ?_ e1) he
      unfold ttHeap
      split
      · decide
      · split
        · decide
        · split <;> decide
  exact key _ _ _ (new_consistent ttHeap (by decide)) ttData_new

/-- the parts of the example -/
theorem tt_split : ∃ train test, ttData.split ttHeap (1/2) [0, 1, 2, 3] = .ok (train, test) ∧ train.catNames = ["colour", "doors"] ∧
    test.catNames = ["colour", "doors"] ∧ train.numNames = ["size"] ∧ test.numNames = ["size"] := by
  obtain ⟨train, test, e, _, _, _, e1, e2, e3, e4, _⟩ := C59_split ttData_consistent (p := 1/2) (by norm_num) (List.Perm.refl _)
  exact ⟨train, test, e, e1, e3, e2, e4⟩

/-- the possible values of the example -/
def ttValues : Dict String (List Val) := [("colour", [.str "blue", .str "red"]), ("doors", [.num 0, .num 1, .num 5])]

theorem ttValues_ok : ∀ n ∈ ttData.catNames, ∃ l, ttValues.get? n = some l ∧ l.Nodup ∧ Comparable l ∧ ∀ v, Occurs ttHeap ttData n v → v ∈ l := by
  intro n hn
  have hn : n = "colour" ∨ n = "doors" := by simpa [ttData] using hn
  have hocc : ∀ v, Occurs ttHeap ttData n v → v = ((ttHeap 0).features.get? n).getD (.num 0) ∨ v = ((ttHeap 1).features.get? n).getD (.num 0) ∨
      v = ((ttHeap 2).features.get? n).getD (.num 0) ∨ v = ((ttHeap 3).features.get? n).getD (.num 0) := by
    rintro v ⟨a, ha, hv⟩
    have ha : a = 0 ∨ a = 1 ∨ a = 2 ∨ a = 3 := by simpa [ttData] using ha
    rcases ha with rfl | rfl | rfl | rfl <;> simp [hv]
  rcases hn with rfl | rfl
  · refine ⟨_, rfl, by decide, ?_, fun v hv => ?_⟩
    · intro v hv w hw
      have hv : v = .str "blue" ∨ v = .str "red" := by simpa using hv
      have hw : w = .str "blue" ∨ w = .str "red" := by simpa using hw
      rcases hv with rfl | rfl <;> rcases hw with rfl | rfl
      · exact .inl rfl
      · exact .inr (.inl (.str (by decide)))
      · exact .inr (.inr (.str (by decide)))
      · exact .inl rfl
    · rcases hocc v hv with rfl | rfl | rfl | rfl <;> decide +kernel
  · refine ⟨_, rfl, by decide +kernel, ?_, fun v hv => ?_⟩
    · intro v hv w hw
      have hnum : ∀ x ∈ [Val.num 0, Val.num 1, Val.num 5], ∃ q, x = .num q := by
        intro x hx
        have hx : x = .num 0 ∨ x = .num 1 ∨ x = .num 5 := by simpa using hx
        rcases hx with rfl | rfl | rfl <;> exact ⟨_, rfl⟩
      obtain ⟨a, rfl⟩ := hnum v hv
      obtain ⟨b, rfl⟩ := hnum w hw
      rcases lt_trichotomy a b with h | h | h
      · exact .inr (.inl (.num h))
      · exact .inl (by rw [h])
      · exact .inr (.inr (.num h))
    · rcases hocc v hv with rfl | rfl | rfl | rfl <;> decide +kernel

/-- the hypotheses hold for the example: encoding before and after the split gives the same values -/
example : ∃ train test hw dw h1 train' h2 test', ttData.split ttHeap (1/2) [0, 1, 2, 3] = .ok (train, test) ∧
    labelEncode (some ttValues) ttHeap ttData = .ok (hw, dw) ∧
    labelEncode (some ttValues) ttHeap train = .ok (h1, train') ∧ labelEncode (some ttValues) h1 test = .ok (h2, test') ∧
    columns train' = columns test' ∧ ∀ a ∈ ttData.instances, ∀ n, (h2 a).features.get? n = (hw a).features.get? n := by
  obtain ⟨train, test, e, _⟩ := tt_split
  obtain ⟨hw, dw, h1, train', h2, test', e1, e2, e3, e4⟩ := C192_label_before_or_after ttData_consistent (List.Perm.refl _) e ttValues ttValues_ok
  obtain ⟨_, _, _, hcol, _⟩ := C192_split ttData_consistent (List.Perm.refl _) e
  exact ⟨train, test, hw, dw, h1, train', h2, test', e, e1, e2, e3,
    (C192_columns ttValues "" (fun _ => "") (fun _ => "") 0 0 0 [] (fun _ => "") []).1 _ _ _ _ _ _ _ _ hcol e2 e3, e4⟩

/-- the one-hot encoding of both parts -/
example : ∃ train test h1 d' h2 e', ttData.split ttHeap (1/2) [0, 1, 2, 3] = .ok (train, test) ∧
    oneHotEncode (some ttValues) "=" ttStr ttHeap train = .ok (h1, d') ∧ oneHotEncode (some ttValues) "=" ttStr h1 test = .ok (h2, e') ∧
    columns d' = columns e' := by
  obtain ⟨train, test, e, k1, k2, k3, k4⟩ := tt_split
  obtain ⟨c1, c2, hdis, hcol, hcols⟩ := C192_split ttData_consistent (List.Perm.refl _) e
  have hcols : (columns train).map (·.1) = ["colour", "doors", "size"] := by rw [hcols]; rfl
  obtain ⟨h1, d', h2, e', e1, e2, _, _, e3, _⟩ := C192_one_hot (p := ttValues) (join := "=") (str := ttStr) c1 c2 hdis (by rw [k1, k2]) hcol
    (fun n => (ttValues.get? n).getD []) (by
      rw [k1]
      intro n hn
      obtain ⟨l, a1, a2, a3, _⟩ := ttValues_ok n hn
      rw [a1]
      exact ⟨a2, a3, rfl⟩) (by rw [k1, hcols]; decide +kernel) (by rw [k1]; decide +kernel)
  exact ⟨train, test, h1, d', h2, e', e, e1, e2, e3⟩

/-- the bins (0, 2] and (2, 3] for both parts -/
example : ∃ train test h1 d' h2 e', ttData.split ttHeap (1/2) [0, 1, 2, 3] = .ok (train, test) ∧
    qbinsTransform (fun _ => "") [("size", [⟨0, 2⟩, ⟨2, 3⟩])] ttHeap train = .ok (h1, d') ∧
    qbinsTransform (fun _ => "") [("size", [⟨0, 2⟩, ⟨2, 3⟩])] h1 test = .ok (h2, e') := by
  obtain ⟨train, test, e, k1, k2, k3, k4⟩ := tt_split
  obtain ⟨c1, c2, hdis, hcol, hcols⟩ := C192_split ttData_consistent (List.Perm.refl _) e
  have hnum : ∀ (n : String) (a : Nat) (v : Val), n = "size" → (ttHeap a).features.get? n = some v → ∃ q, v = .num q := by
    rintro n a v rfl hv
    unfold ttHeap at hv
    split at hv
    · cases hv; exact ⟨_, rfl⟩
    · split at hv
      · cases hv; exact ⟨_, rfl⟩
      · split at hv <;> (cases hv; exact ⟨_, rfl⟩)
  obtain ⟨h1, d', h2, e', _, e1, e2, _⟩ := C192_bins (fun _ => "") [("size", [⟨0, 2⟩, ⟨2, 3⟩])] c1 c2 hdis (by rw [k3, k4])
    (by
      rw [k3]
      intro n hn v hv
      have hn : n = "size" := by simpa using hn
      rcases hv with ⟨a, _, hv⟩ | ⟨a, _, hv⟩ <;> exact hnum n a v hn hv)
    (by
      rw [k3]
      intro n hn
      have hn : n = "size" := by simpa using hn
      subst hn
      refine ⟨_, rfl, by simp, ⟨?_, ?_⟩⟩
      · decide +kernel
      · simp)
  exact ⟨train, test, h1, d', h2, e', e, e1, e2⟩

end Prolothar.Data
