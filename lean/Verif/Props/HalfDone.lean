import Verif.Lemmas.HalfDone
import Verif.Props.TransformerLocal
/-
C194: what a method of a dataset or a transformer leaves behind if it raises an exception.
-/
namespace Prolothar.Data
open Prolothar.Spec.Data Prolothar.Spec.QBins

variable {τ : Type}

/-! ### the transformers that replace values -/

/-- the new values of `LabelEncoding` -/
def labelEnc (p : Option (Dict String (List Val))) : Enc := fun n at' vs => do
  let pv ← possibleValues p n at'
  if pv ≠ [] ∧ pv = (List.range pv.length).map (fun i : Nat => Val.num (i : Rat)) then return none
  else
    let enc ← vs.mapM (valueMap pv).getItem
    return some (true, enc)

/-- the new values of `MinMaxScaling` -/
def minMaxEnc (lo hi : Rat) : Enc := fun _ _ vs => do
  let nums ← vs.mapM Val.toNum
  let mn ← pyMin nums
  let mx ← pyMax nums
  let scaled ← nums.mapM (scaleValue lo hi mn mx)
  return some (false, scaled.map Val.num)

/-- the new values of `QuantileBasedDiscretization` -/
def quantileEnc (bins : Int) (fmt : Rat → String) (str : Val → String) : Enc := fun _ at' vs => do
  let l ← quantileLabels bins fmt str at' vs
  return some (true, l)

/-- the new values of `TrainableQuantileBasedDiscretization` -/
def qbinsEnc (fmt : Ival → String) (dict : Dict String (List Ival)) : Enc := fun n _ vs => do
  let bins ← dict.getItem n
  let l ← vs.mapM (binLabel fmt bins)
  return some (true, l)

theorem length_of_mapM {α β : Type} {f : α → Py β} : ∀ {l : List α} {r : List β}, l.mapM f = .ok r → r.length = l.length
  | [], _, h => by cases h; rfl
  | x :: l, r, h => by
    rw [List.mapM_cons] at h
    obtain ⟨y, _, h⟩ := Petri.bind_eq_ok h
    obtain ⟨ys, h2, h⟩ := Petri.bind_eq_ok h
    cases h
    rw [List.length_cons, List.length_cons, length_of_mapM h2]

/-- the result of the body of the loop -/
def RunAs (n : String) (s : Heap τ × Dataset) (r : Py Unit × (Heap τ × Dataset)) (p : Py (Option (Bool × List Val))) : Prop :=
  r = match p with
    | .error e => (.error e, s)
    | .ok none => (.ok (), s)
    | .ok (some (c, ws)) => (removeAttributeA n >>= fun _ => addAttrA c n ws) s

theorem RunAs.look {α : Type} {n : String} {s : Heap τ × Dataset} {f : Heap τ × Dataset → Py α} {k : α → Act τ Unit}
    {q : α → Py (Option (Bool × List Val))} (h : ∀ a, f s = .ok a → RunAs n s (k a s) (q a)) : RunAs n s ((look f >>= k) s) (f s >>= q) := by
  rw [look_bind]
  cases hf : f s with
  | error e => exact rfl
  | ok a => exact h a hf

theorem RunAs.lookOk {α : Type} {n : String} {s : Heap τ × Dataset} {f : Heap τ × Dataset → Py α} {k : α → Act τ Unit}
    {q : Py (Option (Bool × List Val))} {a : α} (hf : f s = .ok a) (h : RunAs n s (k a s) q) : RunAs n s ((Data.look f >>= k) s) q := by
  rw [look_ok hf]; exact h

theorem replaces_label (p : Option (Dict String (List Val))) : Replaces (τ := τ) (labelEnc p) (labelAttrA p) where
  length n at' vs c ws he := by
    unfold labelEnc at he
    obtain ⟨pv, _, he⟩ := Petri.bind_eq_ok he
    split at he
    · cases he
    · obtain ⟨enc, h2, he⟩ := Petri.bind_eq_ok he
      cases he; exact length_of_mapM h2
  run n at' h d hc hat := by
    have hn : n ∈ d.attrs.keys := Dict.mem_keys_iff.2 ⟨at', hat⟩
    show RunAs n (h, d) _ _
    unfold labelAttrA labelEnc
    refine RunAs.look (f := fun _ => possibleValues p n at') fun pv _ => ?_
    split
    · exact rfl
    · exact RunAs.lookOk (column_ok hc hn) (RunAs.look (f := fun _ => (col h d n).mapM (valueMap pv).getItem) fun enc _ => rfl)

theorem replaces_minMax (lo hi : Rat) : Replaces (τ := τ) (minMaxEnc lo hi) (minMaxAttrA lo hi) where
  length n at' vs c ws he := by
    unfold minMaxEnc at he
    obtain ⟨nums, h1, he⟩ := Petri.bind_eq_ok he
    obtain ⟨mn, _, he⟩ := Petri.bind_eq_ok he
    obtain ⟨mx, _, he⟩ := Petri.bind_eq_ok he
    obtain ⟨sc, h2, he⟩ := Petri.bind_eq_ok he
    cases he; rw [List.length_map, length_of_mapM h2, length_of_mapM h1]
  run n at' h d hc hat := by
    have hn : n ∈ d.attrs.keys := Dict.mem_keys_iff.2 ⟨at', hat⟩
    show RunAs n (h, d) _ _
    unfold minMaxAttrA minMaxEnc
    exact RunAs.lookOk (column_ok hc hn) (RunAs.look (f := fun _ => (col h d n).mapM Val.toNum) fun nums _ =>
      RunAs.look (f := fun _ => pyMin nums) fun mn _ => RunAs.look (f := fun _ => pyMax nums) fun mx _ =>
      RunAs.look (f := fun _ => nums.mapM (scaleValue lo hi mn mx)) fun sc _ => rfl)

theorem quantileLabels_length {bins : Int} {fmt : Rat → String} {str : Val → String} {at' : Attr} {vs l : List Val}
    (he : quantileLabels bins fmt str at' vs = .ok l) : l.length = vs.length := by
  unfold quantileLabels at he
  split at he
  · obtain ⟨nums, h1, he⟩ := Petri.bind_eq_ok he
    obtain ⟨cuts, _, he⟩ := Petri.bind_eq_ok he
    obtain ⟨mn, _, he⟩ := Petri.bind_eq_ok he
    obtain ⟨mx, _, he⟩ := Petri.bind_eq_ok he
    obtain ⟨bs, h2, he⟩ := Petri.bind_eq_ok he
    cases he
    rw [List.length_map, length_of_mapM h2, length_of_mapM h1]
  · cases he; rw [List.length_map]

theorem replaces_quantile (bins : Int) (fmt : Rat → String) (str : Val → String) :
    Replaces (τ := τ) (quantileEnc bins fmt str) (quantileAttrA bins fmt str) where
  length n at' vs c ws he := by
    unfold quantileEnc at he
    obtain ⟨l, h1, he⟩ := Petri.bind_eq_ok he
    cases he; exact quantileLabels_length h1
  run n at' h d hc hat := by
    have hn : n ∈ d.attrs.keys := Dict.mem_keys_iff.2 ⟨at', hat⟩
    have hg : d.attrs.getItem n = .ok at' := by unfold Dict.getItem; rw [hat]
    show RunAs n (h, d) _ _
    unfold quantileAttrA quantileEnc
    exact RunAs.lookOk (column_ok hc hn) (RunAs.lookOk hg (RunAs.look (f := fun _ => quantileLabels bins fmt str at' (col h d n)) fun l _ => rfl))

theorem replaces_qbins (fmt : Ival → String) (dict : Dict String (List Ival)) : Replaces (τ := τ) (qbinsEnc fmt dict) (qbinsAttrA fmt dict) where
  length n at' vs c ws he := by
    unfold qbinsEnc at he
    obtain ⟨bins, _, he⟩ := Petri.bind_eq_ok he
    obtain ⟨l, h1, he⟩ := Petri.bind_eq_ok he
    cases he; exact length_of_mapM h1
  run n at' h d hc hat := by
    have hn : n ∈ d.attrs.keys := Dict.mem_keys_iff.2 ⟨at', hat⟩
    show RunAs n (h, d) _ _
    unfold qbinsAttrA qbinsEnc
    exact RunAs.look (f := fun _ => dict.getItem n) fun bins _ => RunAs.lookOk (column_ok hc hn)
      (RunAs.look (f := fun _ => (col h d n).mapM (binLabel fmt bins)) fun l _ => rfl)

/-! ### one attribute only -/

theorem select_one {h : Heap τ} {d : Dataset} (hc : Consistent h d) {n : String} {at' : Attr} (hat : d.attrs.get? n = some at') :
    ∃ h0 d0, selectAttributes [n] h d = .ok (h0, d0) ∧ Consistent h0 d0 ∧ d0.instances = d.instances ∧ SameColumn h d h0 d0 n ∧ d0.attrs = [(n, at')] := by
  obtain ⟨h0, d0, e1, s, g⟩ := removeSelected hc fun e => decide (e.1 ∉ [n])
  have hs : SameColumn h d h0 d0 n := s.sameColumn (by rintro ⟨e, _, h1, rfl⟩; simp at h1)
  refine ⟨h0, d0, e1, s.consistent, s.instances, hs, ?_⟩
  have hget := hs.1
  rw [hat] at hget
  have hkeys : ∀ m ∈ d0.attrs.keys, m = n := by
    intro m hm
    by_contra hne
    by_cases hmd : m ∈ d.attrs.keys
    · obtain ⟨am, ham⟩ := Dict.mem_keys_iff.1 hmd
      have := (g (m, am) (Dict.mem_of_get? ham) (by simpa using hne)).1
      rw [Dict.mem_keys_iff] at hm
      obtain ⟨x, hx⟩ := hm
      rw [this] at hx; cases hx
    · have h1 := s.attrs m (by
        rintro ⟨e, he, _, rfl⟩
        exact hmd (List.mem_map_of_mem (f := Prod.fst) he))
      rw [Dict.mem_keys_iff, h1, ← Dict.mem_keys_iff] at hm
      exact hmd hm
  have hnd := s.consistent.names
  have hmem := Dict.mem_of_get? hget
  revert hkeys hnd hmem
  generalize d0.attrs = l
  intro hkeys hnd hmem
  match l with
  | [] => cases hmem
  | [e] => rw [List.mem_singleton] at hmem; rw [hmem]
  | e :: e' :: l =>
    have h1 := hkeys e.1 (by simp [Dict.keys])
    have h2 := hkeys e'.1 (by simp [Dict.keys])
    simp [Dict.keys, h1, h2] at hnd

theorem Step.stillSound {N : String → Prop} {h : Heap τ} {d : Dataset} {h' : Heap τ} {d' : Dataset} (s : Step N h d h' d') : StillSound h d h' d' :=
  ⟨s.consistent, s.instances, s.keeps, s.others⟩

/-- the two models of a transformer agree -/
def Same (act : Act τ Unit) (f : Heap τ → Dataset → Py (Heap τ × Dataset)) : Prop := ∀ h d, Agree (act (h, d)) (f h d)

theorem alone_outcome {enc : Enc} {sel : Attr → Bool} {body : String × Attr → Act τ Unit} (hb : Replaces enc body)
    {f : Heap τ → Dataset → Py (Heap τ × Dataset)} (hf : Same (forAttributes (fun e => sel e.2) body) f)
    {h : Heap τ} {d : Dataset} (hc : Consistent h d) {n : String} {at' : Attr} (hat : d.attrs.get? n = some at') (hsel : sel at' = true) :
    (∃ h1 d1, alone f n h d = .ok (h1, d1) ∧ d1.instances = d.instances ∧ Done enc h d h1 d1 n at') ∨
    ∃ e, alone f n h d = .error e ∧ enc n at' (col h d n) = .error e := by
  obtain ⟨h0, d0, e1, c0, i0, s0, a0⟩ := select_one hc hat
  have hl := loop_outcome hb [(n, at')] h0 d0 (by simp) c0 (fun e he => by
    rw [List.mem_singleton] at he; subst he; rw [s0.1]; exact hat)
  have hrun : forAttributes (fun e => sel e.2) body (h0, d0) = forAll body [(n, at')] (h0, d0) := by
    rw [forAttributes_eq, a0]
    have : [(n, at')].filter (fun e => sel e.2) = [(n, at')] := by simp [hsel]
    rw [this]
  have hag := hf h0 d0
  rw [hrun] at hag
  have hal : alone f n h d = f h0 d0 := by unfold alone; rw [e1]; rfl
  rw [hal]
  revert hl hag
  cases hr : forAll body [(n, at')] (h0, d0) with
  | mk res s' =>
    obtain ⟨h', d'⟩ := s'
    cases res with
    | ok u =>
      rintro ⟨l1, l2⟩ hag
      exact .inl ⟨h', d', hag.ok rfl, l1.instances.trans i0, Done.before s0 i0 (l2 (n, at') (by simp))⟩
    | error err =>
      rintro ⟨done, bad, rest, l1, l2, l3, l4⟩ hag
      have hbad : bad = (n, at') ∧ done = [] := by
        cases done with
        | nil => simp only [List.nil_append, List.cons.injEq] at l1; exact ⟨l1.1.symm, rfl⟩
        | cons x xs => simp at l1
      rw [hbad.1, sameColumn_col s0 i0] at l4
      exact .inr ⟨err, hag.error rfl, l4⟩

/-- in place transformations that raise leave a dataset behind that is transformed in part, see `LeftBehind` -/
def FailsCleanly (act : Act τ Unit) (f : Heap τ → Dataset → Py (Heap τ × Dataset)) (visited : Dataset → List String) : Prop :=
  ∀ h d, Consistent h d → ∀ r h' d', act (h, d) = (r, (h', d')) → match r with
    | .ok _ => Finished f (visited d) h d h' d'
    | .error e => LeftBehind f (visited d) h d e h' d'

theorem failsCleanly {enc : Enc} {sel : Attr → Bool} {body : String × Attr → Act τ Unit} (hb : Replaces enc body)
    {f : Heap τ → Dataset → Py (Heap τ × Dataset)} (hf : Same (forAttributes (fun e => sel e.2) body) f) :
    FailsCleanly (forAttributes (fun e => sel e.2) body) f fun d => (d.attrs.filter fun e => sel e.2).map (·.1) := by
  intro h d hc r h' d' he
  rw [forAttributes_eq] at he
  have hmem : ∀ e ∈ d.attrs.filter (fun e => sel e.2), d.attrs.get? e.1 = some e.2 ∧ sel e.2 = true := by
    intro e he
    rw [List.mem_filter] at he
    exact ⟨Dict.get?_of_mem hc.names he.1, he.2⟩
  have hl := loop_outcome hb (d.attrs.filter fun e => sel e.2) h d (hc.names.sublist ((List.filter_sublist).map _)) hc fun e he => (hmem e he).1
  dsimp only at he
  rw [he] at hl
  have hdone : ∀ e ∈ d.attrs.filter (fun e => sel e.2), Done enc h d h' d' e.1 e.2 →
      ∃ h1 d1, alone f e.1 h d = .ok (h1, d1) ∧ d1.instances = d.instances ∧ SameColumn h1 d1 h' d' e.1 := by
    intro e he hd
    rcases alone_outcome hb hf hc (hmem e he).1 (hmem e he).2 with ⟨h1, d1, k1, k2, k3⟩ | ⟨err, _, k2⟩
    · exact ⟨h1, d1, k1, k2, Done.same k3 hd k2⟩
    · unfold Done at hd; rw [k2] at hd; exact hd.elim
  cases r with
  | ok u =>
    obtain ⟨l1, l2⟩ := hl
    refine ⟨l1.stillSound, fun n hn => ?_, fun n hn => l1.sameColumn hn⟩
    obtain ⟨e, he1, rfl⟩ := List.mem_map.1 hn
    exact hdone e he1 (l2 e he1)
  | error err =>
    obtain ⟨done, bad, rest, l1, l2, l3, l4⟩ := hl
    refine ⟨l2.stillSound, done.map (·.1), bad.1, rest.map (·.1), ?_, ?_, ?_, fun n hn => l2.sameColumn hn⟩
    · dsimp only; rw [l1]; simp
    · have hb1 : bad ∈ d.attrs.filter fun e => sel e.2 := by rw [l1]; simp
      rcases alone_outcome hb hf hc (hmem bad hb1).1 (hmem bad hb1).2 with ⟨h1, d1, _, _, k3⟩ | ⟨err', k1, k2⟩
      · unfold Done at k3; rw [l4] at k3; exact k3.elim
      · rw [l4] at k2; cases k2; exact k1
    · intro n hn
      obtain ⟨e, he1, rfl⟩ := List.mem_map.1 hn
      exact hdone e (by rw [l1]; exact List.mem_append_left _ he1) (l3 e he1)

/-- C194: if an in place label encoding, scaling or discretization of a consistent dataset raises, the dataset is still consistent, with the same
instances, ids and targets; the attributes before the first one that cannot be transformed are transformed, each as if it were the only one, and all
others are left alone. If no attribute raises, all are transformed in this way. -/
theorem C194_recoding (p : Option (Dict String (List Val))) (lo hi : Rat) (bins : Int) (fmt : Rat → String) (str : Val → String)
    (fmtI : Ival → String) (dict : Dict String (List Ival)) :
    FailsCleanly (τ := τ) (labelEncodeA p) (labelEncode p) categoricalNames ∧
    FailsCleanly (τ := τ) (minMaxScaleA lo hi) (minMaxScale lo hi) numericalNames ∧
    FailsCleanly (τ := τ) (quantileDiscretizeA bins fmt str) (quantileDiscretize bins fmt str) numericalNames ∧
    FailsCleanly (τ := τ) (qbinsTransformA fmtI dict) (qbinsTransform fmtI dict) numericalNames :=
  ⟨failsCleanly (sel := fun a => a.categorical) (replaces_label p) fun h d => agree_forAttributes (agree_labelAttr p) (h, d),
   failsCleanly (sel := fun a => !a.categorical) (replaces_minMax lo hi) fun h d => agree_forAttributes (agree_minMaxAttr lo hi) (h, d),
   failsCleanly (sel := fun a => !a.categorical) (replaces_quantile bins fmt str) fun h d => agree_forAttributes (agree_quantileAttr bins fmt str) (h, d),
   failsCleanly (sel := fun a => !a.categorical) (replaces_qbins fmtI dict) fun h d => agree_forAttributes (agree_qbinsAttr fmtI dict) (h, d)⟩

/-! ### agreement -/

/-- C194: the calls that return are those of the other theorems about datasets and transformers, with the same results; the calls that raise there raise
the same exception here. -/
theorem C194_agree (p : Option (Dict String (List Val))) (join : String) (lo hi : Rat) (bins : Int) (fmt : Rat → String) (str : Val → String)
    (fmtI : Ival → String) (dict : Dict String (List Ival)) (names : List String) :
    Same (τ := τ) (labelEncodeA p) (labelEncode p) ∧ Same (τ := τ) (oneHotEncodeA p join str) (oneHotEncode p join str) ∧
    Same (τ := τ) (minMaxScaleA lo hi) (minMaxScale lo hi) ∧ Same (τ := τ) (quantileDiscretizeA bins fmt str) (quantileDiscretize bins fmt str) ∧
    Same (τ := τ) (qbinsTransformA fmtI dict) (qbinsTransform fmtI dict) ∧ Same (τ := τ) removeConstantA removeConstant ∧
    Same (τ := τ) (selectAttributesA names) (selectAttributes names) :=
  ⟨fun h d => agree_forAttributes (agree_labelAttr p) (h, d), fun h d => agree_forAttributes (agree_oneHotAttr p join str) (h, d),
   fun h d => agree_forAttributes (agree_minMaxAttr lo hi) (h, d), fun h d => agree_forAttributes (agree_quantileAttr bins fmt str) (h, d),
   fun h d => agree_forAttributes (agree_qbinsAttr fmtI dict) (h, d), fun h d => agree_forAttributes (fun e s => agree_removeAttribute e.1 s) (h, d),
   fun h d => agree_forAttributes (fun e s => agree_removeAttribute e.1 s) (h, d)⟩

/-- C194: the methods of a dataset agree in the same way -/
theorem C194_agree_methods (h : Heap τ) (d : Dataset) (name : String) (vs : List Val) (a : Nat) :
    Agree (removeAttributeA name (h, d)) (d.removeAttribute h name) ∧ Agree (addCategoricalA name vs (h, d)) (d.addCategorical h name vs) ∧
    Agree (addNumericalA name vs (h, d)) (d.addNumerical h name vs) ∧
    (d.attrs.keys.Nodup → Agree (addInstanceA a (h, d)) ((d.addInstance h a).map fun d' => (h, d'))) := by
  refine ⟨agree_removeAttribute name (h, d), agree_addCategorical name vs (h, d), agree_addNumerical name vs (h, d), fun hnd => ?_⟩
  rw [addInstanceA_eq a h d hnd]
  cases d.addInstance h a <;> exact rfl

/-! ### the methods of a dataset -/

/-- C194: if `add_instance`, `add_categorical_attribute` or `add_numerical_attribute` raises, nothing has changed, whatever the dataset; the exception is a
ValueError. All values are numbers or strings here, hence hashable; see `C194_unhashable` for others. -/
theorem C194_add (h : Heap τ) (d : Dataset) (hnd : d.attrs.keys.Nodup) (a : Nat) (name : String) (vs : List Val) (e : PyErr) (s' : Heap τ × Dataset) :
    (addInstanceA a (h, d) = (.error e, s') → e = .value ∧ s' = (h, d)) ∧
    (addCategoricalA name vs (h, d) = (.error e, s') → e = .value ∧ s' = (h, d)) ∧
    (addNumericalA name vs (h, d) = (.error e, s') → e = .value ∧ s' = (h, d)) := by
  refine ⟨fun he => ?_, fun he => ?_, fun he => ?_⟩
  · rw [addInstanceA_eq a h d hnd] at he
    by_cases hok : Fits h d a ∧ ∀ b ∈ d.instances, (h b).id ≠ (h a).id
    · rw [addInstance_ok hok.1 hok.2] at he; cases he
    · rw [addInstance_error hok] at he; cases he; exact ⟨rfl, rfl⟩
  · rw [addCategoricalA_eq] at he
    split at he <;> cases he
    exact ⟨rfl, rfl⟩
  · rw [addNumericalA_eq] at he
    split at he <;> cases he
    exact ⟨rfl, rfl⟩

/-- with hashable values only, the two models of `add_instance` are the same -/
theorem addInstanceH_hashable (a : Nat) : addInstanceH (τ := τ) (fun _ => true) a = addInstanceA a := by
  unfold addInstanceH addInstanceA
  have : addValueH (τ := τ) (fun _ => true) a = addValueA a := by
    funext n; unfold addValueH addValueA; rfl
  rw [this]

theorem addValuesH_error {hashable : Val → Bool} {a : Nat} : ∀ (l : List String) (s : Heap τ × Dataset) (e : PyErr) (s' : Heap τ × Dataset),
    (∀ n ∈ l, n ∈ (s.1 a).features.keys) → forAll (addValueH hashable a) l s = (.error e, s') →
    e = .type ∧ s'.1 = s.1 ∧ s'.2.instances = s.2.instances ∧ s'.2.attrs.keys = s.2.attrs.keys ∧
    (∀ n at', s'.2.attrs.get? n = some at' → ∀ v ∈ at'.values, hashable v = true ∨ ∃ at0, s.2.attrs.get? n = some at0 ∧ v ∈ at0.values) ∧
    ∃ n ∈ l, ∃ v, (s.1 a).features.get? n = some v ∧ hashable v = false
  | [], _, _, _, _, he => by cases he
  | n :: l, s, e, s', hk, he => by
    have he' : (addValueH hashable a n >>= fun _ => forAll (addValueH hashable a) l) s = (.error e, s') := he
    obtain ⟨v, hv⟩ := Dict.mem_keys_iff.1 (hk n (by simp))
    have hg : (s.1 a).features.getItem n = .ok v := by unfold Dict.getItem; rw [hv]
    rw [act_bind] at he'
    unfold addValueH at he'
    rw [look_bind] at he'
    dsimp only at he'
    rw [hg] at he'
    dsimp only at he'
    by_cases hh : hashable v = true
    · rw [if_pos hh] at he'
      have he2 : forAll (addValueH hashable a) l (s.1, { s.2 with attrs := s.2.attrs.map fun e => if e.1 = n then (e.1, e.2.add v) else e }) =
        (.error e, s') := he'
      have hkeys : Dict.keys (s.2.attrs.map fun e => if e.1 = n then (e.1, e.2.add v) else e) = s.2.attrs.keys := by
        unfold Dict.keys
        rw [List.map_map]
        apply List.map_congr_left
        intro x _
        dsimp only [Function.comp]
        split <;> rfl
      have hget : ∀ (D : Dict String Attr) m, Dict.get? (D.map fun e => if e.1 = n then (e.1, e.2.add v) else e) m =
          (D.get? m).map fun at' => if m = n then at'.add v else at' := by
        intro D m
        induction D with
        | nil => rfl
        | cons x D ih =>
          obtain ⟨k, at1⟩ := x
          rw [List.map_cons]
          by_cases hkm : k = m
          · subst hkm
            by_cases hkn : k = n <;> simp [Dict.get?, hkn]
          · by_cases hkn : k = n
            · subst hkn
              simp only [Dict.get?, if_true, if_neg hkm] at ih ⊢
              exact ih
            · simp only [Dict.get?, if_neg hkn, if_neg hkm] at ih ⊢
              exact ih
      obtain ⟨i1, i2, i3, i4, i5, m, i6, w, i7⟩ := addValuesH_error l
        (s.1, { s.2 with attrs := s.2.attrs.map fun e => if e.1 = n then (e.1, e.2.add v) else e }) e s' (fun m hm => hk m (List.mem_cons_of_mem _ hm)) he2
      refine ⟨i1, i2, i3, i4.trans hkeys, fun m at' hm w hw => ?_, m, List.mem_cons_of_mem _ i6, w, i7⟩
      rcases i5 m at' hm w hw with h1 | ⟨at0, h1, h2⟩
      · exact .inl h1
      · dsimp only at h1
        rw [hget] at h1
        cases hx : s.2.attrs.get? m with
        | none => rw [hx] at h1; cases h1
        | some at1 =>
          rw [hx] at h1
          cases h1
          dsimp only at h2
          split at h2
          · unfold Attr.add at h2
            split at h2
            · exact .inr ⟨at1, rfl, h2⟩
            · dsimp only at h2
              rw [List.mem_append, List.mem_singleton] at h2
              rcases h2 with h2 | rfl
              · exact .inr ⟨at1, rfl, h2⟩
              · exact .inl hh
          · exact .inr ⟨at1, rfl, h2⟩
    · rw [if_neg hh] at he'
      cases he'
      exact ⟨rfl, rfl, rfl, rfl, fun m at' hm w hw => .inr ⟨at', hm, hw⟩, n, by simp, v, hv, by simpa using hh⟩

/-- C194: what `add_instance` leaves behind for features of any kind, if the values that are in the dataset are hashable. Either the exception is a
ValueError and nothing has changed. Or it is a TypeError, because a feature is not hashable: then the instance is in the dataset all the same, and the
dataset is not consistent any more. -/
theorem C194_unhashable {hashable : Val → Bool} {h : Heap τ} {d : Dataset} (hd : ∀ n at', d.attrs.get? n = some at' → ∀ v ∈ at'.values, hashable v = true)
    {a : Nat} {e : PyErr} {s' : Heap τ × Dataset} (he : addInstanceH hashable a (h, d) = (.error e, s')) :
    (e = .value ∧ s' = (h, d)) ∨ (e = .type ∧ (∃ n v, (h a).features.get? n = some v ∧ hashable v = false) ∧ s'.1 = h ∧
      s'.2.instances = d.instances ++ [a] ∧ ¬ Consistent s'.1 s'.2) := by
  unfold addInstanceH at he
  rw [look_pure] at he
  by_cases h1 : ((∀ n ∈ (h a).features.keys, n ∈ d.attrs.keys) ∧ ∀ n ∈ d.attrs.keys, n ∈ (h a).features.keys)
  · rw [if_neg (by simpa using h1), look_pure] at he
    by_cases h2 : ∃ b ∈ d.instances, (h b).id = (h a).id
    · rw [if_pos (by simpa using h2)] at he
      cases he; exact .inl ⟨rfl, rfl⟩
    · rw [if_neg (by simpa using h2), change_bind, look_pure] at he
      obtain ⟨i1, i2, i3, i4, i5, n, i6, v, i7, i8⟩ := addValuesH_error _ _ e s' (fun n hn => h1.2 n hn) he
      refine .inr ⟨i1, ⟨n, v, i7, i8⟩, i2, i3, fun hc => ?_⟩
      have hn : n ∈ s'.2.attrs.keys := by rw [i4]; exact i6
      obtain ⟨at', hat⟩ := Dict.mem_keys_iff.1 hn
      have hv : v ∈ at'.values := ((hc.values n at' hat).2 v).2 ⟨a, by rw [i3]; simp, by rw [i2]; exact i7⟩
      rcases i5 n at' hat v hv with h3 | ⟨at0, h3, h4⟩
      · rw [i8] at h3; cases h3
      · have := hd n at0 h3 v h4
        rw [i8] at this; cases this
  · rw [if_pos (decide_eq_true h1)] at he
    cases he; exact .inl ⟨rfl, rfl⟩

/-- C194: if `remove_attribute` of a consistent dataset raises, there is no such attribute and nothing has changed; the exception is a KeyError. The
selection of attributes and the removal of constant attributes never raise. -/
theorem C194_remove {h : Heap τ} {d : Dataset} (hc : Consistent h d) (name : String) (names : List String) (e : PyErr) (s' : Heap τ × Dataset) :
    (removeAttributeA name (h, d) = (.error e, s') → e = .key ∧ name ∉ d.attrs.keys ∧ s' = (h, d)) ∧
    (selectAttributesA names (h, d)).1 = .ok () ∧ (removeConstantA (h, d)).1 = .ok () := by
  refine ⟨fun he => ?_, ?_, ?_⟩
  · by_cases hn : name ∈ d.attrs.keys
    · obtain ⟨h', d', e1, _⟩ := remove_step hc hn
      have := agree_removeAttribute name (h, d)
      dsimp only at this
      rw [e1, he] at this; cases this
    · have hg : d.attrs.getItem name = .error .key := by
        unfold Dict.getItem
        cases hx : d.attrs.get? name with
        | none => rfl
        | some v => exact absurd (Dict.mem_keys_iff.2 ⟨v, hx⟩) hn
      unfold removeAttributeA at he
      rw [look_error (e := .key) hg] at he
      cases he; exact ⟨rfl, hn, rfl⟩
  · obtain ⟨h', d', e1, _⟩ := removeSelected hc fun e => decide (e.1 ∉ names)
    have := (C194_agree (τ := τ) none "" 0 0 0 (fun _ => "") (fun _ => "") (fun _ => "") [] names).2.2.2.2.2.2 h d
    unfold selectAttributes at this
    rw [e1] at this
    have this' : _ = _ := this
    rw [this']
  · obtain ⟨h', d', e1, _⟩ := removeSelected hc fun e => e.2.values.length == 1
    have := (C194_agree (τ := τ) none "" 0 0 0 (fun _ => "") (fun _ => "") (fun _ => "") [] names).2.2.2.2.2.1 h d
    unfold removeConstant at this
    rw [e1] at this
    have this' : _ = _ := this
    rw [this']

/-! ### one-hot encoding -/

theorem forAll_error {α : Type} {body : α → Act τ Unit} : ∀ {l : List α} {s s' : Heap τ × Dataset} {e : PyErr}, forAll body l s = (.error e, s') →
    ∃ done bad rest s1, l = done ++ bad :: rest ∧ forAll body done s = (.ok (), s1) ∧ body bad s1 = (.error e, s')
  | [], _, _, _, h => by cases h
  | x :: l, s, s', e, h => by
    have h' : (body x >>= fun _ => forAll body l) s = (.error e, s') := h
    rw [act_bind] at h'
    revert h'
    cases hb : body x s with
    | mk r s1 =>
      cases r with
      | error e1 =>
        intro h'
        cases h'
        exact ⟨[], x, l, s, rfl, rfl, hb⟩
      | ok u =>
        intro h'
        obtain ⟨done, bad, rest, s2, h1, h2, h3⟩ := forAll_error h'
        refine ⟨x :: done, bad, rest, s2, by rw [h1]; rfl, ?_, h3⟩
        show (body x >>= fun _ => forAll body done) s = _
        rw [act_bind, hb]; exact h2

theorem steps_of_foldlM {σ ι : Type} {step : σ → ι → Py σ} : ∀ {l : List ι} {s s' : σ}, l.foldlM step s = .ok s' → ∀ x ∈ l, ∃ t t', step t x = .ok t'
  | [], _, _, _, x, hx => by cases hx
  | y :: l, s, s', h, x, hx => by
    rw [List.foldlM_cons] at h
    obtain ⟨s1, h1, h2⟩ := Petri.bind_eq_ok h
    rcases List.mem_cons.1 hx with rfl | hx
    · exact ⟨s, s1, h1⟩
    · exact steps_of_foldlM h2 x hx

theorem mem_pySorted {l s : List Val} (h : pySorted l = .ok s) : s.Perm l := by
  unfold pySorted at h
  split at h
  · cases h; exact List.perm_insertionSort _ _
  · cases h

theorem mem_possible {p : Option (Dict String (List Val))} {h : Heap τ} {d : Dataset} (hc : Consistent h d) {n : String} {at' : Attr}
    (hat : d.attrs.get? n = some at') {pv : List Val} (hp : possibleValues p n at' = .ok pv) (v : Val) : v ∈ pv ↔ Encodes p h d n v := by
  cases p with
  | none =>
    unfold Encodes
    rw [(mem_pySorted hp).mem_iff]
    exact (hc.values n at' hat).2 v
  | some q =>
    unfold Encodes
    unfold possibleValues at hp
    obtain ⟨l, h1, h2⟩ := Petri.bind_eq_ok hp
    have hl : q.get? n = some l := by
      unfold Dict.getItem at h1
      cases hx : q.get? n with
      | none => rw [hx] at h1; cases h1
      | some y => rw [hx] at h1; cases h1; rfl
    rw [(mem_pySorted h2).mem_iff]
    dsimp only
    rw [hl]
    simp

theorem nodup_possible {p : Option (Dict String (List Val))} (hset : ∀ q, p = some q → ∀ n l, q.get? n = some l → l.Nodup)
    {h : Heap τ} {d : Dataset} (hc : Consistent h d) {n : String} {at' : Attr}
    (hat : d.attrs.get? n = some at') {pv : List Val} (hp : possibleValues p n at' = .ok pv) : pv.Nodup := by
  cases p with
  | none => exact (mem_pySorted hp).nodup_iff.2 (hc.values n at' hat).1
  | some q =>
    unfold possibleValues at hp
    obtain ⟨l, h1, h2⟩ := Petri.bind_eq_ok hp
    have hl : q.get? n = some l := by
      unfold Dict.getItem at h1
      cases hx : q.get? n with
      | none => rw [hx] at h1; cases h1
      | some y => rw [hx] at h1; cases h1; rfl
    exact (mem_pySorted h2).nodup_iff.2 (hset q rfl n l hl)

/-- C194: if an in place one-hot encoding of a consistent dataset raises, the dataset is still consistent, with the same instances, ids and targets. The
attributes before the first one whose values cannot be found or sorted are encoded (or skipped, if 0 and 1 are their values), and nothing else has changed.
The names of the new attributes must be unused and distinct. -/
theorem C194_one_hot {p : Option (Dict String (List Val))} (hset : ∀ q, p = some q → ∀ n l, q.get? n = some l → l.Nodup)
    {join : String} {str : Val → String} {h : Heap τ} {d : Dataset} (hc : Consistent h d)
    (hfresh : ∀ n ∈ d.catNames, ∀ v, Encodes p h d n v → n ++ join ++ str v ∉ d.attrs.keys)
    (hdist : ∀ n ∈ d.catNames, ∀ n' ∈ d.catNames, ∀ v v', Encodes p h d n v → Encodes p h d n' v' →
      n ++ join ++ str v = n' ++ join ++ str v' → n = n' ∧ v = v')
    {e : PyErr} {h' : Heap τ} {d' : Dataset} (he : oneHotEncodeA p join str (h, d) = (.error e, (h', d'))) :
    StillSound h d h' d' ∧ ∃ done bad rest, categoricalNames d = done ++ bad :: rest ∧ alone (oneHotEncode p join str) bad h d = .error e ∧
      (∀ n ∈ done, ((∀ v, Encodes p h d n v ↔ v = .num 0 ∨ v = .num 1) ∧ SameColumn h d h' d' n) ∨
        (d'.attrs.get? n = none ∧ (∀ a ∈ d.instances, (h' a).features.get? n = none) ∧
          ∀ v, Encodes p h d n v → n ++ join ++ str v ∈ d'.catNames ∧ ∀ a ∈ d.instances,
            (h' a).features.get? (n ++ join ++ str v) = some (.num (if (h a).features.get? n = some v then 1 else 0)))) ∧
      ∀ n, n ∉ done → (∀ m ∈ done, ∀ v, Encodes p h d m v → n ≠ m ++ join ++ str v) → SameColumn h d h' d' n := by
  have hmem : ∀ e ∈ d.attrs.filter (fun e => e.2.categorical), d.attrs.get? e.1 = some e.2 ∧ e.1 ∈ d.catNames ∧ e.1 ∈ d.attrs.keys := by
    intro e he
    rw [List.mem_filter] at he
    have := Dict.get?_of_mem hc.names he.1
    exact ⟨this, (hc.categorical.2 _).2 ⟨e.2, this, he.2⟩, Dict.mem_keys_iff.2 ⟨_, this⟩⟩
  unfold oneHotEncodeA at he
  rw [forAttributes_eq] at he
  obtain ⟨done, bad, rest, s1, l1, l2, l3⟩ := forAll_error he
  dsimp only at l1
  have hnd : ((d.attrs.filter fun e => e.2.categorical).map (·.1)).Nodup := hc.names.sublist ((List.filter_sublist).map _)
  rw [l1, List.map_append, List.map_cons] at hnd
  have hdm : ∀ x ∈ done, d.attrs.get? x.1 = some x.2 ∧ x.1 ∈ d.catNames ∧ x.1 ∈ d.attrs.keys := fun x hx =>
    hmem x (by rw [l1]; exact List.mem_append_left _ hx)
  obtain ⟨b1, b2, b3⟩ := hmem bad (by rw [l1]; simp)
  have hfold : done.foldlM (oneHotAttr p join str) (h, d) = .ok s1 :=
    (Agree.forAll (agree_oneHotAttr p join str) done (h, d)).ok l2
  have hpos : ∀ x ∈ done, ∃ pv, possibleValues p x.1 x.2 = .ok pv := by
    intro x hx
    obtain ⟨t, t', ht⟩ := steps_of_foldlM hfold x hx
    unfold oneHotAttr at ht
    obtain ⟨pv, h1, _⟩ := Petri.bind_eq_ok ht
    exact ⟨pv, h1⟩
  have hvs : ∃ vs : String → List Val, ∀ x ∈ done, possibleValues p x.1 x.2 = .ok (vs x.1) := by
    refine ⟨fun n => match d.attrs.get? n with
      | some at' => match possibleValues p n at' with
        | .ok pv => pv
        | .error _ => []
      | none => [], fun x hx => ?_⟩
    obtain ⟨pv, h1⟩ := hpos x hx
    simp only [(hdm x hx).1, h1]
  obtain ⟨vs, hvs⟩ := hvs
  have hin : ∀ x ∈ done, ∀ v, v ∈ vs x.1 ↔ Encodes p h d x.1 v := fun x hx v => mem_possible hc (hdm x hx).1 (hvs x hx) v
  obtain ⟨h1, d1, k1, k2, k3⟩ := oneHot_loop (τ := τ) (possible := p) (join := join) (str := str) vs done h d (List.nodup_append.1 hnd).1 hc
    (fun x hx => ⟨(hdm x hx).1, hvs x hx⟩)
    (fun x hx _ v hv => hfresh x.1 (hdm x hx).2.1 v ((hin x hx v).1 hv))
    (fun x hx _ => by
      have hn := nodup_possible hset hc (hdm x hx).1 (hvs x hx)
      refine hn.map_on fun v hv w hw hvw => ?_
      exact (hdist x.1 (hdm x hx).2.1 x.1 (hdm x hx).2.1 v w ((hin x hx v).1 hv) ((hin x hx w).1 hw) hvw).2)
    (fun x hx y hy _ _ v hv w hw hvw =>
      (hdist x.1 (hdm x hx).2.1 y.1 (hdm y hy).2.1 v w ((hin x hx v).1 hv) ((hin y hy w).1 hw) hvw).1)
  rw [hfold] at k1
  obtain rfl := Except.ok.inj k1
  have hbadne : ∀ x ∈ done, bad.1 ≠ x.1 := by
    intro x hx hh
    exact (List.nodup_append.1 hnd).2.2 x.1 (List.mem_map_of_mem (f := Prod.fst) hx) bad.1 (by simp) hh.symm
  have hbadkeep : SameColumn h d h1 d1 bad.1 := by
    refine k2.sameColumn ?_
    rintro ⟨x, hx, _, hh | hh⟩
    · exact hbadne x hx hh
    · obtain ⟨v, hv, hvv⟩ := List.mem_map.1 hh
      have := hfresh x.1 (hdm x hx).2.1 v ((hin x hx v).1 hv)
      rw [hvv] at this; exact this b3
  -- the attribute at which the loop ends has no values
  have hbadpv : possibleValues p bad.1 bad.2 = .error e ∧ (h', d') = (h1, d1) := by
    have hag := agree_oneHotAttr p join str bad (h1, d1)
    rw [l3] at hag
    have herr : oneHotAttr p join str (h1, d1) bad = .error e := hag.error rfl
    cases hpv : possibleValues p bad.1 bad.2 with
    | error e' =>
      unfold oneHotAttrA at l3
      rw [look_error (e := e') hpv] at l3
      cases l3; exact ⟨rfl, rfl⟩
    | ok pv =>
      exfalso
      have hinb : ∀ v, v ∈ pv ↔ Encodes p h d bad.1 v := fun v => mem_possible hc b1 hpv v
      by_cases hz : pv = [.num 0, .num 1]
      · unfold oneHotAttr at herr
        rw [hpv] at herr
        have : (if pv = [.num 0, .num 1] then (return (h1, d1) : Py (Heap τ × Dataset)) else do
            let s ← pv.foldlM (oneHotValue bad.1 join str) (h1, d1)
            s.2.removeAttribute s.1 bad.1) = .error e := herr
        rw [if_pos hz] at this; cases this
      · obtain ⟨h2, d2, q1, _⟩ := oneHotAttr_spec (possible := p) (join := join) (str := str) k2.consistent (name := bad.1) (at' := bad.2)
          (by rw [hbadkeep.1]; exact b1) hpv hz
          (by
            refine (nodup_possible hset hc b1 hpv).map_on fun v hv w hw hvw => ?_
            exact (hdist bad.1 b2 bad.1 b2 v w ((hinb v).1 hv) ((hinb w).1 hw) hvw).2)
          (fun v hv hk => by
            rw [Dict.mem_keys_iff, k2.attrs, ← Dict.mem_keys_iff] at hk
            · exact hfresh bad.1 b2 v ((hinb v).1 hv) hk
            · rintro ⟨x, hx, _, hh | hh⟩
              · have := hfresh bad.1 b2 v ((hinb v).1 hv)
                rw [hh] at this; exact this (hdm x hx).2.2
              · obtain ⟨w, hw, hww⟩ := List.mem_map.1 hh
                exact hbadne x hx (hdist bad.1 b2 x.1 (hdm x hx).2.1 v w ((hinb v).1 hv) ((hin x hx w).1 hw) hww.symm).1)
        rw [show ((bad.1, bad.2) : String × Attr) = bad from rfl, herr] at q1
        cases q1
  obtain ⟨hbad, hs⟩ := hbadpv
  cases hs
  refine ⟨k2.stillSound, done.map (·.1), bad.1, rest.map (·.1), by unfold categoricalNames; rw [l1]; simp, ?_, ?_, ?_⟩
  · obtain ⟨h0, d0, e1, c0, i0, s0, a0⟩ := select_one hc b1
    have hsel : bad.2.categorical = true := by
      have : bad ∈ d.attrs.filter (fun e => e.2.categorical) := by rw [l1]; simp
      exact (List.mem_filter.1 this).2
    unfold alone
    rw [e1]
    show oneHotEncode p join str h0 d0 = _
    unfold oneHotEncode
    have : d0.attrs.filter (fun e => e.2.categorical) = [(bad.1, bad.2)] := by rw [a0]; simp [hsel]
    rw [this, List.foldlM_cons]
    have : oneHotAttr p join str (h0, d0) (bad.1, bad.2) = .error e := by
      unfold oneHotAttr
      rw [hbad]; rfl
    rw [this]; rfl
  · intro n hn
    obtain ⟨x, hx, rfl⟩ := List.mem_map.1 hn
    by_cases hz : vs x.1 = [.num 0, .num 1]
    · left
      refine ⟨fun v => by rw [← hin x hx v, hz]; simp, k2.sameColumn ?_⟩
      rintro ⟨y, hy, hyz, hh | hh⟩
      · rw [hh] at hz; exact hyz hz
      · obtain ⟨v, hv, hvv⟩ := List.mem_map.1 hh
        have := hfresh y.1 (hdm y hy).2.1 v ((hin y hy v).1 hv)
        rw [hvv] at this; exact this (hdm x hx).2.2
    · right
      obtain ⟨g1, g2, g3⟩ := k3 x hx hz
      refine ⟨g1, g2, fun v hv => ?_⟩
      obtain ⟨⟨at', z1, z2⟩, z3⟩ := g3 v ((hin x hx v).2 hv)
      refine ⟨(k2.consistent.categorical.2 _).2 ⟨at', z1, z2⟩, fun a ha => ?_⟩
      rw [z3 a ha, get?_val hc (hdm x hx).2.2 ha]
      unfold ind
      by_cases hv2 : val h x.1 a = v
      · rw [if_pos hv2, if_pos (by rw [hv2])]
      · rw [if_neg hv2, if_neg (by intro hh; exact hv2 (Option.some.inj hh))]
  · intro n hn hgen
    refine k2.sameColumn ?_
    rintro ⟨x, hx, _, hh | hh⟩
    · exact hn (List.mem_map.2 ⟨x, hx, hh.symm⟩)
    · obtain ⟨v, hv, hvv⟩ := List.mem_map.1 hh
      exact hgen x.1 (List.mem_map_of_mem (f := Prod.fst) hx) v ((hin x hx v).1 hv) hvv.symm

/-! ### which instances are touched, and copies -/

/-- the call keeps the set of instances and changes no other instance, even if it raises -/
def Stays (I : List Nat) (s : Heap τ × Dataset) {α : Type} (r : Py α × (Heap τ × Dataset)) : Prop :=
  r.2.2.instances = I ∧ ∀ a, a ∉ I → r.2.1 a = s.1 a

/-- the call changes only the instances of its dataset, even if it raises -/
def Inside (act : Act τ Unit) : Prop := ∀ h d, Stays d.instances (h, d) (act (h, d))

theorem Stays.bind {α β : Type} {I : List Nat} {s : Heap τ × Dataset} {m : Act τ α} {k : α → Act τ β} (h1 : Stays I s (m s))
    (h2 : ∀ a s', s'.2.instances = I → Stays I s' (k a s')) : Stays I s ((m >>= k) s) := by
  rw [act_bind]
  revert h1
  cases hm : m s with
  | mk r s' =>
    intro h1
    cases r with
    | error e => exact h1
    | ok a =>
      obtain ⟨g1, g2⟩ := h2 a s' h1.1
      exact ⟨g1, fun x hx => (g2 x hx).trans (h1.2 x hx)⟩

theorem Stays.look {α : Type} {I : List Nat} {s : Heap τ × Dataset} (hs : s.2.instances = I) (f : Heap τ × Dataset → Py α) : Stays I s (look f s) :=
  ⟨hs, fun _ _ => rfl⟩

theorem Stays.pure {α : Type} {I : List Nat} {s : Heap τ × Dataset} (hs : s.2.instances = I) (x : α) : Stays I s ((Pure.pure x : Act τ α) s) :=
  ⟨hs, fun _ _ => rfl⟩

theorem Stays.lookInstances {β : Type} {I : List Nat} {s : Heap τ × Dataset} {k : List Nat → Act τ β} (hs : s.2.instances = I)
    (h : Stays I s (k I s)) : Stays I s ((Data.look (fun s => .ok s.2.instances) >>= k) s) := by
  rw [look_pure, hs]; exact h

theorem Stays.forAll {α : Type} {I : List Nat} {body : α → Act τ Unit} : ∀ (l : List α) (s : Heap τ × Dataset), s.2.instances = I →
    (∀ x ∈ l, ∀ s : Heap τ × Dataset, s.2.instances = I → Stays I s (body x s)) → Stays I s (forAll body l s)
  | [], _, hs, _ => Stays.pure hs ()
  | x :: l, s, hs, h => Stays.bind (k := fun _ => Data.forAll body l) (h x (by simp) s hs) fun _ s' hs' =>
      Stays.forAll l s' hs' fun y hy => h y (List.mem_cons_of_mem _ hy)

theorem stays_remove (name : String) {I : List Nat} {s : Heap τ × Dataset} (hs : s.2.instances = I) : Stays I s (removeAttributeA name s) := by
  unfold removeAttributeA
  refine Stays.bind (Stays.look hs _) fun a s1 h1 => Stays.bind ⟨h1, fun _ _ => rfl⟩ fun _ s2 h2 => ?_
  have hlast : ∀ s3 : Heap τ × Dataset, s3.2.instances = I →
      Stays I s3 ((look (fun s => .ok s.2.instances) >>= fun l => forAll (removeFeatureA name) l) s3) := fun s3 h3 => by
    refine Stays.lookInstances h3 (Stays.forAll I s3 h3 fun x hx s4 h4 => ?_)
    unfold removeFeatureA
    refine Stays.bind (Stays.look h4 _) fun _ s5 h5 => ⟨h5, fun y hy => ?_⟩
    exact upd_ne _ _ (fun hh => hy (hh ▸ hx))
  split
  · exact Stays.bind (Stays.look h2 _) fun l s3 h3 => Stays.bind ⟨h3, fun _ _ => rfl⟩ fun _ s4 h4 => hlast s4 h4
  · exact Stays.bind (Stays.look h2 _) fun l s3 h3 => Stays.bind ⟨h3, fun _ _ => rfl⟩ fun _ s4 h4 => hlast s4 h4

theorem stays_set (name : String) {I : List Nat} {s : Heap τ × Dataset} (hs : s.2.instances = I) (vs : List Val) :
    Stays I s ((look (fun s => .ok s.2.instances) >>= fun l => forAll (setFeatureA name) (vs.zip l)) s) := by
  refine Stays.lookInstances hs (Stays.forAll _ s hs fun e he s1 h1 => ⟨h1, fun y hy => ?_⟩)
  exact upd_ne _ _ (fun hh => hy (hh ▸ (List.of_mem_zip he).2))

theorem stays_addCategorical (name : String) (vs : List Val) {I : List Nat} {s : Heap τ × Dataset} (hs : s.2.instances = I) :
    Stays I s (addCategoricalA name vs s) := by
  unfold addCategoricalA
  refine Stays.bind (Stays.look hs _) fun n s1 h1 => ?_
  split
  · exact ⟨h1, fun _ _ => rfl⟩
  · exact Stays.bind ⟨h1, fun _ _ => rfl⟩ fun _ s2 h2 => Stays.bind ⟨h2, fun _ _ => rfl⟩ fun _ s3 h3 => stays_set name h3 vs

theorem stays_addNumerical (name : String) (vs : List Val) {I : List Nat} {s : Heap τ × Dataset} (hs : s.2.instances = I) :
    Stays I s (addNumericalA name vs s) := by
  unfold addNumericalA
  refine Stays.bind (Stays.look hs _) fun n s1 h1 => ?_
  split
  · exact ⟨h1, fun _ _ => rfl⟩
  · exact Stays.bind ⟨h1, fun _ _ => rfl⟩ fun _ s2 h2 => Stays.bind ⟨h2, fun _ _ => rfl⟩ fun _ s3 h3 => stays_set name h3 vs

theorem inside_forAttributes {sel : String × Attr → Bool} {body : String × Attr → Act τ Unit}
    (h : ∀ e I (s : Heap τ × Dataset), s.2.instances = I → Stays I s (body e s)) : Inside (forAttributes sel body) := fun h' d => by
  rw [forAttributes_eq]
  exact Stays.forAll _ _ rfl fun e _ s hs => h e _ s hs

/-- C194: no transformer changes an instance that is not in the given dataset, or adds or removes instances, even if it raises -/
theorem C194_inside (p : Option (Dict String (List Val))) (join : String) (lo hi : Rat) (bins : Int) (fmt : Rat → String) (str : Val → String)
    (fmtI : Ival → String) (dict : Dict String (List Ival)) (names : List String) :
    Inside (τ := τ) (labelEncodeA p) ∧ Inside (τ := τ) (oneHotEncodeA p join str) ∧ Inside (τ := τ) (minMaxScaleA lo hi) ∧
    Inside (τ := τ) (quantileDiscretizeA bins fmt str) ∧ Inside (τ := τ) (qbinsTransformA fmtI dict) ∧ Inside (τ := τ) removeConstantA ∧
    Inside (τ := τ) (selectAttributesA names) := by
  refine ⟨inside_forAttributes fun e I s hs => ?_, inside_forAttributes fun e I s hs => ?_, inside_forAttributes fun e I s hs => ?_,
    inside_forAttributes fun e I s hs => ?_, inside_forAttributes fun e I s hs => ?_, inside_forAttributes fun e I s hs => stays_remove _ hs,
    inside_forAttributes fun e I s hs => stays_remove _ hs⟩
  · unfold labelAttrA
    refine Stays.bind (Stays.look hs _) fun pv s1 h1 => ?_
    split
    · exact Stays.pure h1 ()
    · exact Stays.bind (Stays.look h1 _) fun c s2 h2 => Stays.bind (Stays.look h2 _) fun en s3 h3 =>
        Stays.bind (stays_remove _ h3) fun _ s4 h4 => stays_addCategorical _ _ h4
  · unfold oneHotAttrA
    refine Stays.bind (Stays.look hs _) fun pv s1 h1 => ?_
    split
    · exact Stays.pure h1 ()
    · refine Stays.bind (Stays.forAll _ s1 h1 fun v _ s2 h2 => ?_) fun _ s4 h4 => stays_remove _ h4
      unfold oneHotValueA
      exact Stays.bind (Stays.look h2 _) fun c s3 h3 => stays_addCategorical _ _ h3
  · unfold minMaxAttrA
    exact Stays.bind (Stays.look hs _) fun _ _ h1 => Stays.bind (Stays.look h1 _) fun _ _ h2 => Stays.bind (Stays.look h2 _) fun _ _ h3 =>
      Stays.bind (Stays.look h3 _) fun _ _ h4 => Stays.bind (Stays.look h4 _) fun _ _ h5 =>
      Stays.bind (stays_remove _ h5) fun _ _ h6 => stays_addNumerical _ _ h6
  · unfold quantileAttrA
    exact Stays.bind (Stays.look hs _) fun _ _ h1 => Stays.bind (Stays.look h1 _) fun _ _ h2 => Stays.bind (Stays.look h2 _) fun _ _ h3 =>
      Stays.bind (stays_remove _ h3) fun _ _ h6 => stays_addCategorical _ _ h6
  · unfold qbinsAttrA
    exact Stays.bind (Stays.look hs _) fun _ _ h1 => Stays.bind (Stays.look h1 _) fun _ _ h2 => Stays.bind (Stays.look h2 _) fun _ _ h3 =>
      Stays.bind (stays_remove _ h3) fun _ _ h6 => stays_addCategorical _ _ h6

/-- C194: the same for the noises on target sequences -/
theorem C194_inside_noise {σ : Type} (f : Nat → List σ → Py (List σ)) : Inside (noiseAllA f) := fun h d => by
  unfold noiseAllA
  refine Stays.lookInstances rfl (Stays.forAll _ _ rfl fun e he s hs => ?_)
  unfold noiseA
  refine Stays.bind (Stays.look hs _) fun t s1 h1 => ⟨h1, fun y hy => ?_⟩
  refine upd_ne _ _ (fun hh => hy ?_)
  rw [hh, ← List.zipIdx_map_fst 0 d.instances]
  exact List.mem_map_of_mem (f := Prod.fst) he

theorem addInstanceA_frame (a : Nat) (s : Heap τ × Dataset) : (addInstanceA a s).2.1 = s.1 ∧
    ∀ b ∈ (addInstanceA a s).2.2.instances, b ∈ s.2.instances ∨ b = a := by
  have hloop : ∀ (l : List String) (s : Heap τ × Dataset), (forAll (addValueA a) l s).2.1 = s.1 ∧
      (forAll (addValueA a) l s).2.2.instances = s.2.instances := by
    intro l
    induction l with
    | nil => exact fun s => ⟨rfl, rfl⟩
    | cons n l ih =>
      intro s
      have e : forAll (addValueA a) (n :: l) s = (addValueA a n >>= fun _ => forAll (addValueA a) l) s := rfl
      rw [e, act_bind]
      unfold addValueA
      rw [look_bind]
      dsimp only
      cases (s.1 a).features.getItem n with
      | error e => exact ⟨rfl, rfl⟩
      | ok v => exact ih (s.1, { s.2 with attrs := s.2.attrs.map fun e => if e.1 = n then (e.1, e.2.add v) else e })
  unfold addInstanceA
  rw [look_pure]
  split
  · exact ⟨rfl, fun b hb => .inl hb⟩
  · rw [look_pure]
    split
    · exact ⟨rfl, fun b hb => .inl hb⟩
    · rw [change_bind, look_pure]
      refine ⟨(hloop _ _).1, fun b hb => ?_⟩
      rw [(hloop _ _).2] at hb
      dsimp only at hb
      rw [List.mem_append, List.mem_singleton] at hb
      exact hb

theorem copyA_frame (next : Nat) (h : Heap τ) (d : Dataset) : (∀ a < next, (copyA next d h).2.1 a = h a) ∧ ∀ b ∈ (copyA next d h).2.2.instances, next ≤ b := by
  have hloop : ∀ (l : List (Nat × Nat)) (s : Heap τ × Dataset), (∀ b ∈ s.2.instances, next ≤ b) →
      (∀ a < next, (forAll (copyStepA next) l s).2.1 a = s.1 a) ∧ ∀ b ∈ (forAll (copyStepA next) l s).2.2.instances, next ≤ b := by
    intro l
    induction l with
    | nil => exact fun s hs => ⟨fun _ _ => rfl, hs⟩
    | cons x l ih =>
      intro s hs
      have e : forAll (copyStepA next) (x :: l) s = (copyStepA next x >>= fun _ => forAll (copyStepA next) l) s := rfl
      have e2 : copyStepA next x s = addInstanceA (next + x.2) (upd s.1 (next + x.2) (s.1 x.1), s.2) := rfl
      obtain ⟨f1, f2⟩ := addInstanceA_frame (next + x.2) (upd s.1 (next + x.2) (s.1 x.1), s.2)
      rw [← e2] at f1 f2
      have g1 : ∀ a < next, (copyStepA next x s).2.1 a = s.1 a := fun a ha => by
        rw [f1]; exact upd_ne _ _ (by omega)
      have g2 : ∀ b ∈ (copyStepA next x s).2.2.instances, next ≤ b := fun b hb => by
        rcases f2 b hb with hb | rfl
        · exact hs b hb
        · omega
      rw [e, act_bind]
      revert g1 g2
      cases hr : copyStepA next x s with
      | mk r s' =>
        intro g1 g2
        cases r with
        | error e => exact ⟨g1, g2⟩
        | ok u =>
          obtain ⟨i1, i2⟩ := ih s' g2
          exact ⟨fun a ha => (i1 a ha).trans (g1 a ha), i2⟩
  unfold copyA
  exact hloop _ _ (fun b hb => by cases hb)

/-- C194: without `inplace`, the given dataset and its instances are unchanged, whether or not the transformer raises: no instance that existed before
has changed. -/
theorem C194_not_inplace {act : Act τ Unit} (hact : Inside act) (next : Nat) (h : Heap τ) (d : Dataset) :
    (transformA act false next h d).given = d ∧ ∀ a < next, (transformA act false next h d).heap a = h a := by
  obtain ⟨c1, c2⟩ := copyA_frame next h d
  unfold transformA
  rw [if_neg (by simp)]
  revert c1 c2
  cases copyA next d h with
  | mk r s =>
    obtain ⟨h1, d1⟩ := s
    intro c1 c2
    cases r with
    | error e => exact ⟨rfl, c1⟩
    | ok u =>
      refine ⟨rfl, fun a ha => ?_⟩
      refine ((hact h1 d1).2 a fun hm => ?_).trans (c1 a ha)
      have := c2 a hm
      omega

/-- C194: with `inplace`, the given dataset is the one that is changed; a call that returns gives the same dataset as the calls of the other theorems. -/
theorem C194_inplace {act : Act τ Unit} {f : Heap τ → Dataset → Py (Heap τ × Dataset)} (hs : Same act f) (next : Nat) (h : Heap τ) (d : Dataset) :
    (transformA act true next h d).given = (act (h, d)).2.2 ∧ (transformA act true next h d).heap = (act (h, d)).2.1 ∧
    (∀ h' d', transform f true next h d = .ok (h', d') → (transformA act true next h d).result = .ok d' ∧ (transformA act true next h d).given = d' ∧
      (transformA act true next h d).heap = h') ∧
    ∀ e, transform f true next h d = .error e → (transformA act true next h d).result = .error e := by
  unfold transformA
  rw [if_pos rfl]
  refine ⟨rfl, rfl, fun h' d' he => ?_, fun e he => ?_⟩
  · have he' : f h d = .ok (h', d') := he
    have := hs h d
    rw [he'] at this
    have this' : act (h, d) = (.ok (), (h', d')) := this
    rw [this']
    exact ⟨rfl, rfl, rfl⟩
  · have he' : f h d = .error e := he
    have := hs h d
    rw [he'] at this
    have this' : (act (h, d)).1 = .error e := this
    unfold resultOf
    dsimp only
    rw [this']; rfl

theorem addInstance_keys {h : Heap τ} {d d' : Dataset} {a : Nat} (he : d.addInstance h a = .ok d') : d'.attrs.keys = d.attrs.keys := by
  unfold Dataset.addInstance at he
  split at he
  · cases he
  · rename_i h1
    split at he
    · cases he
    · rw [not_not] at h1
      rw [addAttrs_eq d.attrs h1.2] at he
      cases he
      unfold addedAttrs Dict.keys
      rw [List.map_map]; rfl

theorem agree_copy (next : Nat) (h : Heap τ) (d : Dataset) : Agree (copyA next d h) (d.copy h next) := by
  have hloop : ∀ (l : List (Nat × Nat)) (s : Heap τ × Dataset), s.2.attrs.keys.Nodup →
      Agree (forAll (copyStepA next) l s) (l.foldlM (fun (s : Heap τ × Dataset) e => do
        let h := upd s.1 (next + e.2) (s.1 e.1)
        let d ← s.2.addInstance h (next + e.2)
        return (h, d)) s) := by
    intro l
    induction l with
    | nil => exact fun s _ => rfl
    | cons x l ih =>
      intro s hs
      rw [List.foldlM_cons]
      refine Agree.bind (k := fun _ => forAll (copyStepA next) l) ?_ fun s' he => ih s' ?_
      · have e2 : copyStepA next x s = addInstanceA (next + x.2) (upd s.1 (next + x.2) (s.1 x.1), s.2) := rfl
        rw [e2, addInstanceA_eq _ _ _ hs]
        dsimp only
        cases s.2.addInstance (upd s.1 (next + x.2) (s.1 x.1)) (next + x.2) <;> exact rfl
      · obtain ⟨d1, h1, h2⟩ := Petri.bind_eq_ok he
        cases h2
        dsimp only
        rw [addInstance_keys h1]; exact hs
  exact hloop _ _ (wf_foldl_put _ _ (wf_foldl_put _ _ List.nodup_nil))

/-- C194: a call without `inplace` gives the same dataset or exception as the calls of the other theorems. -/
theorem C194_copy_result {act : Act τ Unit} {f : Heap τ → Dataset → Py (Heap τ × Dataset)} (hs : Same act f) (next : Nat) (h : Heap τ) (d : Dataset) :
    (∀ h' d', transform f false next h d = .ok (h', d') → (transformA act false next h d).result = .ok d' ∧ (transformA act false next h d).heap = h') ∧
    ∀ e, transform f false next h d = .error e → (transformA act false next h d).result = .error e := by
  have hc := agree_copy next h d
  have ht : transform f false next h d = (d.copy h next >>= fun s => f s.1 s.2) := rfl
  rw [ht]
  unfold transformA
  rw [if_neg (by simp)]
  cases hcp : d.copy h next with
  | error e =>
    rw [hcp] at hc
    have hc' : (copyA next d h).1 = .error e := hc
    revert hc'
    cases copyA next d h with
    | mk r s =>
      intro hc'
      dsimp only at hc'
      subst hc'
      exact ⟨fun h' d' he => (by cases he), fun e' he => (by cases he; rfl)⟩
  | ok s =>
    rw [hcp] at hc
    have hc' : copyA next d h = (.ok (), s) := hc
    rw [hc']
    have hss := hs s.1 s.2
    refine ⟨fun h' d' he => ?_, fun e he => ?_⟩
    · have he' : f s.1 s.2 = .ok (h', d') := he
      rw [he'] at hss
      have h3 : act s = (.ok (), (h', d')) := hss
      dsimp only
      rw [h3]; exact ⟨rfl, rfl⟩
    · have he' : f s.1 s.2 = .error e := he
      rw [he'] at hss
      have h3 : (act s).1 = .error e := hss
      unfold resultOf
      dsimp only
      rw [h3]; rfl

/-! ### noise on target sequences -/

theorem noise_loop {σ : Type} {f : Nat → List σ → Py (List σ)} {d : Dataset} : ∀ (l : List Nat) (k : Nat) (h : Heap (List σ)) (e : PyErr) (s' : Heap (List σ) × Dataset),
    l.Nodup → forAll (noiseA f) (l.zipIdx k) (h, d) = (.error e, s') →
    s'.2 = d ∧ ∃ done bad rest, l = done ++ bad :: rest ∧ f (k + done.length) (h bad).target = .error e ∧
      (∀ i a, done[i]? = some a → ∃ t, f (k + i) (h a).target = .ok t ∧ s'.1 a = { h a with target := t }) ∧ ∀ a, a ∉ done → s'.1 a = h a
  | [], _, _, _, _, _, he => by cases he
  | a :: l, k, h, e, s', hnd, he => by
    rw [List.nodup_cons] at hnd
    have he' : (noiseA f (a, k) >>= fun _ => forAll (noiseA f) (l.zipIdx (k + 1))) (h, d) = (.error e, s') := he
    rw [act_bind] at he'
    unfold noiseA at he'
    rw [look_bind] at he'
    dsimp only at he'
    cases hf : f k (h a).target with
    | error e1 =>
      rw [hf] at he'
      cases he'
      exact ⟨rfl, [], a, l, rfl, hf, by simp, fun _ _ => rfl⟩
    | ok t =>
      rw [hf] at he'
      have he2 : forAll (noiseA f) (l.zipIdx (k + 1)) (upd h a { h a with target := t }, d) = (.error e, s') := he'
      obtain ⟨i1, done, bad, rest, i2, i3, i4, i5⟩ := noise_loop l (k + 1) _ e s' hnd.2 he2
      have hne : ∀ x ∈ l, x ≠ a := fun x hx hh => hnd.1 (hh ▸ hx)
      refine ⟨i1, a :: done, bad, rest, by rw [i2]; rfl, ?_, ?_, ?_⟩
      · rw [upd_ne _ _ (hne bad (by rw [i2]; simp))] at i3
        rw [List.length_cons, show k + (done.length + 1) = k + 1 + done.length by omega]; exact i3
      · intro i x hi
        cases i with
        | zero =>
          obtain rfl : a = x := by simpa using hi
          refine ⟨t, hf, ?_⟩
          rw [i5 a fun hm => hnd.1 (by rw [i2]; exact List.mem_append_left _ hm), upd_self]
        | succ i =>
          have hi' : done[i]? = some x := by simpa using hi
          have hx : x ∈ l := by rw [i2]; exact List.mem_append_left _ (List.mem_of_getElem? hi')
          obtain ⟨t', g1, g2⟩ := i4 i x hi'
          rw [upd_ne _ _ (hne x hx)] at g1 g2
          exact ⟨t', by rw [show k + (i + 1) = k + 1 + i by omega]; exact g1, g2⟩
      · intro x hx
        rw [List.mem_cons, not_or] at hx
        rw [i5 x hx.2, upd_ne _ _ hx.1]

/-- C194: if a noise raises in place, the instances visited before have their new target sequences, and nothing else has changed. Here `f` is what the noise
does to the target sequence of the instance with the given number. -/
theorem C194_noise {σ : Type} {f : Nat → List σ → Py (List σ)} {h : Heap (List σ)} {d : Dataset} (hnd : d.instances.Nodup) {e : PyErr}
    {h' : Heap (List σ)} {d' : Dataset} (he : noiseAllA f (h, d) = (.error e, (h', d'))) :
    d' = d ∧ ∃ done bad rest, d.instances = done ++ bad :: rest ∧ f done.length (h bad).target = .error e ∧
      (∀ i a, done[i]? = some a → ∃ t, f i (h a).target = .ok t ∧ h' a = { h a with target := t }) ∧ ∀ a, a ∉ done → h' a = h a := by
  unfold noiseAllA at he
  rw [look_pure] at he
  obtain ⟨i1, done, bad, rest, i2, i3, i4, i5⟩ := noise_loop d.instances 0 h e _ hnd he
  refine ⟨i1, done, bad, rest, i2, by simpa using i3, fun i a hi => ?_, i5⟩
  obtain ⟨t, g1, g2⟩ := i4 i a hi
  exact ⟨t, by simpa using g1, g2⟩

/-! ### deviations and examples -/

/-- two instances with the categorical attributes a and b and the numerical attributes x and y; y is constant -/
def excHeap : Heap Unit := fun i =>
  if i = 0 then ⟨.num 0, [("a", .str "p"), ("b", .str "u"), ("x", .num 2), ("y", .num 7)], ()⟩
  else ⟨.num 1, [("a", .str "q"), ("b", .str "w"), ("x", .num 6), ("y", .num 7)], ()⟩

/-- the dataset of these instances -/
def excData : Dataset :=
  ⟨[0, 1], [("a", ⟨true, [.str "p", .str "q"]⟩), ("b", ⟨true, [.str "u", .str "w"]⟩), ("x", ⟨false, [.num 2, .num 6]⟩), ("y", ⟨false, [.num 7]⟩)],
    ["a", "b"], ["x", "y"]⟩

theorem excData_consistent : Consistent excHeap excData := by
  have e1 : (Dataset.new ["a", "b"] ["x", "y"]).addInstance excHeap 0 = .ok ⟨[0], [("a", ⟨true, [.str "p"]⟩), ("b", ⟨true, [.str "u"]⟩),
      ("x", ⟨false, [.num 2]⟩), ("y", ⟨false, [.num 7]⟩)], ["a", "b"], ["x", "y"]⟩ := by
    rw [addInstance_ok (by intro n; simp [excHeap, Dataset.new, Dict.keys, Dict.put]) (by intro b hb; cases hb)]
    rfl
  have c1 := addInstance_consistent (new_consistent excHeap (cat := ["a", "b"]) (num := ["x", "y"]) (by decide)) (by decide) e1
  refine addInstance_consistent c1 (a := 1) (by decide) ?_
  rw [addInstance_ok (by intro n; simp [excHeap, Dict.keys]) (by intro b hb; rw [List.mem_singleton] at hb; subst hb; decide +kernel)]
  rfl

/-- C194: an in place label encoding with given values that has raised cannot be repeated with more values: the attribute a is encoded by now, so its codes
are not among the given values. Without the first attempt, the second one succeeds. -/
theorem C194_retry_witness : ∃ p p' : Dict String (List Val), (labelEncodeA (some p) (excHeap, excData)).1 = .error .key ∧
    (labelEncodeA (some p') (excHeap, excData)).1 = .ok () ∧ (labelEncodeA (some p') (labelEncodeA (some p) (excHeap, excData)).2).1 = .error .key :=
  ⟨[("a", [.str "p", .str "q"]), ("b", [.str "u"])], [("a", [.str "p", .str "q"]), ("b", [.str "u", .str "w"])],
    by decide +kernel, by decide +kernel, by decide +kernel⟩

/-- the hypotheses of `C194_recoding` are met: the scaling raises at the constant attribute y, and x is scaled by then -/
example : (minMaxScaleA 0 1 (excHeap, excData)).1 = .error .zeroDivision ∧
    ((minMaxScaleA 0 1 (excHeap, excData)).2.1 1).features.get? "x" = some (.num 1) ∧
    ((minMaxScaleA 0 1 (excHeap, excData)).2.1 1).features.get? "y" = some (.num 7) :=
  ⟨by decide +kernel, by decide +kernel, by decide +kernel⟩

/-- the same for a one-hot encoding: b has no values -/
example : (oneHotEncodeA (some [("a", [.str "p", .str "q"])]) " " (fun v => match v with | .str s => s | .num _ => "") (excHeap, excData)).1 = .error .key ∧
    ((oneHotEncodeA (some [("a", [.str "p", .str "q"])]) " " (fun v => match v with | .str s => s | .num _ => "") (excHeap, excData)).2.1 1).features.get? "a q" =
      some (.num 1) := ⟨by decide +kernel, by decide +kernel⟩

/-- the other hypotheses of `C194_one_hot` -/
example (e : PyErr) (h' : Heap Unit) (d' : Dataset) := C194_one_hot (p := some [("a", [.str "p", .str "q"])]) (join := " ")
  (str := fun v => match v with | .str s => s | .num _ => "") (h' := h') (d' := d') (e := e)
  (by rintro q hq n l hl
      cases hq
      by_cases hn : "a" = n
      · subst hn; cases hl; decide
      · simp [Dict.get?, hn] at hl)
  excData_consistent
  (by rintro n _ v ⟨l, hl, hv⟩
      by_cases hn : "a" = n
      · subst hn; cases hl
        rcases List.mem_cons.1 hv with rfl | hv
        · decide
        · rw [List.mem_singleton] at hv; subst hv; decide
      · simp [Dict.get?, hn] at hl)
  (by rintro n _ n' _ v v' ⟨l, hl, hv⟩ ⟨l', hl', hv'⟩ he
      by_cases hn : "a" = n
      · by_cases hn' : "a" = n'
        · subst hn; subst hn'; cases hl; cases hl'
          simp only [List.mem_cons, List.not_mem_nil, or_false] at hv hv'
          rcases hv with rfl | rfl <;> rcases hv' with rfl | rfl <;> revert he <;> decide
        · simp [Dict.get?, hn'] at hl'
      · simp [Dict.get?, hn] at hl)

/-- C194: instances can be shared by datasets. If a part of a dataset loses an attribute, `remove_attribute` of the whole raises a KeyError on the way, and
leaves a dataset behind whose instances do not have the same features. The order of the instances is that of a set. -/
theorem C194_shared_witness : ∃ whole part : Dataset, Consistent excHeap whole ∧ Consistent excHeap part ∧ (∀ a ∈ part.instances, a ∈ whole.instances) ∧
    ∃ h1 part1, removeAttributeA "a" (excHeap, part) = (.ok (), (h1, part1)) ∧ (removeAttributeA "a" (h1, whole)).1 = .error .key ∧
    "a" ∉ (removeAttributeA "a" (h1, whole)).2.2.attrs.keys ∧
    ∃ a ∈ whole.instances, "a" ∈ ((removeAttributeA "a" (h1, whole)).2.1 a).features.keys := by
  refine ⟨excData, ⟨[0], [("a", ⟨true, [.str "p"]⟩), ("b", ⟨true, [.str "u"]⟩),
      ("x", ⟨false, [.num 2]⟩), ("y", ⟨false, [.num 7]⟩)], ["a", "b"], ["x", "y"]⟩, excData_consistent, ?_, by decide, _, _, rfl, by decide +kernel, by decide +kernel, 1, by decide, by decide +kernel⟩
  refine addInstance_consistent (new_consistent excHeap (cat := ["a", "b"]) (num := ["x", "y"]) (by decide)) (a := 0) (by decide) ?_
  rw [addInstance_ok (by intro n; simp [excHeap, Dataset.new, Dict.keys, Dict.put]) (by intro b hb; cases hb)]
  rfl

/-- the hypotheses of `C194_unhashable` are met: the value w of a new instance stands for one that is not hashable -/
example : (∀ e ∈ (Dataset.new ["a", "b"] ["x", "y"]).attrs, e.2.values = []) ∧
    (addInstanceH (fun v => decide (v ≠ .str "w")) 1 (excHeap, Dataset.new ["a", "b"] ["x", "y"])).1 = .error .type ∧
    (addInstanceH (fun v => decide (v ≠ .str "w")) 1 (excHeap, Dataset.new ["a", "b"] ["x", "y"])).2.2.instances = [1] :=
  ⟨by decide +kernel, by decide +kernel, by decide +kernel⟩

/-- noise with an empty alphabet raises at the second instance -/
example : (noiseAllA (fun i l => addNoise ([] : List Nat) (1/2) ⟨fun j => if i = 1 ∧ j = 0 then 0 else 1, fun _ => 0⟩ l)
    ((fun i => ⟨.num i, [], [i]⟩ : Heap (List Nat)), ⟨[5, 6, 7], [], [], []⟩)).1 = .error .index := by decide +kernel

end Prolothar.Data
