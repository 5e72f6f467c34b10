import Verif.Model.DatasetExc
import Verif.Spec.HalfDone
import Verif.Lemmas.OneHot
/-
The statement by statement model of the datasets agrees with the model of the calls that return.
-/
namespace Prolothar.Data
open Prolothar.Spec.Data Prolothar.Spec.QBins

variable {τ : Type}

/-- if the call returns in the model `p`, it returns in the model `r`, with the same state; if it raises in `p`, it raises the same in `r` -/
def Agree (r : Py Unit × (Heap τ × Dataset)) : Py (Heap τ × Dataset) → Prop
  | .ok s' => r = (.ok (), s')
  | .error e => r.1 = .error e

theorem act_bind {α β : Type} (m : Act τ α) (f : α → Act τ β) (s : Heap τ × Dataset) : (m >>= f) s = match m s with
    | (.ok a, s') => f a s'
    | (.error e, s') => (.error e, s') := rfl

theorem look_bind {α β : Type} (f : Heap τ × Dataset → Py α) (k : α → Act τ β) (s : Heap τ × Dataset) :
    (look f >>= k) s = match f s with
      | .ok a => k a s
      | .error e => (.error e, s) := by
  rw [act_bind]; unfold look; cases f s <;> rfl

theorem look_ok {α β : Type} {f : Heap τ × Dataset → Py α} {k : α → Act τ β} {s : Heap τ × Dataset} {a : α} (h : f s = .ok a) :
    (look f >>= k) s = k a s := by rw [look_bind, h]

theorem look_error {α β : Type} {f : Heap τ × Dataset → Py α} {k : α → Act τ β} {s : Heap τ × Dataset} {e : PyErr} (h : f s = .error e) :
    (look f >>= k) s = (.error e, s) := by rw [look_bind, h]

theorem look_pure {α β : Type} (g : Heap τ × Dataset → α) (k : α → Act τ β) (s : Heap τ × Dataset) :
    (look (fun s => .ok (g s)) >>= k) s = k (g s) s := rfl

theorem change_bind {β : Type} (f : Heap τ × Dataset → Heap τ × Dataset) (k : Unit → Act τ β) (s : Heap τ × Dataset) :
    (change f >>= k) s = k () (f s) := rfl

theorem Agree.bind {m : Act τ Unit} {k : Unit → Act τ Unit} {s : Heap τ × Dataset} {p : Py (Heap τ × Dataset)}
    {q : Heap τ × Dataset → Py (Heap τ × Dataset)} (h1 : Agree (m s) p) (h2 : ∀ s', p = .ok s' → Agree (k () s') (q s')) :
    Agree ((m >>= k) s) (p >>= q) := by
  cases p with
  | error e =>
    unfold Agree at h1
    rw [act_bind]
    show (_ : Py Unit) = _
    revert h1
    cases hm : m s with
    | mk r s' => intro h1; simp only at h1; subst h1; rfl
  | ok s' =>
    have h1' : m s = (.ok (), s') := h1
    rw [act_bind, h1']
    exact h2 s' rfl

theorem Agree.look {α : Type} {f : Heap τ × Dataset → Py α} {k : α → Act τ Unit} {s : Heap τ × Dataset} {q : α → Py (Heap τ × Dataset)}
    (h : ∀ a, f s = .ok a → Agree (k a s) (q a)) : Agree ((look f >>= k) s) (f s >>= q) := by
  rw [look_bind]
  cases hf : f s with
  | error e => exact rfl
  | ok a => exact h a hf

theorem Agree.forAll {α : Type} {body : α → Act τ Unit} {m : Heap τ × Dataset → α → Py (Heap τ × Dataset)}
    (h : ∀ x s, Agree (body x s) (m s x)) : ∀ (l : List α) (s : Heap τ × Dataset), Agree (forAll body l s) (l.foldlM m s)
  | [], _ => rfl
  | x :: l, s => by
    rw [List.foldlM_cons]
    exact Agree.bind (k := fun _ => Data.forAll body l) (h x s) fun s' _ => Agree.forAll h l s'

theorem Agree.error {r : Py Unit × (Heap τ × Dataset)} {p : Py (Heap τ × Dataset)} (h : Agree r p) {e : PyErr} (hr : r.1 = .error e) : p = .error e := by
  cases p with
  | error e' => have h' : r.1 = .error e' := h; rw [hr] at h'; cases h'; rfl
  | ok s' => have h' : r = (.ok (), s') := h; rw [h'] at hr; cases hr

theorem Agree.ok {r : Py Unit × (Heap τ × Dataset)} {p : Py (Heap τ × Dataset)} (h : Agree r p) {s' : Heap τ × Dataset} (hr : r = (.ok (), s')) :
    p = .ok s' := by
  cases p with
  | error e => have h' : r.1 = .error e := h; rw [hr] at h'; cases h'
  | ok s1 => have h' : r = (.ok (), s1) := h; rw [hr] at h'; cases h'; rfl

theorem forAll_removeFeature (name : String) : ∀ (l : List Nat) (h : Heap τ) (d : Dataset),
    Agree (forAll (removeFeatureA name) l (h, d)) ((l.foldlM (fun h i => removeFeature h i name) h) >>= fun h => .ok (h, d))
  | [], _, _ => rfl
  | a :: l, h, d => by
    have e : forAll (removeFeatureA name) (a :: l) (h, d) = (removeFeatureA name a >>= fun _ => forAll (removeFeatureA name) l) (h, d) := rfl
    rw [e, act_bind, List.foldlM_cons]
    unfold removeFeatureA removeFeature
    rw [look_bind]
    dsimp only
    cases hg : (h a).features.getItem name with
    | error e => exact rfl
    | ok v => exact forAll_removeFeature name l _ d

theorem agree_removeAttribute (name : String) (s : Heap τ × Dataset) : Agree (removeAttributeA name s) (s.2.removeAttribute s.1 name) := by
  unfold removeAttributeA Dataset.removeAttribute
  refine Agree.look fun a _ => ?_
  rw [change_bind]
  by_cases hc : a.categorical = true
  · simp only [if_pos hc]
    rw [look_bind]
    dsimp only
    cases listRemove s.2.catNames name with
    | error e => exact rfl
    | ok l => exact forAll_removeFeature name s.2.instances s.1 { s.2 with attrs := s.2.attrs.del name, catNames := l }
  · simp only [if_neg hc]
    rw [look_bind]
    dsimp only
    cases listRemove s.2.numNames name with
    | error e => exact rfl
    | ok l => exact forAll_removeFeature name s.2.instances s.1 { s.2 with attrs := s.2.attrs.del name, numNames := l }

theorem forAll_setFeature (name : String) : ∀ (l : List (Val × Nat)) (s : Heap τ × Dataset),
    forAll (setFeatureA name) l s = (.ok (), (setAll name s.1 l, s.2))
  | [], _ => rfl
  | e :: l, s => by
    have h : forAll (setFeatureA name) (e :: l) s =
      forAll (setFeatureA name) l (upd s.1 e.2 { s.1 e.2 with features := (s.1 e.2).features.put name e.1 }, s.2) := rfl
    rw [h, forAll_setFeature name l]; rfl

theorem addCategoricalA_eq (name : String) (vs : List Val) (s : Heap τ × Dataset) : addCategoricalA name vs s =
    if s.2.instances.length ≠ vs.length then (.error .value, s) else
      (.ok (), (setAll name s.1 (vs.zip s.2.instances),
        { s.2 with attrs := s.2.attrs.put name ⟨true, toSet vs⟩, catNames := s.2.catNames ++ [name] })) := by
  unfold addCategoricalA
  rw [look_ok (a := s.2.instances.length) rfl]
  split
  · rfl
  · exact forAll_setFeature name _ _

theorem addNumericalA_eq (name : String) (vs : List Val) (s : Heap τ × Dataset) : addNumericalA name vs s =
    if s.2.instances.length ≠ vs.length then (.error .value, s) else
      (.ok (), (setAll name s.1 (vs.zip s.2.instances),
        { s.2 with attrs := s.2.attrs.put name ⟨false, toSet vs⟩, numNames := s.2.numNames ++ [name] })) := by
  unfold addNumericalA
  rw [look_ok (a := s.2.instances.length) rfl]
  split
  · rfl
  · exact forAll_setFeature name _ _

theorem agree_addCategorical (name : String) (vs : List Val) (s : Heap τ × Dataset) :
    Agree (addCategoricalA name vs s) (s.2.addCategorical s.1 name vs) := by
  rw [addCategoricalA_eq]; unfold Dataset.addCategorical
  split <;> exact rfl

theorem agree_addNumerical (name : String) (vs : List Val) (s : Heap τ × Dataset) :
    Agree (addNumericalA name vs s) (s.2.addNumerical s.1 name vs) := by
  rw [addNumericalA_eq]; unfold Dataset.addNumerical
  split <;> exact rfl

/-! ### adding an instance -/

theorem addValues_eq (a : Nat) (h : Heap τ) : ∀ (names : List String) (d : Dataset), (∀ n ∈ names, n ∈ (h a).features.keys) → names.Nodup →
    forAll (addValueA a) names (h, d) = (.ok (), (h, { d with attrs := d.attrs.map fun e =>
      if e.1 ∈ names then (e.1, ((h a).features.get? e.1).elim e.2 e.2.add) else e }))
  | [], d, _, _ => by
    have : (d.attrs.map fun e : String × Attr => if e.1 ∈ ([] : List String) then (e.1, ((h a).features.get? e.1).elim e.2 e.2.add) else e) = d.attrs := by
      simp
    rw [this]; rfl
  | n :: names, d, hk, hnd => by
    obtain ⟨v, hv⟩ := Dict.mem_keys_iff.1 (hk n (by simp))
    rw [List.nodup_cons] at hnd
    have e : forAll (addValueA a) (n :: names) (h, d) = (addValueA a n >>= fun _ => forAll (addValueA a) names) (h, d) := rfl
    have hi : (h a).features.getItem n = .ok v := by unfold Dict.getItem; rw [hv]
    have e2 : addValueA a n (h, d) = (.ok (), (h, { d with attrs := d.attrs.map fun e => if e.1 = n then (e.1, e.2.add v) else e })) := by
      unfold addValueA
      rw [look_ok (a := v) hi]; rfl
    rw [e, act_bind, e2]
    dsimp only
    rw [addValues_eq a h names _ (fun m hm => hk m (List.mem_cons_of_mem _ hm)) hnd.2]
    congr 3
    dsimp only
    rw [List.map_map]
    apply List.map_congr_left
    intro x _
    simp only [Function.comp]
    by_cases hx : x.1 = n
    · rw [if_pos hx]
      dsimp only
      rw [hx, if_neg hnd.1, if_pos (by simp), hv]; rfl
    · rw [if_neg hx]
      by_cases hx2 : x.1 ∈ names
      · rw [if_pos hx2, if_pos (List.mem_cons_of_mem _ hx2)]
      · rw [if_neg hx2, if_neg (by simp [hx, hx2])]

theorem addInstanceA_eq (a : Nat) (h : Heap τ) (d : Dataset) (hnd : d.attrs.keys.Nodup) : addInstanceA a (h, d) =
    match d.addInstance h a with
    | .ok d' => (.ok (), (h, d'))
    | .error e => (.error e, (h, d)) := by
  unfold addInstanceA
  rw [look_pure]
  by_cases h1 : ((∀ n ∈ (h a).features.keys, n ∈ d.attrs.keys) ∧ ∀ n ∈ d.attrs.keys, n ∈ (h a).features.keys)
  · rw [if_neg (by simpa using h1), look_pure]
    by_cases h2 : ∃ b ∈ d.instances, (h b).id = (h a).id
    · rw [if_pos (by simpa using h2)]
      unfold Dataset.addInstance
      rw [if_neg (by simpa using h1), if_pos h2]; rfl
    · rw [if_neg (by simpa using h2), change_bind, look_pure]
      dsimp only
      rw [addValues_eq a h _ _ h1.2 hnd]
      unfold Dataset.addInstance
      rw [if_neg (by simpa using h1), if_neg h2, addAttrs_eq d.attrs h1.2]
      dsimp only [bind, Except.bind, pure, Except.pure]
      congr 3
      unfold addedAttrs
      apply List.map_congr_left
      intro x hx
      rw [if_pos (show x.1 ∈ d.attrs.keys from List.mem_map_of_mem (f := Prod.fst) hx)]
  · rw [if_pos (decide_eq_true h1)]
    unfold Dataset.addInstance
    rw [if_pos h1]; rfl

/-! ### the transformers -/

theorem agree_labelAttr (p : Option (Dict String (List Val))) (e : String × Attr) (s : Heap τ × Dataset) :
    Agree (labelAttrA p e s) (labelAttr p s e) := by
  unfold labelAttrA labelAttr
  refine Agree.look (f := fun _ => possibleValues p e.1 e.2) fun pv _ => ?_
  split
  · exact rfl
  · refine Agree.look fun col _ => Agree.look (f := fun _ => col.mapM (valueMap pv).getItem) fun enc _ => ?_
    exact Agree.bind (agree_removeAttribute e.1 s) fun s' _ => agree_addCategorical _ _ _

theorem agree_oneHotAttr (p : Option (Dict String (List Val))) (join : String) (str : Val → String) (e : String × Attr) (s : Heap τ × Dataset) :
    Agree (oneHotAttrA p join str e s) (oneHotAttr p join str s e) := by
  unfold oneHotAttrA oneHotAttr
  refine Agree.look (f := fun _ => possibleValues p e.1 e.2) fun pv _ => ?_
  split
  · exact rfl
  · refine Agree.bind (Agree.forAll (fun v s => ?_) pv s) fun s' _ => agree_removeAttribute _ _
    unfold oneHotValueA oneHotValue
    exact Agree.look fun col _ => agree_addCategorical _ _ _

theorem agree_minMaxAttr (lo hi : Rat) (e : String × Attr) (s : Heap τ × Dataset) : Agree (minMaxAttrA lo hi e s) (minMaxAttr lo hi s e) := by
  unfold minMaxAttrA minMaxAttr
  refine Agree.look fun col _ => Agree.look (f := fun _ => col.mapM Val.toNum) fun nums _ => Agree.look (f := fun _ => pyMin nums) fun mn _ =>
    Agree.look (f := fun _ => pyMax nums) fun mx _ => Agree.look (f := fun _ => nums.mapM (scaleValue lo hi mn mx)) fun sc _ => ?_
  exact Agree.bind (agree_removeAttribute e.1 s) fun s' _ => agree_addNumerical _ _ _

theorem agree_quantileAttr (bins : Int) (fmt : Rat → String) (str : Val → String) (e : String × Attr) (s : Heap τ × Dataset) :
    Agree (quantileAttrA bins fmt str e s) (quantileAttr bins fmt str s e) := by
  unfold quantileAttrA quantileAttr
  refine Agree.look fun col _ => Agree.look fun attr _ => Agree.look (f := fun _ => quantileLabels bins fmt str attr col) fun l _ => ?_
  exact Agree.bind (agree_removeAttribute e.1 s) fun s' _ => agree_addCategorical _ _ _

theorem agree_qbinsAttr (fmt : Ival → String) (dict : Dict String (List Ival)) (e : String × Attr) (s : Heap τ × Dataset) :
    Agree (qbinsAttrA fmt dict e s) (qbinsAttr fmt dict s e) := by
  unfold qbinsAttrA qbinsAttr
  refine Agree.look (f := fun _ => dict.getItem e.1) fun bins _ => Agree.look fun col _ =>
    Agree.look (f := fun _ => col.mapM (binLabel fmt bins)) fun l _ => ?_
  exact Agree.bind (agree_removeAttribute e.1 s) fun s' _ => agree_addCategorical _ _ _

theorem agree_forAttributes {sel : String × Attr → Bool} {body : String × Attr → Act τ Unit}
    {m : Heap τ × Dataset → String × Attr → Py (Heap τ × Dataset)} (h : ∀ x s, Agree (body x s) (m s x)) (s : Heap τ × Dataset) :
    Agree (forAttributes sel body s) ((s.2.attrs.filter sel).foldlM m s) := by
  unfold forAttributes
  rw [look_pure]
  exact Agree.forAll h _ _

theorem forAttributes_eq (sel : String × Attr → Bool) (body : String × Attr → Act τ Unit) (s : Heap τ × Dataset) :
    forAttributes sel body s = forAll body (s.2.attrs.filter sel) s := by
  unfold forAttributes
  rw [look_pure]

end Prolothar.Data
