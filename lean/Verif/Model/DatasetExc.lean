import Verif.Model.QBins
/-
The methods of Dataset (prolothar_common/models/dataset/dataset.py) and the transformers once more, statement by
statement: a call has a result or an exception and, in both cases, leaves a heap of instances and a dataset behind.
Model/Dataset.lean and Model/Transformer.lean describe the calls that return.
-/
namespace Prolothar.Data
open Prolothar.Spec.QBins

variable {τ : Type}

/-- a statement: it ends with a result or an exception, and leaves instances and a dataset behind; used for dataset.py 45-96 -/
def Act (τ α : Type) := Heap τ × Dataset → Py α × (Heap τ × Dataset)

/-- one statement after the other: the second is not executed if the first raises; used for dataset.py 45-96 -/
instance : Monad (Act τ) where
  pure a := fun s => (.ok a, s)
  bind m f := fun s => match m s with
    | (.ok a, s') => f a s'
    | (.error e, s') => (.error e, s')

/-- an expression that changes nothing, but may raise; used for dataset.py 45-96 -/
def look {α : Type} (f : Heap τ × Dataset → Py α) : Act τ α := fun s => (f s, s)

/-- a change of the instances or of the dataset; used for dataset.py 45-96 -/
def change (f : Heap τ × Dataset → Heap τ × Dataset) : Act τ Unit := fun s => (.ok (), f s)

/-- `raise`; used for dataset.py 49-57, 79-81 -/
def fail (e : PyErr) : Act τ Unit := fun s => (.error e, s)

/-- `for x in l`; used for dataset.py 59-60, 75-76, 85-86 -/
def forAll {α : Type} (body : α → Act τ Unit) : List α → Act τ Unit
  | [] => pure ()
  | x :: l => do body x; forAll body l

/-- `attribute.add_value(instance[attribute_name])`, dataset.py 60 -/
def addValueA (a : Nat) (name : String) : Act τ Unit := do
  let v ← look fun s => (s.1 a).features.getItem name
  change fun s => (s.1, { s.2 with attrs := s.2.attrs.map fun e => if e.1 = name then (e.1, e.2.add v) else e })

/-- `add_instance`, dataset.py 45-60 -/
def addInstanceA (a : Nat) : Act τ Unit := do
  let different ← look fun s => .ok (decide
    (¬ ((∀ n ∈ (s.1 a).features.keys, n ∈ s.2.attrs.keys) ∧ ∀ n ∈ s.2.attrs.keys, n ∈ (s.1 a).features.keys)))
  if different then fail .value
  else
    let known ← look fun s => .ok (decide (∃ b ∈ s.2.instances, (s.1 b).id = (s.1 a).id))
    if known then fail .value
    else
      change fun s => (s.1, { s.2 with instances := s.2.instances ++ [a] })
      let names ← look fun s => .ok s.2.attrs.keys
      forAll (addValueA a) names

/-- `attribute.add_value(instance[attribute_name])`, dataset.py 60, attributes.py 43-48, with features of any kind: a set raises a
TypeError for a value that is not hashable, such as a list. `hashable` tells which of the values are; everywhere else in the model all are. -/
def addValueH (hashable : Val → Bool) (a : Nat) (name : String) : Act τ Unit := do
  let v ← look fun s => (s.1 a).features.getItem name
  if hashable v then
    change fun s => (s.1, { s.2 with attrs := s.2.attrs.map fun e => if e.1 = name then (e.1, e.2.add v) else e })
  else fail .type

/-- `add_instance`, dataset.py 45-60, with features of any kind -/
def addInstanceH (hashable : Val → Bool) (a : Nat) : Act τ Unit := do
  let different ← look fun s => .ok (decide
    (¬ ((∀ n ∈ (s.1 a).features.keys, n ∈ s.2.attrs.keys) ∧ ∀ n ∈ s.2.attrs.keys, n ∈ (s.1 a).features.keys)))
  if different then fail .value
  else
    let known ← look fun s => .ok (decide (∃ b ∈ s.2.instances, (s.1 b).id = (s.1 a).id))
    if known then fail .value
    else
      change fun s => (s.1, { s.2 with instances := s.2.instances ++ [a] })
      let names ← look fun s => .ok s.2.attrs.keys
      forAll (addValueH hashable a) names

/-- `Instance.remove_feature`, instance.pyx 40-44 -/
def removeFeatureA (name : String) (a : Nat) : Act τ Unit := do
  let _ ← look fun s => (s.1 a).features.getItem name
  change fun s => (upd s.1 a { s.1 a with features := (s.1 a).features.del name }, s.2)

/-- `remove_attribute`, dataset.py 65-76 -/
def removeAttributeA (name : String) : Act τ Unit := do
  let a ← look fun s => s.2.attrs.getItem name
  change fun s => (s.1, { s.2 with attrs := s.2.attrs.del name })
  if a.categorical then
    let l ← look fun s => listRemove s.2.catNames name
    change fun s => (s.1, { s.2 with catNames := l })
  else
    let l ← look fun s => listRemove s.2.numNames name
    change fun s => (s.1, { s.2 with numNames := l })
  let instances ← look fun s => .ok s.2.instances
  forAll (removeFeatureA name) instances

/-- `instance[attribute_name] = value`, dataset.py 86, 96 and instance.pyx 49-50 -/
def setFeatureA (name : String) (e : Val × Nat) : Act τ Unit :=
  change fun s => (upd s.1 e.2 { s.1 e.2 with features := (s.1 e.2).features.put name e.1 }, s.2)

/-- `add_categorical_attribute`, dataset.py 78-86 -/
def addCategoricalA (name : String) (values : List Val) : Act τ Unit := do
  let n ← look fun s => .ok s.2.instances.length
  if n ≠ values.length then fail .value
  else
    change fun s => (s.1, { s.2 with attrs := s.2.attrs.put name ⟨true, toSet values⟩ })
    change fun s => (s.1, { s.2 with catNames := s.2.catNames ++ [name] })
    let instances ← look fun s => .ok s.2.instances
    forAll (setFeatureA name) (values.zip instances)

/-- `add_numerical_attribute`, dataset.py 88-96 -/
def addNumericalA (name : String) (values : List Val) : Act τ Unit := do
  let n ← look fun s => .ok s.2.instances.length
  if n ≠ values.length then fail .value
  else
    change fun s => (s.1, { s.2 with attrs := s.2.attrs.put name ⟨false, toSet values⟩ })
    change fun s => (s.1, { s.2 with numNames := s.2.numNames ++ [name] })
    let instances ← look fun s => .ok s.2.instances
    forAll (setFeatureA name) (values.zip instances)

/-- `__transform_attribute`, label_encoding.py 47-65, see `labelAttr` -/
def labelAttrA (possible : Option (Dict String (List Val))) (e : String × Attr) : Act τ Unit := do
  let pv ← look fun _ => possibleValues possible e.1 e.2
  if pv ≠ [] ∧ pv = (List.range pv.length).map (fun i : Nat => Val.num (i : Rat)) then
    pure ()
  else
    let col ← look fun s => s.2.column s.1 e.1
    let enc ← look fun _ => col.mapM (valueMap pv).getItem
    removeAttributeA e.1
    addCategoricalA e.1 enc

/-- the body of the loop of one_hot_encoding.py 64-72 -/
def oneHotValueA (name join : String) (str : Val → String) (v : Val) : Act τ Unit := do
  let col ← look fun s => s.2.column s.1 name
  addCategoricalA (name ++ join ++ str v) (col.map fun x => if x = v then Val.num 1 else Val.num 0)

/-- `__transform_attribute`, one_hot_encoding.py 53-73, see `oneHotAttr` -/
def oneHotAttrA (possible : Option (Dict String (List Val))) (join : String) (str : Val → String) (e : String × Attr) : Act τ Unit := do
  let pv ← look fun _ => possibleValues possible e.1 e.2
  if pv = [.num 0, .num 1] then
    pure ()
  else
    forAll (oneHotValueA e.1 join str) pv
    removeAttributeA e.1

/-- `__transform_attribute`, min_max_scaling.py 48-58, see `minMaxAttr` -/
def minMaxAttrA (lo hi : Rat) (e : String × Attr) : Act τ Unit := do
  let col ← look fun s => s.2.column s.1 e.1
  let nums ← look fun _ => col.mapM Val.toNum
  let mn ← look fun _ => pyMin nums
  let mx ← look fun _ => pyMax nums
  let scaled ← look fun _ => nums.mapM (scaleValue lo hi mn mx)
  removeAttributeA e.1
  addNumericalA e.1 (scaled.map Val.num)

/-- `__transform_attribute`, quantile_based_discretization.py 38-51, see `quantileAttr` -/
def quantileAttrA (bins : Int) (fmt : Rat → String) (str : Val → String) (e : String × Attr) : Act τ Unit := do
  let col ← look fun s => s.2.column s.1 e.1
  let attr ← look fun s => s.2.attrs.getItem e.1
  let labels ← look fun _ => quantileLabels bins fmt str attr col
  removeAttributeA e.1
  addCategoricalA e.1 labels

/-- `__transform_attribute`, trainable_q_based_discretization.py 42-55, see `qbinsAttr` -/
def qbinsAttrA (fmt : Ival → String) (dict : Dict String (List Ival)) (e : String × Attr) : Act τ Unit := do
  let bins ← look fun _ => dict.getItem e.1
  let col ← look fun s => s.2.column s.1 e.1
  let labels ← look fun _ => col.mapM (binLabel fmt bins)
  removeAttributeA e.1
  addCategoricalA e.1 labels

/-- `inplace_transform`: the loop over the attributes the dataset has at the beginning, label_encoding.py 42-45,
one_hot_encoding.py 48-51, min_max_scaling.py 43-46, quantile_based_discretization.py 33-36,
trainable_q_based_discretization.py 37-40, remove_attrs_with_one_value.py 27-30, select_attributes.py 32-35 -/
def forAttributes (sel : String × Attr → Bool) (body : String × Attr → Act τ Unit) : Act τ Unit := do
  let attrs ← look fun s => .ok s.2.attrs
  forAll body (attrs.filter sel)

/-- label_encoding.py 42-45 -/
def labelEncodeA (possible : Option (Dict String (List Val))) : Act τ Unit := forAttributes (fun e => e.2.categorical) (labelAttrA possible)

/-- one_hot_encoding.py 48-51 -/
def oneHotEncodeA (possible : Option (Dict String (List Val))) (join : String) (str : Val → String) : Act τ Unit :=
  forAttributes (fun e => e.2.categorical) (oneHotAttrA possible join str)

/-- min_max_scaling.py 43-46 -/
def minMaxScaleA (lo hi : Rat) : Act τ Unit := forAttributes (fun e => !e.2.categorical) (minMaxAttrA lo hi)

/-- quantile_based_discretization.py 33-36 -/
def quantileDiscretizeA (bins : Int) (fmt : Rat → String) (str : Val → String) : Act τ Unit :=
  forAttributes (fun e => !e.2.categorical) (quantileAttrA bins fmt str)

/-- trainable_q_based_discretization.py 37-40 -/
def qbinsTransformA (fmt : Ival → String) (dict : Dict String (List Ival)) : Act τ Unit :=
  forAttributes (fun e => !e.2.categorical) (qbinsAttrA fmt dict)

/-- remove_attrs_with_one_value.py 27-30 -/
def removeConstantA : Act τ Unit := forAttributes (fun e => e.2.values.length == 1) fun e => removeAttributeA e.1

/-- select_attributes.py 32-35 -/
def selectAttributesA (names : List String) : Act τ Unit := forAttributes (fun e => decide (e.1 ∉ names)) fun e => removeAttributeA e.1

/-- the body of the loop of the noises on target sequences, target_sequence_add_noise.py 38-39, see `noiseAll`; `e` is an
instance and its number in the order of the visits -/
def noiseA {σ : Type} (f : Nat → List σ → Py (List σ)) (e : Nat × Nat) : Act (List σ) Unit := do
  let t ← look fun s => f e.2 (s.1 e.1).target
  change fun s => (upd s.1 e.1 { s.1 e.1 with target := t }, s.2)

/-- target_sequence_add_noise.py 37-39 -/
def noiseAllA {σ : Type} (f : Nat → List σ → Py (List σ)) : Act (List σ) Unit := do
  let instances ← look fun s => .ok s.2.instances
  forAll (noiseA f) instances.zipIdx

/-- the loop of `copy`, dataset.py 200-201, which fills the new dataset; `e` is an instance and its number -/
def copyStepA (next : Nat) (e : Nat × Nat) : Act τ Unit := do
  change fun s => (upd s.1 (next + e.2) (s.1 e.1), s.2)
  addInstanceA (next + e.2)

/-- `copy`, dataset.py 193-202: the dataset in the state is the new one -/
def copyA (next : Nat) (d : Dataset) (h : Heap τ) : Py Unit × (Heap τ × Dataset) :=
  forAll (copyStepA next) d.instances.zipIdx (h, Dataset.new d.catNames d.numNames)

/-- what a call of `transform` leaves behind: the instances, the given dataset and the result or exception, dataset_transformer.py 28-49 -/
structure Outcome (τ : Type) where
  heap : Heap τ
  given : Dataset
  result : Py Dataset

/-- the result of a call that changes the dataset `s.2`, dataset_transformer.py 48-49 -/
def resultOf (r : Py Unit × (Heap τ × Dataset)) : Py Dataset := r.1.map fun _ => r.2.2

/-- `DatasetTransformer.transform`, dataset_transformer.py 28-49; the changes go to the copy unless `inplace` -/
def transformA (f : Act τ Unit) (inplace : Bool) (next : Nat) (h : Heap τ) (d : Dataset) : Outcome τ :=
  if inplace then
    let r := f (h, d)
    ⟨r.2.1, r.2.2, resultOf r⟩
  else
    match copyA next d h with
    | (.error e, s) => ⟨s.1, d, .error e⟩
    | (.ok _, s) =>
      let r := f s
      ⟨r.2.1, d, resultOf r⟩

end Prolothar.Data
