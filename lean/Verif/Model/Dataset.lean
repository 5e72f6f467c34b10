import Verif.Model.Dict
import Verif.Model.Upd
import Mathlib.Data.Rat.Floor
import Mathlib.Data.List.Sort
/-
Model of prolothar_common/models/dataset/{dataset,attributes}.py and instance.pyx. Instances are objects which may
be shared between datasets: they are addresses of a heap. A python set is a list without duplicates in an
unspecified order. Every instance owns its feature dictionary.
-/
namespace Prolothar.Data

/-- attribute values and ids: numbers (exact; python compares `1`, `1.0` and `True` as equal) and strings; used for instance.pyx 23-25 -/
inductive Val where
  | num (q : Rat)
  | str (s : String)
  deriving DecidableEq

/-- instance.pyx, `Instance.__init__` 23-25 and its subclasses: `target` is the class label, the set of labels, the
multiset or the target sequence -/
structure Inst (τ : Type) where
  id : Val
  features : Dict String Val
  target : τ

/-- the instance objects; used for dataset.py 45-60 -/
abbrev Heap (τ : Type) := Nat → Inst τ

/-- attributes.py, `CategoricalAttribute` 55-70 and `NumericalAttribute` 72-88 -/
structure Attr where
  categorical : Bool
  values : List Val
  deriving DecidableEq

/-- `add_value`, attributes.py 43-48 -/
def Attr.add (a : Attr) (v : Val) : Attr := if v ∈ a.values then a else { a with values := a.values ++ [v] }

/-- `set(values)`; used for dataset.py 78-86 -/
def toSet (l : List Val) : List Val := l.foldl (fun s v => if v ∈ s then s else s ++ [v]) []

/-- `Dataset`, dataset.py 28-43 -/
structure Dataset where
  instances : List Nat
  attrs : Dict String Attr
  catNames : List String
  numNames : List String

/-- `Dataset.__init__`, dataset.py 31-43 -/
def Dataset.new (cat num : List String) : Dataset :=
  { instances := []
    attrs := num.foldl (fun a n => Dict.put a n ⟨false, []⟩) (cat.foldl (fun a n => Dict.put a n ⟨true, []⟩) [])
    catNames := cat
    numNames := num }

variable {τ : Type}

/-- `add_instance`, dataset.py 45-60 -/
def Dataset.addInstance (h : Heap τ) (d : Dataset) (a : Nat) : Py Dataset :=
  if ¬ ((∀ n ∈ (h a).features.keys, n ∈ d.attrs.keys) ∧ ∀ n ∈ d.attrs.keys, n ∈ (h a).features.keys) then .error .value
  else if ∃ b ∈ d.instances, (h b).id = (h a).id then .error .value
  else do
    let attrs ← d.attrs.mapM fun e => do
      let v ← (h a).features.getItem e.1
      return (e.1, e.2.add v)
    return { d with instances := d.instances ++ [a], attrs := attrs }

/-- `instance in dataset`, dataset.py 62-63 -/
def Dataset.contains (h : Heap τ) (d : Dataset) (a : Nat) : Bool := decide (∃ b ∈ d.instances, (h b).id = (h a).id)

/-- `Instance.remove_feature`, instance.pyx 40-44 -/
def removeFeature (h : Heap τ) (a : Nat) (name : String) : Py (Heap τ) := do
  let _ ← (h a).features.getItem name
  return upd h a { h a with features := (h a).features.del name }

/-- `list.remove`; used for dataset.py 65-76 -/
def listRemove (l : List String) (x : String) : Py (List String) := if x ∈ l then .ok (l.erase x) else .error .value

/-- `remove_attribute`, dataset.py 65-76 -/
def Dataset.removeAttribute (h : Heap τ) (d : Dataset) (name : String) : Py (Heap τ × Dataset) := do
  let a ← d.attrs.getItem name
  let cat ← if a.categorical then listRemove d.catNames name else .ok d.catNames
  let num ← if a.categorical then .ok d.numNames else listRemove d.numNames name
  let h ← d.instances.foldlM (fun h i => removeFeature h i name) h
  return (h, { d with attrs := d.attrs.del name, catNames := cat, numNames := num })

/-- `instance[name] = value` for all pairs, dataset.py 85-86, 95-96 -/
def setAll (name : String) (h : Heap τ) (l : List (Val × Nat)) : Heap τ :=
  l.foldl (fun h e => upd h e.2 { h e.2 with features := (h e.2).features.put name e.1 }) h

/-- `add_categorical_attribute`, dataset.py 78-86 -/
def Dataset.addCategorical (h : Heap τ) (d : Dataset) (name : String) (values : List Val) : Py (Heap τ × Dataset) :=
  if d.instances.length ≠ values.length then .error .value
  else .ok (setAll name h (values.zip d.instances),
    { d with attrs := d.attrs.put name ⟨true, toSet values⟩, catNames := d.catNames ++ [name] })

/-- `add_numerical_attribute`, dataset.py 88-96 -/
def Dataset.addNumerical (h : Heap τ) (d : Dataset) (name : String) (values : List Val) : Py (Heap τ × Dataset) :=
  if d.instances.length ≠ values.length then .error .value
  else .ok (setAll name h (values.zip d.instances),
    { d with attrs := d.attrs.put name ⟨false, toSet values⟩, numNames := d.numNames ++ [name] })

/-- `get_subdataset`, dataset.py 113-119, and the loops which fill the results of `split`, `random_subset` -/
def Dataset.sub (h : Heap τ) (d : Dataset) (l : List Nat) : Py Dataset :=
  l.foldlM (Dataset.addInstance h) (Dataset.new d.catNames d.numNames)

/-- `copy`, dataset.py 193-202: the copies of the instances are stored at the addresses `next, next + 1, …` -/
def Dataset.copy (h : Heap τ) (next : Nat) (d : Dataset) : Py (Heap τ × Dataset) :=
  d.instances.zipIdx.foldlM (fun (s : Heap τ × Dataset) e => do
    let h := upd s.1 (next + e.2) (s.1 e.1)
    let d ← s.2.addInstance h (next + e.2)
    return (h, d)) (h, Dataset.new d.catNames d.numNames)

/-- `split`, dataset.py 204-242; `shuffled` is the list of instances after shuffling -/
def Dataset.split (h : Heap τ) (d : Dataset) (p : Rat) (shuffled : List Nat) : Py (Dataset × Dataset) :=
  if ¬ (0 < p ∧ p < 1) then .error .value
  else do
    let k := ⌊(d.instances.length : Rat) - d.instances.length * p⌋.toNat
    let train ← d.sub h (shuffled.take k)
    let test ← d.sub h (shuffled.drop k)
    return (train, test)

/-- `random_subset`, dataset.py 244-275 -/
def Dataset.randomSubset (h : Heap τ) (d : Dataset) (size : Int) (shuffled : List Nat) : Py Dataset :=
  if size < 0 ∨ size > d.instances.length then .error .value else d.sub h (shuffled.take size.toNat)

/-- the body of the loop of `group_by_categorical_attribute`, dataset.py 290-291 -/
def groupStep (h : Heap τ) (name : String) (g : Dict Val Dataset) (a : Nat) : Py (Dict Val Dataset) := do
  let v ← (h a).features.getItem name
  let s ← g.getItem v
  let s ← s.addInstance h a
  return g.put v s

/-- `group_by_categorical_attribute`, dataset.py 277-292 -/
def Dataset.groupBy (h : Heap τ) (d : Dataset) (name : String) : Py (Dict Val Dataset) := do
  let a ← d.attrs.getItem name
  d.instances.foldlM (groupStep h name) (a.values.map fun v => (v, Dataset.new d.catNames d.numNames))

end Prolothar.Data
