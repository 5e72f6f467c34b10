import Verif.Model.Transformer
import Verif.Model.TargetDatasets
/-
Model of the label encoding and the one-hot encoding of a `ClassificationDataset`: the transformers call the methods of the class, and
`remove_attribute` is overridden there (classification_dataset.py 36-41). Model/Transformer.lean has the same transformers for the
inherited part of a dataset.
-/
namespace Prolothar.Data

/-- `__transform_attribute`, label_encoding.py 47-65, for a `ClassificationDataset` -/
def labelAttrC (possible : Option (Dict String (List Val))) (s : Heap String × ClassDs) (e : String × Attr) :
    Py (Heap String × ClassDs) := do
  let pv ← possibleValues possible e.1 e.2
  if pv ≠ [] ∧ pv = (List.range pv.length).map (fun i : Nat => Val.num (i : Rat)) then
    return s
  else
    let col ← s.2.base.column s.1 e.1
    let enc ← col.mapM (valueMap pv).getItem
    let s ← s.2.removeAttribute s.1 e.1
    s.2.addCategorical s.1 e.1 enc

/-- `inplace_transform`, label_encoding.py 42-45, for a `ClassificationDataset` -/
def labelEncodeC (possible : Option (Dict String (List Val))) (h : Heap String) (d : ClassDs) : Py (Heap String × ClassDs) :=
  (d.base.attrs.filter fun e => e.2.categorical).foldlM (labelAttrC possible) (h, d)

/-- one_hot_encoding.py 64-72, for one value -/
def oneHotValueC (name join : String) (str : Val → String) (s : Heap String × ClassDs) (v : Val) : Py (Heap String × ClassDs) := do
  let col ← s.2.base.column s.1 name
  s.2.addCategorical s.1 (name ++ join ++ str v) (col.map fun x => if x = v then Val.num 1 else Val.num 0)

/-- `__transform_attribute`, one_hot_encoding.py 53-73, for a `ClassificationDataset` -/
def oneHotAttrC (possible : Option (Dict String (List Val))) (join : String) (str : Val → String) (s : Heap String × ClassDs)
    (e : String × Attr) : Py (Heap String × ClassDs) := do
  let pv ← possibleValues possible e.1 e.2
  if pv = [.num 0, .num 1] then
    return s
  else
    let s ← pv.foldlM (oneHotValueC e.1 join str) s
    s.2.removeAttribute s.1 e.1

/-- `inplace_transform`, one_hot_encoding.py 48-51, for a `ClassificationDataset` -/
def oneHotEncodeC (possible : Option (Dict String (List Val))) (join : String) (str : Val → String) (h : Heap String) (d : ClassDs) :
    Py (Heap String × ClassDs) :=
  (d.base.attrs.filter fun e => e.2.categorical).foldlM (oneHotAttrC possible join str) (h, d)

end Prolothar.Data
