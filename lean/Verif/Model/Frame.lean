import Verif.Model.Dataset
/-
Model of `to_dataframe` and `create_from_pandas`, prolothar_common/models/dataset/dataset.py. A data frame is represented by its index,
column names and rows. Conversions of column types in pandas (numbers to floats, missing values) are not modelled.
-/
namespace Prolothar.Data

/-- a pandas data frame, dataset.py 173-191 and 362-389 -/
structure Frame where
  index : List Val
  columns : List String
  rows : List (List Val)
deriving DecidableEq

variable {τ : Type}

/-- `to_dataframe`, dataset.py 173-191 -/
def Dataset.toFrame (h : Heap τ) (d : Dataset) : Py Frame := do
  let names := d.catNames ++ d.numNames
  let rows ← d.instances.mapM fun a => names.mapM fun n => (h a).features.getItem n
  return ⟨d.instances.map fun a => (h a).id, names, rows⟩

/-- `row[a]`: a KeyError for an unknown column. A column name that occurs twice gives a series, which cannot be added to the set of
values of an attribute: TypeError (raised here, not when the instance is added). Used for dataset.py 385-387. -/
def rowGet (columns : List String) (row : List Val) (n : String) : Py Val :=
  if 1 < columns.count n then .error .type else Dict.getItem (columns.zip row) n

/-- the features of a new instance, dataset.py 385-387 -/
def rowFeatures (columns : List String) (row : List Val) (names : List String) : Py (Dict String Val) :=
  names.foldlM (fun f n => do let v ← rowGet columns row n; return f.put n v) []

/-- the instances created so far; number `i` is stored at the address `i`; used for dataset.py 384-387 -/
def frameHeap (l : List (Inst Unit)) : Heap Unit := fun i => l.getD i ⟨.num 0, [], ()⟩

/-- the loop body, dataset.py 384-387 -/
def frameStep (columns names : List String) (s : List (Inst Unit) × Dataset) (e : Val × List Val) : Py (List (Inst Unit) × Dataset) := do
  let f ← rowFeatures columns e.2 names
  let l := s.1 ++ [⟨e.1, f, ()⟩]
  let d ← s.2.addInstance (frameHeap l) s.1.length
  return (l, d)

/-- `create_from_pandas`, dataset.py 361-388 -/
def createFromFrame (f : Frame) (cat num : List String) : Py (Heap Unit × Dataset) := do
  let s ← (f.index.zip f.rows).foldlM (frameStep f.columns (cat ++ num)) ([], Dataset.new cat num)
  return (frameHeap s.1, s.2)

end Prolothar.Data
