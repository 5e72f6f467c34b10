import Verif.Model.Py
import Mathlib.Data.Finset.Basic
/-
Model of /repo/prolothar_common/collections/two_way_dict.py. The two python dicts are functions
into `Option`; missing keys raise KeyError.
-/
namespace Prolothar.TwoWayDict
variable {κ ν : Type} [DecidableEq κ] [DecidableEq ν]

/-- the object's fields, two_way_dict.py 25-27 -/
structure TWD (κ ν : Type) where
  dict : κ → Option ν
  inverseDict : ν → Option (Finset κ)

/-- `__init__`, two_way_dict.py 25-27. -/
def empty : TWD κ ν := ⟨fun _ => none, fun _ => none⟩

/-- `__setitem__`, two_way_dict.py 29-33. -/
def setItem (d : TWD κ ν) (k : κ) (v : ν) : TWD κ ν :=
  let dict : κ → Option ν := fun x => if x = k then some v else d.dict x
  -- `if value not in self.__inverse_dict: self.__inverse_dict[value] = set()`
  let inv1 : ν → Option (Finset κ) :=
    if d.inverseDict v = none then fun y => if y = v then some ∅ else d.inverseDict y
    else d.inverseDict
  -- `self.__inverse_dict[value].add(key)`
  let inv2 : ν → Option (Finset κ) := fun y => if y = v then (inv1 v).map (insert k) else inv1 y
  ⟨dict, inv2⟩

/-- `__getitem__`, two_way_dict.py 35-36. -/
def getItem (d : TWD κ ν) (k : κ) : Py ν :=
  match d.dict k with | some v => .ok v | none => .error .key

/-- `__contains__`, two_way_dict.py 38-39. -/
def contains (d : TWD κ ν) (k : κ) : Bool := (d.dict k).isSome

/-- `inverse`, two_way_dict.py 41-42. -/
def inverse (d : TWD κ ν) (v : ν) : Py (Finset κ) :=
  match d.inverseDict v with | some s => .ok s | none => .error .key

/-- a history of assignments `d[k] = v`, oldest first; used for two_way_dict.py 29-33 -/
def run (hist : List (κ × ν)) : TWD κ ν := hist.foldl (fun d p => setItem d p.1 p.2) empty

end Prolothar.TwoWayDict
