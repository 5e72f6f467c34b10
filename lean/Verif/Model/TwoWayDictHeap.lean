import Verif.Model.Dict
/-
Model of /repo/prolothar_common/collections/two_way_dict.py with keys and values that may not be hashable, and with the sets of the inverse
dictionary as objects, which `inverse` hands out. A set is the list of its elements.
-/
namespace Prolothar.TwoWayDictHeap
variable {κ ν : Type} [DecidableEq κ] [DecidableEq ν]

/-- the fields, two_way_dict.py 25-27; the inverse dictionary has the positions of its sets in `sets` -/
structure Obj (κ ν : Type) where
  dict : Dict κ ν
  inv : Dict ν Nat
  sets : List (List κ)

/-- `__init__`, two_way_dict.py 25-27 -/
def empty : Obj κ ν := ⟨[], [], []⟩

/-- `set.add`; used for two_way_dict.py 33 -/
def setAdd (s : List κ) (k : κ) : List κ := if k ∈ s then s else s ++ [k]

/-- `if value not in self.__inverse_dict: self.__inverse_dict[value] = set()`, two_way_dict.py 31-32 -/
def ensure (d : Obj κ ν) (v : ν) : Obj κ ν :=
  if d.inv.has v then d else { d with inv := d.inv.put v d.sets.length, sets := d.sets ++ [[]] }

/-- `self.__inverse_dict[value].add(key)`, two_way_dict.py 33 -/
def addKey (d : Obj κ ν) (v : ν) (k : κ) : Py Unit × Obj κ ν :=
  match d.inv.get? v with
  | none => (.error .key, d)
  | some a => (.ok (), { d with sets := d.sets.modify a fun s => setAdd s k })

/-- `__setitem__`, two_way_dict.py 29-33: the result and the object afterwards. `hk` and `hv` tell which keys and values can be hashed. -/
def setItem (hk : κ → Bool) (hv : ν → Bool) (d : Obj κ ν) (k : κ) (v : ν) : Py Unit × Obj κ ν :=
  if hk k then
    let d := { d with dict := d.dict.put k v }
    if hv v then addKey (ensure d v) v k else (.error .type, d)
  else (.error .type, d)

/-- `__getitem__`, two_way_dict.py 35-36 -/
def getItem (hk : κ → Bool) (d : Obj κ ν) (k : κ) : Py ν := if hk k then d.dict.getItem k else .error .type

/-- `inverse`, two_way_dict.py 41-42: the set object -/
def inverse (hv : ν → Bool) (d : Obj κ ν) (v : ν) : Py Nat := if hv v then d.inv.getItem v else .error .type

/-- what a caller can do: assign, or add and discard a key in a set that a lookup has returned; used for two_way_dict.py 29-42 -/
inductive Op (κ ν : Type)
  | set (k : κ) (v : ν)
  | add (v : ν) (k : κ)
  | discard (v : ν) (k : κ)
  deriving DecidableEq

/-- the caller changes the set `d.inverse(v)`; used for two_way_dict.py 41-42 -/
def mutate (hk : κ → Bool) (hv : ν → Bool) (f : List κ → List κ) (d : Obj κ ν) (v : ν) (k : κ) : Py Unit × Obj κ ν :=
  match inverse hv d v with
  | .error e => (.error e, d)
  | .ok a => if hk k then (.ok (), { d with sets := d.sets.modify a f }) else (.error .type, d)

/-- one call, the result and the object afterwards; used for two_way_dict.py 29-42 -/
def step (hk : κ → Bool) (hv : ν → Bool) (d : Obj κ ν) : Op κ ν → Py Unit × Obj κ ν
  | .set k v => setItem hk hv d k v
  | .add v k => mutate hk hv (fun s => setAdd s k) d v k
  | .discard v k => mutate hk hv (fun s => s.erase k) d v k

/-- a history, oldest first, in which the exceptions are caught; used for two_way_dict.py 29-42 -/
def run (hk : κ → Bool) (hv : ν → Bool) (hist : List (Op κ ν)) : Obj κ ν := hist.foldl (fun d op => (step hk hv d op).2) empty

end Prolothar.TwoWayDictHeap
