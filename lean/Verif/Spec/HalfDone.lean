import Verif.Model.Transformer
import Verif.Spec.Dataset
/-
What a user can rely on if a method of a dataset or a transformer raises an exception.
-/
namespace Prolothar.Spec.Data
open Prolothar Prolothar.Data

variable {τ : Type}

/-- attribute `n` is the same in both datasets (or missing in both), and all instances have the same value for it -/
def SameColumn (h : Heap τ) (d : Dataset) (h' : Heap τ) (d' : Dataset) (n : String) : Prop :=
  d'.attrs.get? n = d.attrs.get? n ∧ ∀ a ∈ d.instances, (h' a).features.get? n = (h a).features.get? n

/-- the dataset is still a consistent dataset with the same instances, which have the same ids and targets; no other instance is changed -/
structure StillSound (h : Heap τ) (d : Dataset) (h' : Heap τ) (d' : Dataset) : Prop where
  consistent : Consistent h' d'
  instances : d'.instances = d.instances
  ids : ∀ a ∈ d.instances, (h' a).id = (h a).id ∧ (h' a).target = (h a).target
  others : ∀ a, a ∉ d.instances → h' a = h a

/-- the transformation `f` of the dataset that has only the attribute `n` -/
def alone (f : Heap τ → Dataset → Py (Heap τ × Dataset)) (n : String) (h : Heap τ) (d : Dataset) : Py (Heap τ × Dataset) :=
  (selectAttributes [n] h d).bind fun r => f r.1 r.2

/-- what the in place transformation `f` of `(h, d)` leaves behind if it raises `e`: it visits the attributes one after the other, raises at the
first one that cannot be transformed, has transformed all attributes before it, each as if it were the only one, and has left alone the others. -/
structure LeftBehind (f : Heap τ → Dataset → Py (Heap τ × Dataset)) (visited : List String) (h : Heap τ) (d : Dataset) (e : PyErr)
    (h' : Heap τ) (d' : Dataset) : Prop where
  sound : StillSound h d h' d'
  split : ∃ done bad rest, visited = done ++ bad :: rest ∧ alone f bad h d = .error e ∧
    (∀ n ∈ done, ∃ h1 d1, alone f n h d = .ok (h1, d1) ∧ d1.instances = d.instances ∧ SameColumn h1 d1 h' d' n) ∧
    ∀ n, n ∉ done → SameColumn h d h' d' n

/-- what the in place transformation `f` of `(h, d)` leaves behind if it returns -/
structure Finished (f : Heap τ → Dataset → Py (Heap τ × Dataset)) (visited : List String) (h : Heap τ) (d : Dataset)
    (h' : Heap τ) (d' : Dataset) : Prop where
  sound : StillSound h d h' d'
  done : ∀ n ∈ visited, ∃ h1 d1, alone f n h d = .ok (h1, d1) ∧ d1.instances = d.instances ∧ SameColumn h1 d1 h' d' n
  others : ∀ n, n ∉ visited → SameColumn h d h' d' n

/-- the value `v` is one of those an encoding of attribute `n` looks for: the given ones, or else those that occur -/
def Encodes (possible : Option (Dict String (List Val))) (h : Heap τ) (d : Dataset) (n : String) (v : Val) : Prop :=
  match possible with
  | none => ∃ a ∈ d.instances, (h a).features.get? n = some v
  | some p => ∃ l, p.get? n = some l ∧ v ∈ l

/-- the names of the categorical attributes in the order of the attributes -/
def categoricalNames (d : Dataset) : List String := (d.attrs.filter fun e => e.2.categorical).map (·.1)

/-- the names of the numerical attributes in the order of the attributes -/
def numericalNames (d : Dataset) : List String := (d.attrs.filter fun e => !e.2.categorical).map (·.1)

end Prolothar.Spec.Data
