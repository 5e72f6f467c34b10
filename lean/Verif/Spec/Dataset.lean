import Verif.Model.Dataset
/-
What a user expects from a dataset.
-/
namespace Prolothar.Spec.Data
open Prolothar Prolothar.Data

variable {τ : Type}

/-- the dataset `d`, whose instances are stored in `h`, is consistent -/
structure Consistent (h : Heap τ) (d : Dataset) : Prop where
  /-- no instance twice -/
  nodup : d.instances.Nodup
  /-- ids are unique -/
  ids : (d.instances.map fun a => (h a).id).Nodup
  /-- attribute names are unique -/
  names : d.attrs.keys.Nodup
  /-- every instance has exactly the attributes of the dataset -/
  features : ∀ a ∈ d.instances, (h a).features.keys.Nodup ∧ ∀ n, n ∈ (h a).features.keys ↔ n ∈ d.attrs.keys
  /-- the unique values of an attribute are the values that occur -/
  values : ∀ n at', d.attrs.get? n = some at' →
    at'.values.Nodup ∧ ∀ v, v ∈ at'.values ↔ ∃ a ∈ d.instances, (h a).features.get? n = some v
  /-- the names of the categorical attributes -/
  categorical : d.catNames.Nodup ∧ ∀ n, n ∈ d.catNames ↔ ∃ at', d.attrs.get? n = some at' ∧ at'.categorical = true
  /-- the names of the numerical attributes -/
  numerical : d.numNames.Nodup ∧ ∀ n, n ∈ d.numNames ↔ ∃ at', d.attrs.get? n = some at' ∧ at'.categorical = false

/-- `(h, d)` is reached by calling methods of one dataset and creating instances: no instance of `d` is changed in
another way, and attributes are only added with names that are not in use. -/
inductive Reachable : Heap τ → Dataset → Prop
  | new (h : Heap τ) (cat num : List String) : (cat ++ num).Nodup → Reachable h (Dataset.new cat num)
  | create {h h' : Heap τ} {d : Dataset} : Reachable h d → (∀ a ∈ d.instances, h' a = h a) → Reachable h' d
  | add {h : Heap τ} {d d' : Dataset} {a : Nat} : Reachable h d → (h a).features.keys.Nodup → d.addInstance h a = .ok d' → Reachable h d'
  | remove {h h' : Heap τ} {d d' : Dataset} {n : String} : Reachable h d → d.removeAttribute h n = .ok (h', d') → Reachable h' d'
  | addCat {h h' : Heap τ} {d d' : Dataset} {n : String} {vs : List Val} : Reachable h d → n ∉ d.attrs.keys →
      d.addCategorical h n vs = .ok (h', d') → Reachable h' d'
  | addNum {h h' : Heap τ} {d d' : Dataset} {n : String} {vs : List Val} : Reachable h d → n ∉ d.attrs.keys →
      d.addNumerical h n vs = .ok (h', d') → Reachable h' d'

end Prolothar.Spec.Data
