import Verif.Model.Transformer
import Verif.Spec.Dataset
/-
Specification of the dataset transformers, independent of the model's helpers.
-/
namespace Prolothar.Spec.Data
open Prolothar.Data

variable {τ : Type}

/-- the order of values: numbers by size, strings lexicographically; numbers and strings are not comparable -/
inductive Lt : Val → Val → Prop
  | num {a b : Rat} : a < b → Lt (.num a) (.num b)
  | str {a b : String} : a < b → Lt (.str a) (.str b)

/-- all values can be compared with each other -/
def Comparable (l : List Val) : Prop := ∀ a ∈ l, ∀ b ∈ l, a = b ∨ Lt a b ∨ Lt b a

/-- the value `v` occurs in the attribute -/
def Occurs (h : Heap τ) (d : Dataset) (name : String) (v : Val) : Prop := ∃ a ∈ d.instances, (h a).features.get? name = some v

/-- The result of a transformation that replaces the values of attributes, but not the attributes: every value `v` of
attribute `n` becomes `f n v`; the attributes in `toCat` become categorical. -/
structure Recoded (h : Heap τ) (d : Dataset) (h' : Heap τ) (d' : Dataset) (f : String → Val → Val) (toCat : String → Prop) : Prop where
  consistent : Consistent h' d'
  instances : d'.instances = d.instances
  others : ∀ a, a ∉ d.instances → h' a = h a
  keeps : ∀ a ∈ d.instances, (h' a).id = (h a).id ∧ (h' a).target = (h a).target
  names : ∀ n, n ∈ d'.attrs.keys ↔ n ∈ d.attrs.keys
  categorical : ∀ n, n ∈ d'.catNames ↔ n ∈ d.catNames ∨ (n ∈ d.attrs.keys ∧ toCat n)
  value : ∀ a ∈ d.instances, ∀ n, (h' a).features.get? n = ((h a).features.get? n).map (f n)

/-- a numbering of the values in `vs` from 0 to m-1 in ascending order -/
structure Numbering (vs : List Val) (code : Val → Nat) : Prop where
  range : ∀ v ∈ vs, code v < vs.length
  mono : ∀ v ∈ vs, ∀ w ∈ vs, Lt v w → code v < code w
  onto : ∀ i < vs.length, ∃ v ∈ vs, code v = i

/-- the value is in the interval of the bucket -/
def Contains (b : Bucket) (q : Rat) : Prop := (if b.closed then b.lo ≤ q else b.lo < q) ∧ q ≤ b.hi

/-- the intervals (lo, c1], (c1, c2], ..., (ck, mx] -/
def bucketsFrom (mx : Rat) : Rat → List Rat → List Bucket
  | lo, [] => [⟨false, lo, mx⟩]
  | lo, c :: cs => ⟨false, lo, c⟩ :: bucketsFrom mx c cs

/-- the intervals [mn, c1], (c1, c2], ..., (ck, mx] for cut points c1, ..., ck -/
def buckets (mn mx : Rat) : List Rat → List Bucket
  | [] => [⟨true, mn, mx⟩]
  | c :: cs => ⟨true, mn, c⟩ :: bucketsFrom mx c cs

/-- `c` is an `i/n` quantile of the values: of the `m + 1` values, more than `i * m / n` are at most `c`, and at least
`m - i * m / n` are at least `c` -/
def IsQuantile (values : List Rat) (i n : Nat) (c : Rat) : Prop :=
  i * (values.length - 1) / n + 1 ≤ values.countP (fun v => decide (v ≤ c)) ∧
  values.length - 1 - i * (values.length - 1) / n ≤ values.countP (fun v => decide (c ≤ v))

end Prolothar.Spec.Data
