import Verif.Spec.Arff
/-
What a user may get from reading an ARFF text of which only a part was written.
-/
namespace Prolothar.Spec.ArffCut
open Prolothar Prolothar.Data Prolothar.Spec.Arff

variable {τ : Type}

/-- the header was cut: some of the first attributes and no instances -/
structure HeaderCut (d d' : Dataset) : Prop where
  empty : d'.instances = []
  first : d'.catNames ++ d'.numNames <+: d.catNames ++ d.numNames
  kinds : d'.catNames <+: d.catNames ∧ d'.numNames <+: d.numNames

/-- the rows were cut: all attributes and the first instances in the same order, numbered from 0. Every value is the printed value, only
the value of the last attribute of the last instance may be a prefix of the printed value. -/
structure RowsCut (str : Val → Text) (h : Heap τ) (d : Dataset) (h' : Heap Unit) (d' : Dataset) : Prop where
  names : d'.catNames = d.catNames ∧ d'.numNames = d.numNames
  fewer : d'.instances.length ≤ d.instances.length
  values : ∀ (i a : Nat), d.instances[i]? = some a → i < d'.instances.length → ∃ b, d'.instances[i]? = some b ∧ (h' b).id = .num i ∧
    ∀ n ∈ d.catNames ++ d.numNames, ∃ (v : Val) (w : Text), (h a).features.get? n = some v ∧
      (h' b).features.get? n = some (.str (String.ofList w)) ∧ w <+: str v ∧
      (i + 1 < d'.instances.length ∨ (d.catNames ++ d.numNames).getLast? ≠ some n → w = str v)

/-- exactly the first `k` instances, with the printed values -/
structure FirstInstances (str : Val → Text) (h : Heap τ) (d : Dataset) (k : Nat) (h' : Heap Unit) (d' : Dataset) : Prop where
  names : d'.catNames = d.catNames ∧ d'.numNames = d.numNames
  count : d'.instances.length = k
  values : ∀ (i a : Nat), i < k → d.instances[i]? = some a → ∃ b, d'.instances[i]? = some b ∧ (h' b).id = .num i ∧ SamePrinted str (h a) (h' b)

end Prolothar.Spec.ArffCut
