import Verif.Model.TargetDatasets
/- Histories of the datasets with targets, and what their queries mean. -/
namespace Prolothar.Spec.Data
open Prolothar Prolothar.Data

/-- `(h, d)` is reached by calling methods of one classification dataset and creating instances, where `asked` are the
labels that `get_class_count` was called with. If `late` is false, a categorical attribute is only added while the
dataset has no instances. -/
inductive ClassHistory (late : Bool) : Heap String → ClassDs → List String → Prop
  | new (h : Heap String) (cat num : List String) : (cat ++ num).Nodup → ClassHistory late h (ClassDs.new cat num) []
  | create {h h' d l} : ClassHistory late h d l → (∀ a ∈ d.base.instances, h' a = h a) → ClassHistory late h' d l
  | add {h d d' l} {a : Nat} : ClassHistory late h d l → (h a).features.keys.Nodup → d.addInstance h a = .ok d' →
      ClassHistory late h d' l
  | remove {h h' d d' l} {n : String} : ClassHistory late h d l → d.removeAttribute h n = .ok (h', d') → ClassHistory late h' d' l
  | addCat {h h' d d' l} {n : String} {vs : List Val} : ClassHistory late h d l → n ∉ d.base.attrs.keys →
      (late = true ∨ d.base.instances = []) → d.addCategorical h n vs = .ok (h', d') → ClassHistory late h' d' l
  | addNum {h h' d d' l} {n : String} {vs : List Val} : ClassHistory late h d l → n ∉ d.base.attrs.keys →
      d.addNumerical h n vs = .ok (h', d') → ClassHistory late h' d' l
  | askCategory {h d l} (n : String) (v : Val) : ClassHistory late h d l → ClassHistory late h (d.countForCategory n v).2 l
  | askCategoryAndClass {h d l} (n : String) (v : Val) (c : String) : ClassHistory late h d l →
      ClassHistory late h (d.countForCategoryAndClass n v c).2 l
  | askClass {h d l} (c : String) : ClassHistory late h d l → ClassHistory late h (d.classCount c).2 (c :: l)

/-- number of elements of a list with a property -/
def number {α : Type} (l : List α) (p : α → Prop) [DecidablePred p] : Nat := (l.filter fun a => decide (p a)).length

/-- histories of a dataset class `D` with the constructor `new`, the inherited part `base`, `setBase`, and its own
`add_instance`: the other methods are inherited; existing instances are only changed by methods of the dataset -/
inductive TargetHistory {τ D : Type} (new : List String → List String → D) (base : D → Dataset) (setBase : D → Dataset → D)
    (add : Heap τ → D → Nat → Py D) : Heap τ → D → Prop
  | new (h : Heap τ) (cat num : List String) : (cat ++ num).Nodup → TargetHistory new base setBase add h (new cat num)
  | create {h h' d} : TargetHistory new base setBase add h d → (∀ a ∈ (base d).instances, h' a = h a) →
      TargetHistory new base setBase add h' d
  | add {h d d'} {a : Nat} : TargetHistory new base setBase add h d → (h a).features.keys.Nodup → add h d a = .ok d' →
      TargetHistory new base setBase add h d'
  | remove {h h' d b} {n : String} : TargetHistory new base setBase add h d → (base d).removeAttribute h n = .ok (h', b) →
      TargetHistory new base setBase add h' (setBase d b)
  | addCat {h h' d b} {n : String} {vs : List Val} : TargetHistory new base setBase add h d → n ∉ (base d).attrs.keys →
      (base d).addCategorical h n vs = .ok (h', b) → TargetHistory new base setBase add h' (setBase d b)
  | addNum {h h' d b} {n : String} {vs : List Val} : TargetHistory new base setBase add h d → n ∉ (base d).attrs.keys →
      (base d).addNumerical h n vs = .ok (h', b) → TargetHistory new base setBase add h' (setBase d b)

/-- histories of a `MultiLabelDataset` -/
def LabelHistory := TargetHistory LabelDs.new LabelDs.base (fun d b => { d with base := b }) LabelDs.addInstance

/-- histories of a `MultisetDataset` -/
def MultisetHistory := TargetHistory MultisetDs.new MultisetDs.base (fun d b => { d with base := b }) MultisetDs.addInstance

/-- histories of a `TargetSequenceDataset` -/
def SeqHistory := TargetHistory SeqDs.new SeqDs.base (fun d b => { d with base := b }) SeqDs.addInstance

end Prolothar.Spec.Data
