import Verif.Model.Dataset
/-
Model of prolothar_common/models/dataset/{classification,multilabel,multiset,target_sequence}_dataset.py (without
ARFF). The inherited methods are those of `Model/Dataset.lean`; `target` of an instance is the class label, the set of
labels, the multiset or the target sequence. Sets are lists without duplicates in an unspecified order.
-/
namespace Prolothar.Data

section counters
variable {κ : Type} [DecidableEq κ]

/-- `counter[k] += 1` for a `defaultdict(int)` or `Counter`; used for classification_dataset.py 64-71 -/
def addOne (c : Dict κ Nat) (k : κ) : Dict κ Nat := c.put k ((c.get? k).getD 0 + 1)

/-- `counter[k]` for a `defaultdict(int)`: a missing key is inserted with the value 0; used for classification_dataset.py 58-62 -/
def readDefault (c : Dict κ Nat) (k : κ) : Nat × Dict κ Nat :=
  match c.get? k with
  | some v => (v, c)
  | none => (0, c.put k 0)

/-- `counters[n][k] += 1` for a `defaultdict(lambda: defaultdict(int))`; used for classification_dataset.py 67-71 -/
def addOne₂ (c : Dict String (Dict κ Nat)) (n : String) (k : κ) : Dict String (Dict κ Nat) :=
  c.put n (addOne ((c.get? n).getD []) k)

/-- `counters[n][k]` for a `defaultdict(lambda: defaultdict(int))`; used for classification_dataset.py 43-48 -/
def readDefault₂ (c : Dict String (Dict κ Nat)) (n : String) (k : κ) : Nat × Dict String (Dict κ Nat) :=
  let r := readDefault ((c.get? n).getD []) k
  (r.1, c.put n r.2)

end counters

/-! ### ClassificationDataset -/

/-- `ClassificationDataset`, classification_dataset.py 24-34 -/
structure ClassDs where
  base : Dataset
  catCounter : Dict String (Dict Val Nat)
  catClassCounter : Dict String (Dict (Val × String) Nat)
  classCounter : Dict String Nat

/-- `ClassificationDataset.__init__`, classification_dataset.py 29-34 -/
def ClassDs.new (cat num : List String) : ClassDs := ⟨Dataset.new cat num, [], [], []⟩

/-- the body of the loop of `add_instance`, classification_dataset.py 67-71 -/
def countCategory (x : Inst String) (s : Dict String (Dict Val Nat) × Dict String (Dict (Val × String) Nat)) (n : String) :
    Py (Dict String (Dict Val Nat) × Dict String (Dict (Val × String) Nat)) := do
  let v ← x.features.getItem n
  return (addOne₂ s.1 n v, addOne₂ s.2 n (v, x.target))

/-- `add_instance`, classification_dataset.py 64-71 -/
def ClassDs.addInstance (h : Heap String) (d : ClassDs) (a : Nat) : Py ClassDs := do
  let b ← d.base.addInstance h a
  let s ← b.catNames.foldlM (countCategory (h a)) (d.catCounter, d.catClassCounter)
  return ⟨b, s.1, s.2, addOne d.classCounter (h a).target⟩

/-- `remove_attribute`, classification_dataset.py 36-41 -/
def ClassDs.removeAttribute (h : Heap String) (d : ClassDs) (name : String) : Py (Heap String × ClassDs) := do
  let r ← d.base.removeAttribute h name
  return (r.1, { d with
    base := r.2
    catCounter := if d.catCounter.has name then d.catCounter.del name else d.catCounter
    catClassCounter := if d.catClassCounter.has name then d.catClassCounter.del name else d.catClassCounter })

/-- the inherited `add_categorical_attribute`: the counters are not changed; used for dataset.py 78-86 -/
def ClassDs.addCategorical (h : Heap String) (d : ClassDs) (name : String) (values : List Val) : Py (Heap String × ClassDs) := do
  let r ← d.base.addCategorical h name values
  return (r.1, { d with base := r.2 })

/-- the inherited `add_numerical_attribute`; used for dataset.py 88-96 -/
def ClassDs.addNumerical (h : Heap String) (d : ClassDs) (name : String) (values : List Val) : Py (Heap String × ClassDs) := do
  let r ← d.base.addNumerical h name values
  return (r.1, { d with base := r.2 })

/-- `get_count_for_category`, classification_dataset.py 43-48: the result and the dataset afterwards -/
def ClassDs.countForCategory (d : ClassDs) (n : String) (v : Val) : Nat × ClassDs :=
  let r := readDefault₂ d.catCounter n v
  (r.1, { d with catCounter := r.2 })

/-- `get_count_for_category_and_class`, classification_dataset.py 50-56 -/
def ClassDs.countForCategoryAndClass (d : ClassDs) (n : String) (v : Val) (c : String) : Nat × ClassDs :=
  let r := readDefault₂ d.catClassCounter n (v, c)
  (r.1, { d with catClassCounter := r.2 })

/-- `get_class_count`, classification_dataset.py 58-62 -/
def ClassDs.classCount (d : ClassDs) (c : String) : Nat × ClassDs :=
  let r := readDefault d.classCounter c
  (r.1, { d with classCounter := r.2 })

/-- `get_set_of_classes`, classification_dataset.py 86-87 -/
def ClassDs.classes (d : ClassDs) : List String := d.classCounter.keys

/-- `get_subdataset` with `type(self)`, dataset.py 113-119, and the loops of `split`, `random_subset` -/
def ClassDs.sub (h : Heap String) (d : ClassDs) (l : List Nat) : Py ClassDs :=
  l.foldlM (ClassDs.addInstance h) (ClassDs.new d.base.catNames d.base.numNames)

/-! ### MultiLabelDataset -/

/-- `set.add(x)`; used for target_sequence_dataset.py 39-44 -/
def setInsert {α : Type} [DecidableEq α] (s : List α) (x : α) : List α := if x ∈ s then s else s ++ [x]

/-- `set.update(l)`; used for multilabel_dataset.py 33-35 -/
def updateSet {α : Type} [DecidableEq α] (s l : List α) : List α := l.foldl setInsert s

/-- `MultiLabelDataset`, multilabel_dataset.py 23-31: an own set of labels -/
structure LabelDs where
  base : Dataset
  labels : List String

/-- `MultiLabelDataset.__init__`, multilabel_dataset.py 28-31 -/
def LabelDs.new (cat num : List String) : LabelDs := ⟨Dataset.new cat num, []⟩

/-- `add_instance`, multilabel_dataset.py 33-35 -/
def LabelDs.addInstance (h : Heap (List String)) (d : LabelDs) (a : Nat) : Py LabelDs := do
  let b ← d.base.addInstance h a
  return ⟨b, updateSet d.labels (h a).target⟩

/-! ### MultisetDataset -/

/-- `MultisetDataset`, multiset_dataset.py 24-33 -/
structure MultisetDs where
  base : Dataset
  maxCounts : Dict String Int
  counts : Dict String Int

/-- `MultisetDataset.__init__`, multiset_dataset.py 29-33 -/
def MultisetDs.new (cat num : List String) : MultisetDs := ⟨Dataset.new cat num, [], []⟩

/-- `Counter.update(multiset)`; used for multiset_dataset.py 35-39 -/
def addCounts (c m : Dict String Int) : Dict String Int := m.foldl (fun c e => c.put e.1 ((c.get? e.1).getD 0 + e.2)) c

/-- the loop of `add_instance`, multiset_dataset.py 38-39; reading a missing key of a `Counter` gives 0 -/
def maxCounts (c m : Dict String Int) : Dict String Int := m.foldl (fun c e => c.put e.1 (max ((c.get? e.1).getD 0) e.2)) c

/-- `add_instance`, multiset_dataset.py 35-39 -/
def MultisetDs.addInstance (h : Heap (Dict String Int)) (d : MultisetDs) (a : Nat) : Py MultisetDs := do
  let b ← d.base.addInstance h a
  return ⟨b, Data.maxCounts d.maxCounts (h a).target, addCounts d.counts (h a).target⟩

/-- `get_set_of_classes`, multiset_dataset.py 56-60 -/
def MultisetDs.classes (d : MultisetDs) : List String := d.counts.keys

/-! ### TargetSequenceDataset -/

/-- `TargetSequenceDataset`, target_sequence_dataset.py 25-33 -/
structure SeqDs where
  base : Dataset
  symbols : List String

/-- `TargetSequenceDataset.__init__`, target_sequence_dataset.py 30-33 -/
def SeqDs.new (cat num : List String) : SeqDs := ⟨Dataset.new cat num, []⟩

/-- `add_instance`, target_sequence_dataset.py 35-37 -/
def SeqDs.addInstance (h : Heap (List String)) (d : SeqDs) (a : Nat) : Py SeqDs := do
  let b ← d.base.addInstance h a
  return ⟨b, updateSet d.symbols (h a).target⟩

/-- `compute_set_of_unique_sequences`, target_sequence_dataset.py 39-44 -/
def SeqDs.uniqueSequences (h : Heap (List String)) (d : SeqDs) : List (List String) :=
  d.base.instances.foldl (fun s a => setInsert s (h a).target) []

/-- the counting loop of `get_sequences_ordered_by_frequency`, target_sequence_dataset.py 100-103: the counters of the sequences and of the events -/
def countSequence (h : Heap (List String)) (s : Dict (List String) Nat × Dict String Nat) (a : Nat) :
    Dict (List String) Nat × Dict String Nat :=
  (addOne s.1 (h a).target, (h a).target.foldl addOne s.2)

/-- the keys of the sort, target_sequence_dataset.py 105-108 -/
def withWeights (events : Dict String Nat) (seqs : Dict (List String) Nat) : List (List String × Nat × Nat) :=
  seqs.map fun e => (e.1, e.2, (e.1.map fun x => (events.get? x).getD 0).sum)

/-- comparison of the keys: tuples are compared lexicographically; used for target_sequence_dataset.py 85-116 -/
def freqLe (x y : List String × Nat × Nat) : Prop := x.2.1 < y.2.1 ∨ (x.2.1 = y.2.1 ∧ x.2.2 ≤ y.2.2)

instance : DecidableRel freqLe := fun x y => by unfold freqLe; infer_instance

/-- `get_sequences_ordered_by_frequency`, target_sequence_dataset.py 85-116 -/
def SeqDs.orderedSequences (h : Heap (List String)) (d : SeqDs) : List (List String) :=
  let s := d.base.instances.foldl (countSequence h) ([], [])
  ((withWeights s.2 s.1).insertionSort freqLe).map (·.1)

end Prolothar.Data
