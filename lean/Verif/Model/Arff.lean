import Verif.Model.TargetDatasets
import Verif.Model.Transformer
/-
Model of the ARFF export and import of prolothar_common/models/dataset/dataset.py and of the dataset classes with
targets. Texts are lists of characters. `str` is python's `str` on attribute values. Simplifications: `lower` is only
modelled for ASCII letters; `int` accepts an optional sign and ASCII digits; the keyword arguments of the exports are
parameters. Sets are iterated in the order of the lists.
-/
namespace Prolothar.Data

/-- a text of dataset.py 121-171, 307-358 -/
abbrev Text := List Char

variable {τ : Type}

/-! ### export -/

/-- `sep.join(parts)`; used for dataset.py 150-153 -/
def joinText (sep : Text) : List Text → Text
  | [] => []
  | [a] => a
  | a :: b :: l => a ++ sep ++ joinText sep (b :: l)

/-- `'"%s"' % s`; used for dataset.py 150-153 -/
def quoted (s : Text) : Text := '"' :: s ++ ['"']

/-- the line of a categorical attribute, dataset.py 150-153 -/
def catLine (str : Val → Text) (name : String) (sorted : List Val) : Text :=
  "\n@ATTRIBUTE ".toList ++ quoted name.toList ++ " {".toList ++ joinText [','] (sorted.map fun v => quoted (str v)) ++ ['}']

/-- the line of a numerical attribute, dataset.py 156 -/
def numLine (name : Text) : Text := "\n@ATTRIBUTE ".toList ++ quoted name ++ " NUMERIC".toList

/-- `_add_attributes_definition_to_arff`, dataset.py 148-158: what is added -/
def Dataset.header (str : Val → Text) (d : Dataset) : Py Text := do
  let cats ← d.catNames.mapM fun n => do
    let at' ← d.attrs.getItem n
    let vs ← pySorted at'.values
    return catLine str n vs
  return cats.flatten ++ (d.numNames.map fun n => numLine n.toList).flatten

/-- `_add_instance_to_arff`, dataset.py 160-171: what is added -/
def Dataset.row (str : Val → Text) (d : Dataset) (x : Inst τ) : Py Text := do
  let cats ← d.catNames.mapM fun n => do
    let v ← x.features.getItem n
    return quoted (str v)
  let nums ← d.numNames.mapM fun n => do
    let v ← x.features.getItem n
    return str v
  return ['\n'] ++ joinText [','] cats ++
    (if d.catNames ≠ [] ∧ d.numNames ≠ [] then [','] else []) ++ joinText [','] nums

/-- `export_to_arff`, dataset.py 121-146; `extra` and `target` are what the overriding methods of the subclasses add to the header
and to the rows -/
def Dataset.exportWith (str : Val → Text) (h : Heap τ) (d : Dataset) (relation : Text) (extra : Text) (target : Inst τ → Text) :
    Py Text := do
  let header ← d.header str
  let rows ← d.instances.mapM fun a => do
    let r ← d.row str (h a)
    return r ++ target (h a)
  return "@RELATION ".toList ++ quoted relation ++ ['\n'] ++ header ++ extra ++ "\n\n@DATA".toList ++ rows.flatten

/-- `export_to_arff` of a plain dataset; used for dataset.py 304-305 -/
def Dataset.exportArff (str : Val → Text) (h : Heap τ) (d : Dataset) (relation : Text) : Py Text :=
  d.exportWith str h relation [] fun _ => []

/-- `__eq__`, dataset.py 304-305: the exports with the default relation name are compared -/
def Dataset.eqArff (str : Val → Text) (h : Heap τ) (d e : Dataset) : Py Bool := do
  let x ← e.exportArff str h "Nameless Dataset".toList
  let y ← d.exportArff str h "Nameless Dataset".toList
  return decide (x = y)

/-! ### import -/

/-- the characters at which `str.splitlines` breaks; used for dataset.py 307-342 -/
def isBreak (c : Char) : Bool :=
  c.val ∈ [0x0a, 0x0d, 0x0b, 0x0c, 0x1c, 0x1d, 0x1e, 0x85, 0x2028, 0x2029]

/-- puts a character in front of the first line; used for dataset.py 307-342 -/
def consFirst (c : Char) : List Text → List Text
  | [] => [[c]]
  | l :: ls => (c :: l) :: ls

/-- `str.splitlines()`; used for dataset.py 307-342 -/
def splitLines : Text → List Text
  | [] => []
  | '\r' :: '\n' :: cs => [] :: splitLines cs
  | c :: cs => if isBreak c then [] :: splitLines cs else consFirst c (splitLines cs)

/-- `s.split(c)` for a single character; used for dataset.py 349-351 -/
def splitChar (c : Char) : Text → List Text
  | [] => [[]]
  | x :: xs => if x = c then [] :: splitChar c xs else consFirst x (splitChar c xs)

/-- `s.strip(chars)`; used for dataset.py 344-358 -/
def stripChars (chars : List Char) (s : Text) : Text :=
  ((s.dropWhile fun c => decide (c ∈ chars)).reverse.dropWhile fun c => decide (c ∈ chars)).reverse

/-- `s.lower()`; used for dataset.py 322-330 -/
def lower (s : Text) : Text := s.map Char.toLower

/-- the states of python's csv reader; used for dataset.py 344-358 -/
inductive CsvState where
  | startField
  | inField
  | inQuoted
  | quoteInQuoted
  deriving DecidableEq

/-- `list(csv.reader([line], delimiter=','))[0]` for a non-empty line: `field` is the field that is being read, in
reverse order; used for dataset.py 344-358 -/
def csvLoop : CsvState → Text → Text → List Text
  | _, field, [] => [field.reverse]
  | .startField, field, c :: cs =>
    if c = '"' then csvLoop .inQuoted field cs
    else if c = ',' then field.reverse :: csvLoop .startField [] cs
    else csvLoop .inField (c :: field) cs
  | .inField, field, c :: cs =>
    if c = ',' then field.reverse :: csvLoop .startField [] cs
    else csvLoop .inField (c :: field) cs
  | .inQuoted, field, c :: cs =>
    if c = '"' then csvLoop .quoteInQuoted field cs
    else csvLoop .inQuoted (c :: field) cs
  | .quoteInQuoted, field, c :: cs =>
    if c = '"' then csvLoop .inQuoted ('"' :: field) cs
    else if c = ',' then field.reverse :: csvLoop .startField [] cs
    else csvLoop .inField (c :: field) cs

/-- `list(csv.reader([line], delimiter=','))[0]`: an empty line gives an empty row; used for dataset.py 344-358 -/
def csvRow (line : Text) : List Text := if line = [] then [] else csvLoop .startField [] line

/-- the digits of a number; used for dataset.py 349-351 -/
def digitsValue : Text → Nat → Option Nat
  | [], n => some n
  | c :: cs, n => if c.isDigit then digitsValue cs (10 * n + (c.toNat - '0'.toNat)) else none

/-- `int(s)`; used for dataset.py 349-351 -/
def pyInt (s : Text) : Py Int :=
  match s with
  | '-' :: c :: cs => match digitsValue (c :: cs) 0 with | some n => .ok (-n) | none => .error .value
  | '+' :: c :: cs => match digitsValue (c :: cs) 0 with | some n => .ok n | none => .error .value
  | c :: cs => match digitsValue (c :: cs) 0 with | some n => .ok n | none => .error .value
  | [] => .error .value

/-- the body of the sparse loop of `__parse_arff_instance`, dataset.py 349-351; the right hand side of the assignment is evaluated first -/
def sparseStep (names : List String) (d : Dict String Val) (cell : Text) : Py (Dict String Val) :=
  match splitChar ' ' cell with
  | [i, v] => do
    let v ← pyInt v
    let i ← pyInt i
    let n ← pyGet names i
    return d.put n (.num v)
  | _ => .error .value

/-- the body of the dense comprehension of `__parse_arff_instance`, dataset.py 354-358 -/
def denseStep (names : List String) (d : Dict String Val) (e : Text × Nat) : Py (Dict String Val) := do
  let n ← pyGet names e.2
  return d.put n (.str (String.ofList e.1))

/-- `__parse_arff_instance`, dataset.py 344-358 -/
def parseInstance (line : Text) (names : List String) : Py (Dict String Val) :=
  if line.head? = some '{' then
    (csvRow (stripChars ['{', '}'] line)).foldlM (sparseStep names) (names.foldl (fun d n => Dict.put d n (.num 0)) [])
  else (csvRow line).zipIdx.foldlM (denseStep names) []

/-- the local variables of `create_from_arff`, dataset.py 312-316 -/
structure ArffState where
  all : List String
  cat : List String
  num : List String
  started : Bool
  instances : List (Dict String Val)

/-- `_, attribute_name, attribute_type = line.split(' ')` and the rest of the branch, dataset.py 322-330 -/
def attributeLine (s : ArffState) (line : Text) : Py ArffState :=
  match splitChar ' ' line with
  | [_, name, type] =>
    let name := String.ofList (stripChars ['"'] name)
    if type.head? = some '{' then .ok { s with all := s.all ++ [name], cat := s.cat ++ [name] }
    else if lower type = "numeric".toList then .ok { s with all := s.all ++ [name], num := s.num ++ [name] }
    else .error .notImplemented
  | _ => .error .value

/-- the body of the loop of `create_from_arff`, dataset.py 318-332 -/
def arffStep (s : ArffState) (line : Text) : Py ArffState :=
  if s.started = true ∧ line ≠ [] then do
    let i ← parseInstance line s.all
    return { s with instances := s.instances ++ [i] }
  else if "@attribute".toList <+: lower line then attributeLine s line
  else if "@data".toList <+: lower line then .ok { s with started := true }
  else .ok s

/-- the objects created in `create_from_arff`, dataset.py 339-340: instance number `i` is stored at the address `i` -/
def arffHeap (l : List (Dict String Val)) : Heap Unit := fun i => ⟨.num i, l.getD i [], ()⟩

/-- `Dataset.create_from_arff`, dataset.py 307-342 -/
def createFromArff (arff : Text) : Py (Heap Unit × Dataset) := do
  let s ← (splitLines arff).foldlM arffStep ⟨[], [], [], false, []⟩
  let d ← (List.range s.instances.length).foldlM (Dataset.addInstance (arffHeap s.instances)) (Dataset.new s.cat s.num)
  return (arffHeap s.instances, d)

/-! ### MultiLabelDataset -/

/-- `sorted(labels)` for a set of strings; used for multilabel_dataset.py 37-50 -/
def sortedStrings (l : List String) : List String := l.insertionSort (· ≤ ·)

/-- the loops over the enumerated sorted labels, multilabel_dataset.py 46-49, multiset_dataset.py 50-53: a comma follows
every cell but the last -/
def enumCells (labels : List String) (cell : String → Text) : Text :=
  labels.zipIdx.flatMap fun e => cell e.1 ++ if e.2 < labels.length - 1 then [','] else []

/-- `export_to_arff` of `MultiLabelDataset`, multilabel_dataset.py 37-50; `pre` is `label_prefix` -/
def LabelDs.exportArff (str : Val → Text) (h : Heap (List String)) (d : LabelDs) (relation : Text) (pre : String) : Py Text :=
  d.base.exportWith str h relation
    ((sortedStrings d.labels).flatMap fun l => "\n@ATTRIBUTE ".toList ++ quoted (pre ++ l).toList ++ " {0,1}".toList)
    fun x => [','] ++ enumCells (sortedStrings d.labels) fun l => if l ∈ x.target then ['1'] else ['0']

/-- the loops of the three `create_from_arff` methods over the instances of the raw dataset: `conv` makes the new
instance, which is stored at the address of the raw instance in a new heap, and `add` is `add_instance`; used for multilabel_dataset.py 69-94 -/
def convertStep {σ D : Type} (raw : Heap Unit) (conv : Inst Unit → Py (Inst σ)) (add : Heap σ → D → Nat → Py D)
    (s : Heap σ × D) (a : Nat) : Py (Heap σ × D) := do
  let x ← conv (raw a)
  let h := upd s.1 a x
  let d ← add h s.2 a
  return (h, d)

/-- the features which are not in `label_attributes`, multilabel_dataset.py 86-90 -/
def otherFeatures (labels : List String) (f : Dict String Val) : Dict String Val := f.filter fun e => decide (e.1 ∉ labels)

/-- `MultiLabelInstance(...)`, multilabel_dataset.py 84-92 -/
def toLabelInst (labels : List String) (x : Inst Unit) : Py (Inst (List String)) := do
  let vs ← labels.mapM fun l => x.features.getItem l
  return ⟨x.id, otherFeatures labels x.features,
    updateSet [] (((labels.zip vs).filter fun e => decide (e.2 = .num 1 ∨ e.2 = .str "1")).map (·.1))⟩

/-- `MultiLabelDataset.create_from_arff`, multilabel_dataset.py 69-94; the names of the attributes pass through a python set, `order` is the
order in which it is iterated -/
def LabelDs.createFromArff (order : List String → List String) (arff : Text) (labels : List String) (h : Heap (List String)) :
    Py (Heap (List String) × LabelDs) := do
  let raw ← Data.createFromArff arff
  raw.2.instances.foldlM (convertStep raw.1 (toLabelInst labels) LabelDs.addInstance)
    (h, LabelDs.new (order (raw.2.catNames.filter fun n => decide (n ∉ labels)).dedup)
      (order (raw.2.numNames.filter fun n => decide (n ∉ labels)).dedup))

/-! ### MultisetDataset -/

/-- `str(i)` for an integer; used for multiset_dataset.py 41-54 -/
def intText (i : Int) : Text := (toString i).toList

/-- `export_to_arff` of `MultisetDataset`, multiset_dataset.py 41-54; a missing entry of a `Counter` is 0 -/
def MultisetDs.exportArff (str : Val → Text) (h : Heap (Dict String Int)) (d : MultisetDs) (relation : Text) (pre : String) : Py Text :=
  d.base.exportWith str h relation
    ((sortedStrings d.classes).flatMap fun l => numLine (pre ++ l).toList)
    fun x => [','] ++ enumCells (sortedStrings d.classes) fun l => intText ((x.target.get? l).getD 0)

/-- `int(value)`; a number is truncated; used for multiset_dataset.py 89-90 -/
def valInt : Val → Py Int
  | .num q => .ok (q.num.tdiv q.den)
  | .str s => pyInt s.toList

/-- the body of the loop over the labels, multiset_dataset.py 89-90 -/
def multisetStep (x : Inst Unit) (m : Dict String Int) (l : String) : Py (Dict String Int) := do
  let v ← x.features.getItem l
  let i ← valInt v
  return m.put l i

/-- `MultisetInstance(...)`, multiset_dataset.py 88-99 -/
def toMultisetInst (labels : List String) (x : Inst Unit) : Py (Inst (Dict String Int)) := do
  let m ← labels.foldlM (multisetStep x) []
  return ⟨x.id, otherFeatures labels x.features, m⟩

/-- `MultisetDataset.create_from_arff`, multiset_dataset.py 73-101; `order` as above -/
def MultisetDs.createFromArff (order : List String → List String) (arff : Text) (labels : List String) (h : Heap (Dict String Int)) :
    Py (Heap (Dict String Int) × MultisetDs) := do
  let raw ← Data.createFromArff arff
  raw.2.instances.foldlM (convertStep raw.1 (toMultisetInst labels) MultisetDs.addInstance)
    (h, MultisetDs.new (order (raw.2.catNames.filter fun n => decide (n ∉ labels)).dedup)
      (order (raw.2.numNames.filter fun n => decide (n ∉ labels)).dedup))

/-! ### TargetSequenceDataset -/

/-- `'"[%s]"' % sep.join(sequence)`; used for target_sequence_dataset.py 49-64 -/
def seqText (sep : Text) (s : List String) : Text := quoted (['['] ++ joinText sep (s.map String.toList) ++ [']'])

/-- `export_to_arff` of `TargetSequenceDataset`, target_sequence_dataset.py 49-64; `sorted` is the sorted list of the
unique sequences -/
def SeqDs.exportArff (str : Val → Text) (h : Heap (List String)) (d : SeqDs) (relation : Text) (name sep : Text)
    (sorted : List (List String)) : Py Text :=
  d.base.exportWith str h relation
    ("\n@ATTRIBUTE ".toList ++ quoted name ++ " {".toList ++ joinText [','] (sorted.map (seqText sep)) ++ ['}'])
    fun x => [','] ++ seqText sep x.target

/-- `TargetSequenceInstance(...)`, target_sequence_dataset.py 78-83: the feature is removed from the dictionary -/
def toSeqInst (name : String) (x : Inst Unit) : Py (Inst (List String)) := do
  let v ← x.features.getItem name
  match v with
  | .num _ => .error .attribute
  | .str s => .ok ⟨x.id, x.features.del name, (splitChar ',' (stripChars ['"', '[', ']'] s.toList)).map String.ofList⟩

/-- `TargetSequenceDataset.create_from_arff`, target_sequence_dataset.py 66-84 -/
def SeqDs.createFromArff (arff : Text) (name : String) (h : Heap (List String)) : Py (Heap (List String) × SeqDs) := do
  let raw ← Data.createFromArff arff
  let e ← (Dataset.new raw.2.catNames raw.2.numNames).removeAttribute h name
  raw.2.instances.foldlM (convertStep raw.1 (toSeqInst name) SeqDs.addInstance) (e.1, ⟨e.2, []⟩)

/-! ### ClassificationDataset -/

/-- `export_to_arff` of `ClassificationDataset`, classification_dataset.py 73-84; `name` is `class_attribute_name` -/
def ClassDs.exportArff (str : Val → Text) (h : Heap String) (d : ClassDs) (relation : Text) (name : Text) : Py Text :=
  d.base.exportWith str h relation
    ("\n@ATTRIBUTE ".toList ++ quoted name ++ " {".toList ++
      joinText [','] ((sortedStrings d.classes).map fun c => quoted c.toList) ++ ['}'])
    fun x => [','] ++ quoted x.target.toList

end Prolothar.Data
