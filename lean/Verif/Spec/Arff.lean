import Verif.Spec.Dataset
import Verif.Spec.Transformer
import Verif.Model.Arff
/-
What a user expects from writing and reading ARFF.
-/
namespace Prolothar.Spec.Arff
open Prolothar Prolothar.Data

variable {τ : Type}

/-- line breaks in the sense of python -/
def LineBreak (c : Char) : Prop := c ∈ ['\n', '\r', '\x0b', '\x0c', '\x1c', '\x1d', '\x1e', '\u0085', '\u2028', '\u2029']

/-- no line break -/
def OneLine (t : Text) : Prop := ∀ c ∈ t, ¬ LineBreak c

/-- a text in one line without quotes and spaces -/
def Simple (t : Text) : Prop := ∀ c ∈ t, c ≠ '"' ∧ c ≠ ' ' ∧ ¬ LineBreak c

/-- a text that looks like a number: not empty and in one line, without commas, quotes and braces -/
def NumberLike (t : Text) : Prop := t ≠ [] ∧ ∀ c ∈ t, c ≠ ',' ∧ c ≠ '"' ∧ c ≠ '{' ∧ ¬ LineBreak c

/-- a text in one line without quotes, spaces and brackets -/
def PlainSymbol (t : Text) : Prop := ∀ c ∈ t, c ≠ '"' ∧ c ≠ ' ' ∧ c ≠ '[' ∧ c ≠ ']' ∧ ¬ LineBreak c

/-- the names and printed values of a dataset are harmless -/
structure Printable (str : Val → Text) (h : Heap τ) (d : Dataset) : Prop where
  names : ∀ n ∈ d.catNames ++ d.numNames, Simple n.toList
  categorical : ∀ a ∈ d.instances, ∀ n ∈ d.catNames, ∀ v, (h a).features.get? n = some v → Simple (str v)
  numerical : ∀ a ∈ d.instances, ∀ n ∈ d.numNames, ∀ v, (h a).features.get? n = some v → NumberLike (str v)

/-- a sparse row `{i v,j w,...}`: the attribute with number `i` has the value `v` -/
def sparseRow (es : List (Nat × Int)) : Text :=
  '{' :: (joinText [','] (es.map fun e => (toString e.1).toList ++ ' ' :: (toString e.2).toList) ++ ['}'])

/-- a file with numerical attributes and sparse rows -/
def sparseFile (relation : Text) (names : List String) (rows : List (List (Nat × Int))) : Text :=
  "@RELATION ".toList ++ ('"' :: relation ++ ['"']) ++ ['\n'] ++
  (names.flatMap fun n => '\n' :: ("@ATTRIBUTE ".toList ++ ('"' :: n.toList ++ ['"']) ++ ' ' :: "NUMERIC".toList)) ++
  "\n\n@DATA".toList ++ rows.flatMap fun r => '\n' :: sparseRow r

/-- the instances `x` and `y` have the same features if the values of `x` are printed -/
def SamePrinted (str : Val → Text) {σ ρ : Type} (x : Inst σ) (y : Inst ρ) : Prop :=
  ∀ n, y.features.get? n = (x.features.get? n).map fun v => Val.str (String.ofList (str v))

/-- the header line of an attribute with the given type -/
def attributeDecl (name : String) (type : Text) : Text := "@ATTRIBUTE \"".toList ++ name.toList ++ "\" ".toList ++ type

/-- texts separated by commas -/
def commas (l : List Text) : Text := List.intercalate ",".toList l

/-- the type of a categorical attribute with the given values -/
def categories (str : Val → Text) (vs : List Val) : Text := "{".toList ++ commas (vs.map fun v => "\"".toList ++ str v ++ "\"".toList) ++ "}".toList

/-- the file with the given relation, attributes and rows of cells: an empty line follows the relation and the attributes -/
def arffFile (relation : Text) (attributes : List (String × Text)) (rows : List (List Text)) : Text :=
  List.intercalate "\n".toList (["@RELATION \"".toList ++ relation ++ "\"".toList, []] ++
    (attributes.map fun e => attributeDecl e.1 e.2) ++ [[], "@DATA".toList] ++ rows.map commas)

/-- the text is the ARFF file of the dataset: the relation, one line for every categorical attribute with the values that occur in
ascending order, one line for every numerical attribute, the further attributes, and one row for every instance with the printed
values of the categorical attributes in quotes, of the numerical attributes without quotes and the further cells. -/
def IsArff (str : Val → Text) (h : Heap τ) (d : Dataset) (rel : Text) (attributes : List (String × Text)) (cells : Inst τ → List Text)
    (t : Text) : Prop :=
  ∃ (values : String → List Val) (rows : List (List Text)),
    t = arffFile rel ((d.catNames.map fun n => (n, categories str (values n))) ++ (d.numNames.map fun n => (n, "NUMERIC".toList)) ++ attributes) rows ∧
    (∀ n ∈ d.catNames, (values n).Pairwise Spec.Data.Lt ∧ ∀ v, v ∈ values n ↔ Spec.Data.Occurs h d n v) ∧
    rows.length = d.instances.length ∧
    ∀ (i a : Nat), d.instances[i]? = some a → ∃ cats nums, rows[i]? = some (cats ++ nums ++ cells (h a)) ∧
      List.Forall₂ (fun n c => ∃ v, (h a).features.get? n = some v ∧ c = "\"".toList ++ str v ++ "\"".toList) d.catNames cats ∧
      List.Forall₂ (fun n c => ∃ v, (h a).features.get? n = some v ∧ c = str v) d.numNames nums

end Prolothar.Spec.Arff
