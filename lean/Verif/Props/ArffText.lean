import Verif.Props.Arff
/-
C126: the text of the export.
-/
namespace Prolothar.Data
open Prolothar.Spec.Data Prolothar.Spec.Arff

variable {τ : Type}

theorem joinText_eq (sep : Text) : ∀ l : List Text, joinText sep l = List.intercalate sep l
  | [] => by simp [joinText, List.intercalate]
  | [a] => by simp [joinText, List.intercalate]
  | a :: b :: l => by
    rw [joinText, joinText_eq sep (b :: l)]
    simp [List.intercalate]

theorem intercalate_cons (sep a : Text) (l : List Text) : List.intercalate sep (a :: l) = a ++ l.flatMap fun x => sep ++ x := by
  induction l generalizing a with
  | nil => simp [List.intercalate]
  | cons b l ih =>
    have : List.intercalate sep (a :: b :: l) = a ++ sep ++ List.intercalate sep (b :: l) := by simp [List.intercalate]
    rw [this, ih]
    simp

theorem tableText_eq (rel : Text) (cols : List Col) (rows : List (List Cell)) :
    tableText rel cols rows = arffFile rel (cols.map fun c => (c.name, c.type)) (rows.map fun r => r.map Cell.text) := by
  unfold tableText arffFile
  have e1 : "@RELATION \"".toList = "@RELATION ".toList ++ ['"'] := by decide
  have e2 : "@ATTRIBUTE \"".toList = "@ATTRIBUTE ".toList ++ ['"'] := by decide
  have e3 : "\n\n@DATA".toList = ['\n', '\n'] ++ "@DATA".toList := by decide
  have e4 : "\n".toList = ['\n'] := by decide
  have e5 : "\"".toList = ['"'] := by decide
  have e6 : "\" ".toList = ['"', ' '] := by decide
  have e7 : ",".toList = [','] := by decide
  unfold attributeDecl commas Col.line quoted rowText
  simp only [joinText_eq]
  rw [e1, e2, e3, e4, e5, e6, e7]
  generalize "@RELATION ".toList = R
  generalize "@ATTRIBUTE ".toList = A
  generalize "@DATA".toList = D
  simp only [List.cons_append]
  rw [intercalate_cons]
  simp [List.flatMap_map]

/-- C126: the text of the export: the relation, one line for every categorical attribute with the values that occur in ascending
order, one line for every numerical attribute, and one row for every instance with the printed values of the categorical attributes in
quotes and of the numerical attributes without quotes. -/
theorem C126_text {str : Val → Text} {h : Heap τ} {d : Dataset} (hc : Consistent h d)
    (hcmp : ∀ n ∈ d.catNames, ∀ v w, Occurs h d n v → Occurs h d n w → v = w ∨ Lt v w ∨ Lt w v) (rel : Text) :
    ∃ (values : String → List Val) (rows : List (List Text)),
      d.exportArff str h rel = .ok (arffFile rel ((d.catNames.map fun n => (n, categories str (values n))) ++ d.numNames.map fun n => (n, "NUMERIC".toList)) rows) ∧
      (∀ n ∈ d.catNames, (values n).Pairwise Lt ∧ ∀ v, v ∈ values n ↔ Occurs h d n v) ∧
      rows.length = d.instances.length ∧
      ∀ (i a : Nat), d.instances[i]? = some a → ∃ cats nums, rows[i]? = some (cats ++ nums) ∧
        List.Forall₂ (fun n c => ∃ v, (h a).features.get? n = some v ∧ c = "\"".toList ++ str v ++ "\"".toList) d.catNames cats ∧
        List.Forall₂ (fun n c => ∃ v, (h a).features.get? n = some v ∧ c = str v) d.numNames nums := by
  have hcomp : ∀ n ∈ d.catNames, ∀ at', d.attrs.get? n = some at' → Comparable at'.values := by
    intro n hn at' hat v hv w hw
    obtain ⟨_, k2⟩ := hc.values n at' hat
    exact hcmp n hn v w ((k2 v).1 hv) ((k2 w).1 hw)
  obtain ⟨t, ht⟩ := C126_export (str := str) hc hcomp rel
  have he := export_eq hc (ecols := []) (ecells := fun _ => []) rfl (fun _ => rfl) (.inr fun _ _ => rfl) ht
  rw [tableText_eq] at he
  refine ⟨d.sortedValues, _, ht.trans (congrArg _ (he.trans (congrFun (congrArg (arffFile rel) ?_) _))), fun n hn => ?_, by simp, fun i a hi => ?_⟩
  · simp [Dataset.cols, catCol, numCol, categories, commas, joinText_eq, quoted, Function.comp_def]
  · obtain ⟨at', hat, _⟩ := (hc.categorical.2 n).1 hn
    obtain ⟨k1, k2⟩ := hc.values n at' hat
    obtain ⟨s, hs, hp, hl⟩ := pySorted_ok (hcomp n hn at' hat) k1
    have : d.sortedValues n = s := by unfold Dataset.sortedValues; rw [hat, pySorted_eq hs]
    rw [this]
    exact ⟨hl, fun v => by rw [hp.mem_iff]; exact k2 v⟩
  · have ha := List.mem_of_getElem? hi
    refine ⟨d.catNames.map fun n => quoted (str (valueOf (h a) n)), d.numNames.map fun n => str (valueOf (h a) n), ?_, ?_, ?_⟩
    · simp [hi, Dataset.cells, Cell.text, Function.comp_def]
    · rw [List.forall₂_map_right_iff, List.forall₂_same]
      intro n hn
      exact ⟨_, valueOf_get hc ha (List.mem_append_left _ hn), rfl⟩
    · rw [List.forall₂_map_right_iff, List.forall₂_same]
      intro n hn
      exact ⟨_, valueOf_get hc ha (List.mem_append_right _ hn), rfl⟩

/-- the export of an example -/
example : ∃ d, sampleDataset [0, 1] = .ok d ∧
    d.exportArff sampleStr sampleHeap "r".toList = .ok (arffFile "r".toList [("x", categories sampleStr [.str "u", .str "v"])] [["\"u\"".toList], ["\"v\"".toList]]) :=
  ⟨_, rfl, by decide +kernel⟩

end Prolothar.Data
