import Verif.Lemmas.Arff
import Verif.Spec.Arff
import Verif.Lemmas.Transformer
/-
The ARFF text of a dataset is the text of a table.
-/
namespace Prolothar.Data
open Prolothar.Spec.Data Prolothar.Spec.Arff

variable {τ : Type}

theorem isBreak_iff {c : Char} : isBreak c = true ↔ LineBreak c := by
  unfold isBreak LineBreak
  simp only [List.mem_cons, List.not_mem_nil, or_false, decide_eq_true_eq]
  have : ∀ {d : Char}, c.val = d.val ↔ c = d := fun {d} => ⟨fun h => Char.ext h, fun h => h ▸ rfl⟩
  rw [← this (d := '\n'), ← this (d := '\r'), ← this (d := '\x0b'), ← this (d := '\x0c'), ← this (d := '\x1c'),
    ← this (d := '\x1d'), ← this (d := '\x1e'), ← this (d := '\u0085'), ← this (d := '\u2028'), ← this (d := '\u2029')]
  rfl

theorem notBreak {c : Char} (h : ¬ LineBreak c) : isBreak c = false := by
  rw [← isBreak_iff] at h; simpa using h

theorem joinText_append (sep : Text) : ∀ (a b : List Text),
    joinText sep (a ++ b) = joinText sep a ++ (if a ≠ [] ∧ b ≠ [] then sep else []) ++ joinText sep b
  | [], b => by simp [joinText]
  | [x], [] => by simp [joinText]
  | [x], y :: b => by simp [joinText]
  | x :: y :: a, b => by
    have := joinText_append sep (y :: a) b
    rw [List.cons_append, List.cons_append, joinText, ← List.cons_append, this, joinText]
    simp

/-- the value of an attribute -/
def valueOf (x : Inst τ) (n : String) : Val := (x.features.get? n).getD (.num 0)

/-- the cells of an instance -/
def Dataset.cells (str : Val → Text) (d : Dataset) (x : Inst τ) : List Cell :=
  (d.catNames.map fun n => .quoted (str (valueOf x n))) ++ d.numNames.map fun n => .plain (str (valueOf x n))

/-- the column of a categorical attribute -/
def catCol (str : Val → Text) (n : String) (vs : List Val) : Col :=
  ⟨n, '{' :: (joinText [','] (vs.map fun v => quoted (str v)) ++ ['}'])⟩

/-- the column of a numerical attribute -/
def numCol (n : String) : Col := ⟨n, "NUMERIC".toList⟩

/-- the sorted values -/
def Dataset.sortedValues (d : Dataset) (n : String) : List Val :=
  match d.attrs.get? n with
  | some a => a.values.insertionSort fun a b => Val.le a b = true
  | none => []

/-- the columns of a dataset -/
def Dataset.cols (str : Val → Text) (d : Dataset) : List Col :=
  (d.catNames.map fun n => catCol str n (d.sortedValues n)) ++ d.numNames.map numCol

theorem getItem_some {κ ν : Type} [DecidableEq κ] {d : Dict κ ν} {k : κ} {v : ν} (h : d.get? k = some v) : d.getItem k = .ok v := by
  unfold Dict.getItem; rw [h]

theorem bindOk {α β : Type} {x : Py α} {f : α → Py β} {b : β} (h : (x >>= f) = .ok b) : ∃ a, x = .ok a ∧ f a = .ok b := by
  cases x with
  | error e => cases h
  | ok a => exact ⟨a, rfl, h⟩

theorem mapM_eq_map {α β : Type} {f : α → Py β} {g : α → β} : ∀ {l : List α} {r : List β}, l.mapM f = .ok r →
    (∀ x ∈ l, ∀ y, f x = .ok y → y = g x) → r = l.map g
  | [], r, h, _ => by rw [List.mapM_nil] at h; injection h with h; exact h.symm
  | x :: l, r, h, hg => by
    rw [List.mapM_cons] at h
    obtain ⟨y, h1, h2⟩ := bindOk h
    obtain ⟨ys, h3, h4⟩ := bindOk h2
    injection h4 with h4
    rw [← h4, hg x List.mem_cons_self y h1, mapM_eq_map h3 fun z hz => hg z (List.mem_cons_of_mem _ hz)]
    rfl

theorem pySorted_eq {l s : List Val} (h : pySorted l = .ok s) : s = l.insertionSort fun a b => Val.le a b = true := by
  unfold pySorted at h
  split at h
  · injection h with h; exact h.symm
  · cases h

theorem header_eq {str : Val → Text} {d : Dataset} {t : Text} (ht : d.header str = .ok t) :
    t = (d.cols str).flatMap fun c => '\n' :: c.line := by
  unfold Dataset.header at ht
  obtain ⟨cats, h1, h2⟩ := bindOk ht
  have h3 : cats = d.catNames.map fun n => '\n' :: (catCol str n (d.sortedValues n)).line := by
    refine mapM_eq_map h1 fun n hn y hy => ?_
    obtain ⟨a, k1, k2⟩ := bindOk hy
    obtain ⟨s, k3, k4⟩ := bindOk k2
    injection k4 with k4
    rw [← k4, pySorted_eq k3]
    unfold Dict.getItem at k1
    split at k1
    · next v hv =>
      injection k1 with k1
      subst k1
      unfold Dataset.sortedValues catCol catLine Col.line
      rw [hv]
      simp
    · cases k1
  injection h2 with h2
  rw [← h2, h3]
  unfold Dataset.cols
  rw [List.flatMap_append, List.flatMap_map, List.flatMap_map, List.flatMap_def, List.flatMap_def]
  rfl

theorem row_eq {str : Val → Text} {d : Dataset} {x : Inst τ} (hk : ∀ n ∈ d.catNames ++ d.numNames, n ∈ x.features.keys) :
    d.row str x = .ok ('\n' :: rowText (d.cells str x)) := by
  have hv : ∀ n ∈ d.catNames ++ d.numNames, x.features.getItem n = .ok (valueOf x n) := by
    intro n hn
    obtain ⟨v, hv⟩ := Dict.mem_keys_iff.1 (hk n hn)
    unfold valueOf
    rw [getItem_some hv, hv]; rfl
  unfold Dataset.row
  rw [mapM_ok_map (g := fun n => quoted (str (valueOf x n))) (l := d.catNames)]
  · show ((d.numNames.mapM _ >>= _) : Py _) = _
    rw [mapM_ok_map (g := fun n => str (valueOf x n)) (l := d.numNames)]
    · show (Except.ok _ : Py _) = _
      unfold rowText Dataset.cells
      rw [List.map_append, joinText_append]
      simp [Cell.text, Function.comp_def]
    · intro n hn
      rw [hv n (List.mem_append_right _ hn)]; rfl
  · intro n hn
    rw [hv n (List.mem_append_left _ hn)]; rfl

theorem cells_length (str : Val → Text) (d : Dataset) (x : Inst τ) : (d.cells str x).length = (d.cols str).length := by
  simp [Dataset.cells, Dataset.cols]

theorem cols_names (str : Val → Text) (d : Dataset) : (d.cols str).map Col.name = d.catNames ++ d.numNames := by
  simp [Dataset.cols, Function.comp_def, catCol, numCol]

/-- the text of a dataset with additional columns -/
theorem export_eq {str : Val → Text} {h : Heap τ} {d : Dataset} (hc : Consistent h d) {rel t extra : Text} {target : Inst τ → Text}
    {ecols : List Col} {ecells : Inst τ → List Cell}
    (he : extra = ecols.flatMap fun c => '\n' :: c.line)
    (ht : ∀ x, target x = if ecells x = [] then [] else ',' :: rowText (ecells x))
    (hn : d.catNames ++ d.numNames ≠ [] ∨ ∀ a ∈ d.instances, ecells (h a) = [])
    (hx : d.exportWith str h rel extra target = .ok t) :
    t = tableText rel (d.cols str ++ ecols) (d.instances.map fun a => d.cells str (h a) ++ ecells (h a)) := by
  unfold Dataset.exportWith at hx
  obtain ⟨hd, h1, h2⟩ := bindOk hx
  obtain ⟨rows, h3, h4⟩ := bindOk h2
  have h5 : rows = d.instances.map fun a => '\n' :: rowText (d.cells str (h a) ++ ecells (h a)) := by
    refine mapM_eq_map h3 fun a ha y hy => ?_
    rw [row_eq (fun n hn => by rw [(hc.features a ha).2, mem_names hc]; exact List.mem_append.1 hn)] at hy
    injection hy with hy
    rw [← hy, ht]
    unfold rowText
    rw [List.map_append, joinText_append]
    by_cases hb : ecells (h a) = []
    · simp [hb, joinText]
    · have : d.cells str (h a) ≠ [] := by
        intro hb'
        rcases hn with hn | hn
        · apply hn
          have := congrArg List.length hb'
          rw [cells_length, ← List.length_map (f := Col.name), cols_names] at this
          exact List.length_eq_zero_iff.1 this
        · exact hb (hn a ha)
      simp [hb, this]
  injection h4 with h4
  rw [← h4, h5, header_eq h1, he]
  unfold tableText
  rw [List.flatMap_append, List.flatMap_map]
  simp [List.flatMap_def]

theorem mem_joinText {sep : Text} {c : Char} : ∀ {l : List Text}, c ∈ joinText sep l → c ∈ sep ∨ ∃ x ∈ l, c ∈ x
  | [], h => by cases h
  | [x], h => .inr ⟨x, List.mem_cons_self, h⟩
  | x :: y :: l, h => by
    rw [joinText] at h
    rcases List.mem_append.1 h with h | h
    · rcases List.mem_append.1 h with h | h
      · exact .inr ⟨x, List.mem_cons_self, h⟩
      · exact .inl h
    · rcases mem_joinText h with h | ⟨z, hz, h⟩
      · exact .inl h
      · exact .inr ⟨z, List.mem_cons_of_mem _ hz, h⟩

theorem head_joinText {sep x : Text} (hx : x ≠ []) : ∀ {l : List Text}, (joinText sep (x :: l)).head? = x.head?
  | [] => rfl
  | y :: l => by
    rw [joinText]
    cases x with
    | nil => exact absurd rfl hx
    | cons c x => rfl

theorem mem_sortedValues {h : Heap τ} {d : Dataset} (hc : Consistent h d) {n : String} {v : Val} (hv : v ∈ d.sortedValues n) :
    ∃ a ∈ d.instances, (h a).features.get? n = some v := by
  unfold Dataset.sortedValues at hv
  split at hv
  · next at' hat =>
    rw [List.mem_insertionSort] at hv
    exact ((hc.values n at' hat).2 v).1 hv
  · cases hv

/-- the columns can be read -/
theorem cols_ok {str : Val → Text} {h : Heap τ} {d : Dataset} (hc : Consistent h d) (hp : Printable str h d) : ∀ c ∈ d.cols str, ColOk c := by
  intro c hm
  have hname : ∀ n ∈ d.catNames ++ d.numNames, ∀ x ∈ n.toList, x ≠ '"' ∧ x ≠ ' ' ∧ isBreak x = false := fun n hn x hx =>
    let ⟨h1, h2, h3⟩ := hp.names n hn x hx
    ⟨h1, h2, notBreak h3⟩
  rcases List.mem_append.1 hm with hm | hm
  · obtain ⟨n, hn, rfl⟩ := List.mem_map.1 hm
    refine ⟨hname n (List.mem_append_left _ hn), ?_, .inl rfl⟩
    intro x hx
    unfold catCol at hx
    rcases List.mem_cons.1 hx with rfl | hx
    · decide
    · rcases List.mem_append.1 hx with hx | hx
      · rcases mem_joinText hx with hx | ⟨y, hy, hx⟩
        · rw [List.mem_singleton] at hx; subst hx; decide
        · obtain ⟨v, hv, rfl⟩ := List.mem_map.1 hy
          obtain ⟨a, ha, hav⟩ := mem_sortedValues hc hv
          rcases quoted_mem.1 hx with rfl | hx
          · decide
          · obtain ⟨h1, h2, h3⟩ := hp.categorical a ha n hn v hav x hx
            exact ⟨h2, notBreak h3⟩
      · rw [List.mem_singleton] at hx; subst hx; decide
  · obtain ⟨n, hn, rfl⟩ := List.mem_map.1 hm
    exact ⟨hname n (List.mem_append_right _ hn), show ∀ x ∈ "NUMERIC".toList, x ≠ ' ' ∧ isBreak x = false by decide, .inr rfl⟩

theorem valueOf_get {h : Heap τ} {d : Dataset} (hc : Consistent h d) {a : Nat} (ha : a ∈ d.instances) {n : String}
    (hn : n ∈ d.catNames ++ d.numNames) : (h a).features.get? n = some (valueOf (h a) n) := by
  obtain ⟨v, hv⟩ := Dict.mem_keys_iff.1 (((hc.features a ha).2 n).2 ((mem_names hc).2 (List.mem_append.1 hn)))
  unfold valueOf
  rw [hv]; rfl

/-- the cells of an instance can be read, followed by further cells -/
theorem cells_ok {str : Val → Text} {h : Heap τ} {d : Dataset} (hc : Consistent h d) (hp : Printable str h d)
    (hne : d.catNames ++ d.numNames ≠ []) {a : Nat} (ha : a ∈ d.instances) {e : List Cell}
    (he : ∀ c ∈ e, c.Ok ∧ ∀ x ∈ c.text, isBreak x = false) : RowOk (d.cells str (h a) ++ e) := by
  have hcat : ∀ n ∈ d.catNames, Simple (str (valueOf (h a) n)) := fun n hn =>
    hp.categorical a ha n hn _ (valueOf_get hc ha (List.mem_append_left _ hn))
  have hnum : ∀ n ∈ d.numNames, NumberLike (str (valueOf (h a) n)) := fun n hn =>
    hp.numerical a ha n hn _ (valueOf_get hc ha (List.mem_append_right _ hn))
  have hhead : ∃ c l, d.cells str (h a) = c :: l ∧ c.text ≠ [] ∧ c.text.head? ≠ some '{' := by
    unfold Dataset.cells
    cases hcn : d.catNames with
    | cons n l => exact ⟨_, _, rfl, by simp [Cell.text, quoted], by simp [Cell.text, quoted]⟩
    | nil =>
      cases hnn : d.numNames with
      | nil => simp [hcn, hnn] at hne
      | cons n l =>
        refine ⟨_, _, rfl, (hnum n (by simp [hnn])).1, ?_⟩
        intro hh
        exact ((hnum n (by simp [hnn])).2 _ (List.mem_of_mem_head? hh)).2.2.1 rfl
  obtain ⟨c0, l0, hl0, hc0, hc1⟩ := hhead
  have hcells : ∀ c ∈ d.cells str (h a) ++ e, c.Ok ∧ ∀ x ∈ c.text, isBreak x = false := by
    intro c hm
    rcases List.mem_append.1 hm with hm | hm
    · rcases List.mem_append.1 hm with hm | hm
      · obtain ⟨n, hn, rfl⟩ := List.mem_map.1 hm
        refine ⟨fun hq => (hcat n hn _ hq).1 rfl, ?_⟩
        intro x hx
        rcases quoted_mem.1 hx with rfl | hx
        · decide
        · exact notBreak (hcat n hn x hx).2.2
      · obtain ⟨n, hn, rfl⟩ := List.mem_map.1 hm
        exact ⟨⟨fun hq => ((hnum n hn).2 _ hq).2.1 rfl, fun hq => ((hnum n hn).2 _ hq).1 rfl⟩,
          fun x hx => notBreak ((hnum n hn).2 x hx).2.2.2⟩
    · exact he c hm
  have ht : (rowText (d.cells str (h a) ++ e)).head? = c0.text.head? := by
    unfold rowText
    rw [hl0]
    exact head_joinText hc0
  refine ⟨fun c hm => (hcells c hm).1, by rw [ht]; exact hc1, ?_, ?_⟩
  · intro hnil
    rw [hnil] at ht
    cases hq : c0.text with
    | nil => exact hc0 hq
    | cons x l => rw [hq] at ht; cases ht
  · intro x hx
    rcases mem_joinText hx with hx | ⟨y, hy, hx⟩
    · rw [List.mem_singleton] at hx; subst hx; decide
    · obtain ⟨c, hc', rfl⟩ := List.mem_map.1 hy
      exact (hcells c hc').2 x hx

theorem isCat_catCol (str : Val → Text) (n : String) (vs : List Val) : (catCol str n vs).isCat = true := by
  unfold Col.isCat catCol; simp

theorem isCat_numCol (n : String) : (numCol n).isCat = false := by
  unfold Col.isCat numCol; simp

theorem cols_cat (str : Val → Text) (d : Dataset) : ((d.cols str).filter Col.isCat).map Col.name = d.catNames := by
  unfold Dataset.cols
  rw [List.filter_append, List.filter_eq_self.2, List.filter_eq_nil_iff.2, List.append_nil, List.map_map]
  · simp [Function.comp_def, catCol]
  · intro c hc; obtain ⟨n, _, rfl⟩ := List.mem_map.1 hc; simp [isCat_numCol]
  · intro c hc; obtain ⟨n, _, rfl⟩ := List.mem_map.1 hc; exact isCat_catCol _ _ _

theorem cols_num (str : Val → Text) (d : Dataset) : ((d.cols str).filter fun c => !c.isCat).map Col.name = d.numNames := by
  unfold Dataset.cols
  rw [List.filter_append, List.filter_eq_nil_iff.2, List.filter_eq_self.2, List.nil_append, List.map_map]
  · simp [Function.comp_def, numCol]
  · intro c hc; obtain ⟨n, _, rfl⟩ := List.mem_map.1 hc; simp [isCat_numCol]
  · intro c hc; obtain ⟨n, _, rfl⟩ := List.mem_map.1 hc; simp [isCat_catCol]

/-- reading the text of a dataset with additional columns -/
theorem read_export {str : Val → Text} {h : Heap τ} {d : Dataset} (hc : Consistent h d) (hp : Printable str h d)
    (hne : d.catNames ++ d.numNames ≠ []) {rel t extra : Text} (hrel : OneLine rel) {target : Inst τ → Text}
    {ecols : List Col} {ecells : Inst τ → List Cell}
    (he : extra = ecols.flatMap fun c => '\n' :: c.line)
    (ht : ∀ x, target x = if ecells x = [] then [] else ',' :: rowText (ecells x))
    (hec : ∀ c ∈ ecols, ColOk c) (hen : (d.catNames ++ d.numNames ++ ecols.map Col.name).Nodup)
    (hel : ∀ a ∈ d.instances, (ecells (h a)).length = ecols.length ∧ ∀ c ∈ ecells (h a), c.Ok ∧ ∀ x ∈ c.text, isBreak x = false)
    (hx : d.exportWith str h rel extra target = .ok t) :
    ∃ h' d', createFromArff t = .ok (h', d') ∧ Consistent h' d' ∧
      d'.catNames = d.catNames ++ (ecols.filter Col.isCat).map Col.name ∧
      d'.numNames = d.numNames ++ (ecols.filter fun c => !c.isCat).map Col.name ∧
      d'.instances = List.range d.instances.length ∧
      ∀ (i a : Nat), d.instances[i]? = some a → (h' i).id = .num i ∧
        (∀ n ∈ d.catNames ++ d.numNames, (h' i).features.get? n = some (.str (String.ofList (str (valueOf (h a) n))))) ∧
        ∀ (j : Nat) (c : Cell) (e : Col), ecols[j]? = some e → (ecells (h a))[j]? = some c →
          (h' i).features.get? e.name = some (.str (String.ofList c.value)) := by
  have h0 := export_eq hc he ht (.inl hne) hx
  subst h0
  have hN : ((d.cols str ++ ecols).map Col.name).Nodup := by
    rw [List.map_append, cols_names]; exact hen
  have hrows : ∀ r ∈ d.instances.map (fun a => d.cells str (h a) ++ ecells (h a)), RowOk r ∧ r.length = (d.cols str ++ ecols).length := by
    intro r hr
    obtain ⟨a, ha, rfl⟩ := List.mem_map.1 hr
    refine ⟨cells_ok hc hp hne ha (hel a ha).2, ?_⟩
    rw [List.length_append, List.length_append, cells_length, (hel a ha).1]
  obtain ⟨d', h1, h2, h3, h4, h5⟩ := read_table (rel := rel) (fun c hc => notBreak (hrel c hc)) (cols := d.cols str ++ ecols)
    (fun c hm => (List.mem_append.1 hm).elim (cols_ok hc hp c) (hec c)) hN hrows
  refine ⟨_, d', h1, h2, ?_, ?_, by rw [h5, List.length_map], ?_⟩
  · rw [h3, List.filter_append, List.map_append, cols_cat]
  · rw [h4, List.filter_append, List.map_append, cols_num]
  · intro i a hi
    have ha := List.mem_of_getElem? hi
    have hri : (d.instances.map (fun a => d.cells str (h a) ++ ecells (h a)))[i]? = some (d.cells str (h a) ++ ecells (h a)) := by
      rw [List.getElem?_map, hi]; rfl
    have hlen : (d.cells str (h a) ++ ecells (h a)).length = ((d.cols str ++ ecols).map Col.name).length := by
      rw [List.length_map]; exact (hrows _ (List.mem_map.2 ⟨a, ha, rfl⟩)).2
    refine ⟨rfl, ?_, ?_⟩
    · intro n hn
      obtain ⟨j, hj⟩ := List.getElem?_of_mem hn
      have hjl : j < (d.catNames ++ d.numNames).length := (List.getElem?_eq_some_iff.1 hj).1
      have hcl : (d.cells str (h a)).length = (d.catNames ++ d.numNames).length := by
        rw [cells_length, ← cols_names str, List.length_map]
      have : (d.cells str (h a))[j]? = some (.quoted (str (valueOf (h a) n))) ∨ (d.cells str (h a))[j]? = some (.plain (str (valueOf (h a) n))) := by
        unfold Dataset.cells
        by_cases hjc : j < d.catNames.length
        · rw [List.getElem?_append_left hjc] at hj
          left
          rw [List.getElem?_append_left (by simpa using hjc), List.getElem?_map, hj]; rfl
        · rw [List.getElem?_append_right (by omega)] at hj
          right
          rw [List.getElem?_append_right (by simp; omega), List.getElem?_map, List.length_map, hj]; rfl
      have hjn : ((d.cols str ++ ecols).map Col.name)[j]? = some n := by
        rw [List.map_append, cols_names, List.getElem?_append_left hjl]; exact hj
      rcases this with hcell | hcell
      · have := arffHeap_get hN hri hlen hjn (c := .quoted (str (valueOf (h a) n))) (by
          rw [List.getElem?_append_left (by omega)]; exact hcell)
        exact this
      · have := arffHeap_get hN hri hlen hjn (c := .plain (str (valueOf (h a) n))) (by
          rw [List.getElem?_append_left (by omega)]; exact hcell)
        exact this
    · intro j c e hj hcj
      have hk : (d.cols str).length = (d.cells str (h a)).length := (cells_length _ _ _).symm
      refine arffHeap_get hN hri hlen (j := (d.cols str).length + j) ?_ ?_
      · rw [List.getElem?_map, List.getElem?_append_right (by omega), Nat.add_sub_cancel_left, hj]; rfl
      · rw [List.getElem?_append_right (by omega), hk, Nat.add_sub_cancel_left, hcj]

end Prolothar.Data
