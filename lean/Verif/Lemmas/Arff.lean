import Verif.Model.Arff
import Verif.Lemmas.DatasetSub
/-
The ARFF reader inverts the writing of a table.
-/
namespace Prolothar.Data
open Prolothar.Spec.Data

/-! ### lines -/

theorem splitLines_cons {c : Char} (cs : Text) (hc : isBreak c = false) : splitLines (c :: cs) = consFirst c (splitLines cs) := by
  rw [splitLines.eq_3]
  · rw [if_neg (by simp [hc])]
  · rintro d rfl; simp [isBreak] at hc

theorem splitLines_nl (cs : Text) : splitLines ('\n' :: cs) = [] :: splitLines cs := by
  rw [splitLines.eq_3]
  · rw [if_pos (by decide)]
  · rintro d h; simp at h

theorem splitLines_line {t : Text} : ∀ {l : Text}, (∀ c ∈ l, isBreak c = false) → splitLines (l ++ '\n' :: t) = l :: splitLines t
  | [], _ => splitLines_nl t
  | c :: l, h => by
    rw [List.cons_append, splitLines_cons _ (h c List.mem_cons_self), splitLines_line fun d hd => h d (List.mem_cons_of_mem _ hd)]
    rfl

theorem splitLines_last : ∀ {l : Text}, l ≠ [] → (∀ c ∈ l, isBreak c = false) → splitLines l = [l]
  | [], h, _ => absurd rfl h
  | [c], _, h => by rw [splitLines_cons _ (h c List.mem_cons_self)]; rfl
  | c :: d :: l, _, h => by
    rw [splitLines_cons _ (h c List.mem_cons_self), splitLines_last (by simp) fun e he => h e (List.mem_cons_of_mem _ he)]
    rfl

/-- the lines of a text: an empty last line is not a line -/
theorem foldlM_splitLines {σ : Type} (f : σ → Text → Py σ) (hf : ∀ s, f s [] = .ok s) : ∀ (ls : List Text) (l : Text) (s : σ),
    (∀ x ∈ l :: ls, ∀ c ∈ x, isBreak c = false) →
    (splitLines (l ++ ls.flatMap fun x => '\n' :: x)).foldlM f s = (l :: ls).foldlM f s
  | [], [], s, h => by rw [List.foldlM_cons, hf]; rfl
  | [], c :: l, s, h => by
    rw [List.flatMap_nil, List.append_nil, splitLines_last (by simp) (h _ List.mem_cons_self)]
  | x :: ls, l, s, h => by
    rw [List.flatMap_cons, List.cons_append, splitLines_line (h _ List.mem_cons_self), List.foldlM_cons, List.foldlM_cons]
    congr 1
    funext s'
    exact foldlM_splitLines f hf ls x s' fun y hy => h y (List.mem_cons_of_mem _ hy)

/-! ### splitting and stripping -/

theorem splitChar_ne {c : Char} : ∀ {s : Text}, c ∉ s → splitChar c s = [s]
  | [], _ => rfl
  | x :: s, h => by
    rw [List.mem_cons, not_or] at h
    rw [splitChar, if_neg fun e => h.1 e.symm, splitChar_ne h.2]; rfl

theorem splitChar_append {c : Char} {t : Text} : ∀ {s : Text}, c ∉ s → splitChar c (s ++ c :: t) = s :: splitChar c t
  | [], _ => by rw [List.nil_append, splitChar, if_pos rfl]
  | x :: s, h => by
    rw [List.mem_cons, not_or] at h
    rw [List.cons_append, splitChar, if_neg fun e => h.1 e.symm, splitChar_append h.2]; rfl

theorem splitChar_join {c : Char} : ∀ {l : List Text}, l ≠ [] → (∀ s ∈ l, c ∉ s) → splitChar c (joinText [c] l) = l
  | [], h, _ => absurd rfl h
  | [s], _, h => by rw [joinText, splitChar_ne (h s List.mem_cons_self)]
  | s :: t :: l, _, h => by
    rw [joinText, List.append_assoc, List.singleton_append, splitChar_append (h s List.mem_cons_self),
      splitChar_join (by simp) fun x hx => h x (List.mem_cons_of_mem _ hx)]

theorem dropWhile_id {p : Char → Bool} {l : Text} (h : ∀ c ∈ l.head?, p c = false) : l.dropWhile p = l := by
  cases l with
  | nil => rfl
  | cons c l => rw [List.dropWhile_cons_of_neg]; simp [h c rfl]

theorem stripChars_id {cs : List Char} {l : Text} (h1 : ∀ c ∈ l.head?, c ∉ cs) (h2 : ∀ c ∈ l.getLast?, c ∉ cs) : stripChars cs l = l := by
  unfold stripChars
  rw [dropWhile_id (l := l) (by intro c hc; simpa using h1 c hc), dropWhile_id (l := l.reverse), List.reverse_reverse]
  intro c hc
  rw [List.head?_reverse] at hc
  simpa using h2 c hc

theorem stripChars_wrap {cs : List Char} {c d : Char} {l : Text} (hc : c ∈ cs) (hd : d ∈ cs) :
    stripChars cs (c :: l ++ [d]) = stripChars cs l := by
  have h1 : ∀ (p : Char → Bool) (l : Text), p d = true →
      ((l ++ [d]).dropWhile p).reverse.dropWhile p = (l.dropWhile p).reverse.dropWhile p := by
    intro p l hp
    induction l with
    | nil => simp [hp]
    | cons x l ih =>
      by_cases hx : p x = true
      · rw [List.cons_append, List.dropWhile_cons_of_pos hx, List.dropWhile_cons_of_pos hx]; exact ih
      · rw [List.cons_append, List.dropWhile_cons_of_neg hx, List.dropWhile_cons_of_neg hx, ← List.cons_append, List.reverse_append]
        simp [hp]
  unfold stripChars
  rw [List.cons_append, List.dropWhile_cons_of_pos (by simpa using hc), h1 _ _ (by simpa using hd)]

theorem strip_quoted {s : Text} (h : '"' ∉ s) : stripChars ['"'] (quoted s) = s := by
  unfold quoted
  rw [stripChars_wrap (by simp) (by simp)]
  refine stripChars_id ?_ ?_
  · intro c hc hm
    simp at hm
    subst hm
    exact h (List.mem_of_mem_head? hc)
  · intro c hc hm
    simp at hm
    subst hm
    exact h (List.mem_of_mem_getLast? hc)

/-! ### cells -/

/-- a cell of a row: in quotes or not -/
inductive Cell where
  | quoted (s : Text)
  | plain (s : Text)

/-- what is written -/
def Cell.text : Cell → Text
  | .quoted s => Data.quoted s
  | .plain s => s

/-- what is read -/
def Cell.value : Cell → Text
  | .quoted s => s
  | .plain s => s

/-- the reader gets the cell back -/
def Cell.Ok : Cell → Prop
  | .quoted s => '"' ∉ s
  | .plain s => '"' ∉ s ∧ ',' ∉ s

theorem csv_quoted : ∀ {s f rest : Text}, '"' ∉ s → csvLoop .inQuoted f (s ++ '"' :: rest) = csvLoop .quoteInQuoted (s.reverse ++ f) rest
  | [], f, rest, _ => by rw [List.nil_append, csvLoop, if_pos rfl]; rfl
  | c :: s, f, rest, h => by
    rw [List.mem_cons, not_or] at h
    rw [List.cons_append, csvLoop, if_neg fun e => h.1 e.symm, csv_quoted h.2, List.reverse_cons, List.append_assoc]; rfl

theorem csv_field_last : ∀ {s f : Text}, ',' ∉ s → csvLoop .inField f s = [f.reverse ++ s]
  | [], f, _ => by rw [csvLoop, List.append_nil]
  | c :: s, f, h => by
    rw [List.mem_cons, not_or] at h
    rw [csvLoop, if_neg fun e => h.1 e.symm, csv_field_last h.2]; simp

theorem csv_field : ∀ {s f rest : Text}, ',' ∉ s → csvLoop .inField f (s ++ ',' :: rest) = (f.reverse ++ s) :: csvLoop .startField [] rest
  | [], f, rest, _ => by rw [List.nil_append, csvLoop, if_pos rfl, List.append_nil]
  | c :: s, f, rest, h => by
    rw [List.mem_cons, not_or] at h
    rw [List.cons_append, csvLoop, if_neg fun e => h.1 e.symm, csv_field h.2]; simp

theorem csv_cell_last {c : Cell} (h : c.Ok) : csvLoop .startField [] c.text = [c.value] := by
  cases c with
  | quoted s =>
    show csvLoop .startField [] ('"' :: (s ++ ['"'])) = [s]
    rw [csvLoop, if_pos rfl, csv_quoted h, csvLoop]; simp
  | plain s =>
    show csvLoop .startField [] s = [s]
    cases s with
    | nil => rfl
    | cons x s =>
      obtain ⟨h1, h2⟩ := h
      rw [List.mem_cons, not_or] at h1 h2
      rw [csvLoop, if_neg fun e => h1.1 e.symm, if_neg fun e => h2.1 e.symm, csv_field_last h2.2]; rfl

theorem csv_cell {c : Cell} (h : c.Ok) (rest : Text) :
    csvLoop .startField [] (c.text ++ ',' :: rest) = c.value :: csvLoop .startField [] rest := by
  cases c with
  | quoted s =>
    show csvLoop .startField [] ('"' :: (s ++ ['"']) ++ ',' :: rest) = s :: _
    rw [List.cons_append, csvLoop, if_pos rfl, List.append_assoc, List.singleton_append, csv_quoted h, csvLoop,
      if_neg (by decide), if_pos rfl]; simp
  | plain s =>
    show csvLoop .startField [] (s ++ ',' :: rest) = s :: _
    cases s with
    | nil => rfl
    | cons x s =>
      obtain ⟨h1, h2⟩ := h
      rw [List.mem_cons, not_or] at h1 h2
      rw [List.cons_append, csvLoop, if_neg fun e => h1.1 e.symm, if_neg fun e => h2.1 e.symm, csv_field h2.2]; rfl

theorem csv_row : ∀ {l : List Cell}, l ≠ [] → (∀ c ∈ l, c.Ok) → csvLoop .startField [] (joinText [','] (l.map Cell.text)) = l.map Cell.value
  | [], h, _ => absurd rfl h
  | [c], _, h => csv_cell_last (h c List.mem_cons_self)
  | c :: d :: l, _, h => by
    rw [List.map_cons, List.map_cons, joinText, List.append_assoc, List.singleton_append, csv_cell (h c List.mem_cons_self),
      ← List.map_cons, csv_row (by simp) fun x hx => h x (List.mem_cons_of_mem _ hx)]; rfl

theorem csvRow_cells {l : List Cell} (hl : l ≠ []) (h : ∀ c ∈ l, c.Ok) (ht : joinText [','] (l.map Cell.text) ≠ []) :
    csvRow (joinText [','] (l.map Cell.text)) = l.map Cell.value := by
  rw [csvRow, if_neg ht, csv_row hl h]

/-! ### rows -/

theorem put_fresh {ν : Type} {d : Dict String ν} {n : String} (v : ν) (h : n ∉ d.keys) : d.put n v = d ++ [(n, v)] := by
  induction d with
  | nil => rfl
  | cons e d ih =>
    rw [show Dict.keys (e :: d) = e.1 :: Dict.keys d from rfl, List.mem_cons, not_or] at h
    rw [Dict.put, if_neg fun e => h.1 e.symm, ih h.2]; rfl

theorem pyGet_append {α : Type} (l r : List α) (x : α) : pyGet (l ++ x :: r) (l.length : Int) = .ok x :=
  pyGet_ofNat (by simp)

theorem foldlM_dense : ∀ (vs : List Text) (pre ns : List String) (acc : Dict String Val), (pre ++ ns).Nodup → acc.keys = pre →
    vs.length = ns.length → (vs.zipIdx pre.length).foldlM (denseStep (pre ++ ns)) acc =
      .ok (acc ++ ns.zip (vs.map fun t => Val.str (String.ofList t)))
  | [], _, [], acc, _, _, _ => by simp; rfl
  | v :: vs, pre, n :: ns, acc, hn, ha, hl => by
    have h1 : denseStep (pre ++ n :: ns) acc (v, pre.length) = .ok (acc ++ [(n, .str (String.ofList v))]) := by
      unfold denseStep
      rw [pyGet_append]
      show (Except.ok _ : Py _) = _
      rw [put_fresh]
      rw [ha]
      intro hm
      exact (List.nodup_append.1 hn).2.2 n hm n List.mem_cons_self rfl
    have h2 := foldlM_dense vs (pre ++ [n]) ns (acc ++ [(n, .str (String.ofList v))]) (by simpa using hn)
      (by unfold Dict.keys at ha ⊢; simp [ha]) (by simpa using hl)
    rw [List.zipIdx_cons, List.foldlM_cons, h1]
    show (List.zipIdx vs (pre.length + 1)).foldlM _ _ = _
    rw [List.length_append, List.length_singleton, List.append_assoc, List.singleton_append] at h2
    rw [h2]
    simp
  | [], _, _ :: _, _, _, _, hl => by simp at hl
  | _ :: _, _, [], _, _, _, hl => by simp at hl

/-- a row of cells -/
def rowText (r : List Cell) : Text := joinText [','] (r.map Cell.text)

/-- a row that is read as it was written -/
structure RowOk (r : List Cell) : Prop where
  cells : ∀ c ∈ r, c.Ok
  start : (rowText r).head? ≠ some '{'
  nonempty : rowText r ≠ []
  line : ∀ c ∈ rowText r, isBreak c = false

/-- the features that are read -/
def readRow (names : List String) (r : List Cell) : Dict String Val := names.zip (r.map fun c => Val.str (String.ofList c.value))

theorem parseInstance_row {names : List String} {r : List Cell} (hn : names.Nodup) (hr : RowOk r) (hl : r.length = names.length) :
    parseInstance (rowText r) names = .ok (readRow names r) := by
  unfold parseInstance
  rw [if_neg hr.start]
  have : r ≠ [] := by rintro rfl; exact hr.nonempty rfl
  have h1 := csvRow_cells this hr.cells hr.nonempty
  unfold rowText
  rw [h1]
  have := foldlM_dense (r.map Cell.value) [] names [] (by simpa using hn) rfl (by simpa using hl)
  simpa [readRow, List.map_map, Function.comp_def] using this

/-! ### header -/

/-- a column: the name and the type that is written -/
structure Col where
  name : String
  type : Text

/-- the line of a column -/
def Col.line (c : Col) : Text := "@ATTRIBUTE ".toList ++ quoted c.name.toList ++ ' ' :: c.type

def Col.isCat (c : Col) : Bool := decide (c.type.head? = some '{')

/-- a column that is read as it was written -/
structure ColOk (c : Col) : Prop where
  name : ∀ x ∈ c.name.toList, x ≠ '"' ∧ x ≠ ' ' ∧ isBreak x = false
  type : ∀ x ∈ c.type, x ≠ ' ' ∧ isBreak x = false
  known : c.type.head? = some '{' ∨ c.type = "NUMERIC".toList

theorem quoted_mem {s : Text} {c : Char} : c ∈ quoted s ↔ c = '"' ∨ c ∈ s := by
  unfold quoted
  simp
  tauto

theorem col_step {s : ArffState} {c : Col} (hc : ColOk c) (hs : s.started = false) :
    arffStep s c.line = .ok { s with
      all := s.all ++ [c.name]
      cat := s.cat ++ if c.isCat then [c.name] else []
      num := s.num ++ if c.isCat then [] else [c.name] } := by
  have h1 : splitChar ' ' c.line = ["@ATTRIBUTE".toList, quoted c.name.toList, c.type] := by
    have : c.line = "@ATTRIBUTE".toList ++ ' ' :: (quoted c.name.toList ++ ' ' :: c.type) := by
      unfold Col.line; simp
    rw [this, splitChar_append (by decide), splitChar_append, splitChar_ne]
    · intro h; exact (hc.type _ h).1 rfl
    · intro h
      rw [quoted_mem] at h
      rcases h with h | h
      · exact absurd h (by decide)
      · exact (hc.name _ h).2.1 rfl
  unfold arffStep
  rw [if_neg (by simp [hs]), if_pos]
  · unfold attributeLine
    rw [h1]
    simp only
    rw [strip_quoted fun h => (hc.name _ h).1 rfl, String.ofList_toList]
    unfold Col.isCat
    rcases hc.known with h | h
    · rw [if_pos h]; simp [h]
    · rw [if_neg (by rw [h]; decide), if_pos (by rw [h]; decide)]
      rw [h]; simp
  · unfold Col.line lower
    rw [List.append_assoc, List.map_append]
    exact List.IsPrefix.trans (l₂ := "@ATTRIBUTE ".toList.map Char.toLower) (by decide) (List.prefix_append _ _)

theorem cols_steps : ∀ (cols : List Col) (s : ArffState), (∀ c ∈ cols, ColOk c) → s.started = false →
    (cols.map Col.line).foldlM arffStep s = .ok { s with
      all := s.all ++ cols.map Col.name
      cat := s.cat ++ (cols.filter Col.isCat).map Col.name
      num := s.num ++ (cols.filter fun c => !c.isCat).map Col.name }
  | [], s, _, _ => by simp; rfl
  | c :: cols, s, h, hs => by
    rw [List.map_cons, List.foldlM_cons, col_step (h c List.mem_cons_self) hs]
    show List.foldlM _ _ _ = _
    refine (cols_steps cols _ (fun x hx => h x (List.mem_cons_of_mem _ hx)) ?_).trans ?_
    · exact hs
    · cases hb : c.isCat <;> simp [hb]

theorem row_step {s : ArffState} {r : List Cell} (hr : RowOk r) (hs : s.started = true) (hn : s.all.Nodup) (hl : r.length = s.all.length) :
    arffStep s (rowText r) = .ok { s with instances := s.instances ++ [readRow s.all r] } := by
  unfold arffStep
  rw [if_pos ⟨hs, hr.nonempty⟩, parseInstance_row hn hr hl]
  rfl

theorem rows_steps : ∀ (rows : List (List Cell)) (s : ArffState), (∀ r ∈ rows, RowOk r ∧ r.length = s.all.length) → s.started = true →
    s.all.Nodup → (rows.map rowText).foldlM arffStep s = .ok { s with instances := s.instances ++ rows.map (readRow s.all) }
  | [], s, _, _, _ => by simp; rfl
  | r :: rows, s, h, hs, hn => by
    obtain ⟨h1, h2⟩ := h r List.mem_cons_self
    rw [List.map_cons, List.foldlM_cons, row_step h1 hs hn h2]
    show List.foldlM _ _ _ = _
    refine (rows_steps rows _ ?_ ?_ ?_).trans ?_
    · exact fun x hx => h x (List.mem_cons_of_mem _ hx)
    · exact hs
    · exact hn
    · simp

theorem empty_step (s : ArffState) : arffStep s [] = .ok s := by
  unfold arffStep
  rw [if_neg (by simp), if_neg (by decide), if_neg (by decide)]

/-- the text of a table -/
def tableText (rel : Text) (cols : List Col) (rows : List (List Cell)) : Text :=
  "@RELATION ".toList ++ quoted rel ++ ['\n'] ++ (cols.flatMap fun c => '\n' :: c.line) ++ "\n\n@DATA".toList ++
    rows.flatMap fun r => '\n' :: rowText r

theorem relation_step (s : ArffState) (rel : Text) (hs : s.started = false) : arffStep s ("@RELATION ".toList ++ quoted rel) = .ok s := by
  have h : ∀ p : Text, p.length ≤ 10 → p.length ≤ 10 → ¬ p <+: lower "@RELATION ".toList →
      ¬ p <+: lower ("@RELATION ".toList ++ quoted rel) := by
    intro p hp _ hn hh
    apply hn
    unfold lower at hh ⊢
    rw [List.map_append] at hh
    exact List.prefix_of_prefix_length_le hh (List.prefix_append _ _) (by simpa using hp)
  unfold arffStep
  rw [if_neg (by simp [hs]), if_neg (h _ (by decide) (by decide) (by decide)), if_neg (h _ (by decide) (by decide) (by decide))]

theorem data_step (s : ArffState) (hs : s.started = false) : arffStep s "@DATA".toList = .ok { s with started := true } := by
  unfold arffStep
  rw [if_neg (by simp [hs]), if_neg (by decide), if_pos (by decide)]

theorem table_steps {rel : Text} {cols : List Col} {rows : List (List Cell)} (hrel : ∀ c ∈ rel, isBreak c = false)
    (hc : ∀ c ∈ cols, ColOk c) (hn : (cols.map Col.name).Nodup) (hr : ∀ r ∈ rows, RowOk r ∧ r.length = cols.length) :
    (splitLines (tableText rel cols rows)).foldlM arffStep ⟨[], [], [], false, []⟩ =
      .ok ⟨cols.map Col.name, (cols.filter Col.isCat).map Col.name, (cols.filter fun c => !c.isCat).map Col.name, true,
        rows.map (readRow (cols.map Col.name))⟩ := by
  have he : tableText rel cols rows = ("@RELATION ".toList ++ quoted rel) ++
      ([[]] ++ cols.map Col.line ++ [[], "@DATA".toList] ++ rows.map rowText).flatMap fun x => '\n' :: x := by
    unfold tableText
    simp [List.flatMap_append, List.flatMap_map]
  rw [he, foldlM_splitLines arffStep empty_step]
  · rw [List.foldlM_cons, relation_step _ _ rfl]
    show List.foldlM _ _ _ = _
    rw [List.foldlM_append, List.foldlM_append, List.foldlM_append]
    rw [show List.foldlM arffStep (⟨[], [], [], false, []⟩ : ArffState) [[]] = .ok ⟨[], [], [], false, []⟩ by
      rw [List.foldlM_cons, empty_step]; rfl]
    show ((((List.foldlM arffStep _ _) >>= fun s => List.foldlM arffStep s _) >>= fun s => List.foldlM arffStep s _) : Py _) = _
    rw [cols_steps cols _ hc rfl]
    show ((List.foldlM arffStep _ _) >>= fun s => List.foldlM arffStep s _ : Py _) = _
    rw [List.foldlM_cons, empty_step]
    show ((List.foldlM arffStep _ _) >>= fun s => List.foldlM arffStep s _ : Py _) = _
    rw [List.foldlM_cons, data_step _ rfl]
    show List.foldlM arffStep _ _ = _
    rw [rows_steps rows _ _ rfl]
    · simp
    · simpa using hn
    · intro r h
      simpa using hr r h
  · intro x hx c hm
    simp only [List.mem_cons, List.mem_append, List.mem_map, List.not_mem_nil, or_false] at hx
    rcases hx with rfl | ((rfl | ⟨d, hd, rfl⟩) | rfl | rfl) | ⟨r, h, rfl⟩
    · rcases List.mem_append.1 hm with h | h
      · exact (show ∀ c ∈ "@RELATION ".toList, isBreak c = false by decide) c h
      · rcases quoted_mem.1 h with rfl | h
        · decide
        · exact hrel c h
    · cases hm
    · have hd := hc d hd
      unfold Col.line at hm
      rcases List.mem_append.1 hm with h | h
      · rcases List.mem_append.1 h with h | h
        · exact (show ∀ c ∈ "@ATTRIBUTE ".toList, isBreak c = false by decide) c h
        · rcases quoted_mem.1 h with rfl | h
          · decide
          · exact (hd.name c h).2.2
      · rcases List.mem_cons.1 h with rfl | h
        · decide
        · exact (hd.type c h).2
    · cases hm
    · exact (show ∀ c ∈ "@DATA".toList, isBreak c = false by decide) c hm
    · exact (hr r h).1.line c hm

/-! ### the dataset that is read -/

theorem readRow_keys {names : List String} {r : List Cell} (h : r.length = names.length) : (readRow names r).keys = names := by
  unfold readRow Dict.keys
  rw [List.map_fst_zip]
  simp [h]

theorem cols_perm (cols : List Col) :
    ((cols.filter Col.isCat).map Col.name ++ (cols.filter fun c => !c.isCat).map Col.name).Perm (cols.map Col.name) := by
  rw [← List.map_append]
  exact (List.filter_append_perm _ _).map _

theorem read_table {rel : Text} {cols : List Col} {rows : List (List Cell)} (hrel : ∀ c ∈ rel, isBreak c = false)
    (hc : ∀ c ∈ cols, ColOk c) (hn : (cols.map Col.name).Nodup) (hr : ∀ r ∈ rows, RowOk r ∧ r.length = cols.length) :
    ∃ d, createFromArff (tableText rel cols rows) = .ok (arffHeap (rows.map (readRow (cols.map Col.name))), d) ∧
      Consistent (arffHeap (rows.map (readRow (cols.map Col.name)))) d ∧
      d.catNames = (cols.filter Col.isCat).map Col.name ∧ d.numNames = (cols.filter fun c => !c.isCat).map Col.name ∧
      d.instances = List.range rows.length := by
  let L := rows.map (readRow (cols.map Col.name))
  let cat := (cols.filter Col.isCat).map Col.name
  let num := (cols.filter fun c => !c.isCat).map Col.name
  have hnd : (cat ++ num).Nodup := ((cols_perm cols).nodup_iff).2 hn
  have hkeys : ∀ i < rows.length, (arffHeap L i).features.keys = cols.map Col.name := by
    intro i hi
    have h1 : L.getD i [] = readRow (cols.map Col.name) rows[i] := by
      simp [L, List.getD, List.getElem?_eq_getElem hi]
    show (L.getD i []).keys = _
    rw [h1]
    exact readRow_keys (by rw [List.length_map]; exact (hr _ (List.getElem_mem hi)).2)
  have key : ∀ (k : Nat), k ≤ rows.length → ∃ d, (List.range k).foldlM (Dataset.addInstance (arffHeap L)) (Dataset.new cat num) = .ok d ∧
      Consistent (arffHeap L) d ∧ SameAttrs (Dataset.new cat num) d ∧ d.instances = List.range k := by
    intro k
    induction k with
    | zero => exact fun _ => ⟨_, rfl, new_consistent _ hnd, ⟨rfl, rfl, fun n => Iff.rfl⟩, rfl⟩
    | succ k ih =>
      intro hk
      obtain ⟨d, h1, h2, h3, h4⟩ := ih (by omega)
      obtain ⟨d', h5, h6, h7, h8⟩ := add_same (a := k) h2 h3 (by
        rw [hkeys k (by omega)]
        refine ⟨hn, fun n => ?_⟩
        rw [mem_keys_new, ← (cols_perm cols).mem_iff, List.mem_append]) (by
        intro b hb
        rw [h4, List.mem_range] at hb
        show Val.num (b : Rat) ≠ Val.num (k : Rat)
        intro e
        injection e with e
        have : b = k := by exact_mod_cast e
        omega)
      refine ⟨d', ?_, h6, h7, by rw [h8, h4, List.range_succ]⟩
      rw [List.range_succ, List.foldlM_append, h1]
      show List.foldlM _ _ _ = _
      rw [List.foldlM_cons, h5]; rfl
  obtain ⟨d, h1, h2, h3, h4⟩ := key rows.length le_rfl
  refine ⟨d, ?_, h2, h3.1, h3.2.1, h4⟩
  unfold createFromArff
  rw [table_steps hrel hc hn hr]
  show ((List.range (rows.map (readRow (cols.map Col.name))).length).foldlM _ _ >>= _ : Py _) = _
  rw [List.length_map, h1]
  rfl

theorem arffHeap_get {rows : List (List Cell)} {names : List String} (hn : names.Nodup) {i j : Nat} {r : List Cell} {c : Cell} {n : String}
    (hi : rows[i]? = some r) (hl : r.length = names.length) (hj : names[j]? = some n) (hc : r[j]? = some c) :
    (arffHeap (rows.map (readRow names)) i).features.get? n = some (.str (String.ofList c.value)) := by
  have h1 : (arffHeap (rows.map (readRow names)) i).features = readRow names r := by
    show List.getD _ _ _ = _
    simp [List.getD, hi]
  rw [h1]
  refine Dict.get?_of_mem (by unfold Dict.WF; rw [readRow_keys hl]; exact hn) ?_
  unfold readRow
  refine List.mem_of_getElem? (i := j) ?_
  rw [List.getElem?_zip_eq_some]
  exact ⟨hj, by simp [hc]⟩

end Prolothar.Data
