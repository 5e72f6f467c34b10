import Verif.Props.ArffText
/-
Reading a prefix of the text of a table.
-/
namespace Prolothar.Data
open Prolothar.Spec.Data Prolothar.Spec.Arff

/-! ### prefixes -/

theorem prefix_append_cases {α : Type} : ∀ {a b p : List α}, p <+: a ++ b → p <+: a ∨ ∃ q, p = a ++ q ∧ q <+: b
  | [], _, p, h => .inr ⟨p, rfl, h⟩
  | x :: a, b, [], _ => .inl List.nil_prefix
  | x :: a, b, y :: p, h => by
    rw [List.cons_append, List.cons_prefix_cons] at h
    obtain ⟨rfl, h⟩ := h
    rcases prefix_append_cases h with h | ⟨q, rfl, h'⟩
    · exact .inl (List.cons_prefix_cons.2 ⟨rfl, h⟩)
    · exact .inr ⟨q, rfl, h'⟩

theorem prefix_cons_cases {α : Type} {x : α} {b p : List α} (h : p <+: x :: b) : p = [] ∨ ∃ q, p = x :: q ∧ q <+: b := by
  cases p with
  | nil => exact .inl rfl
  | cons y p =>
    rw [List.cons_prefix_cons] at h
    exact .inr ⟨p, by rw [h.1], h.2⟩

/-- `r` is the result if the lines are read up to a point within one of the lines -/
def Cut {σ : Type} (f : σ → Text → Py σ) (ls : List Text) (s : σ) (r : Py σ) : Prop :=
  ∃ (k : Nat) (x q : Text), ls[k]? = some x ∧ q <+: x ∧ (ls.take k ++ [q]).foldlM f s = r

theorem cut_append {σ : Type} {f : σ → Text → Py σ} {A B : List Text} {s s' : σ} {r : Py σ} (hA : A.foldlM f s = .ok s')
    (h : Cut f (A ++ B) s r) : Cut f A s r ∨ Cut f B s' r := by
  obtain ⟨k, x, q, h1, h2, h3⟩ := h
  by_cases hk : k < A.length
  · left
    rw [List.getElem?_append_left hk] at h1
    rw [List.take_append_of_le_length (by omega)] at h3
    exact ⟨k, x, q, h1, h2, h3⟩
  · right
    rw [List.getElem?_append_right (by omega)] at h1
    rw [List.take_append, List.take_of_length_le (by omega), List.append_assoc, List.foldlM_append, hA] at h3
    exact ⟨_, x, q, h1, h2, h3⟩

theorem cut_cons {σ : Type} {f : σ → Text → Py σ} {l : Text} {B : List Text} {s s' : σ} {r : Py σ} (hA : f s l = .ok s')
    (h : Cut f (l :: B) s r) : (∃ q, q <+: l ∧ f s q = r) ∨ Cut f B s' r := by
  obtain ⟨k, x, q, h1, h2, h3⟩ := h
  cases k with
  | zero =>
    left
    simp only [List.getElem?_cons_zero, Option.some.injEq] at h1
    subst h1
    refine ⟨q, h2, ?_⟩
    rw [← h3]
    simp
  | succ k =>
    right
    rw [List.getElem?_cons_succ] at h1
    rw [List.take_succ_cons, List.cons_append, List.foldlM_cons, hA] at h3
    exact ⟨_, x, q, h1, h2, h3⟩

theorem cut_nil {σ : Type} {f : σ → Text → Py σ} {s : σ} {r : Py σ} : ¬ Cut f [] s r := by
  rintro ⟨k, x, q, h1, -⟩
  simp at h1

theorem cut_lines {σ : Type} (f : σ → Text → Py σ) (hf : ∀ s, f s [] = .ok s) : ∀ (ls : List Text) (l p : Text) (s : σ),
    (∀ x ∈ l :: ls, ∀ c ∈ x, isBreak c = false) → (p <+: l ++ ls.flatMap fun x => '\n' :: x) →
    Cut f (l :: ls) s ((splitLines p).foldlM f s)
  | [], l, p, s, h, hp => by
    rw [List.flatMap_nil, List.append_nil] at hp
    refine ⟨0, l, p, rfl, hp, ?_⟩
    have := foldlM_splitLines f hf [] p s (by
      intro x hx c hc
      rw [List.mem_singleton] at hx
      subst hx
      exact h l List.mem_cons_self c (hp.subset hc))
    rw [List.flatMap_nil, List.append_nil] at this
    rw [this]; rfl
  | y :: ls, l, p, s, h, hp => by
    have hfirst : p <+: l → Cut f (l :: y :: ls) s ((splitLines p).foldlM f s) := by
      intro hp
      refine ⟨0, l, p, rfl, hp, ?_⟩
      have := foldlM_splitLines f hf [] p s (by
        intro x hx c hc
        rw [List.mem_singleton] at hx
        subst hx
        exact h l List.mem_cons_self c (hp.subset hc))
      rw [List.flatMap_nil, List.append_nil] at this
      rw [this]; rfl
    rw [List.flatMap_cons] at hp
    rcases prefix_append_cases hp with hp | ⟨q0, rfl, hq0⟩
    · exact hfirst hp
    · rcases prefix_cons_cases hq0 with rfl | ⟨q, rfl, hq⟩
      · exact hfirst (by simp)
      · rw [splitLines_line (h l List.mem_cons_self), List.foldlM_cons]
        cases hs : f s l with
        | error e =>
          obtain ⟨k, x, q', h1, h2, h3⟩ := cut_lines f hf ls y q s (fun x hx => h x (List.mem_cons_of_mem _ hx)) hq
          refine ⟨k + 1, x, q', h1, h2, ?_⟩
          rw [List.take_succ_cons, List.cons_append, List.foldlM_cons, hs]
          rfl
        | ok s' =>
          obtain ⟨k, x, q', h1, h2, h3⟩ := cut_lines f hf ls y q s' (fun x hx => h x (List.mem_cons_of_mem _ hx)) hq
          refine ⟨k + 1, x, q', h1, h2, ?_⟩
          rw [List.take_succ_cons, List.cons_append, List.foldlM_cons, hs]
          exact h3

/-! ### cells -/

theorem csv_unterminated : ∀ {s f : Text}, '"' ∉ s → csvLoop .inQuoted f s = [f.reverse ++ s]
  | [], f, _ => by rw [csvLoop, List.append_nil]
  | c :: s, f, h => by
    rw [List.mem_cons, not_or] at h
    rw [csvLoop, if_neg fun e => h.1 e.symm, csv_unterminated h.2]; simp

theorem cut_cell {c : Cell} (h : c.Ok) {q : Text} (hq : q <+: c.text) : ∃ c' : Cell, c'.Ok ∧ c'.value <+: c.value ∧
    csvLoop .startField [] q = [c'.value] ∧ (q ≠ [] → c'.text.head? = q.head?) ∧ ∀ x ∈ c'.text, x ∈ c.text := by
  cases c with
  | quoted s =>
    rcases prefix_cons_cases hq with rfl | ⟨q, rfl, hq1⟩
    · exact ⟨.plain [], ⟨by simp, by simp⟩, List.nil_prefix, rfl, fun h => absurd rfl h, by intro x hx; cases hx⟩
    · have hsame : q = s ++ ['"'] ∨ q <+: s := by
        rcases prefix_append_cases (a := s) (b := ['"']) hq1 with hq2 | ⟨q', rfl, hq2⟩
        · exact .inr hq2
        · rcases prefix_cons_cases hq2 with rfl | ⟨q'', rfl, hq3⟩
          · exact .inr (by simp)
          · rw [List.prefix_nil] at hq3
            subst hq3
            exact .inl rfl
      rcases hsame with rfl | hq'
      · exact ⟨.quoted s, h, List.prefix_rfl, csv_cell_last (c := .quoted s) h, fun _ => rfl, fun x hx => hx⟩
      · have hn : '"' ∉ q := fun hm => h (hq'.subset hm)
        refine ⟨.quoted q, hn, hq', ?_, fun _ => rfl, ?_⟩
        · rw [csvLoop, if_pos rfl, csv_unterminated hn]; rfl
        · intro x hx
          rcases quoted_mem.1 hx with rfl | hx
          · exact quoted_mem.2 (.inl rfl)
          · exact quoted_mem.2 (.inr (hq'.subset hx))
  | plain s =>
    have hok : (Cell.plain q).Ok := ⟨fun hm => h.1 (hq.subset hm), fun hm => h.2 (hq.subset hm)⟩
    exact ⟨.plain q, hok, hq, csv_cell_last (c := .plain q) hok, fun _ => rfl, fun x hx => hq.subset hx⟩

theorem cut_cells : ∀ {r : List Cell}, r ≠ [] → (∀ c ∈ r, c.Ok) → ∀ {q : Text}, q <+: rowText r →
    ∃ (m : Nat) (c c' : Cell), r[m]? = some c ∧ c'.Ok ∧ c'.value <+: c.value ∧ (∀ x ∈ c'.text, x ∈ c.text) ∧
      csvLoop .startField [] q = (r.take m ++ [c']).map Cell.value ∧ (q ≠ [] → (rowText (r.take m ++ [c'])).head? = q.head?)
  | [], h, _, _, _ => absurd rfl h
  | [c], _, hok, q, hq => by
    obtain ⟨c', h1, h2, h3, h4, h5⟩ := cut_cell (hok c List.mem_cons_self) hq
    exact ⟨0, c, c', rfl, h1, h2, h5, h3, h4⟩
  | c :: d :: l, _, hok, q, hq => by
    have hfirst : q <+: c.text → ∃ (m : Nat) (e c' : Cell), (c :: d :: l)[m]? = some e ∧ c'.Ok ∧ c'.value <+: e.value ∧
        (∀ x ∈ c'.text, x ∈ e.text) ∧ csvLoop .startField [] q = ((c :: d :: l).take m ++ [c']).map Cell.value ∧
        (q ≠ [] → (rowText ((c :: d :: l).take m ++ [c'])).head? = q.head?) := by
      intro hq
      obtain ⟨c', h1, h2, h3, h4, h5⟩ := cut_cell (hok c List.mem_cons_self) hq
      exact ⟨0, c, c', rfl, h1, h2, h5, h3, h4⟩
    have hrow : rowText (c :: d :: l) = c.text ++ (',' :: rowText (d :: l)) := by
      show joinText [','] (c.text :: d.text :: l.map Cell.text) = _
      rw [joinText, List.append_assoc]; rfl
    rw [hrow] at hq
    rcases prefix_append_cases hq with hq | ⟨q0, rfl, hq0⟩
    · exact hfirst hq
    · rcases prefix_cons_cases hq0 with rfl | ⟨q, rfl, hq1⟩
      · exact hfirst (by simp)
      · obtain ⟨m, e, c', h1, h2, h3, h4, h5, -⟩ := cut_cells (r := d :: l) (by simp) (fun x hx => hok x (List.mem_cons_of_mem _ hx)) hq1
        refine ⟨m + 1, e, c', h1, h2, h3, h4, ?_, fun _ => ?_⟩
        · rw [csv_cell (hok c List.mem_cons_self), h5]; rfl
        · have : ∃ y ys, (d :: l).take m ++ [c'] = y :: ys := by
            cases hh : (d :: l).take m ++ [c'] with
            | nil => simp at hh
            | cons y ys => exact ⟨y, ys, rfl⟩
          obtain ⟨y, ys, hy⟩ := this
          rw [List.take_succ_cons, List.cons_append, hy]
          show (joinText [','] (c.text :: y.text :: ys.map Cell.text)).head? = _
          rw [joinText]
          cases c.text <;> rfl

theorem text_subset_row {r : List Cell} {c : Cell} (hc : c ∈ r) {x : Char} (hx : x ∈ c.text) : x ∈ rowText r :=
  mem_joinText_of hx (List.mem_map.2 ⟨c, hc, rfl⟩)

/-- a cut row is read like a row with fewer cells, the last of which is a prefix of the cell -/
theorem cut_row {r : List Cell} (hr : RowOk r) {q : Text} (hq : q <+: rowText r) (hne : q ≠ []) :
    ∃ (m : Nat) (c c' : Cell), r[m]? = some c ∧ c'.value <+: c.value ∧ RowOk (r.take m ++ [c']) ∧
      csvRow q = (r.take m ++ [c']).map Cell.value ∧ q.head? ≠ some '{' := by
  have hrne : r ≠ [] := by rintro rfl; exact hr.nonempty rfl
  obtain ⟨m, c, c', h1, h2, h3, h4, h5, h6⟩ := cut_cells hrne hr.cells hq
  have hhead : q.head? = (rowText r).head? := by
    obtain ⟨x, q, rfl⟩ := List.exists_cons_of_ne_nil hne
    obtain ⟨t, ht⟩ := hq
    rw [← ht]; rfl
  have h6 := h6 hne
  refine ⟨m, c, c', h1, h3, ⟨?_, by rw [h6, hhead]; exact hr.start, ?_, ?_⟩, by rw [csvRow, if_neg hne, h5], by rw [hhead]; exact hr.start⟩
  · intro x hx
    rcases List.mem_append.1 hx with hx | hx
    · exact hr.cells x (List.mem_of_mem_take hx)
    · rw [List.mem_singleton] at hx; subst hx; exact h2
  · intro he
    rw [he] at h6
    obtain ⟨x, q, rfl⟩ := List.exists_cons_of_ne_nil hne
    cases h6
  · intro x hx
    rcases mem_joinText hx with hx1 | ⟨y, hy, hx1⟩
    · rw [List.mem_singleton] at hx1; rw [hx1]; decide
    · obtain ⟨e, he, rfl⟩ := List.mem_map.1 hy
      rcases List.mem_append.1 he with he | he
      · exact hr.line x (text_subset_row (List.mem_of_mem_take he) hx1)
      · rw [List.mem_singleton] at he
        rw [he] at hx1
        exact hr.line x (text_subset_row (List.mem_of_getElem? h1) (h4 x hx1))

/-! ### rows -/

theorem foldlM_dense_le : ∀ (vs : List Text) (pre ns : List String) (acc : Dict String Val), (pre ++ ns).Nodup → acc.keys = pre →
    vs.length ≤ ns.length → (vs.zipIdx pre.length).foldlM (denseStep (pre ++ ns)) acc =
      .ok (acc ++ ns.zip (vs.map fun t => Val.str (String.ofList t)))
  | [], _, ns, acc, _, _, _ => by simp; rfl
  | v :: vs, pre, n :: ns, acc, hn, ha, hl => by
    have h1 : denseStep (pre ++ n :: ns) acc (v, pre.length) = .ok (acc ++ [(n, .str (String.ofList v))]) := by
      unfold denseStep
      rw [pyGet_append]
      show (Except.ok _ : Py _) = _
      rw [put_fresh]
      rw [ha]
      intro hm
      exact (List.nodup_append.1 hn).2.2 n hm n List.mem_cons_self rfl
    have h2 := foldlM_dense_le vs (pre ++ [n]) ns (acc ++ [(n, .str (String.ofList v))]) (by simpa using hn)
      (by unfold Dict.keys at ha ⊢; simp [ha]) (by simpa using hl)
    rw [List.zipIdx_cons, List.foldlM_cons, h1]
    show (List.zipIdx vs (pre.length + 1)).foldlM _ _ = _
    rw [List.length_append, List.length_singleton, List.append_assoc, List.singleton_append] at h2
    rw [h2]
    simp
  | _ :: _, _, [], _, _, _, hl => by simp at hl

theorem cut_row_step {s : ArffState} {r : List Cell} (hr : RowOk r) (hs : s.started = true) (hn : s.all.Nodup) (hl : r.length = s.all.length)
    {q : Text} (hq : q <+: rowText r) (hne : q ≠ []) :
    ∃ (m : Nat) (c c' : Cell), r[m]? = some c ∧ c'.value <+: c.value ∧ RowOk (r.take m ++ [c']) ∧
      arffStep s q = .ok { s with instances := s.instances ++ [readRow s.all (r.take m ++ [c'])] } := by
  obtain ⟨m, c, c', h1, h2, h3, h4, h5⟩ := cut_row hr hq hne
  refine ⟨m, c, c', h1, h2, h3, ?_⟩
  have hm : m < r.length := (List.getElem?_eq_some_iff.1 h1).1
  have : parseInstance q s.all = .ok (readRow s.all (r.take m ++ [c'])) := by
    unfold parseInstance
    rw [if_neg h5, h4]
    have := foldlM_dense_le ((r.take m ++ [c']).map Cell.value) [] s.all [] (by simpa using hn) rfl (by simp; omega)
    simpa [readRow, List.map_map, Function.comp_def] using this
  unfold arffStep
  rw [if_pos ⟨hs, hne⟩, this]
  rfl

theorem cut_rows : ∀ (rows : List (List Cell)) (s : ArffState) (r : Py ArffState), (∀ r ∈ rows, RowOk r ∧ r.length = s.all.length) →
    s.started = true → s.all.Nodup → Cut arffStep (rows.map rowText) s r →
    ∃ k < rows.length, r = .ok { s with instances := s.instances ++ (rows.take k).map (readRow s.all) } ∨
      ∃ (row : List Cell) (m : Nat) (c c' : Cell), rows[k]? = some row ∧ row[m]? = some c ∧ c'.value <+: c.value ∧ RowOk (row.take m ++ [c']) ∧
        r = .ok { s with instances := s.instances ++ (rows.take k ++ [row.take m ++ [c']]).map (readRow s.all) }
  | [], s, r, _, _, _, h => absurd h cut_nil
  | row :: rows, s, r, h, hs, hn, hcut => by
    obtain ⟨h1, h2⟩ := h row List.mem_cons_self
    rcases cut_cons (row_step h1 hs hn h2) hcut with ⟨q, hq, he⟩ | hcut
    · by_cases hne : q = []
      · subst hne
        rw [empty_step] at he
        exact ⟨0, by simp, .inl (by rw [← he]; simp)⟩
      · obtain ⟨m, c, c', k1, k2, k3, k4⟩ := cut_row_step h1 hs hn h2 hq hne
        rw [k4] at he
        exact ⟨0, by simp, .inr ⟨row, m, c, c', rfl, k1, k2, k3, by rw [← he]; rfl⟩⟩
    · obtain ⟨k, hk, hh⟩ := cut_rows rows { s with instances := s.instances ++ [readRow s.all row] } r (fun x hx => h x (List.mem_cons_of_mem _ hx)) hs hn hcut
      refine ⟨k + 1, by simpa using hk, ?_⟩
      rcases hh with hh | ⟨row', m, c, c', k1, k2, k3, k4, hh⟩
      · exact .inl (by rw [hh]; simp)
      · exact .inr ⟨row', m, c, c', k1, k2, k3, k4, by rw [hh]; simp⟩

/-! ### header -/

theorem attr_step (s : ArffState) (hs : s.started = false) (r : Text) :
    arffStep s ("@ATTRIBUTE".toList ++ r) = attributeLine s ("@ATTRIBUTE".toList ++ r) := by
  unfold arffStep
  rw [if_neg (by simp [hs]), if_pos]
  unfold lower
  rw [List.map_append]
  exact List.IsPrefix.trans (l₂ := "@ATTRIBUTE".toList.map Char.toLower) (by decide) (List.prefix_append _ _)

theorem ignored_step {s : ArffState} (hs : s.started = false) {q : Text} (h1 : ¬ "@attribute".toList <+: lower q)
    (h2 : ¬ "@data".toList <+: lower q) : arffStep s q = .ok s := by
  unfold arffStep
  rw [if_neg (by simp [hs]), if_neg h1, if_neg h2]

theorem col_cut {s : ArffState} {c : Col} (hc : ColOk c) (hs : s.started = false) {q : Text} (hq : q <+: c.line) :
    arffStep s q = .ok s ∨ arffStep s q = .error .value ∨ arffStep s q = .error .notImplemented ∨ arffStep s q = arffStep s c.line := by
  have hline : c.line = "@ATTRIBUTE".toList ++ ' ' :: (quoted c.name.toList ++ ' ' :: c.type) := by unfold Col.line; simp
  have hnq : ' ' ∉ quoted c.name.toList := by
    intro h
    rw [quoted_mem] at h
    rcases h with h | h
    · exact absurd h (by decide)
    · exact (hc.name _ h).2.1 rfl
  have hcol := col_step hc hs
  rw [hline] at hq
  rcases prefix_append_cases hq with hq | ⟨q1, rfl, hq1⟩
  · by_cases hlen : q.length = 10
    · have : q = "@ATTRIBUTE".toList := hq.eq_of_length (by rw [hlen]; decide)
      subst this
      right; left
      have := attr_step s hs []
      rw [List.append_nil] at this
      rw [this]
      unfold attributeLine
      rw [splitChar_ne (by decide)]
    · left
      have hlow : lower q <+: lower "@ATTRIBUTE".toList := by unfold lower; exact hq.map _
      refine ignored_step hs ?_ ?_
      · intro h
        have h1 := h.length_le
        have h2 := hq.length_le
        unfold lower at h1
        rw [List.length_map] at h1
        have : ("@attribute".toList).length = 10 := by decide
        have : ("@ATTRIBUTE".toList).length = 10 := by decide
        omega
      · intro h
        exact absurd (h.trans hlow) (by decide)
  · rcases prefix_cons_cases hq1 with rfl | ⟨q2, rfl, hq2⟩
    · right; left
      rw [attr_step s hs]
      unfold attributeLine
      rw [List.append_nil, splitChar_ne (by decide)]
    · rcases prefix_append_cases hq2 with hq3 | ⟨q3, rfl, hq3⟩
      · right; left
        rw [attr_step s hs]
        unfold attributeLine
        rw [splitChar_append (by decide), splitChar_ne fun h => hnq (hq3.subset h)]
      · rcases prefix_cons_cases hq3 with rfl | ⟨q, rfl, hq4⟩
        · right; left
          rw [attr_step s hs]
          unfold attributeLine
          rw [List.append_nil, splitChar_append (by decide), splitChar_ne hnq]
        · right; right
          rw [hcol, attr_step s hs]
          unfold attributeLine
          rw [splitChar_append (by decide), splitChar_append hnq, splitChar_ne fun h => (hc.type _ (hq4.subset h)).1 rfl]
          simp only
          rw [strip_quoted fun h => (hc.name _ h).1 rfl, String.ofList_toList]
          have hhead : q ≠ [] → q.head? = c.type.head? := by
            intro hne
            obtain ⟨x, q, rfl⟩ := List.exists_cons_of_ne_nil hne
            obtain ⟨t, ht⟩ := hq4
            rw [← ht]; rfl
          by_cases h1 : q.head? = some '{'
          · right
            have hne : q ≠ [] := by rintro rfl; cases h1
            rw [if_pos h1]
            have : c.isCat = true := by unfold Col.isCat; rw [← hhead hne, h1]; rfl
            simp [this]
          · rw [if_neg h1]
            by_cases h2 : lower q = "numeric".toList
            · right
              have hne : q ≠ [] := by rintro rfl; exact absurd h2 (by decide)
              rw [if_pos h2]
              have : c.isCat = false := by unfold Col.isCat; rw [← hhead hne]; simpa using h1
              simp [this]
            · left
              rw [if_neg h2]

/-- the state after the given columns -/
def withCols (s : ArffState) (cols : List Col) : ArffState :=
  { s with
    all := s.all ++ cols.map Col.name
    cat := s.cat ++ (cols.filter Col.isCat).map Col.name
    num := s.num ++ (cols.filter fun c => !c.isCat).map Col.name }

theorem cut_cols : ∀ (cols : List Col) (s : ArffState) (r : Py ArffState), (∀ c ∈ cols, ColOk c) → s.started = false →
    Cut arffStep (cols.map Col.line) s r → r = .error .value ∨ r = .error .notImplemented ∨ ∃ j, r = .ok (withCols s (cols.take j))
  | [], s, r, _, _, h => absurd h cut_nil
  | c :: cols, s, r, h, hs, hcut => by
    have hstep := col_step (h c List.mem_cons_self) hs
    have h1 : withCols s [c] = { s with
      all := s.all ++ [c.name]
      cat := s.cat ++ if c.isCat then [c.name] else []
      num := s.num ++ if c.isCat then [] else [c.name] } := by
      unfold withCols
      cases hb : c.isCat <;> simp [hb]
    rw [← h1] at hstep
    rcases cut_cons hstep hcut with ⟨q, hq, he⟩ | hcut
    · rcases col_cut (h c List.mem_cons_self) hs hq with k | k | k | k
      · refine .inr (.inr ⟨0, ?_⟩)
        rw [← he, k]; simp [withCols]
      · exact .inl (he.symm.trans k)
      · exact .inr (.inl (he.symm.trans k))
      · refine .inr (.inr ⟨1, ?_⟩)
        rw [← he, k, hstep]; rfl
    · rcases cut_cols cols _ r (fun x hx => h x (List.mem_cons_of_mem _ hx)) (show (withCols s [c]).started = false from hs) hcut with k | k | ⟨j, k⟩
      · exact .inl k
      · exact .inr (.inl k)
      · refine .inr (.inr ⟨j + 1, ?_⟩)
        rw [k]
        unfold withCols
        cases hb : c.isCat <;> simp [hb]

/-! ### tables -/

theorem table_lines (rel : Text) (cols : List Col) (rows : List (List Cell)) : tableText rel cols rows = ("@RELATION ".toList ++ quoted rel) ++
    ([[]] ++ cols.map Col.line ++ [[], "@DATA".toList] ++ rows.map rowText).flatMap fun x => '\n' :: x := by
  unfold tableText
  simp [List.flatMap_append, List.flatMap_map]

theorem table_noBreak {rel : Text} {cols : List Col} {rows : List (List Cell)} (hrel : ∀ c ∈ rel, isBreak c = false)
    (hc : ∀ c ∈ cols, ColOk c) (hr : ∀ r ∈ rows, RowOk r) :
    ∀ x ∈ ("@RELATION ".toList ++ quoted rel) :: ([[]] ++ cols.map Col.line ++ [[], "@DATA".toList] ++ rows.map rowText),
      ∀ c ∈ x, isBreak c = false := by
  intro x hx c hm
  simp only [List.mem_cons, List.mem_append, List.mem_map, List.not_mem_nil, or_false] at hx
  rcases hx with rfl | ((rfl | ⟨d, hd, rfl⟩) | rfl | rfl) | ⟨r, h, rfl⟩
  · rcases List.mem_append.1 hm with h | h
    · exact (show ∀ c ∈ "@RELATION ".toList, isBreak c = false by decide) c h
    · rcases quoted_mem.1 h with rfl | h
      · decide
      · exact hrel c h
  · cases hm
  · have hd := hc d hd
    unfold Col.line at hm
    rcases List.mem_append.1 hm with h | h
    · rcases List.mem_append.1 h with h | h
      · exact (show ∀ c ∈ "@ATTRIBUTE ".toList, isBreak c = false by decide) c h
      · rcases quoted_mem.1 h with rfl | h
        · decide
        · exact (hd.name c h).2.2
    · rcases List.mem_cons.1 h with rfl | h
      · decide
      · exact (hd.type c h).2
  · cases hm
  · exact (show ∀ c ∈ "@DATA".toList, isBreak c = false by decide) c hm
  · exact (hr r h).line c hm

theorem relation_cut {s : ArffState} (hs : s.started = false) {rel q : Text} (hq : q <+: "@RELATION ".toList ++ quoted rel) :
    arffStep s q = .ok s := by
  have hlow : lower q <+: lower ("@RELATION ".toList ++ quoted rel) := by unfold lower; exact hq.map _
  have h : ∀ p : Text, p.length ≤ 10 → ¬ p <+: lower "@RELATION ".toList → ¬ p <+: lower q := by
    intro p hp hn hh
    apply hn
    have hh := hh.trans hlow
    unfold lower at hh ⊢
    rw [List.map_append] at hh
    exact List.prefix_of_prefix_length_le hh (List.prefix_append _ _) (by simpa using hp)
  exact ignored_step hs (h _ (by decide) (by decide)) (h _ (by decide) (by decide))

theorem data_cut {s : ArffState} (hs : s.started = false) {q : Text} (hq : q <+: "@DATA".toList) :
    arffStep s q = .ok s ∨ arffStep s q = .ok { s with started := true } := by
  by_cases h : q.length = 5
  · have : q = "@DATA".toList := hq.eq_of_length (by rw [h]; decide)
    subst this
    exact .inr (data_step s hs)
  · left
    have h2 := hq.length_le
    have : ("@DATA".toList).length = 5 := by decide
    have h3 : ("@data".toList).length = 5 := by decide
    have h4 : ("@attribute".toList).length = 10 := by decide
    refine ignored_step hs ?_ ?_
    · intro hh
      have h1 := hh.length_le
      unfold lower at h1
      rw [List.length_map] at h1
      omega
    · intro hh
      have h1 := hh.length_le
      unfold lower at h1
      rw [List.length_map] at h1
      omega

/-- what the loop over the lines gives for a prefix of a table -/
theorem cut_steps {rel : Text} {cols : List Col} {rows : List (List Cell)} (hrel : ∀ c ∈ rel, isBreak c = false)
    (hc : ∀ c ∈ cols, ColOk c) (hn : (cols.map Col.name).Nodup) (hr : ∀ r ∈ rows, RowOk r ∧ r.length = cols.length)
    {p : Text} (hp : p <+: tableText rel cols rows) {r : Py ArffState}
    (hres : (splitLines p).foldlM arffStep ⟨[], [], [], false, []⟩ = r) :
    r = .error .value ∨ r = .error .notImplemented ∨
    (∃ (j : Nat) (b : Bool), r = .ok ⟨(cols.take j).map Col.name, ((cols.take j).filter Col.isCat).map Col.name,
      ((cols.take j).filter fun c => !c.isCat).map Col.name, b, []⟩) ∨
    ∃ k < rows.length, r = .ok ⟨cols.map Col.name, (cols.filter Col.isCat).map Col.name, (cols.filter fun c => !c.isCat).map Col.name, true,
        (rows.take k).map (readRow (cols.map Col.name))⟩ ∨
      ∃ (row : List Cell) (m : Nat) (c c' : Cell), rows[k]? = some row ∧ row[m]? = some c ∧ c'.value <+: c.value ∧ RowOk (row.take m ++ [c']) ∧
        r = .ok ⟨cols.map Col.name, (cols.filter Col.isCat).map Col.name, (cols.filter fun c => !c.isCat).map Col.name, true,
          (rows.take k ++ [row.take m ++ [c']]).map (readRow (cols.map Col.name))⟩ := by
  rw [table_lines] at hp
  have hcut := cut_lines arffStep empty_step _ _ p ⟨[], [], [], false, []⟩ (table_noBreak hrel hc fun r h => (hr r h).1) hp
  rw [hres] at hcut
  have hnone : r = .ok ⟨[], [], [], false, []⟩ → ∃ (j : Nat) (b : Bool), r = .ok ⟨(cols.take j).map Col.name, ((cols.take j).filter Col.isCat).map Col.name,
      ((cols.take j).filter fun c => !c.isCat).map Col.name, b, []⟩ := fun h => ⟨0, false, by rw [h]; simp⟩
  rcases cut_cons (relation_step _ rel rfl) hcut with ⟨q, hq, he⟩ | hcut
  · rw [relation_cut rfl hq] at he
    exact .inr (.inr (.inl (hnone he.symm)))
  rw [List.append_assoc, List.append_assoc] at hcut
  rcases cut_cons (empty_step _) hcut with ⟨q, hq, he⟩ | hcut
  · rw [List.prefix_nil.1 hq, empty_step] at he
    exact .inr (.inr (.inl (hnone he.symm)))
  rcases cut_append (cols_steps cols _ hc rfl) hcut with hcut | hcut
  · rcases cut_cols cols _ r hc rfl hcut with h | h | ⟨j, h⟩
    · exact .inl h
    · exact .inr (.inl h)
    · exact .inr (.inr (.inl ⟨j, false, by rw [h]; simp [withCols]⟩))
  have hall : ∀ b, r = .ok ⟨[] ++ cols.map Col.name, [] ++ (cols.filter Col.isCat).map Col.name, [] ++ (cols.filter fun c => !c.isCat).map Col.name, b, []⟩ →
      ∃ (j : Nat) (b : Bool), r = .ok ⟨(cols.take j).map Col.name, ((cols.take j).filter Col.isCat).map Col.name,
      ((cols.take j).filter fun c => !c.isCat).map Col.name, b, []⟩ := fun b h => ⟨cols.length, b, by rw [h]; simp⟩
  rcases cut_cons (empty_step _) hcut with ⟨q, hq, he⟩ | hcut
  · rw [List.prefix_nil.1 hq, empty_step] at he
    exact .inr (.inr (.inl (hall _ he.symm)))
  rcases cut_cons (data_step _ rfl) hcut with ⟨q, hq, he⟩ | hcut
  · rcases data_cut (s := ⟨[] ++ cols.map Col.name, [] ++ (cols.filter Col.isCat).map Col.name, [] ++ (cols.filter fun c => !c.isCat).map Col.name, false, []⟩) rfl hq with h | h
    · rw [h] at he
      exact .inr (.inr (.inl (hall _ he.symm)))
    · rw [h] at he
      exact .inr (.inr (.inl (hall _ he.symm)))
  · right; right; right
    have := cut_rows rows _ r (by intro r h; simpa using hr r h) rfl (by simpa using hn) hcut
    simpa using this

/-! ### the dataset -/

theorem add_range {cols : List Col} (hn : (cols.map Col.name).Nodup) {L : List (Dict String Val)} :
    ∀ (k : Nat), k ≤ L.length → (∀ i < k, (L.getD i []).keys = cols.map Col.name) →
    ∃ d, (List.range k).foldlM (Dataset.addInstance (arffHeap L))
        (Dataset.new ((cols.filter Col.isCat).map Col.name) ((cols.filter fun c => !c.isCat).map Col.name)) = .ok d ∧
      Consistent (arffHeap L) d ∧ SameAttrs (Dataset.new ((cols.filter Col.isCat).map Col.name) ((cols.filter fun c => !c.isCat).map Col.name)) d ∧
      d.instances = List.range k := by
  have hnd := ((cols_perm cols).nodup_iff).2 hn
  intro k
  induction k with
  | zero => exact fun _ _ => ⟨_, rfl, new_consistent _ hnd, ⟨rfl, rfl, fun n => Iff.rfl⟩, rfl⟩
  | succ k ih =>
    intro hk hkeys
    obtain ⟨d, h1, h2, h3, h4⟩ := ih (by omega) fun i hi => hkeys i (by omega)
    obtain ⟨d', h5, h6, h7, h8⟩ := add_same (a := k) h2 h3 (by
      have : (arffHeap L k).features.keys = cols.map Col.name := hkeys k (by omega)
      rw [this]
      refine ⟨hn, fun n => ?_⟩
      rw [mem_keys_new, ← (cols_perm cols).mem_iff, List.mem_append]) (by
      intro b hb
      rw [h4, List.mem_range] at hb
      show Val.num (b : Rat) ≠ Val.num (k : Rat)
      intro e
      injection e with e
      have : b = k := by exact_mod_cast e
      omega)
    refine ⟨d', ?_, h6, h7, by rw [h8, h4, List.range_succ]⟩
    rw [List.range_succ, List.foldlM_append, h1]
    show List.foldlM _ _ _ = _
    rw [List.foldlM_cons, h5]; rfl

/-- a last row with too few cells is rejected -/
theorem short_row {cols : List Col} {rows : List (List Cell)} {row : List Cell} (hn : (cols.map Col.name).Nodup)
    (hr : ∀ r ∈ rows, r.length = cols.length) (hrow : row.length < cols.length) {p : Text}
    (h : (splitLines p).foldlM arffStep ⟨[], [], [], false, []⟩ = .ok ⟨cols.map Col.name, (cols.filter Col.isCat).map Col.name,
      (cols.filter fun c => !c.isCat).map Col.name, true, (rows ++ [row]).map (readRow (cols.map Col.name))⟩) :
    createFromArff p = .error .value := by
  obtain ⟨d, h1, -, h3, -⟩ := add_range hn (L := (rows ++ [row]).map (readRow (cols.map Col.name))) rows.length (by simp) (by
    intro i hi
    have : ((rows ++ [row]).map (readRow (cols.map Col.name))).getD i [] = readRow (cols.map Col.name) rows[i] := by
      rw [List.getD, List.getElem?_map, List.getElem?_append_left hi, List.getElem?_eq_getElem hi]; rfl
    rw [this]
    exact readRow_keys (by rw [List.length_map]; exact hr _ (List.getElem_mem hi)))
  have hk : (arffHeap ((rows ++ [row]).map (readRow (cols.map Col.name))) rows.length).features = readRow (cols.map Col.name) row := by
    show List.getD _ _ _ = _
    simp [List.getD]
  have hbad : d.addInstance (arffHeap ((rows ++ [row]).map (readRow (cols.map Col.name)))) rows.length = .error .value := by
    unfold Dataset.addInstance
    rw [if_pos]
    rintro ⟨-, h4⟩
    have hall : ∀ n ∈ cols.map Col.name, n ∈ (readRow (cols.map Col.name) row).keys := by
      intro n hm
      rw [← hk]
      refine h4 n ((h3.2.2 n).2 ?_)
      rw [mem_keys_new, ← List.mem_append, (cols_perm cols).mem_iff]
      exact hm
    have h5 : cols.length ≤ ((readRow (cols.map Col.name) row).keys).length := by
      have := (hn.subperm hall).length_le
      simpa using this
    unfold readRow Dict.keys at h5
    rw [List.length_map, List.length_zip, List.length_map, List.length_map] at h5
    omega
  unfold createFromArff
  rw [h]
  show ((List.range ((rows ++ [row]).map (readRow (cols.map Col.name))).length).foldlM _ _ >>= _ : Py _) = _
  rw [List.length_map, List.length_append, List.length_singleton, List.range_succ, List.foldlM_append, h1]
  show (List.foldlM _ _ _ >>= _ : Py _) = _
  rw [List.foldlM_cons, hbad]; rfl

theorem create_congr {p t : Text} (h : (splitLines p).foldlM arffStep ⟨[], [], [], false, []⟩ =
    (splitLines t).foldlM arffStep ⟨[], [], [], false, []⟩) : createFromArff p = createFromArff t := by
  unfold createFromArff
  rw [h]

/-- reading a prefix of a table -/
theorem cut_table {rel : Text} {cols : List Col} {rows : List (List Cell)} (hrel : ∀ c ∈ rel, isBreak c = false)
    (hc : ∀ c ∈ cols, ColOk c) (hn : (cols.map Col.name).Nodup) (hr : ∀ r ∈ rows, RowOk r ∧ r.length = cols.length)
    {p : Text} (hp : p <+: tableText rel cols rows) :
    createFromArff p = .error .value ∨ createFromArff p = .error .notImplemented ∨
    (∃ j, createFromArff p = .ok (arffHeap [], Dataset.new (((cols.take j).filter Col.isCat).map Col.name)
      (((cols.take j).filter fun c => !c.isCat).map Col.name))) ∨
    ∃ k < rows.length, createFromArff p = createFromArff (tableText rel cols (rows.take k)) ∨
      ∃ (row : List Cell) (m : Nat) (c c' : Cell), rows[k]? = some row ∧ row[m]? = some c ∧ c'.value <+: c.value ∧ RowOk (row.take m ++ [c']) ∧
        m + 1 = cols.length ∧ createFromArff p = createFromArff (tableText rel cols (rows.take k ++ [row.take m ++ [c']])) := by
  rcases cut_steps hrel hc hn hr hp rfl with h | h | ⟨j, b, h⟩ | ⟨k, hk, h | ⟨row, m, c, c', h1, h2, h3, h4, h⟩⟩
  · left; unfold createFromArff; rw [h]; rfl
  · right; left; unfold createFromArff; rw [h]; rfl
  · right; right; left
    refine ⟨j, ?_⟩
    unfold createFromArff; rw [h]; rfl
  · right; right; right
    refine ⟨k, hk, .inl (create_congr ?_)⟩
    rw [h, table_steps hrel hc hn fun r hm => hr r (List.mem_of_mem_take hm)]
  · have hlen : row.length = cols.length := (hr row (List.mem_of_getElem? h1)).2
    have hm : m < row.length := (List.getElem?_eq_some_iff.1 h2).1
    by_cases hlast : m + 1 = cols.length
    · right; right; right
      refine ⟨k, hk, .inr ⟨row, m, c, c', h1, h2, h3, h4, hlast, create_congr ?_⟩⟩
      rw [h, table_steps hrel hc hn]
      intro r hmem
      rcases List.mem_append.1 hmem with hmem | hmem
      · exact hr r (List.mem_of_mem_take hmem)
      · rw [List.mem_singleton] at hmem
        subst hmem
        exact ⟨h4, by simp; omega⟩
    · left
      exact short_row hn (fun r hm => (hr r (List.mem_of_mem_take hm)).2) (by simp; omega) h

end Prolothar.Data
