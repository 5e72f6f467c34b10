import Verif.Lemmas.ArffTargets
/-
Reading sparse ARFF files.
-/
namespace Prolothar.Data
open Prolothar Prolothar.Spec.Data Prolothar.Spec.Arff

theorem lines_steps : ∀ (ls : List (Text × Dict String Val)) (s : ArffState), (∀ l ∈ ls, l.1 ≠ [] ∧ parseInstance l.1 s.all = .ok l.2) →
    s.started = true → (ls.map (·.1)).foldlM arffStep s = .ok { s with instances := s.instances ++ ls.map (·.2) }
  | [], s, _, _ => by simp; rfl
  | l :: ls, s, h, hs => by
    obtain ⟨h1, h2⟩ := h l List.mem_cons_self
    have he : arffStep s l.1 = .ok { s with instances := s.instances ++ [l.2] } := by
      unfold arffStep
      rw [if_pos ⟨hs, h1⟩, h2]; rfl
    rw [List.map_cons, List.foldlM_cons, he]
    show List.foldlM _ _ _ = _
    refine (lines_steps ls _ ?_ ?_).trans ?_
    · exact fun x hx => h x (List.mem_cons_of_mem _ hx)
    · exact hs
    · simp

/-- the text of a file with the given columns and data lines -/
def fileText (rel : Text) (cols : List Col) (ls : List Text) : Text :=
  "@RELATION ".toList ++ quoted rel ++ ['\n'] ++ (cols.flatMap fun c => '\n' :: c.line) ++ "\n\n@DATA".toList ++ ls.flatMap fun l => '\n' :: l

theorem file_steps {rel : Text} {cols : List Col} {ls : List Text} (hrel : ∀ c ∈ rel, isBreak c = false)
    (hc : ∀ c ∈ cols, ColOk c) (hl : ∀ l ∈ ls, ∀ c ∈ l, isBreak c = false) :
    (splitLines (fileText rel cols ls)).foldlM arffStep ⟨[], [], [], false, []⟩ =
      ls.foldlM arffStep ⟨cols.map Col.name, (cols.filter Col.isCat).map Col.name, (cols.filter fun c => !c.isCat).map Col.name, true, []⟩ := by
  have he : fileText rel cols ls = ("@RELATION ".toList ++ quoted rel) ++
      ([[]] ++ cols.map Col.line ++ [[], "@DATA".toList] ++ ls).flatMap fun x => '\n' :: x := by
    unfold fileText
    simp [List.flatMap_append, List.flatMap_map]
  rw [he, foldlM_splitLines arffStep empty_step]
  · rw [List.foldlM_cons, relation_step _ _ rfl]
    show List.foldlM _ _ _ = _
    rw [List.foldlM_append, List.foldlM_append, List.foldlM_append]
    rw [show List.foldlM arffStep (⟨[], [], [], false, []⟩ : ArffState) [[]] = .ok ⟨[], [], [], false, []⟩ by
      rw [List.foldlM_cons, empty_step]; rfl]
    show ((((List.foldlM arffStep _ _) >>= fun s => List.foldlM arffStep s _) >>= fun s => List.foldlM arffStep s _) : Py _) = _
    rw [cols_steps cols _ hc rfl]
    show ((List.foldlM arffStep _ _) >>= fun s => List.foldlM arffStep s _ : Py _) = _
    rw [List.foldlM_cons, empty_step]
    show ((List.foldlM arffStep _ _) >>= fun s => List.foldlM arffStep s _ : Py _) = _
    rw [List.foldlM_cons, data_step _ rfl]
    show List.foldlM arffStep _ _ = _
    simp
  · intro x hx c hm
    simp only [List.mem_cons, List.mem_append, List.mem_map, List.not_mem_nil, or_false] at hx
    rcases hx with rfl | ((rfl | ⟨d, hd, rfl⟩) | rfl | rfl) | h
    · rcases List.mem_append.1 hm with h | h
      · exact (show ∀ c ∈ "@RELATION ".toList, isBreak c = false by decide) c h
      · rcases quoted_mem.1 h with rfl | h
        · decide
        · exact hrel c h
    · cases hm
    · have hd := hc d hd
      unfold Col.line at hm
      rcases List.mem_append.1 hm with h | h
      · rcases List.mem_append.1 h with h | h
        · exact (show ∀ c ∈ "@ATTRIBUTE ".toList, isBreak c = false by decide) c h
        · rcases quoted_mem.1 h with rfl | h
          · decide
          · exact (hd.name c h).2.2
      · rcases List.mem_cons.1 h with rfl | h
        · decide
        · exact (hd.type c h).2
    · cases hm
    · exact (show ∀ c ∈ "@DATA".toList, isBreak c = false by decide) c hm
    · exact hl x h c hm

theorem read_file {rel : Text} {cols : List Col} {ls : List (Text × Dict String Val)} (hrel : ∀ c ∈ rel, isBreak c = false)
    (hc : ∀ c ∈ cols, ColOk c) (hn : (cols.map Col.name).Nodup)
    (hl : ∀ l ∈ ls, l.1 ≠ [] ∧ (∀ c ∈ l.1, isBreak c = false) ∧ parseInstance l.1 (cols.map Col.name) = .ok l.2 ∧ l.2.keys = cols.map Col.name) :
    ∃ d, createFromArff (fileText rel cols (ls.map (·.1))) = .ok (arffHeap (ls.map (·.2)), d) ∧
      Consistent (arffHeap (ls.map (·.2))) d ∧
      d.catNames = (cols.filter Col.isCat).map Col.name ∧ d.numNames = (cols.filter fun c => !c.isCat).map Col.name ∧
      d.instances = List.range ls.length := by
  let L := ls.map (·.2)
  let cat := (cols.filter Col.isCat).map Col.name
  let num := (cols.filter fun c => !c.isCat).map Col.name
  have hnd : (cat ++ num).Nodup := ((cols_perm cols).nodup_iff).2 hn
  have hkeys : ∀ i < ls.length, (arffHeap L i).features.keys = cols.map Col.name := by
    intro i hi
    have h1 : L.getD i [] = ls[i].2 := by
      simp [L, List.getD, List.getElem?_eq_getElem hi]
    show (L.getD i []).keys = _
    rw [h1]
    exact (hl _ (List.getElem_mem hi)).2.2.2
  have key : ∀ (k : Nat), k ≤ ls.length → ∃ d, (List.range k).foldlM (Dataset.addInstance (arffHeap L)) (Dataset.new cat num) = .ok d ∧
      Consistent (arffHeap L) d ∧ SameAttrs (Dataset.new cat num) d ∧ d.instances = List.range k := by
    intro k
    induction k with
    | zero => exact fun _ => ⟨_, rfl, new_consistent _ hnd, ⟨rfl, rfl, fun n => Iff.rfl⟩, rfl⟩
    | succ k ih =>
      intro hk
      obtain ⟨d, h1, h2, h3, h4⟩ := ih (by omega)
      obtain ⟨d', h5, h6, h7, h8⟩ := add_same (a := k) h2 h3 (by
        rw [hkeys k (by omega)]
        refine ⟨hn, fun n => ?_⟩
        rw [mem_keys_new, ← (cols_perm cols).mem_iff, List.mem_append]) (by
        intro b hb
        rw [h4, List.mem_range] at hb
        show Val.num (b : Rat) ≠ Val.num (k : Rat)
        intro e
        injection e with e
        have : b = k := by exact_mod_cast e
        omega)
      refine ⟨d', ?_, h6, h7, by rw [h8, h4, List.range_succ]⟩
      rw [List.range_succ, List.foldlM_append, h1]
      show List.foldlM _ _ _ = _
      rw [List.foldlM_cons, h5]; rfl
  obtain ⟨d, h1, h2, h3, h4⟩ := key ls.length le_rfl
  refine ⟨d, ?_, h2, h3.1, h3.2.1, h4⟩
  unfold createFromArff
  rw [file_steps hrel hc (fun l h => by
    obtain ⟨x, hx, rfl⟩ := List.mem_map.1 h
    exact (hl x hx).2.1)]
  have := lines_steps ls ⟨cols.map Col.name, cat, num, true, []⟩ (fun l h => ⟨(hl l h).1, (hl l h).2.2.1⟩) rfl
  rw [this]
  show ((List.range ([] ++ L).length).foldlM _ _ >>= _ : Py _) = _
  rw [List.nil_append, show L.length = ls.length from List.length_map _, h1]
  rfl

/-! ### sparse rows -/

theorem foldl_zeros : ∀ (ns : List String) (acc : Dict String Val), (acc.keys ++ ns).Nodup →
    ns.foldl (fun d n => Dict.put d n (.num 0)) acc = acc ++ ns.map fun n => (n, Val.num 0)
  | [], acc, _ => by simp
  | n :: ns, acc, h => by
    have hn : n ∉ acc.keys := fun hm => (List.nodup_append.1 h).2.2 n hm n List.mem_cons_self rfl
    rw [List.foldl_cons, put_fresh _ hn, foldl_zeros ns]
    · simp
    · have : Dict.keys (acc ++ [(n, Val.num 0)]) = acc.keys ++ [n] := by simp [Dict.keys]
      rw [this]
      simpa using h

theorem zeros_get {ns : List String} {n : String} (h : n ∈ ns) : Dict.get? (ns.map fun n => (n, Val.num 0)) n = some (.num 0) := by
  induction ns with
  | nil => cases h
  | cons m ns ih =>
    rw [List.map_cons]
    by_cases hm : m = n
    · subst hm; simp [Dict.get?]
    · have hne : n ∈ ns := by
        rcases List.mem_cons.1 h with e | h
        · exact absurd e.symm hm
        · exact h
      have := ih hne
      simpa [Dict.get?, hm] using this

theorem space_notMem_intText (i : Int) : ' ' ∉ intText i := by
  intro h
  rcases intText_chars h with h | h
  · cases h
  · revert h; decide

theorem pyGet_nat {α : Type} {l : List α} {i : Nat} {x : α} (h : l[i]? = some x) : pyGet l (i : Int) = .ok x := by
  unfold pyGet
  rw [if_neg (by omega)]
  have : (if (i : Int) < 0 then (i : Int) + l.length else (i : Int)) = i := if_neg (by omega)
  rw [this, Int.toNat_natCast, h]

theorem keys_put_mem {d : Dict String Val} {n : String} (v : Val) (h : n ∈ d.keys) : (d.put n v).keys = d.keys := by
  rw [Dict.keys_put, if_pos h]

theorem sparseStep_ok {names : List String} {d : Dict String Val} {i : Nat} {v : Int} {n : String} (h : names[i]? = some n) :
    sparseStep names d (intText i ++ ' ' :: intText v) = .ok (d.put n (.num v)) := by
  unfold sparseStep
  rw [splitChar_append (space_notMem_intText _), splitChar_ne (space_notMem_intText _)]
  show (pyInt _ >>= _ : Py _) = _
  rw [pyInt_intText]
  show (pyInt _ >>= _ : Py _) = _
  rw [pyInt_intText]
  show (pyGet names (i : Int) >>= _ : Py _) = _
  rw [pyGet_nat h]
  rfl

/-- the features of a sparse row -/
theorem foldlM_sparse {names : List String} (hn : names.Nodup) : ∀ (es : List (Nat × Int)) (d : Dict String Val), (∀ e ∈ es, e.1 < names.length) →
    (es.map (·.1)).Nodup → d.keys = names →
    ∃ d', (es.map fun e => intText e.1 ++ ' ' :: intText e.2).foldlM (sparseStep names) d = .ok d' ∧ d'.keys = names ∧
      (∀ j n, names[j]? = some n → ∀ v, (j, v) ∈ es → d'.get? n = some (.num v)) ∧
      ∀ j n, names[j]? = some n → j ∉ es.map (·.1) → d'.get? n = d.get? n
  | [], d, _, _, hk => ⟨d, rfl, hk, fun j n hj v h => absurd h (by simp), fun _ _ _ _ => rfl⟩
  | (i, v) :: es, d, hi, hnd, hk => by
    have h1 := hi _ List.mem_cons_self
    have hg : names[i]? = some names[i] := List.getElem?_eq_getElem h1
    rw [List.map_cons, List.nodup_cons] at hnd
    have hk' : (d.put names[i] (.num v)).keys = names := by
      rw [keys_put_mem _ (by rw [hk]; exact List.getElem_mem h1), hk]
    obtain ⟨d', e1, e2, e3, e4⟩ := foldlM_sparse hn es (d.put names[i] (.num v)) (fun e he => hi e (List.mem_cons_of_mem _ he)) hnd.2 hk'
    refine ⟨d', ?_, e2, ?_, ?_⟩
    · rw [List.map_cons, List.foldlM_cons, sparseStep_ok hg]
      exact e1
    · intro j n hj w hm
      rcases List.mem_cons.1 hm with hm | hm
      · injection hm with hj1 hw
        subst hj1; subst hw
        rw [e4 _ _ hj hnd.1]
        rw [hg] at hj
        rw [← Option.some.inj hj, Dict.get?_put, if_pos rfl]
      · exact e3 j n hj w hm
    · intro j n hj hm
      rw [List.map_cons, List.mem_cons, not_or] at hm
      rw [e4 j n hj hm.2]
      refine Dict.get?_put_of_ne _ _ ?_
      intro he
      obtain ⟨hl, hj⟩ := List.getElem?_eq_some_iff.1 hj
      exact hm.1 ((hn.getElem_inj_iff).1 (hj.trans he.symm))

theorem entry_chars {e : Nat × Int} {c : Char} (h : c ∈ intText e.1 ++ ' ' :: intText e.2) : c = ' ' ∨ c = '-' ∨ c.isDigit = true := by
  rcases List.mem_append.1 h with h | h
  · exact .inr (intText_chars h)
  · rcases List.mem_cons.1 h with h | h
    · exact .inl h
    · exact .inr (intText_chars h)

theorem entry_not {e : Nat × Int} {x : Char} (hx : x ≠ ' ' ∧ x ≠ '-' ∧ x.isDigit = false) : x ∉ intText e.1 ++ ' ' :: intText e.2 := by
  intro h
  rcases entry_chars h with h | h | h
  · exact hx.1 h
  · exact hx.2.1 h
  · rw [hx.2.2] at h; cases h

theorem sparse_csv (es : List (Nat × Int)) :
    csvRow (stripChars ['{', '}'] ('{' :: (joinText [','] (es.map fun e => intText e.1 ++ ' ' :: intText e.2) ++ ['}']))) =
      es.map fun e => intText e.1 ++ ' ' :: intText e.2 := by
  have hch : ∀ c ∈ joinText [','] (es.map fun e => intText e.1 ++ ' ' :: intText e.2), c ≠ '{' ∧ c ≠ '}' := by
    intro c hc
    rcases mem_joinText hc with hc | ⟨y, hy, hc⟩
    · rw [List.mem_singleton] at hc; subst hc; decide
    · obtain ⟨e, -, rfl⟩ := List.mem_map.1 hy
      constructor
      · rintro rfl; exact entry_not (by decide) hc
      · rintro rfl; exact entry_not (by decide) hc
  rw [← List.cons_append, stripChars_wrap (by decide) (by decide), stripChars_id (fun c hc => by
      have := hch c (List.mem_of_mem_head? hc); simp [this.1, this.2]) (fun c hc => by
      have := hch c (List.mem_of_getLast? hc); simp [this.1, this.2])]
  by_cases hes : es = []
  · subst hes; rfl
  · have h1 : (es.map fun e => intText e.1 ++ ' ' :: intText e.2) = (es.map fun e => Cell.plain (intText e.1 ++ ' ' :: intText e.2)).map Cell.text := by
      rw [List.map_map]; rfl
    rw [h1, csvRow_cells]
    · rw [List.map_map, List.map_map]; rfl
    · simpa using hes
    · intro c hc
      obtain ⟨e, -, rfl⟩ := List.mem_map.1 hc
      exact ⟨entry_not (by decide), entry_not (by decide)⟩
    · obtain ⟨e, es', rfl⟩ := List.exists_cons_of_ne_nil hes
      intro h0
      cases es' <;> simp [joinText, Cell.text] at h0

theorem parseInstance_sparse {names : List String} (hn : names.Nodup) {es : List (Nat × Int)} (hi : ∀ e ∈ es, e.1 < names.length)
    (hnd : (es.map (·.1)).Nodup) :
    ∃ d, parseInstance ('{' :: (joinText [','] (es.map fun e => intText e.1 ++ ' ' :: intText e.2) ++ ['}'])) names = .ok d ∧ d.keys = names ∧
      (∀ j n, names[j]? = some n → ∀ v, (j, v) ∈ es → d.get? n = some (.num v)) ∧
      ∀ j n, names[j]? = some n → j ∉ es.map (·.1) → d.get? n = some (.num 0) := by
  have hz := foldl_zeros names [] (by simpa [Dict.keys] using hn)
  obtain ⟨d, h1, h2, h3, h4⟩ := foldlM_sparse hn es (names.map fun n => (n, Val.num 0)) hi hnd (by
    unfold Dict.keys
    rw [List.map_map]
    exact List.map_id _)
  refine ⟨d, ?_, h2, h3, fun j n hj hm => ?_⟩
  · unfold parseInstance
    rw [List.head?_cons, if_pos rfl, sparse_csv, hz]
    exact h1
  · rw [h4 j n hj hm]
    exact zeros_get (List.mem_of_getElem? hj)

end Prolothar.Data
