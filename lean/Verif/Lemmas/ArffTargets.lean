import Verif.Props.Arff
import Verif.Props.TargetDatasets
/-
Lemmas about the ARFF methods of the datasets with targets.
-/
namespace Prolothar.Data
open Prolothar.Spec.Data Prolothar.Spec.Arff

/-! ### rows with too many cells -/

theorem pyGet_length {α : Type} (l : List α) : pyGet l (l.length : Int) = .error .index := by
  unfold pyGet
  have h0 : ¬ ((l.length : Int) < 0) := by omega
  simp [h0]

theorem foldlM_dense_long : ∀ (vs : List Text) (pre ns : List String) (acc : Dict String Val), ns.length < vs.length →
    (vs.zipIdx pre.length).foldlM (denseStep (pre ++ ns)) acc = .error .index
  | [], _, _, _, h => by simp at h
  | v :: vs, pre, [], acc, _ => by
    rw [List.zipIdx_cons, List.foldlM_cons, List.append_nil]
    unfold denseStep
    rw [pyGet_length]; rfl
  | v :: vs, pre, n :: ns, acc, h => by
    have ih := foldlM_dense_long vs (pre ++ [n]) ns (acc.put n (.str (String.ofList v))) (by simpa using h)
    rw [List.zipIdx_cons, List.foldlM_cons]
    have h1 : denseStep (pre ++ n :: ns) acc (v, pre.length) = .ok (acc.put n (.str (String.ofList v))) := by
      unfold denseStep; rw [pyGet_append]; rfl
    rw [h1]
    show (List.zipIdx vs (pre.length + 1)).foldlM _ _ = _
    rw [List.length_append, List.length_singleton, List.append_assoc, List.singleton_append] at ih
    exact ih

theorem parseInstance_long {names : List String} {r : List Cell} (hr : RowOk r) (hl : names.length < r.length) :
    parseInstance (rowText r) names = .error .index := by
  unfold parseInstance
  rw [if_neg hr.start]
  have : r ≠ [] := by rintro rfl; exact hr.nonempty rfl
  unfold rowText
  rw [csvRow_cells this hr.cells hr.nonempty]
  exact foldlM_dense_long (r.map Cell.value) [] names [] (by simpa using hl)

/-- a table whose rows have too many cells cannot be read -/
theorem read_table_long {rel : Text} {cols : List Col} {rows : List (List Cell)} (hrel : ∀ c ∈ rel, isBreak c = false)
    (hc : ∀ c ∈ cols, ColOk c) (hr : ∀ r ∈ rows, RowOk r ∧ cols.length < r.length) (hne : rows ≠ []) :
    createFromArff (tableText rel cols rows) = .error .index := by
  have he : tableText rel cols rows = ("@RELATION ".toList ++ quoted rel) ++
      ([[]] ++ cols.map Col.line ++ [[], "@DATA".toList] ++ rows.map rowText).flatMap fun x => '\n' :: x := by
    unfold tableText
    simp [List.flatMap_append, List.flatMap_map]
  have hlines : (splitLines (tableText rel cols rows)).foldlM arffStep ⟨[], [], [], false, []⟩ = .error .index := by
    rw [he, foldlM_splitLines arffStep empty_step]
    · rw [List.foldlM_cons, relation_step _ _ rfl]
      show List.foldlM _ _ _ = _
      rw [List.foldlM_append, List.foldlM_append, List.foldlM_append]
      rw [show List.foldlM arffStep (⟨[], [], [], false, []⟩ : ArffState) [[]] = .ok ⟨[], [], [], false, []⟩ by
        rw [List.foldlM_cons, empty_step]; rfl]
      show ((((List.foldlM arffStep _ _) >>= fun s => List.foldlM arffStep s _) >>= fun s => List.foldlM arffStep s _) : Py _) = _
      rw [cols_steps cols _ hc rfl]
      show ((List.foldlM arffStep _ _) >>= fun s => List.foldlM arffStep s _ : Py _) = _
      rw [List.foldlM_cons, empty_step]
      show ((List.foldlM arffStep _ _) >>= fun s => List.foldlM arffStep s _ : Py _) = _
      rw [List.foldlM_cons, data_step _ rfl]
      show List.foldlM arffStep _ _ = _
      obtain ⟨r, rows', rfl⟩ := List.exists_cons_of_ne_nil hne
      obtain ⟨h1, h2⟩ := hr r List.mem_cons_self
      rw [List.map_cons, List.foldlM_cons]
      have : ∀ s : ArffState, s.started = true → s.all = cols.map Col.name → arffStep s (rowText r) = .error .index := by
        intro s hs ha
        unfold arffStep
        rw [if_pos ⟨hs, h1.nonempty⟩, parseInstance_long h1 (by rw [ha, List.length_map]; exact h2)]
        rfl
      rw [this _ rfl (by simp)]; rfl
    · intro x hx c hm
      simp only [List.mem_cons, List.mem_append, List.mem_map, List.not_mem_nil, or_false] at hx
      rcases hx with rfl | ((rfl | ⟨d, hd, rfl⟩) | rfl | rfl) | ⟨r, h, rfl⟩
      · rcases List.mem_append.1 hm with h | h
        · exact (show ∀ c ∈ "@RELATION ".toList, isBreak c = false by decide) c h
        · rcases quoted_mem.1 h with rfl | h
          · decide
          · exact hrel c h
      · cases hm
      · have hd := hc d hd
        unfold Col.line at hm
        rcases List.mem_append.1 hm with h | h
        · rcases List.mem_append.1 h with h | h
          · exact (show ∀ c ∈ "@ATTRIBUTE ".toList, isBreak c = false by decide) c h
          · rcases quoted_mem.1 h with rfl | h
            · decide
            · exact (hd.name c h).2.2
        · rcases List.mem_cons.1 h with rfl | h
          · decide
          · exact (hd.type c h).2
      · cases hm
      · exact (show ∀ c ∈ "@DATA".toList, isBreak c = false by decide) c hm
      · exact (hr r h).1.line c hm
  unfold createFromArff
  rw [hlines]; rfl

/-! ### the loop over the labels -/

theorem enumCells_eq (labels : List String) (cell : String → Text) : enumCells labels cell = joinText [','] (labels.map cell) := by
  have key : ∀ (l : List String) (k N : Nat), k + l.length = N →
      ((l.zipIdx k).flatMap fun e => cell e.1 ++ if e.2 < N - 1 then [','] else []) = joinText [','] (l.map cell) := by
    intro l
    induction l with
    | nil => intro k N _; rfl
    | cons x l ih =>
      intro k N h
      rw [List.zipIdx_cons, List.flatMap_cons, ih (k + 1) N (by simp at h; omega)]
      cases l with
      | nil =>
        have : ¬ k < N - 1 := by simp at h; omega
        simp [this, joinText]
      | cons y l =>
        have : k < N - 1 := by simp at h; omega
        simp [this, joinText]
  exact key labels 0 labels.length (by simp)

/-! ### numbers -/

theorem digitsValue_eq : ∀ (l : Text) (n : Nat), (∀ c ∈ l, c.isDigit = true) → digitsValue l n = some (Nat.ofDigitChars 10 l n)
  | [], n, _ => by rw [digitsValue, Nat.ofDigitChars_nil]
  | c :: l, n, h => by
    rw [digitsValue, if_pos (h c List.mem_cons_self), digitsValue_eq l _ fun d hd => h d (List.mem_cons_of_mem _ hd), Nat.ofDigitChars_cons]

theorem intText_eq (i : Int) : intText i = if i < 0 then '-' :: Nat.toDigits 10 i.natAbs else Nat.toDigits 10 i.natAbs := by
  unfold intText
  rw [Int.toString_eq_repr, Int.repr_eq_if]
  split
  · next h => rw [if_neg (by omega), Nat.toList_repr, show i.toNat = i.natAbs by omega]
  · next h =>
    rw [if_pos (by omega), String.toList_append, Nat.toList_repr, show (-i).toNat = i.natAbs by omega]; rfl

theorem pyInt_intText (i : Int) : pyInt (intText i) = .ok i := by
  rw [intText_eq]
  have hd : ∀ n : Nat, ∀ c ∈ Nat.toDigits 10 n, c.isDigit = true := fun n c hc => Nat.isDigit_of_mem_toDigits (by omega) (by omega) hc
  have hv : ∀ n : Nat, digitsValue (Nat.toDigits 10 n) 0 = some n := fun n => by
    rw [digitsValue_eq _ _ (hd n), Nat.ofDigitChars_ten_toDigits]
  obtain ⟨c, cs, hcs⟩ := List.exists_cons_of_ne_nil (Nat.toDigits_ne_nil (n := i.natAbs) (b := 10))
  have hc := hd i.natAbs c (by rw [hcs]; simp)
  have hv' := hv i.natAbs
  rw [hcs] at hv' ⊢
  split
  · next h =>
    unfold pyInt
    simp only [hv']
    congr 1; omega
  · next h =>
    unfold pyInt
    split
    · next heq => injection heq with h1 h2; subst h1; cases hc
    · next heq => injection heq with h1 h2; subst h1; cases hc
    · next heq => injection heq with h1 h2; subst h1 h2; rw [hv']; simp only; congr 1; omega
    · next heq => cases heq

theorem intText_chars {i : Int} {c : Char} (h : c ∈ intText i) : c = '-' ∨ c.isDigit = true := by
  rw [intText_eq] at h
  have hd : ∀ n : Nat, ∀ c ∈ Nat.toDigits 10 n, c.isDigit = true := fun n c hc => Nat.isDigit_of_mem_toDigits (by omega) (by omega) hc
  split at h
  · rcases List.mem_cons.1 h with h | h
    · exact .inl h
    · exact .inr (hd _ c h)
  · exact .inr (hd _ c h)

theorem digit_notBreak {c : Char} (h : c.isDigit = true) : isBreak c = false := by
  unfold Char.isDigit at h
  simp only [Bool.and_eq_true, decide_eq_true_eq, ge_iff_le] at h
  unfold isBreak
  rw [decide_eq_false_iff_not]
  intro hm
  simp only [List.mem_cons, List.not_mem_nil, or_false] at hm
  rcases hm with hm | hm | hm | hm | hm | hm | hm | hm | hm | hm <;> rw [hm] at h <;> revert h <;> decide

/-! ### features -/

theorem get?_otherFeatures (ls : List String) (n : String) : ∀ f : Dict String Val,
    (otherFeatures ls f).get? n = if n ∈ ls then none else f.get? n
  | [] => by simp [otherFeatures, Dict.get?]
  | (m, v) :: f => by
    have ih := get?_otherFeatures ls n f
    unfold otherFeatures at ih ⊢
    rw [List.filter_cons]
    by_cases hm : m ∈ ls
    · rw [if_neg (by simpa using hm), ih, Dict.get?]
      by_cases hmn : m = n
      · subst hmn; simp [hm]
      · simp [hmn]
    · rw [if_pos (by simpa using hm), Dict.get?, Dict.get?, ih]
      by_cases hmn : m = n
      · subst hmn; simp [hm]
      · simp [hmn]

theorem keys_otherFeatures (ls : List String) (f : Dict String Val) : (otherFeatures ls f).keys = f.keys.filter fun n => decide (n ∉ ls) := by
  unfold otherFeatures Dict.keys
  rw [List.filter_map]
  rfl

/-! ### converting the instances -/

theorem convert_spec {σ D : Type} {new : List String → List String → D} {base : D → Dataset} {setBase : D → Dataset → D}
    {add : Heap σ → D → Nat → Py D}
    (hadd : ∀ h d a b, (base d).addInstance h a = .ok b → ∃ d', add h d a = .ok d' ∧ base d' = b)
    {raw : Heap Unit} {conv : Inst Unit → Py (Inst σ)} {n : Nat} {x : Nat → Inst σ} (hx : ∀ i < n, conv (raw i) = .ok (x i))
    (hid : ∀ i < n, (x i).id = .num i) {d0 : D} {h0 : Heap σ} (hist : TargetHistory new base setBase add h0 d0)
    (hc : Consistent h0 (base d0)) (hi : (base d0).instances = [])
    (hk : ∀ i < n, (x i).features.keys.Nodup ∧ ∀ m, m ∈ (x i).features.keys ↔ m ∈ (base d0).attrs.keys) :
    ∃ h' d', (List.range n).foldlM (convertStep raw conv add) (h0, d0) = .ok (h', d') ∧ TargetHistory new base setBase add h' d' ∧
      Consistent h' (base d') ∧ SameAttrs (base d0) (base d') ∧ (base d').instances = List.range n ∧ ∀ i < n, h' i = x i := by
  induction n with
  | zero => exact ⟨h0, d0, rfl, hist, hc, ⟨rfl, rfl, fun _ => Iff.rfl⟩, hi, fun i hi => absurd hi (by omega)⟩
  | succ n ih =>
    obtain ⟨h1, d1, e1, hh1, hc1, hs1, hi1, hx1⟩ := ih (fun i hi => hx i (by omega)) (fun i hi => hid i (by omega)) (fun i hi => hk i (by omega))
    have hold : ∀ a ∈ (base d1).instances, upd h1 n (x n) a = h1 a := by
      intro a ha
      rw [hi1, List.mem_range] at ha
      exact upd_ne _ _ (by omega)
    have hc2 := Consistent.congr hc1 hold
    have hself : upd h1 n (x n) n = x n := upd_self _ _ _
    obtain ⟨b, k1, k2, k3, k4⟩ := add_same (a := n) hc2 hs1 (by rw [hself]; exact hk n (by omega)) (by
      intro b hb
      rw [hold b hb, hself, hid n (by omega)]
      rw [hi1, List.mem_range] at hb
      rw [hx1 b hb, hid b (by omega)]
      intro e
      injection e with e
      have : b = n := by exact_mod_cast e
      omega)
    obtain ⟨d2, k5, rfl⟩ := hadd _ _ _ _ k1
    refine ⟨upd h1 n (x n), d2, ?_, ?_, k2, k3, by rw [k4, hi1, List.range_succ], ?_⟩
    · rw [List.range_succ, List.foldlM_append, e1]
      show List.foldlM _ _ _ = _
      rw [List.foldlM_cons]
      have : convertStep raw conv add (h1, d1) n = .ok (upd h1 n (x n), d2) := by
        unfold convertStep
        rw [hx n (by omega)]
        show (add _ _ _ >>= _ : Py _) = _
        rw [k5]; rfl
      rw [this]; rfl
    · exact .add (.create hh1 hold) (by rw [hself]; exact (hk n (by omega)).1) k5
    · intro i hi
      by_cases hin : i = n
      · subst hin; exact hself
      · rw [upd_ne _ _ hin]; exact hx1 i (by omega)

end Prolothar.Data
