import Verif.Model.Transactions
import Verif.Spec.Transactions
import Verif.Lemmas.EventLog
import Std.Data.String.ToInt
import Mathlib.Data.String.Basic
/-
C74: transaction databases.
-/
namespace Prolothar.Transactions
open Prolothar.EventLog Prolothar.Spec.Transactions

variable {T A : Type} [DecidableEq T] [LinearOrder A]

/-! ### sets and counters -/

theorem foldl_setAdd (l : List A) : ∀ s : List A, (s.Nodup → (l.foldl setAdd s).Nodup) ∧ ∀ x, x ∈ l.foldl setAdd s ↔ x ∈ s ∨ x ∈ l := by
  induction l with
  | nil => intro s; simp
  | cons a l ih =>
    intro s
    obtain ⟨h1, h2⟩ := ih (setAdd s a)
    refine ⟨fun h => h1 (nodup_setAdd h a), fun x => ?_⟩
    rw [List.foldl_cons, h2, mem_setAdd, List.mem_cons]; tauto

omit [DecidableEq T] in
/-- C74: the item set consists of the items of the transactions, each once -/
theorem C74_itemset (items : T → List A) (db : List T) : (itemset items db).Nodup ∧ ∀ a, a ∈ itemset items db ↔ ∃ t ∈ db, a ∈ items t := by
  have key : ∀ s : List A, (s.Nodup → (db.foldl (fun s t => (items t).foldl setAdd s) s).Nodup) ∧
      ∀ x, x ∈ db.foldl (fun s t => (items t).foldl setAdd s) s ↔ x ∈ s ∨ ∃ t ∈ db, x ∈ items t := by
    induction db with
    | nil => intro s; simp
    | cons t db ih =>
      intro s
      obtain ⟨h1, h2⟩ := ih ((items t).foldl setAdd s)
      refine ⟨fun h => h1 ((foldl_setAdd _ s).1 h), fun x => ?_⟩
      rw [List.foldl_cons, h2, (foldl_setAdd _ s).2]
      simp only [List.mem_cons, exists_eq_or_imp]; tauto
  obtain ⟨h1, h2⟩ := key []
  exact ⟨h1 List.nodup_nil, fun a => by unfold itemset; rw [h2]; simp⟩

theorem foldl_bump_list (l : List A) : ∀ c : Dict A Nat, (c.WF → (l.foldl bump c).WF) ∧ (∀ x, val (l.foldl bump c) x = val c x + l.count x) ∧
    ∀ x, ((l.foldl bump c).get? x).isSome ↔ (c.get? x).isSome ∨ x ∈ l := by
  induction l with
  | nil => intro c; simp
  | cons a l ih =>
    intro c
    obtain ⟨h1, h2, h3⟩ := ih (bump c a)
    refine ⟨fun h => h1 (WF_bump h a), fun x => ?_, fun x => ?_⟩
    · rw [List.foldl_cons, h2, val_bump, List.count_cons]
      simp only [beq_iff_eq]; omega
    · rw [List.foldl_cons, h3, isSome_bump, List.mem_cons]
      constructor
      · rintro ((h | h) | h)
        · exact .inl h
        · exact .inr (.inl h.symm)
        · exact .inr (.inr h)
      · rintro (h | h | h)
        · exact .inl (.inl h)
        · exact .inl (.inr h.symm)
        · exact .inr h

omit [DecidableEq T] in
theorem countItems_spec (items : T → List A) (db : List T) : (countItems items db).WF ∧
    (∀ x, val (countItems items db) x = (db.map fun t => (items t).count x).sum) ∧
    ∀ x, ((countItems items db).get? x).isSome ↔ ∃ t ∈ db, x ∈ items t := by
  have key : ∀ c : Dict A Nat, (c.WF → (db.foldl (fun c t => (items t).foldl bump c) c).WF) ∧
      (∀ x, val (db.foldl (fun c t => (items t).foldl bump c) c) x = val c x + (db.map fun t => (items t).count x).sum) ∧
      ∀ x, ((db.foldl (fun c t => (items t).foldl bump c) c).get? x).isSome ↔ (c.get? x).isSome ∨ ∃ t ∈ db, x ∈ items t := by
    induction db with
    | nil => intro c; simp
    | cons t db ih =>
      intro c
      obtain ⟨h1, h2, h3⟩ := ih ((items t).foldl bump c)
      obtain ⟨b1, b2, b3⟩ := foldl_bump_list (items t) c
      refine ⟨fun h => h1 (b1 h), fun x => ?_, fun x => ?_⟩
      · rw [List.foldl_cons, h2, b2, List.map_cons, List.sum_cons]; omega
      · rw [List.foldl_cons, h3, b3]
        simp only [List.mem_cons, exists_eq_or_imp]; tauto
  obtain ⟨h1, h2, h3⟩ := key []
  unfold countItems
  exact ⟨h1 Dict.WF.nil, fun x => by rw [h2]; simp [val, Dict.get?], fun x => by rw [h3]; simp [Dict.get?]⟩

omit [DecidableEq T] in
/-- C74: an item occurs as often as the transactions contain it; if the transactions are sets, that is the number of
transactions that contain the item. Other items are not in the dictionary. -/
theorem C74_count (items : T → List A) (db : List T) (a : A) :
    (countItems items db).get? a = (if ∃ t ∈ db, a ∈ items t then some ((db.map fun t => (items t).count a).sum) else none) ∧
    ((∀ t ∈ db, (items t).Nodup) → (db.map fun t => (items t).count a).sum = (db.filter fun t => decide (a ∈ items t)).length) := by
  obtain ⟨_, h2, h3⟩ := countItems_spec items db
  constructor
  · have h2 := h2 a
    have h3 := h3 a
    unfold val at h2
    cases hg : (countItems items db).get? a with
    | none =>
      rw [hg] at h3
      rw [if_neg fun h => by simpa using h3.2 h]
    | some n =>
      rw [hg] at h2 h3
      rw [if_pos (h3.1 rfl), ← h2]; rfl
  · intro hn
    induction db with
    | nil => rfl
    | cons t db ih =>
      have ht := hn t (by simp)
      have ih' := ih (countItems_spec items db).1 (countItems_spec items db).2.1 (countItems_spec items db).2.2
        (fun t h => hn t (List.mem_cons_of_mem _ h))
      rw [List.map_cons, List.sum_cons, ih', List.Nodup.count ht]
      by_cases ha : a ∈ items t
      · rw [List.filter_cons_of_pos (by simpa using ha), if_pos ha, List.length_cons]; omega
      · rw [List.filter_cons_of_neg (by simpa using ha), if_neg ha]; omega

/-- C74: the sizes: number of transactions with repetitions removed, total and largest number of items, and number of
different items -/
theorem C74_sizes (items : T → List A) (db : List T) :
    nrUnique db = db.toFinset.card ∧ nrItems items db = (db.map fun t => (items t).length).sum ∧
    nrDifferent items db = ((db.map items).flatten.toFinset).card ∧
    (db ≠ [] → ∃ m, maxLength items db = .ok m ∧ (∃ t ∈ db, (items t).length = m) ∧ ∀ t ∈ db, (items t).length ≤ m) ∧
    (db = [] → maxLength items db = .error .value) := by
  refine ⟨rfl, ?_, ?_, ?_, ?_⟩
  · have : ∀ n, db.foldl (fun n t => n + (items t).length) n = n + (db.map fun t => (items t).length).sum := by
      induction db with
      | nil => intro n; simp
      | cons t db ih => intro n; rw [List.foldl_cons, ih, List.map_cons, List.sum_cons]; omega
    unfold nrItems; rw [this]; omega
  · obtain ⟨h1, h2⟩ := C74_itemset items db
    unfold nrDifferent
    rw [← List.toFinset_card_of_nodup h1]
    congr 1
    ext a
    simp [h2]
  · intro hne
    cases db with
    | nil => exact absurd rfl hne
    | cons t db =>
      have key : ∀ x : Nat, x ≤ db.foldl (fun m t => if m < (items t).length then (items t).length else m) x ∧
          (∀ u ∈ db, (items u).length ≤ db.foldl (fun m t => if m < (items t).length then (items t).length else m) x) ∧
          (db.foldl (fun m t => if m < (items t).length then (items t).length else m) x = x ∨
            ∃ u ∈ db, (items u).length = db.foldl (fun m t => if m < (items t).length then (items t).length else m) x) := by
        clear hne
        induction db with
        | nil => intro x; simp
        | cons u db ih =>
          intro x
          rw [List.foldl_cons]
          obtain ⟨h1, h2, h3⟩ := ih (if x < (items u).length then (items u).length else x)
          refine ⟨?_, ?_, ?_⟩
          · refine le_trans ?_ h1; split <;> omega
          · intro v hv
            rcases List.mem_cons.1 hv with rfl | hv
            · refine le_trans ?_ h1; split <;> omega
            · exact h2 v hv
          · rcases h3 with h3 | ⟨v, hv, h3⟩
            · by_cases hx : x < (items u).length
              · rw [if_pos hx] at h3
                exact .inr ⟨u, by simp, by rw [if_pos hx, h3]⟩
              · rw [if_neg hx] at h3
                exact .inl (by rw [if_neg hx, h3])
            · exact .inr ⟨v, List.mem_cons_of_mem _ hv, h3⟩
      obtain ⟨h1, h2, h3⟩ := key (items t).length
      refine ⟨_, rfl, ?_, ?_⟩
      · rcases h3 with h3 | ⟨u, hu, h3⟩
        · exact ⟨t, by simp, h3.symm⟩
        · exact ⟨u, List.mem_cons_of_mem _ hu, h3⟩
      · intro u hu
        rcases List.mem_cons.1 hu with rfl | hu
        · exact h1
        · exact h2 u hu
  · rintro rfl; rfl

/-! ### dictionaries of ids -/

theorem put_new {κ ν : Type} [DecidableEq κ] {d : Dict κ ν} {k : κ} {v : ν} (h : k ∉ d.keys) : d.put k v = d ++ [(k, v)] := by
  induction d with
  | nil => rfl
  | cons p d ih =>
    obtain ⟨k', v'⟩ := p
    simp only [Dict.keys, List.map_cons, List.mem_cons, not_or] at h
    simp only [Dict.put]
    rw [if_neg (Ne.symm h.1), ih h.2]
    rfl

theorem foldl_put_new {κ ν ι : Type} [DecidableEq κ] (k : ι → κ) (v : ι → ν) : ∀ (l : List ι) (d : Dict κ ν), (l.map k).Nodup →
    (∀ x ∈ l, k x ∉ d.keys) → l.foldl (fun m e => m.put (k e) (v e)) d = d ++ l.map fun e => (k e, v e)
  | [], d, _, _ => by simp
  | x :: l, d, hn, hd => by
    rw [List.map_cons, List.nodup_cons] at hn
    rw [List.foldl_cons, put_new (hd x (by simp)), foldl_put_new k v l _ hn.2]
    · simp
    · intro y hy
      simp only [Dict.keys, List.map_append, List.mem_append, List.map_cons, List.map_nil, List.mem_singleton, not_or]
      refine ⟨hd y (List.mem_cons_of_mem _ hy), fun h => hn.1 (h ▸ List.mem_map_of_mem hy)⟩

theorem enumDict_eq {l : List A} (hn : l.Nodup) (off : Int) : enumDict l off = l.zipIdx.map fun e => (e.1, e.2 + off) := by
  unfold enumDict
  rw [foldl_put_new (fun e : A × Nat => e.1) (fun e => (e.2 : Int) + off) l.zipIdx [] (by rw [List.zipIdx_map_fst]; exact hn) (by simp [Dict.keys])]
  rfl

theorem invertDict_eq {l : List A} (hn : l.Nodup) (off : Int) : invertDict (enumDict l off) = l.zipIdx.map fun e => ((e.2 : Int) + off, e.1) := by
  unfold invertDict
  rw [enumDict_eq hn, List.foldl_map]
  rw [foldl_put_new (fun e : A × Nat => (e.2 : Int) + off) (fun e => e.1) l.zipIdx [] ?_ (by simp [Dict.keys])]
  · rfl
  · have h1 : l.zipIdx.map (fun e : A × Nat => (e.2 : Int) + off) = (l.zipIdx.map (·.2)).map fun i : Nat => (i : Int) + off := by
      rw [List.map_map]; rfl
    rw [h1, List.zipIdx_map_snd]
    exact List.Nodup.map (fun a b h => by simpa using h) (List.nodup_range' 1)

theorem enumDict_get {l : List A} (hn : l.Nodup) (off : Int) {a : A} (ha : a ∈ l) :
    (enumDict l off).get? a = some ((l.idxOf a : Int) + off) ∧ (invertDict (enumDict l off)).get? ((l.idxOf a : Int) + off) = some a := by
  have hlt : l.idxOf a < l.length := List.idxOf_lt_length_of_mem ha
  have hmem : (a, l.idxOf a) ∈ l.zipIdx := by
    rw [List.mem_zipIdx_iff_getElem?, List.getElem?_eq_getElem hlt, List.getElem_idxOf]
  constructor
  · refine Dict.get?_of_mem ?_ ?_
    · unfold Dict.WF Dict.keys
      rw [enumDict_eq hn, List.map_map]
      have : (l.zipIdx.map (Prod.fst ∘ fun e : A × Nat => (e.1, (e.2 : Int) + off))) = l := by
        rw [show (Prod.fst ∘ fun e : A × Nat => (e.1, (e.2 : Int) + off)) = Prod.fst from rfl, List.zipIdx_map_fst]
      rw [this]; exact hn
    · rw [enumDict_eq hn]
      exact List.mem_map.2 ⟨_, hmem, rfl⟩
  · refine Dict.get?_of_mem ?_ ?_
    · unfold Dict.WF Dict.keys
      rw [invertDict_eq hn, List.map_map]
      have h1 : l.zipIdx.map (Prod.fst ∘ fun e : A × Nat => ((e.2 : Int) + off, e.1)) = (l.zipIdx.map (·.2)).map fun i : Nat => (i : Int) + off := by
        rw [List.map_map]; rfl
      rw [h1, List.zipIdx_map_snd]
      exact List.Nodup.map (fun a b h => by simpa using h) (List.nodup_range' 1)
    · rw [invertDict_eq hn]
      exact List.mem_map.2 ⟨_, hmem, rfl⟩

/-! ### text -/

theorem strInt_chars (i : Int) : strInt i ≠ [] ∧ ∀ c ∈ strInt i, c.isDigit ∨ c = '-' := by
  unfold strInt
  rw [Int.toString_eq_repr, Int.repr_eq_if]
  split
  · rw [Nat.toList_repr]
    exact ⟨Nat.toDigits_ne_nil, fun c hc => .inl (Nat.isDigit_of_mem_toDigits (by decide) (by decide) hc)⟩
  · rw [String.toList_append, Nat.toList_repr]
    refine ⟨by simp, fun c hc => ?_⟩
    rcases List.mem_append.1 hc with hc | hc
    · right; simpa using hc
    · exact .inl (Nat.isDigit_of_mem_toDigits (by decide) (by decide) hc)

theorem strInt_not_mem (i : Int) : ' ' ∉ strInt i ∧ '\n' ∉ strInt i ∧ ':' ∉ strInt i := by
  have h := (strInt_chars i).2
  refine ⟨?_, ?_, ?_⟩ <;> intro hc <;> rcases h _ hc with h | h <;> revert h <;> decide

theorem toInt_strInt (i : Int) : (String.ofList (strInt i)).toInt? = some i := by
  unfold strInt
  rw [String.ofList_toList, Int.toString_eq_repr, Int.toInt?_repr]

theorem words_join {ws : List (List Char)} (h : ∀ w ∈ ws, w ≠ [] ∧ ' ' ∉ w) : words (joinWords ws) = ws := by
  unfold words joinWords
  cases ws with
  | nil => rfl
  | cons w ws =>
    rw [if_neg, List.splitOn_intercalate _ (fun l hl => (h l hl).2) (by simp)]
    intro he
    have := congrArg List.length he
    have hw := (h w (by simp)).1
    cases ws with
    | nil => simp at this; exact hw this
    | cons v ws => simp [List.intercalate] at this

omit [LinearOrder A] in
theorem decodeLine_ids (d : Dict Int A) (l : List A) (id : A → Int) (h : ∀ a ∈ l, d.get? (id a) = some a) :
    decodeLine d (joinWords (l.map fun a => strInt (id a))) = some l := by
  unfold decodeLine
  rw [words_join (by
    intro w hw
    obtain ⟨a, _, rfl⟩ := List.mem_map.1 hw
    exact ⟨(strInt_chars _).1, (strInt_not_mem _).1⟩)]
  induction l with
  | nil => rfl
  | cons a l ih =>
    rw [List.map_cons, List.mapM_cons, toInt_strInt, ih fun b hb => h b (List.mem_cons_of_mem _ hb)]
    simp only [Option.bind_eq_bind, Option.bind_some, h a (by simp)]
    rfl

theorem mem_joinWords {c : Char} {ws : List (List Char)} (h : c ∈ joinWords ws) : c = ' ' ∨ ∃ w ∈ ws, c ∈ w := by
  unfold joinWords at h
  induction ws with
  | nil => simp [List.intercalate] at h
  | cons w ws ih =>
    cases ws with
    | nil => simp [List.intercalate] at h; exact .inr ⟨w, by simp, h⟩
    | cons v ws =>
      rw [List.intercalate_cons_cons] at h
      simp only [List.mem_append, List.mem_singleton] at h
      rcases h with (h | h) | h
      · exact .inr ⟨w, by simp, h⟩
      · exact .inl h
      · rcases ih h with h | ⟨u, hu, h⟩
        · exact .inl h
        · exact .inr ⟨u, List.mem_cons_of_mem _ hu, h⟩

theorem lines_spec (ls : List (List Char)) (h : ∀ l ∈ ls, '\n' ∉ l) : lines ((ls.map (· ++ ['\n'])).flatten) = ls := by
  have h1 : (ls.map (· ++ ['\n'])).flatten = ['\n'].intercalate (ls ++ [[]]) := by
    clear h
    induction ls with
    | nil => rfl
    | cons l ls ih =>
      rw [List.map_cons, List.flatten_cons, ih]
      cases ls with
      | nil => simp [List.intercalate]
      | cons m ls => simp only [List.cons_append, List.intercalate_cons_cons, List.append_assoc]
  unfold lines
  rw [h1, List.splitOn_intercalate _ _ (by simp)]
  · simp
  · intro l hl
    rcases List.mem_append.1 hl with hl | hl
    · exact h l hl
    · simp only [List.mem_singleton] at hl; subst hl; simp

omit [DecidableEq T] in
/-- C74: decoding the written DAT file with the returned dictionary gives back the transactions, in order and with
their items in order, for every offset -/
theorem C74_dat_round_trip (items : T → List A) (db : List T) (offset : Int) :
    decodeDat (saveDat items db offset).2 (saveDat items db offset).1 = some (db.map items) := by
  obtain ⟨h1, h2⟩ := C74_itemset items db
  set l := (itemset items db).insertionSort (· ≤ ·) with hl
  have hp : l.Perm (itemset items db) := List.perm_insertionSort _ _
  have hn : l.Nodup := hp.nodup_iff.2 h1
  have hrow : ∀ t ∈ db, (items t).map (strGet (enumDict l offset)) = (items t).map fun a => strInt ((l.idxOf a : Int) + offset) := by
    intro t ht
    refine List.map_congr_left fun a ha => ?_
    have := (enumDict_get hn offset (hp.mem_iff.2 ((h2 a).2 ⟨t, ht, ha⟩))).1
    unfold strGet; rw [this]
  have htext : (saveDat items db offset).1 =
      ((db.map fun t => joinWords ((items t).map fun a => strInt ((l.idxOf a : Int) + offset))).map (· ++ ['\n'])).flatten := by
    unfold saveDat
    simp only [List.map_map]
    congr 1
    refine List.map_congr_left fun t ht => ?_
    simp only [Function.comp_apply]
    rw [← hl, hrow t ht]
  have hdict : (saveDat items db offset).2 = invertDict (enumDict l offset) := rfl
  rw [htext, hdict]
  unfold decodeDat
  rw [lines_spec _ (by
    intro x hx
    obtain ⟨t, _, rfl⟩ := List.mem_map.1 hx
    intro hc
    rcases mem_joinWords hc with hc | ⟨w, hw, hc⟩
    · exact absurd hc (by decide)
    · obtain ⟨a, _, rfl⟩ := List.mem_map.1 hw
      exact (strInt_not_mem _).2.1 hc)]
  have key : ∀ db' : List T, (∀ t ∈ db', t ∈ db) →
      (db'.map fun t => joinWords ((items t).map fun a => strInt ((l.idxOf a : Int) + offset))).mapM (decodeLine (invertDict (enumDict l offset))) =
        some (db'.map items) := by
    intro db'
    induction db' with
    | nil => intro _; rfl
    | cons t db' ih =>
      intro hsub
      have := decodeLine_ids (invertDict (enumDict l offset)) (items t) (fun a => (l.idxOf a : Int) + offset) (fun a ha =>
        (enumDict_get hn offset (hp.mem_iff.2 ((h2 a).2 ⟨t, hsub t (by simp), ha⟩))).2)
      rw [List.map_cons, List.mapM_cons, this, ih fun t ht => hsub t (List.mem_cons_of_mem _ ht)]
      rfl
  exact key db fun _ h => h

omit [DecidableEq T] in
/-- C74: the DAT dictionary maps the integers from the offset on to the sorted items, without repetition -/
theorem C74_dat_dict (items : T → List A) (db : List T) (offset : Int) :
    ∃ l : List A, l.Pairwise (· < ·) ∧ (∀ a, a ∈ l ↔ ∃ t ∈ db, a ∈ items t) ∧
      (saveDat items db offset).2 = l.zipIdx.map fun e => ((e.2 : Int) + offset, e.1) := by
  obtain ⟨h1, h2⟩ := C74_itemset items db
  have hp : ((itemset items db).insertionSort (· ≤ ·)).Perm (itemset items db) := List.perm_insertionSort _ _
  refine ⟨(itemset items db).insertionSort (· ≤ ·), ?_, fun a => by rw [hp.mem_iff, h2], invertDict_eq (hp.nodup_iff.2 h1) offset⟩
  have h3 := List.pairwise_insertionSort (· ≤ ·) (itemset items db)
  exact (h3.and (hp.nodup_iff.2 h1)).imp fun h => lt_of_le_of_ne h.1 h.2

theorem mapM_ok_of {α β : Type} {f : α → Py β} {g : α → β} : ∀ {l : List α}, (∀ x ∈ l, f x = .ok (g x)) → l.mapM f = .ok (l.map g)
  | [], _ => rfl
  | x :: l, h => by
    rw [List.mapM_cons, h x (by simp), mapM_ok_of fun y hy => h y (List.mem_cons_of_mem _ hy)]; rfl

/-- C74: the rows of a FIC file, decoded with the returned dictionary, are the transactions with their lengths; the
ids are the positions 0, 1, … in the order of first occurrence; the `ac` line contains the counts in the
opposite order of the ids in the `ab` line -/
theorem C74_fic (items : T → List A) (db : List T) (hne : db ≠ []) :
    ∃ fic d, ∃ l : List A, ∃ longest, saveFic items db = .ok (fic, d) ∧ l.Nodup ∧ (∀ a, a ∈ l ↔ ∃ t ∈ db, a ∈ items t) ∧
      maxLength items db = .ok longest ∧ fic.header = [db.length, nrUnique db, nrItems items db, l.length, longest] ∧
      d = (l.zipIdx.map fun e => ((e.2 : Int), e.1)) ∧
      fic.rows.mapM (decodeRow d) = some (db.map fun t => (((items t).length : Int), items t)) ∧
      fic.ab = "ab: ".toList ++ joinWords ((List.range l.length).map fun i : Nat => strInt i) ∧ fic.it = "it: ".toList ++ joinWords ((List.range l.length).map fun i : Nat => strInt i) ∧
      fic.ac = "ac: ".toList ++ joinWords ((l.map fun a => strInt ((db.map fun t => (items t).count a).sum : Nat)).reverse) := by
  obtain ⟨m, hm, _⟩ := (C74_sizes items db).2.2.2.1 hne
  obtain ⟨hwf, _, h3⟩ := countItems_spec items db
  set l := (countItems items db).keys with hl
  have hn : l.Nodup := hwf
  have hmem : ∀ a, a ∈ l ↔ ∃ t ∈ db, a ∈ items t := by
    intro a; rw [← h3 a, hl, Dict.mem_keys_iff, Option.isSome_iff_exists]
  set ids := enumDict l 0 with hids
  have hids_eq : ids = l.zipIdx.map fun e => (e.1, (e.2 : Int)) := by rw [hids, enumDict_eq hn]; simp
  have hcount : ∀ a ∈ l, (countItems items db).getItem a = .ok ((db.map fun t => (items t).count a).sum) := by
    intro a ha
    unfold Dict.getItem
    rw [(C74_count items db a).1, if_pos ((hmem a).1 ha)]
  -- the sorted ids
  have hvals : ids.values = (List.range l.length).map fun i : Nat => (i : Int) := by
    rw [hids_eq]
    unfold Dict.values
    rw [List.map_map, show (Prod.snd ∘ fun e : A × Nat => (e.1, (e.2 : Int))) = (fun i : Nat => (i : Int)) ∘ Prod.snd from rfl, ← List.map_map,
      List.zipIdx_map_snd, List.range_eq_range']
  have hsortv : ids.values.insertionSort (· ≤ ·) = ids.values := by
    refine List.Pairwise.insertionSort_eq ?_
    rw [hvals, List.pairwise_map]
    exact List.pairwise_lt_range.imp fun h => by omega
  -- the counts
  have hsorted : (ids.insertionSort fun a b => -a.2 ≤ -b.2) = ids.reverse := by
    have hdesc : ids.reverse.Pairwise fun a b => b.2 < a.2 := by
      rw [List.pairwise_reverse, hids_eq, List.pairwise_map]
      have : (l.zipIdx.map Prod.snd).Pairwise (· < ·) := by
        rw [List.zipIdx_map_snd]; exact List.pairwise_lt_range'
      rw [List.pairwise_map] at this
      exact this.imp fun h => by simpa using h
    have : Std.Total (fun a b : A × Int => -a.2 ≤ -b.2) := ⟨fun a b => by omega⟩
    have : IsTrans (A × Int) (fun a b : A × Int => -a.2 ≤ -b.2) := ⟨fun a b c h1 h2 => by omega⟩
    have hs := List.pairwise_insertionSort (fun a b : A × Int => -a.2 ≤ -b.2) ids
    have hperm : (ids.insertionSort fun a b => -a.2 ≤ -b.2).Perm ids.reverse := (List.perm_insertionSort _ _).trans ids.reverse_perm.symm
    refine hperm.eq_of_pairwise (le := fun a b : A × Int => -a.2 ≤ -b.2) ?_ hs (hdesc.imp fun h => by omega)
    intro a b ha hb h1 h2
    have hab : a.2 = b.2 := by omega
    rw [hperm.mem_iff, List.mem_reverse] at ha
    rw [List.mem_reverse] at hb
    rw [hids_eq] at ha hb
    obtain ⟨x, hx, rfl⟩ := List.mem_map.1 ha
    obtain ⟨y, hy, rfl⟩ := List.mem_map.1 hb
    simp only [Int.natCast_inj] at hab
    rw [List.mem_zipIdx_iff_getElem?] at hx hy
    rw [hab, hy] at hx
    simp only [Option.some.injEq] at hx
    simp only [hx, hab]
  have hac : (ids.insertionSort fun a b => -a.2 ≤ -b.2).mapM (fun e => (do let n ← (countItems items db).getItem e.1; return strInt n : Py (List Char))) =
      .ok ((l.map fun a => strInt ((db.map fun t => (items t).count a).sum : Nat)).reverse) := by
    rw [hsorted, mapM_ok_of (g := fun e => strInt ((db.map fun t => (items t).count e.1).sum : Nat))]
    · rw [← List.map_reverse, hids_eq, ← List.map_reverse, List.map_map]
      congr 1
      have : l.reverse = l.zipIdx.reverse.map Prod.fst := by rw [List.map_reverse, List.zipIdx_map_fst]
      rw [this, List.map_map]
      rfl
    · intro e he
      rw [List.mem_reverse, hids_eq] at he
      obtain ⟨x, hx, rfl⟩ := List.mem_map.1 he
      have hx1 : x.1 ∈ l := by
        rw [← List.zipIdx_map_fst 0 l]; exact List.mem_map_of_mem hx
      rw [hcount _ hx1]; rfl
  have hrows : db.mapM (fun t => (do
        let w ← idWords ids (items t)
        return strInt (items t).length ++ ": ".toList ++ joinWords w : Py (List Char))) =
      .ok (db.map fun t => strInt (items t).length ++ ": ".toList ++ joinWords ((items t).map fun a => strInt ((l.idxOf a : Int) + 0))) := by
    refine mapM_ok_of fun t ht => ?_
    unfold idWords
    rw [mapM_ok_of (g := fun a => strInt ((l.idxOf a : Int) + 0))]
    · rfl
    · intro a ha
      unfold Dict.getItem
      rw [(enumDict_get hn 0 ((hmem a).2 ⟨t, ht, ha⟩)).1]; rfl
  refine ⟨⟨[db.length, nrUnique db, nrItems items db, ids.length, m], "ab: ".toList ++ joinWords ((ids.values.insertionSort (· ≤ ·)).map strInt),
    "ac: ".toList ++ joinWords ((l.map fun a => strInt ((db.map fun t => (items t).count a).sum : Nat)).reverse),
    "it: ".toList ++ joinWords ((ids.values.insertionSort (· ≤ ·)).map strInt),
    db.map fun t => strInt (items t).length ++ ": ".toList ++ joinWords ((items t).map fun a => strInt ((l.idxOf a : Int) + 0))⟩,
    invertDict ids, l, m, ?_, hn, hmem, hm, ?_, ?_, ?_, ?_, ?_, rfl⟩
  · unfold saveFic
    simp only [bind, Except.bind] at hac hrows ⊢
    rw [hm]
    simp only
    rw [← hl, ← hids, hac]
    simp only
    rw [hrows]
    rfl
  · simp [hids_eq]
  · rw [hids, invertDict_eq hn]; simp
  · have key : ∀ db' : List T, (∀ t ∈ db', t ∈ db) →
        (db'.map fun t => strInt (items t).length ++ ": ".toList ++ joinWords ((items t).map fun a => strInt ((l.idxOf a : Int) + 0))).mapM
          (decodeRow (invertDict ids)) = some (db'.map fun t => (((items t).length : Int), items t)) := by
      intro db'
      induction db' with
      | nil => intro _; rfl
      | cons t db' ih =>
        intro hsub
        have h1 := decodeLine_ids (invertDict ids) (items t) (fun a => (l.idxOf a : Int) + 0) (fun a ha =>
          (enumDict_get hn 0 ((hmem a).2 ⟨t, hsub t (by simp), ha⟩)).2)
        have h2 : (strInt (items t).length ++ ": ".toList ++ joinWords ((items t).map fun a => strInt ((l.idxOf a : Int) + 0))).splitOn ':' =
            [strInt (items t).length, ' ' :: joinWords ((items t).map fun a => strInt ((l.idxOf a : Int) + 0))] := by
          have e : strInt (items t).length ++ ": ".toList ++ joinWords ((items t).map fun a => strInt ((l.idxOf a : Int) + 0)) =
              [':'].intercalate [strInt (items t).length, ' ' :: joinWords ((items t).map fun a => strInt ((l.idxOf a : Int) + 0))] := by
            simp [List.intercalate]
          rw [e, List.splitOn_intercalate _ _ (by simp)]
          intro x hx
          simp only [List.mem_cons, List.not_mem_nil, or_false] at hx
          rcases hx with rfl | rfl
          · exact (strInt_not_mem _).2.2
          · intro hc
            rcases List.mem_cons.1 hc with hc | hc
            · exact absurd hc (by decide)
            · rcases mem_joinWords hc with hc | ⟨w, hw, hc⟩
              · exact absurd hc (by decide)
              · obtain ⟨a, _, rfl⟩ := List.mem_map.1 hw
                exact (strInt_not_mem _).2.2 hc
        rw [List.map_cons, List.mapM_cons, ih fun t ht => hsub t (List.mem_cons_of_mem _ ht)]
        have h3 : decodeRow (invertDict ids) (strInt (items t).length ++ ": ".toList ++ joinWords ((items t).map fun a => strInt ((l.idxOf a : Int) + 0))) =
            some (((items t).length : Int), items t) := by
          unfold decodeRow
          rw [h2]
          simp only [toInt_strInt, h1]
          rfl
        rw [h3]; rfl
    exact key db fun _ h => h
  · rw [hsortv, hvals, List.map_map]; rfl
  · rw [hsortv, hvals, List.map_map]; rfl

/-- C74: the `ac` line does not give the counts in the order of the ids of the `ab` line: here item 0 occurs twice and item 1
once, but the counts are listed as "1 2" -/
theorem C74_fic_order_witness : (saveFic (T := List String) id [["a"], ["a", "b"]]).toOption.map (fun r => (r.1.ab, r.1.ac, r.2)) =
    some ("ab: 0 1".toList, "ac: 1 2".toList, [(0, "a"), (1, "b")]) := by decide +kernel

/-- C74: an empty database cannot be saved as FIC -/
theorem C74_fic_empty (items : T → List A) : saveFic items [] = .error .value := rfl

example : saveDat (T := List String) id [["b", "a"], [], ["c"]] 5 = ("6 5\n\n7\n".toList, [(5, "a"), (6, "b"), (7, "c")]) := by decide +kernel

end Prolothar.Transactions
