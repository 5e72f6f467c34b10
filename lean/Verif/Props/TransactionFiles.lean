import Verif.Model.TransactionFiles
import Verif.Props.Transactions
import Mathlib.Logic.Relation
/-
C185: files of transaction databases when saving is interrupted or fails.
-/
namespace Prolothar.Transactions
open Prolothar.EventLog Prolothar.Spec.Transactions

/-- the states that a save which writes the given texts to a path with the content `old` can be in -/
abbrev Saving (writes : List (List Char)) (old : Option (List Char)) (s : SaveState) : Prop :=
  Relation.ReflTransGen (SaveStep writes) (SaveState.start old) s

/-- what holds in every state of a save -/
def SaveInv (writes : List (List Char)) (old : Option (List Char)) (s : SaveState) : Prop :=
  match s.pc with
  | .before => s.disk = old
  | .writing todo => ∃ d, s.disk = some d ∧ d ++ s.buffer ++ todo.flatten = writes.flatten
  | .closed => s.disk = some writes.flatten

theorem saving_inv {writes : List (List Char)} {old : Option (List Char)} {s : SaveState} (h : Saving writes old s) : SaveInv writes old s := by
  induction h with
  | refl => rfl
  | tail _ hst ih =>
    cases hst with
    | openFile hp => exact ⟨[], rfl, rfl⟩
    | write hp =>
      unfold SaveInv at ih ⊢
      rw [hp] at ih
      obtain ⟨d, h1, h2⟩ := ih
      refine ⟨d, h1, ?_⟩
      rw [← h2]; simp
    | @flush todo d n hp hd =>
      unfold SaveInv at ih ⊢
      simp only [hp] at ih ⊢
      obtain ⟨d', h1, h2⟩ := ih
      rw [hd] at h1; cases h1
      refine ⟨_, rfl, ?_⟩
      rw [← h2]
      simp
    | close hp hb =>
      unfold SaveInv at ih ⊢
      simp only [hp] at ih ⊢
      obtain ⟨d', h1, h2⟩ := ih
      rw [h1, ← h2, hb]; simp

/-- C185: a save that ends leaves exactly the written text, whatever was at the path before (for example what an interrupted save left). -/
theorem C185_ended {writes : List (List Char)} {old : Option (List Char)} {s : SaveState} (h : Saving writes old s)
    (hc : s.pc = .closed) : s.disk = some writes.flatten := by
  have := saving_inv h
  unfold SaveInv at this
  rw [hc] at this; exact this

/-- C185: at every moment the path holds what it held before the save, or a beginning of the complete text. -/
theorem C185_prefix {writes : List (List Char)} {old : Option (List Char)} {s : SaveState} (h : Saving writes old s) :
    (s.pc = .before ∧ s.disk = old) ∨ ∃ p, s.disk = some p ∧ p <+: writes.flatten := by
  have := saving_inv h
  unfold SaveInv at this
  cases hp : s.pc with
  | before => rw [hp] at this; exact .inl ⟨rfl, this⟩
  | writing todo =>
    rw [hp] at this
    obtain ⟨d, h1, h2⟩ := this
    exact .inr ⟨d, h1, ⟨_, by rw [← h2, List.append_assoc]⟩⟩
  | closed => rw [hp] at this; exact .inr ⟨_, this, List.prefix_rfl⟩

theorem write_all (writes : List (List Char)) (d : List Char) : ∀ (ws : List (List Char)) (b : List Char),
    Relation.ReflTransGen (SaveStep writes) ⟨.writing ws, b, some d⟩ ⟨.writing [], b ++ ws.flatten, some d⟩
  | [], b => by simpa using Relation.ReflTransGen.refl
  | w :: ws, b => by
    refine Relation.ReflTransGen.head (SaveStep.write (w := w) (ws := ws) rfl) ?_
    have := write_all writes d ws (b ++ w)
    simpa using this

/-- C185: every beginning of the complete text can be what a killed save leaves: the previous content is gone as soon as the file is opened. -/
theorem C185_any_prefix {writes : List (List Char)} (old : Option (List Char)) {p : List Char} (hp : p <+: writes.flatten) :
    ∃ s, Saving writes old s ∧ s.disk = some p := by
  obtain ⟨r, hr⟩ := hp
  refine ⟨⟨.writing [], r, some p⟩, ?_, rfl⟩
  refine Relation.ReflTransGen.head (SaveStep.openFile rfl) ?_
  refine (write_all writes [] writes []).trans ?_
  refine Relation.ReflTransGen.single ?_
  have := SaveStep.flush (writes := writes) (s := ⟨.writing [], writes.flatten, some []⟩) (todo := []) (d := []) p.length rfl rfl
  simpa [← hr] using this

/-- C185: a save that is not killed can always go on to its end. -/
theorem C185_can_end {writes : List (List Char)} {old : Option (List Char)} {s : SaveState} (h : Saving writes old s) :
    ∃ t, Relation.ReflTransGen (SaveStep writes) s t ∧ t.pc = .closed := by
  have fin : ∀ (ws : List (List Char)) (b d : List Char),
      ∃ t, Relation.ReflTransGen (SaveStep writes) ⟨.writing ws, b, some d⟩ t ∧ t.pc = .closed := by
    intro ws b d
    have h1 := write_all writes d ws b
    have h2 := SaveStep.flush (writes := writes) (s := ⟨.writing [], b ++ ws.flatten, some d⟩) (todo := []) (d := d) (b ++ ws.flatten).length rfl rfl
    refine ⟨_, (h1.tail h2).tail (SaveStep.close rfl ?_), rfl⟩
    simp only [List.drop_length]
  have hi := saving_inv h
  unfold SaveInv at hi
  cases s with
  | mk pc b disk =>
    cases pc with
    | before =>
      obtain ⟨t, h1, h2⟩ := fin writes [] []
      exact ⟨t, Relation.ReflTransGen.head (SaveStep.openFile rfl) h1, h2⟩
    | writing todo =>
      obtain ⟨d, h1, _⟩ := hi
      simp only at h1; subst h1
      exact fin todo b d
    | closed => exact ⟨_, .refl, rfl⟩

/-! ### lines of a cut text -/

theorem lines_tail (ls : List (List Char)) (h : ∀ l ∈ ls, '\n' ∉ l) (tail : List Char) (ht : '\n' ∉ tail) :
    lines ((ls.map (· ++ ['\n'])).flatten ++ tail) = ls := by
  have h1 : (ls.map (· ++ ['\n'])).flatten ++ tail = ['\n'].intercalate (ls ++ [tail]) := by
    clear h
    induction ls with
    | nil => simp [List.intercalate]
    | cons l ls ih =>
      rw [List.map_cons, List.flatten_cons, List.append_assoc, ih]
      cases ls with
      | nil => simp [List.intercalate]
      | cons m ls => simp only [List.cons_append, List.intercalate_cons_cons, List.append_assoc]
  unfold lines
  rw [h1, List.splitOn_intercalate _ _ (by simp)]
  · simp
  · intro l hl
    rcases List.mem_append.1 hl with hl | hl
    · exact h l hl
    · simp only [List.mem_singleton] at hl; subst hl; exact ht

theorem prefix_lines : ∀ (ls : List (List Char)), (∀ l ∈ ls, '\n' ∉ l) → ∀ p, p <+: (ls.map (· ++ ['\n'])).flatten →
    ∃ k tail, k ≤ ls.length ∧ '\n' ∉ tail ∧ p = ((ls.take k).map (· ++ ['\n'])).flatten ++ tail ∧ (k = ls.length → tail = [])
  | [], _, p, hp => by
    have : p = [] := by simpa using hp
    subst this
    exact ⟨0, [], le_refl _, by simp, rfl, fun _ => rfl⟩
  | l :: ls, h, p, hp => by
    rw [List.map_cons, List.flatten_cons] at hp
    obtain ⟨r, hr⟩ := hp
    rcases List.append_eq_append_iff.1 hr with ⟨q, hp, _⟩ | ⟨q, rfl, hq⟩
    · have hp : p <+: l ++ ['\n'] := ⟨q, hp.symm⟩
      rcases List.prefix_concat_iff.1 hp with rfl | hp
      · exact ⟨1, [], by simp, by simp, by simp, fun _ => rfl⟩
      · refine ⟨0, p, by simp, fun hc => h l (by simp) (hp.subset hc), by simp, fun h => by simp at h⟩
    · obtain ⟨k, tail, h1, h2, rfl, h3⟩ := prefix_lines ls (fun l hl => h l (List.mem_cons_of_mem _ hl)) q ⟨r, hq.symm⟩
      exact ⟨k + 1, tail, by simpa using h1, h2, by simp, fun hk => h3 (by simpa using hk)⟩

section
variable {T A : Type} [DecidableEq T] [LinearOrder A]

/-! ### DAT -/

omit [DecidableEq T] in
/-- the lines of a DAT file -/
theorem dat_lines (items : T → List A) (db : List T) (offset : Int) :
    ∃ row : T → List Char, (datWrites items db offset).flatten = ((db.map row).map (· ++ ['\n'])).flatten ∧ (∀ t ∈ db, '\n' ∉ row t) ∧
      (∀ t ∈ db, decodeLine (saveDat items db offset).2 (row t) = some (items t)) ∧ (saveDat items db offset).1 = (datWrites items db offset).flatten := by
  obtain ⟨h1, h2⟩ := C74_itemset items db
  set l := (itemset items db).insertionSort (· ≤ ·) with hl
  have hp : l.Perm (itemset items db) := List.perm_insertionSort _ _
  have hn : l.Nodup := hp.nodup_iff.2 h1
  have hrow : ∀ t ∈ db, (items t).map (strGet (enumDict l offset)) = (items t).map fun a => strInt ((l.idxOf a : Int) + offset) := by
    intro t ht
    refine List.map_congr_left fun a ha => ?_
    have := (enumDict_get hn offset (hp.mem_iff.2 ((h2 a).2 ⟨t, ht, ha⟩))).1
    unfold strGet; rw [this]
  refine ⟨fun t => joinWords ((items t).map (strGet (enumDict l offset))), ?_, ?_, ?_, ?_⟩
  · unfold datWrites
    simp only [← hl, List.flatMap_def, List.flatten_flatten, List.map_map]
    congr 1
  · intro t ht hc
    beta_reduce at hc
    rw [hrow t ht] at hc
    rcases mem_joinWords hc with hc | ⟨w, hw, hc⟩
    · exact absurd hc (by decide)
    · obtain ⟨a, _, rfl⟩ := List.mem_map.1 hw
      exact (strInt_not_mem _).2.1 hc
  · intro t ht
    beta_reduce
    rw [hrow t ht]
    exact decodeLine_ids (invertDict (enumDict l offset)) (items t) (fun a => (l.idxOf a : Int) + offset) (fun a ha =>
        (enumDict_get hn offset (hp.mem_iff.2 ((h2 a).2 ⟨t, ht, ha⟩))).2)
  · unfold datWrites saveDat
    simp only [List.flatMap_def, List.flatten_flatten, List.map_map]
    congr 1

theorem mapM_some_take {α β : Type} {f : α → Option β} {g : α → β} : ∀ {l : List α}, (∀ x ∈ l, f x = some (g x)) → l.mapM f = some (l.map g)
  | [], _ => rfl
  | x :: l, h => by
    rw [List.mapM_cons, h x (by simp), mapM_some_take fun y hy => h y (List.mem_cons_of_mem _ hy)]; rfl

omit [DecidableEq T] in
/-- C185: wherever `save_to_dat_file` is killed, the path holds what it held before, or the complete lines in it are the first transactions
of the database (in terms of the dictionary the call would have returned). -/
theorem C185_dat_killed (items : T → List A) (db : List T) (offset : Int) {old : Option (List Char)} {s : SaveState}
    (h : Saving (datWrites items db offset) old s) :
    (s.pc = .before ∧ s.disk = old) ∨ ∃ p k, s.disk = some p ∧ decodeDat (saveDat items db offset).2 p = some ((db.take k).map items) := by
  rcases C185_prefix h with h | ⟨p, hd, hp⟩
  · exact .inl h
  · obtain ⟨row, h1, h2, h3, _⟩ := dat_lines items db offset
    rw [h1] at hp
    obtain ⟨k, tail, _, ht, rfl, _⟩ := prefix_lines (db.map row) (by
      intro l hl
      obtain ⟨t, ht, rfl⟩ := List.mem_map.1 hl
      exact h2 t ht) p hp
    refine .inr ⟨_, k, hd, ?_⟩
    unfold decodeDat
    rw [lines_tail _ _ _ ht, ← List.map_take, List.mapM_map]
    · exact mapM_some_take fun t ht => h3 t (List.mem_of_mem_take ht)
    · intro l hl
      obtain ⟨t, ht, rfl⟩ := List.mem_map.1 (List.mem_of_mem_take hl)
      exact h2 t ht

omit [DecidableEq T] in
/-- C185: a DAT file that was saved completely is the one of `saveDat`, for which C74 shows that it can be read back. -/
theorem C185_dat_ended (items : T → List A) (db : List T) (offset : Int) {old : Option (List Char)} {s : SaveState}
    (h : Saving (datWrites items db offset) old s) (hc : s.pc = .closed) :
    ∃ p, s.disk = some p ∧ p = (saveDat items db offset).1 ∧ decodeDat (saveDat items db offset).2 p = some (db.map items) := by
  obtain ⟨_, _, _, _, h4⟩ := dat_lines items db offset
  exact ⟨_, C185_ended h hc, h4.symm, by rw [← h4]; exact C74_dat_round_trip items db offset⟩

omit [DecidableEq T] in
/-- C185 (deviation): nobody can see from a DAT file that saving was interrupted: for every number `k`, a killed save can leave a
well-formed file with the first `k` transactions only. -/
theorem C185_dat_undetectable (items : T → List A) (db : List T) (offset : Int) (old : Option (List Char)) (k : Nat) :
    ∃ s p, Saving (datWrites items db offset) old s ∧ s.disk = some p ∧ (p = [] ∨ p.getLast? = some '\n') ∧
      decodeDat (saveDat items db offset).2 p = some ((db.take k).map items) := by
  obtain ⟨row, h1, h2, h3, _⟩ := dat_lines items db offset
  have hpre : (((db.take k).map row).map (· ++ ['\n'])).flatten <+: (datWrites items db offset).flatten := by
    rw [h1]
    refine ⟨(((db.drop k).map row).map (· ++ ['\n'])).flatten, ?_⟩
    rw [← List.flatten_append, ← List.map_append, ← List.map_append, List.take_append_drop]
  obtain ⟨s, hs, hd⟩ := C185_any_prefix old hpre
  refine ⟨s, _, hs, hd, ?_, ?_⟩
  · rcases List.eq_nil_or_concat (db.take k) with h | ⟨l, t, h⟩
    · left; simp [h]
    · right; rw [h]; simp
  · unfold decodeDat
    have := lines_spec ((db.take k).map row) (by
      intro l hl
      obtain ⟨t, ht, rfl⟩ := List.mem_map.1 hl
      exact h2 t (List.mem_of_mem_take ht))
    rw [this, List.mapM_map]
    exact mapM_some_take fun t ht => h3 t (List.mem_of_mem_take ht)

/-- C185 (deviation): a cut can also fall into a number, so that the last line names an item that is not in the transaction: here the
database is {0, …, 10}, {10}, and what is left reads {0, …, 10}, {1}. -/
theorem C185_dat_cut_number_witness : let db : List (List Nat) := [List.range 11, [10]]
    ∃ s p, Saving (datWrites id db 0) none s ∧ s.disk = some p ∧
      decodeDat (saveDat id db 0).2 (p ++ ['\n']) = some [List.range 11, [1]] := by
  intro db
  have hp : "0 1 2 3 4 5 6 7 8 9 10\n1".toList <+: (datWrites id db 0).flatten := by decide +kernel
  obtain ⟨s, hs, hd⟩ := C185_any_prefix none hp
  refine ⟨s, _, hs, hd, ?_⟩
  have hdict : (saveDat id db 0).2 = (List.range 11).map fun i : Nat => ((i : Int), i) := by decide +kernel
  have htext : "0 1 2 3 4 5 6 7 8 9 10\n1".toList ++ ['\n'] =
      (([List.range 11, [1]].map fun l : List Nat => joinWords (l.map fun a : Nat => strInt a)).map (· ++ ['\n'])).flatten := by decide +kernel
  rw [htext, hdict]
  unfold decodeDat
  rw [lines_spec _ (by decide +kernel)]
  have h1 := decodeLine_ids ((List.range 11).map fun i : Nat => ((i : Int), i)) (List.range 11) (fun a => (a : Int)) (by decide +kernel)
  have h2 := decodeLine_ids ((List.range 11).map fun i : Nat => ((i : Int), i)) [1] (fun a => (a : Int)) (by decide +kernel)
  rw [List.map_cons, List.map_cons, List.map_nil, List.mapM_cons, List.mapM_cons, List.mapM_nil, h1, h2]
  rfl

/-! ### FIC -/

omit [DecidableEq T] in
theorem ficRows_eq (items : T → List A) (ids : Dict A Int) : ∀ (db : List T) (rows : List (List Char)),
    db.mapM (fun t => (do let w ← idWords ids (items t); return strInt (items t).length ++ ": ".toList ++ joinWords w : Py (List Char))) = .ok rows →
    ficRows items ids db = (rows.map (· ++ ['\n']), none)
  | [], rows, h => by
    cases h; rfl
  | t :: db, rows, h => by
    rw [List.mapM_cons] at h
    unfold ficRows ficRow
    cases hw : idWords ids (items t) with
    | error e => rw [hw] at h; cases h
    | ok w =>
      rw [hw] at h
      cases hr : db.mapM (fun t => (do let w ← idWords ids (items t); return strInt (items t).length ++ ": ".toList ++ joinWords w : Py (List Char))) with
      | error e => rw [hr] at h; cases h
      | ok rows' =>
        rw [hr] at h
        cases h
        have ih := ficRows_eq items ids db rows' hr
        simp only [bind, Except.bind, pure, Except.pure, ih, List.map_cons]

/-- the text of a FIC file in terms of the parts about which C74 speaks -/
theorem ficWrites_eq (items : T → List A) (db : List T) {fic : Fic} {d : Dict Int A} (h : saveFic items db = .ok (fic, d)) :
    ∃ a b c e m, fic.header = [a, b, c, e, m] ∧ ficWrites items db =
      ("fic-1.5\n".toList :: ficHeader a b c e m :: (fic.ab ++ ['\n']) :: (fic.ac ++ ['\n']) :: (fic.it ++ ['\n']) :: fic.rows.map (· ++ ['\n']), none) := by
  unfold saveFic at h
  unfold ficWrites
  simp only [] at h ⊢
  cases hm : maxLength items db with
  | error e => rw [hm] at h; cases h
  | ok m =>
    rw [hm] at h
    simp only [bind, Except.bind] at h ⊢
    split at h
    · cases h
    · rename_i ac hac
      split at h
      · cases h
      · rename_i rows hrows
        have := ficRows_eq items _ db rows hrows
        cases h
        refine ⟨_, _, _, _, _, rfl, ?_⟩
        simp only [hac, this]
        rfl

theorem ficHeader_eq (a b c e m : Nat) : ∃ rest, ficHeader a b c e m = "mi: nR=".toList ++ strInt a ++ ' ' :: rest ++ ['\n'] ∧ '\n' ∉ rest := by
  refine ⟨"nT=".toList ++ strInt b ++ " nI=".toList ++ strInt c ++ " aS=".toList ++ strInt e ++ " sS=212624.77319 mL=".toList ++ strInt m, ?_, ?_⟩
  · unfold ficHeader
    rw [show " nT=".toList = ' ' :: "nT=".toList from by decide]
    simp only [List.append_assoc, List.cons_append]
  · simp only [List.mem_append, not_or]
    refine ⟨⟨⟨⟨⟨⟨⟨by decide, (strInt_not_mem _).2.1⟩, by decide⟩, (strInt_not_mem _).2.1⟩, by decide⟩, (strInt_not_mem _).2.1⟩, by decide⟩, (strInt_not_mem _).2.1⟩

theorem toNat_strInt (n : Nat) : (String.ofList (strInt (n : Int))).toNat? = some n := by
  unfold strInt
  rw [String.ofList_toList, Int.toString_eq_repr, Int.repr_eq_if]
  simp

theorem announced_of {first mi : List Char} {rest : List (List Char)} {text : List Char} (h : lines text = first :: mi :: rest) {n : Nat} {r : List Char}
    (hmi : mi = "mi: nR=".toList ++ strInt n ++ ' ' :: r) : announced text = some n := by
  unfold announced
  rw [h]
  simp only [hmi]
  have h1 : ("mi: nR=".toList ++ strInt n ++ ' ' :: r).drop 7 = strInt n ++ ' ' :: r := by
    rw [List.append_assoc]
    exact List.drop_left' (by decide)
  rw [h1, List.takeWhile_append_of_pos]
  · simp [toNat_strInt]
  · intro c hc
    have := (strInt_not_mem n).1
    simp only [ne_eq, decide_eq_true_eq]
    rintro rfl
    exact this hc

theorem mapM_ok_mem {α β : Type} {f : α → Py β} : ∀ {l : List α} {r : List β}, l.mapM f = .ok r → ∀ y ∈ r, ∃ x ∈ l, f x = .ok y
  | [], r, h, y, hy => by cases h; simp at hy
  | x :: l, r, h, y, hy => by
    rw [List.mapM_cons] at h
    cases hx : f x with
    | error e => rw [hx] at h; cases h
    | ok v =>
      rw [hx] at h
      cases hl : l.mapM f with
      | error e => rw [hl] at h; cases h
      | ok vs =>
        rw [hl] at h
        cases h
        rcases List.mem_cons.1 hy with rfl | hy
        · exact ⟨x, by simp, hx⟩
        · obtain ⟨z, hz, hf⟩ := mapM_ok_mem hl y hy
          exact ⟨z, List.mem_cons_of_mem _ hz, hf⟩

theorem mapM_some_map {α β : Type} {f : α → Option β} : ∀ {l : List α} {r : List β}, l.mapM f = some r → l.map f = r.map some
  | [], r, h => by cases h; rfl
  | x :: l, r, h => by
    rw [List.mapM_cons] at h
    cases hx : f x with
    | none => rw [hx] at h; cases h
    | some v =>
      rw [hx] at h
      cases hl : l.mapM f with
      | none => rw [hl] at h; cases h
      | some vs =>
        rw [hl] at h
        cases h
        rw [List.map_cons, mapM_some_map hl, hx]; rfl

theorem joinInts (ws : List (List Char)) (hws : ∀ w ∈ ws, ∃ i : Int, w = strInt i) : '\n' ∉ joinWords ws := by
  intro hc
  rcases mem_joinWords hc with hc | ⟨w, hw, hc⟩
  · exact absurd hc (by decide)
  · obtain ⟨i, rfl⟩ := hws w hw
    exact (strInt_not_mem _).2.1 hc

theorem saveFic_rows (items : T → List A) (db : List T) {fic : Fic} {d : Dict Int A} (h : saveFic items db = .ok (fic, d)) : ∀ r ∈ fic.rows, '\n' ∉ r := by
  unfold saveFic at h
  simp only [] at h
  cases hm : maxLength items db with
  | error e => rw [hm] at h; cases h
  | ok m =>
    rw [hm] at h
    simp only [bind, Except.bind] at h
    split at h
    · cases h
    · split at h
      · cases h
      · rename_i rows hrows
        cases h
        intro r hr
        obtain ⟨t, _, ht⟩ := mapM_ok_mem hrows r hr
        split at ht
        · cases ht
        · rename_i w hw
          cases ht
          simp only [List.mem_append, not_or]
          refine ⟨⟨(strInt_not_mem _).2.1, by decide⟩, joinInts _ ?_⟩
          intro x hx
          obtain ⟨a, _, ha⟩ := mapM_ok_mem hw x hx
          simp only [bind, Except.bind] at ha
          split at ha
          · cases ha
          · cases ha; exact ⟨_, rfl⟩

/-- the lines of a FIC file of a database that is not empty -/
theorem fic_lines (items : T → List A) (db : List T) (hne : db ≠ []) : ∃ fic d mi rest, saveFic items db = .ok (fic, d) ∧ (ficWrites items db).2 = none ∧
    (ficWrites items db).1.flatten = (("fic-1.5".toList :: mi :: fic.ab :: fic.ac :: fic.it :: fic.rows).map (· ++ ['\n'])).flatten ∧
    (∀ l ∈ "fic-1.5".toList :: mi :: fic.ab :: fic.ac :: fic.it :: fic.rows, '\n' ∉ l) ∧
    mi = "mi: nR=".toList ++ strInt db.length ++ ' ' :: rest ∧ fic.rows.length = db.length ∧
    fic.rows.map (decodeRow d) = db.map fun t => some (((items t).length : Int), items t) := by
  obtain ⟨fic, d, l, longest, h1, h2, h3, h4, h5, h6, h7, h8, h9, h10⟩ := C74_fic items db hne
  obtain ⟨a, b, c, e, m, hh, hw⟩ := ficWrites_eq items db h1
  have ha : a = db.length := by rw [h5] at hh; simp only [List.cons.injEq] at hh; exact hh.1.symm
  subst ha
  obtain ⟨rest, hr, hrn⟩ := ficHeader_eq db.length b c e m
  have hdec : fic.rows.map (decodeRow d) = db.map fun t => some (((items t).length : Int), items t) := by
    rw [mapM_some_map h7, List.map_map]; rfl
  refine ⟨fic, d, "mi: nR=".toList ++ strInt db.length ++ ' ' :: rest, rest, h1, by rw [hw], ?_, ?_, rfl, ?_, hdec⟩
  · rw [hw]
    simp only [List.map_cons, hr, List.flatten_cons]
    rw [show "fic-1.5\n".toList = "fic-1.5".toList ++ ['\n'] from by decide]
  · intro x hx
    simp only [List.mem_cons] at hx
    rcases hx with rfl | rfl | rfl | rfl | rfl | hx
    · decide
    · simp only [List.mem_append, List.mem_cons, not_or]
      exact ⟨⟨by decide, (strInt_not_mem _).2.1⟩, by decide, hrn⟩
    · rw [h8]
      simp only [List.mem_append, not_or]
      refine ⟨by decide, joinInts _ fun w hw => ?_⟩
      obtain ⟨i, _, rfl⟩ := List.mem_map.1 hw; exact ⟨_, rfl⟩
    · rw [h10]
      simp only [List.mem_append, not_or]
      refine ⟨by decide, joinInts _ fun w hw => ?_⟩
      obtain ⟨i, _, rfl⟩ := List.mem_map.1 (List.mem_reverse.1 hw); exact ⟨_, rfl⟩
    · rw [h9]
      simp only [List.mem_append, not_or]
      refine ⟨by decide, joinInts _ fun w hw => ?_⟩
      obtain ⟨i, _, rfl⟩ := List.mem_map.1 hw; exact ⟨_, rfl⟩
    · exact saveFic_rows items db h1 x hx
  · have := congrArg List.length hdec
    simpa using this

/-- C185: wherever `save_to_fic_file` is killed for a database that is not empty, the path holds what it held before, or the complete rows in it are the first
transactions; and comparing the number of lines with the announced number of transactions tells whether the file is complete. -/
theorem C185_fic_killed (items : T → List A) (db : List T) (hne : db ≠ []) {old : Option (List Char)} {s : SaveState}
    (h : Saving (ficWrites items db).1 old s) :
    ∃ fic d, saveFic items db = .ok (fic, d) ∧ ((s.pc = .before ∧ s.disk = old) ∨
      ∃ p k, s.disk = some p ∧ ((lines p).drop 5).mapM (decodeRow d) = some ((db.take k).map fun t => (((items t).length : Int), items t)) ∧
        (ficComplete p ↔ p = (ficWrites items db).1.flatten) ∧ (ficComplete p → db.take k = db)) := by
  obtain ⟨fic, d, mi, rest, h1, _, h3, h4, h5, h6, h7⟩ := fic_lines items db hne
  refine ⟨fic, d, h1, ?_⟩
  rcases C185_prefix h with h | ⟨p, hd, hp⟩
  · exact .inl h
  · rw [h3] at hp
    obtain ⟨k, tail, hk, ht, hpe, hlast⟩ := prefix_lines _ h4 p hp
    have hl : lines p = ("fic-1.5".toList :: mi :: fic.ab :: fic.ac :: fic.it :: fic.rows).take k := by
      rw [hpe]; exact lines_tail _ (fun l hl => h4 l (List.mem_of_mem_take hl)) _ ht
    have hlen : ("fic-1.5".toList :: mi :: fic.ab :: fic.ac :: fic.it :: fic.rows).length = db.length + 5 := by simp [h6]
    rw [hlen] at hk hlast
    have hcomp : ficComplete p ↔ k = db.length + 5 := by
      unfold ficComplete
      match k, hl, hk with
      | 0, hl, _ => simp [announced, hl]
      | 1, hl, _ => simp [announced, hl]
      | k + 2, hl, hk =>
        simp only [List.take_succ_cons] at hl
        rw [announced_of hl h5, hl]
        simp only [Option.map_some, List.length_cons, List.length_take, h6, Option.some.injEq]
        omega
    refine .inr ⟨p, k - 5, hd, ?_, ?_, ?_⟩
    · have : (lines p).drop 5 = fic.rows.take (k - 5) := by
        rw [hl, List.drop_take]; rfl
      rw [this]
      have key : ∀ (rows : List (List Char)) (db : List T), rows.map (decodeRow d) = db.map (fun t => some (((items t).length : Int), items t)) →
          rows.mapM (decodeRow d) = some (db.map fun t => (((items t).length : Int), items t)) := by
        intro rows
        induction rows with
        | nil => intro db hdb; cases db with
          | nil => rfl
          | cons t db => cases hdb
        | cons r rows ih => intro db hdb; cases db with
          | nil => cases hdb
          | cons t db =>
            simp only [List.map_cons, List.cons.injEq] at hdb
            rw [List.mapM_cons, hdb.1, ih db hdb.2]; rfl
      refine key _ _ ?_
      rw [List.map_take, h7, List.map_take]
    · rw [hcomp]
      constructor
      · intro hk'
        rw [hpe, hlast hk', h3, List.take_of_length_le (by rw [hlen]; omega), List.append_nil]
      · intro he
        have : lines p = "fic-1.5".toList :: mi :: fic.ab :: fic.ac :: fic.it :: fic.rows := by
          rw [he, h3]; exact lines_spec _ h4
        rw [this] at hl
        have := congrArg List.length hl
        rw [List.length_take, hlen] at this
        omega
    · intro hc
      rw [hcomp] at hc
      exact List.take_of_length_le (by omega)

/-- C185: a FIC file of a database that is not empty is saved without an exception; it consists of the header lines and the rows of C74, and passes the check. -/
theorem C185_fic_ended (items : T → List A) (db : List T) (hne : db ≠ []) {old : Option (List Char)} {s : SaveState}
    (h : Saving (ficWrites items db).1 old s) (hc : s.pc = .closed) :
    ∃ fic d p mi, saveFic items db = .ok (fic, d) ∧ (ficWrites items db).2 = none ∧ s.disk = some p ∧ ficComplete p ∧
      lines p = "fic-1.5".toList :: mi :: fic.ab :: fic.ac :: fic.it :: fic.rows ∧ announced p = some db.length := by
  obtain ⟨fic, d, mi, rest, h1, h2, h3, h4, h5, h6, h7⟩ := fic_lines items db hne
  have hl : lines (ficWrites items db).1.flatten = "fic-1.5".toList :: mi :: fic.ab :: fic.ac :: fic.it :: fic.rows := by
    rw [h3]; exact lines_spec _ h4
  have ha := announced_of hl h5
  refine ⟨fic, d, _, mi, h1, h2, C185_ended h hc, ?_, hl, ha⟩
  unfold ficComplete
  rw [ha, hl]
  simp [h6]

/-- C185 (deviation): saving an empty database as FIC raises ValueError, but only after the file at the path has been replaced by a stump. -/
theorem C185_fic_empty (items : T → List A) (old : Option (List Char)) :
    (ficWrites items []).2 = some .value ∧ (∃ s, Saving (ficWrites items []).1 old s ∧ s.pc = .closed) ∧
    ∀ s, Saving (ficWrites items []).1 old s → s.pc = .closed → s.disk = some "fic-1.5\n".toList := by
  refine ⟨rfl, ?_, fun s h hc => ?_⟩
  · exact C185_can_end Relation.ReflTransGen.refl
  · rw [C185_ended h hc]; rfl

/-- a save of a non-empty database that was killed in the middle of a row -/
example : ∃ s, Saving (ficWrites (T := List String) id [["a"], ["a", "b"]]).1 (some "old".toList) s ∧
    s.disk = some "fic-1.5\nmi: nR=2 nT=2 nI=3 aS=2 sS=212624.77319 mL=2\nab: 0 1\nac: 1 2\nit: 0 1\n1: 0\n2: 0".toList :=
  C185_any_prefix _ (by decide +kernel)

end
end Prolothar.Transactions
