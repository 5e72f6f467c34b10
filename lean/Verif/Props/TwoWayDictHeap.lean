import Verif.Model.TwoWayDictHeap
import Mathlib.Data.List.Basic
import Mathlib.Data.List.Induction
/-
C209: two-way dictionaries with keys and values that cannot be hashed, and with callers that change the sets they get.
-/
set_option linter.unusedSectionVars false
namespace Prolothar.TwoWayDictHeap
variable {κ ν : Type} [DecidableEq κ] [DecidableEq ν]

/-- the sets are objects of the heap, one for each value, without repeated elements -/
structure Inv (d : Obj κ ν) : Prop where
  lt : ∀ v a, d.inv.get? v = some a → a < d.sets.length
  inj : ∀ v w a, d.inv.get? v = some a → d.inv.get? w = some a → v = w
  nodup : ∀ s ∈ d.sets, s.Nodup

theorem mem_setAdd {s : List κ} {k x : κ} : x ∈ setAdd s k ↔ x ∈ s ∨ x = k := by
  unfold setAdd
  split
  · constructor
    · exact .inl
    · rintro (h | rfl) <;> assumption
  · simp

theorem nodup_setAdd {s : List κ} (h : s.Nodup) (k : κ) : (setAdd s k).Nodup := by
  unfold setAdd
  split
  · exact h
  · rename_i hk
    rw [List.nodup_append]
    exact ⟨h, by simp, by intro a ha b hb; rw [List.mem_singleton.1 hb]; rintro rfl; exact hk ha⟩

/-- the elements of the set of a value -/
def Has (d : Obj κ ν) (v : ν) (x : κ) : Prop := ∃ a s, d.inv.get? v = some a ∧ d.sets[a]? = some s ∧ x ∈ s

theorem modify_inv {d : Obj κ ν} (h : Inv d) (a : Nat) {f : List κ → List κ} (hf : ∀ s, s.Nodup → (f s).Nodup) :
    Inv { d with sets := d.sets.modify a f } := by
  refine ⟨fun v b hb => by simpa using h.lt v b hb, h.inj, fun s hs => ?_⟩
  obtain ⟨i, hi⟩ := List.mem_iff_getElem?.1 hs
  dsimp only at hi
  rw [List.getElem?_modify] at hi
  cases hd : d.sets[i]? with
  | none => rw [hd] at hi; simp at hi
  | some t =>
    rw [hd] at hi
    have ht := h.nodup t (List.mem_of_getElem? hd)
    simp only [Option.map_eq_map, Option.map_some, Option.some.injEq] at hi
    subst hi
    split
    · exact hf t ht
    · exact ht

theorem modify_has {d : Obj κ ν} (h : Inv d) {v : ν} {a : Nat} (ha : d.inv.get? v = some a) (f : List κ → List κ) (w : ν) (x : κ) :
    Has { d with sets := d.sets.modify a f } w x ↔
      if w = v then ∃ s, d.sets[a]? = some s ∧ x ∈ f s else Has d w x := by
  unfold Has
  dsimp only
  by_cases hw : w = v
  · subst hw
    rw [if_pos rfl]
    constructor
    · rintro ⟨b, s, hb, hs, hx⟩
      rw [ha] at hb; cases hb
      rw [List.getElem?_modify] at hs
      cases hd : d.sets[a]? with
      | none => rw [hd] at hs; simp at hs
      | some t =>
        rw [hd] at hs
        simp at hs
        subst hs
        exact ⟨t, rfl, hx⟩
    · rintro ⟨s, hs, hx⟩
      exact ⟨a, f s, ha, by rw [List.getElem?_modify, hs]; simp, hx⟩
  · rw [if_neg hw]
    have hne : ∀ b, d.inv.get? w = some b → (d.sets.modify a f)[b]? = d.sets[b]? := by
      intro b hb
      have : a ≠ b := by rintro rfl; exact hw (h.inj _ _ _ hb ha)
      rw [List.getElem?_modify]
      simp [this]
    constructor
    · rintro ⟨b, s, hb, hs, hx⟩
      exact ⟨b, s, hb, by rw [← hne b hb]; exact hs, hx⟩
    · rintro ⟨b, s, hb, hs, hx⟩
      exact ⟨b, s, hb, by rw [hne b hb]; exact hs, hx⟩

theorem ensure_inv {d : Obj κ ν} (h : Inv d) (v : ν) : Inv (ensure d v) := by
  unfold ensure
  split
  · exact h
  · rename_i hv
    have hnone : d.inv.get? v = none := by
      rw [Dict.get?_eq_none_iff, ← Dict.has_iff]; exact hv
    refine ⟨?_, ?_, ?_⟩
    · intro w a ha
      dsimp only at ha ⊢
      rw [Dict.get?_put] at ha
      split at ha
      · cases ha; simp
      · have := h.lt w a ha
        simp; omega
    · intro w u a hw hu
      dsimp only at hw hu
      rw [Dict.get?_put] at hw hu
      split at hw <;> split at hu
      · rename_i e1 e2; rw [← e1, ← e2]
      · cases hw; have := h.lt u _ hu; omega
      · cases hu; have := h.lt w _ hw; omega
      · exact h.inj _ _ _ hw hu
    · intro s hs
      rcases List.mem_append.1 hs with hs | hs
      · exact h.nodup s hs
      · rw [List.mem_singleton.1 hs]; exact List.nodup_nil

theorem ensure_get (d : Obj κ ν) (v : ν) : ∃ a, (ensure d v).inv.get? v = some a := by
  unfold ensure
  split
  · rename_i hv
    exact Dict.mem_keys_iff.1 (Dict.has_iff.1 hv)
  · exact ⟨_, Dict.get?_put_self _ _ _⟩

theorem ensure_old {d : Obj κ ν} {v w : ν} {a : Nat} (h : d.inv.get? w = some a) : (ensure d v).inv.get? w = some a := by
  unfold ensure
  split
  · exact h
  · rename_i hv
    dsimp only
    rw [Dict.get?_put]
    split
    · rename_i e
      subst e
      exact absurd (Dict.has_iff.2 (Dict.mem_keys_iff.2 ⟨a, h⟩)) hv
    · exact h

theorem ensure_other {d : Obj κ ν} {v w : ν} (hw : w ≠ v) : (ensure d v).inv.get? w = d.inv.get? w := by
  unfold ensure
  split
  · rfl
  · dsimp only
    rw [Dict.get?_put, if_neg (Ne.symm hw)]

theorem ensure_has {d : Obj κ ν} (h : Inv d) (v w : ν) (x : κ) : Has (ensure d v) w x ↔ Has d w x := by
  unfold Has
  constructor
  · rintro ⟨a, s, ha, hs, hx⟩
    unfold ensure at ha hs
    split at ha
    · rename_i hv
      rw [if_pos hv] at hs
      exact ⟨a, s, ha, hs, hx⟩
    · rename_i hv
      rw [if_neg hv] at hs
      dsimp only at ha hs
      rw [Dict.get?_put] at ha
      split at ha
      · cases ha
        simp at hs
        subst hs
        cases hx
      · exact ⟨a, s, ha, by rw [List.getElem?_append_left (h.lt _ _ ha)] at hs; exact hs, hx⟩
  · rintro ⟨a, s, ha, hs, hx⟩
    refine ⟨a, s, ensure_old ha, ?_, hx⟩
    unfold ensure
    split
    · exact hs
    · dsimp only
      rw [List.getElem?_append_left (h.lt _ _ ha)]
      exact hs

variable {hk : κ → Bool} {hv : ν → Bool}

theorem inv_dict {d : Obj κ ν} (h : Inv d) (m : Dict κ ν) : Inv { d with dict := m } := ⟨h.lt, h.inj, h.nodup⟩

/-- an assignment with a key and a value that can be hashed -/
theorem setItem_good {d : Obj κ ν} (h : Inv d) {k : κ} {v : ν} (h1 : hk k = true) (h2 : hv v = true) :
    ∃ d', setItem hk hv d k v = (.ok (), d') ∧ Inv d' ∧ d'.dict = d.dict.put k v ∧ (∃ a, d'.inv.get? v = some a) ∧
      (∀ w, w ≠ v → d'.inv.get? w = d.inv.get? w) ∧ (∀ w a, d.inv.get? w = some a → d'.inv.get? w = some a) ∧
      ∀ w x, Has d' w x ↔ Has d w x ∨ (w = v ∧ x = k) := by
  have hi := ensure_inv (inv_dict h (d.dict.put k v)) v
  obtain ⟨a, ha⟩ := ensure_get { d with dict := d.dict.put k v } v
  unfold setItem addKey
  rw [if_pos h1, if_pos h2, ha]
  refine ⟨_, rfl, modify_inv hi a (fun s hs => nodup_setAdd hs k), ?_, ⟨a, ha⟩, ?_, ?_, ?_⟩
  · unfold ensure
    split <;> rfl
  · intro w hw
    exact ensure_other (d := { d with dict := d.dict.put k v }) hw
  · intro w b hb
    exact ensure_old (d := { d with dict := d.dict.put k v }) hb
  · intro w x
    rw [modify_has hi ha]
    split
    · rename_i e
      subst e
      have := ensure_has (inv_dict h (d.dict.put k w)) w w x
      constructor
      · rintro ⟨s, hs, hx⟩
        rcases mem_setAdd.1 hx with hx | rfl
        · exact .inl (this.1 ⟨a, s, ha, hs, hx⟩)
        · exact .inr ⟨rfl, rfl⟩
      · rintro (hx | ⟨_, rfl⟩)
        · obtain ⟨b, s, hb, hs, hx⟩ := this.2 hx
          rw [ha] at hb; cases hb
          exact ⟨s, hs, mem_setAdd.2 (.inl hx)⟩
        · exact ⟨_, List.getElem?_eq_getElem (hi.lt _ _ ha), mem_setAdd.2 (.inr rfl)⟩
    · rename_i e
      rw [ensure_has (inv_dict h (d.dict.put k v)) v w x]
      constructor
      · exact .inl
      · rintro (hx | ⟨rfl, _⟩)
        · exact hx
        · exact absurd rfl e

/-- a change by the caller -/
theorem mutate_spec {d : Obj κ ν} (h : Inv d) {f : List κ → List κ} (hf : ∀ s, s.Nodup → (f s).Nodup) (v : ν) (k : κ) :
    Inv (mutate hk hv f d v k).2 ∧ (mutate hk hv f d v k).2.dict = d.dict ∧ (mutate hk hv f d v k).2.inv = d.inv ∧
    ∀ w x, Has (mutate hk hv f d v k).2 w x ↔
      if w = v ∧ hk k = true ∧ hv v = true then ∃ a s, d.inv.get? v = some a ∧ d.sets[a]? = some s ∧ x ∈ f s else Has d w x := by
  unfold mutate inverse Dict.getItem
  by_cases h2 : hv v = true
  · rw [if_pos h2]
    cases ha : d.inv.get? v with
    | none =>
      refine ⟨h, rfl, rfl, fun w x => ?_⟩
      dsimp only
      split
      · rename_i e
        constructor
        · rintro ⟨b, s, hb, _⟩; rw [e.1, ha] at hb; cases hb
        · rintro ⟨b, s, hb, _⟩; cases hb
      · exact Iff.rfl
    | some a =>
      dsimp only
      by_cases h1 : hk k = true
      · rw [if_pos h1]
        refine ⟨modify_inv h a hf, rfl, rfl, fun w x => ?_⟩
        dsimp only
        rw [modify_has h ha]
        by_cases e : w = v
        · rw [if_pos e, if_pos ⟨e, h1, h2⟩]
          constructor
          · rintro ⟨s, hs, hx⟩; exact ⟨a, s, rfl, hs, hx⟩
          · rintro ⟨b, s, hb, hs, hx⟩; cases hb; exact ⟨s, hs, hx⟩
        · rw [if_neg e, if_neg fun c => e c.1]
      · rw [if_neg h1]
        exact ⟨h, rfl, rfl, fun w x => by rw [if_neg fun c => h1 c.2.1]⟩
  · rw [if_neg h2]
    exact ⟨h, rfl, rfl, fun w x => by rw [if_neg fun c => h2 c.2.2]⟩

theorem setItem_bad {d : Obj κ ν} {k : κ} {v : ν} (h : ¬ (hk k = true ∧ hv v = true)) :
    setItem hk hv d k v = (.error .type, if hk k then { d with dict := d.dict.put k v } else d) := by
  unfold setItem
  by_cases h1 : hk k = true
  · rw [if_pos h1, if_pos h1, if_neg fun h2 => h ⟨h1, h2⟩]
  · rw [if_neg h1, if_neg h1]

/-- the set of a value contains a key: it was put there by an assignment or by a caller who had the set, and not discarded since -/
def Listed (hk : κ → Bool) (hv : ν → Bool) (hist : List (Op κ ν)) (v : ν) (k : κ) : Prop :=
  hk k = true ∧ hv v = true ∧ ∃ before op after, hist = before ++ op :: after ∧ Op.discard v k ∉ after ∧
    (op = .set k v ∨ (op = .add v k ∧ ∃ k', hk k' = true ∧ Op.set k' v ∈ before))

theorem listed_snoc (hist : List (Op κ ν)) (op : Op κ ν) (v : ν) (k : κ) :
    Listed hk hv (hist ++ [op]) v k ↔ hk k = true ∧ hv v = true ∧
      ((op = .set k v ∨ (op = .add v k ∧ ∃ k', hk k' = true ∧ Op.set k' v ∈ hist)) ∨ (op ≠ .discard v k ∧ Listed hk hv hist v k)) := by
  unfold Listed
  constructor
  · rintro ⟨h1, h2, b, o, a, e, hd, ho⟩
    refine ⟨h1, h2, ?_⟩
    rcases List.eq_nil_or_concat a with rfl | ⟨a', o', rfl⟩
    · obtain ⟨rfl, e2⟩ := List.append_inj' e rfl
      cases e2
      exact .inl ho
    · right
      rw [List.concat_eq_append, ← List.cons_append, ← List.append_assoc] at e
      obtain ⟨rfl, e2⟩ := List.append_inj' e rfl
      cases e2
      rw [List.concat_eq_append] at hd
      refine ⟨fun c => hd (by simp [c]), h1, h2, b, o, a', rfl, fun c => hd (by simp [c]), ho⟩
  · rintro ⟨h1, h2, ho | ⟨hne, _, _, b, o, a, rfl, hd, ho⟩⟩
    · exact ⟨h1, h2, hist, op, [], rfl, by simp, ho⟩
    · refine ⟨h1, h2, b, o, a ++ [op], by simp, ?_, ho⟩
      intro c
      rcases List.mem_append.1 c with c | c
      · exact hd c
      · exact hne (List.mem_singleton.1 c).symm

theorem run_snoc (hist : List (Op κ ν)) (op : Op κ ν) : run hk hv (hist ++ [op]) = (step hk hv (run hk hv hist) op).2 := by
  unfold run; rw [List.foldl_append]; rfl

/-- all that is known after a history -/
structure State (hk : κ → Bool) (hv : ν → Bool) (hist : List (Op κ ν)) (d : Obj κ ν) : Prop where
  inv : Inv d
  dict : ∀ k v, d.dict.get? k = some v ↔ hk k = true ∧ ∃ b a, hist = b ++ Op.set k v :: a ∧ ∀ w, Op.set k w ∉ a
  keys : ∀ v, (∃ a, d.inv.get? v = some a) ↔ hv v = true ∧ ∃ k, hk k = true ∧ Op.set k v ∈ hist
  has : ∀ v k, Has d v k ↔ Listed hk hv hist v k

theorem last_snoc (hist : List (Op κ ν)) (op : Op κ ν) (k : κ) (v : ν) :
    (∃ b a, hist ++ [op] = b ++ Op.set k v :: a ∧ ∀ w, Op.set k w ∉ a) ↔
      op = .set k v ∨ ((∀ w, op ≠ .set k w) ∧ ∃ b a, hist = b ++ Op.set k v :: a ∧ ∀ w, Op.set k w ∉ a) := by
  constructor
  · rintro ⟨b, a, e, hn⟩
    rcases List.eq_nil_or_concat a with rfl | ⟨a', o', rfl⟩
    · obtain ⟨rfl, e2⟩ := List.append_inj' e rfl
      cases e2
      exact .inl rfl
    · right
      rw [List.concat_eq_append, ← List.cons_append, ← List.append_assoc] at e
      obtain ⟨rfl, e2⟩ := List.append_inj' e rfl
      cases e2
      rw [List.concat_eq_append] at hn
      exact ⟨fun w c => hn w (by simp [c]), b, a', rfl, fun w c => hn w (by simp [c])⟩
  · rintro (rfl | ⟨hne, b, a, rfl, hn⟩)
    · exact ⟨hist, [], rfl, by simp⟩
    · refine ⟨b, a ++ [op], by simp, fun w c => ?_⟩
      rcases List.mem_append.1 c with c | c
      · exact hn w c
      · exact hne w (List.mem_singleton.1 c).symm

theorem dict_put {hist : List (Op κ ν)} {d : Obj κ ν} (h : State hk hv hist d) {k : κ} {v : ν} (h1 : hk k = true) (x : κ) (w : ν) :
    (d.dict.put k v).get? x = some w ↔ hk x = true ∧ ∃ b a, hist ++ [Op.set k v] = b ++ Op.set x w :: a ∧ ∀ u, Op.set x u ∉ a := by
  rw [last_snoc, Dict.get?_put]
  by_cases e : k = x
  · subst e
    rw [if_pos rfl]
    constructor
    · intro e; cases e; exact ⟨h1, .inl rfl⟩
    · rintro ⟨_, e | ⟨e, _⟩⟩
      · cases e; rfl
      · exact absurd rfl (e v)
  · rw [if_neg e, h.dict]
    constructor
    · rintro ⟨c1, c2⟩
      exact ⟨c1, .inr ⟨fun u c => e (by cases c; rfl), c2⟩⟩
    · rintro ⟨c1, c | ⟨_, c2⟩⟩
      · cases c; exact absurd rfl e
      · exact ⟨c1, c2⟩

theorem dict_same {hist : List (Op κ ν)} {d : Obj κ ν} (h : State hk hv hist d) {op : Op κ ν} (hop : ∀ k w, op = .set k w → hk k = false)
    (x : κ) (w : ν) :
    d.dict.get? x = some w ↔ hk x = true ∧ ∃ b a, hist ++ [op] = b ++ Op.set x w :: a ∧ ∀ u, Op.set x u ∉ a := by
  rw [last_snoc, h.dict]
  constructor
  · rintro ⟨c1, c2⟩
    exact ⟨c1, .inr ⟨fun u c => (by rw [hop _ _ c] at c1; cases c1), c2⟩⟩
  · rintro ⟨c1, c | ⟨_, c2⟩⟩
    · rw [hop _ _ c] at c1; cases c1
    · exact ⟨c1, c2⟩

theorem keys_same {hist : List (Op κ ν)} {d : Obj κ ν} (h : State hk hv hist d) {op : Op κ ν}
    (hop : ∀ k w, op = .set k w → ¬ (hk k = true ∧ hv w = true)) (v : ν) :
    (∃ a, d.inv.get? v = some a) ↔ hv v = true ∧ ∃ k, hk k = true ∧ Op.set k v ∈ hist ++ [op] := by
  rw [h.keys]
  constructor
  · rintro ⟨c1, k, c2, c3⟩
    exact ⟨c1, k, c2, by simp [c3]⟩
  · rintro ⟨c1, k, c2, c3⟩
    rcases List.mem_append.1 c3 with c3 | c3
    · exact ⟨c1, k, c2, c3⟩
    · exact absurd ⟨c2, c1⟩ (hop k v (List.mem_singleton.1 c3).symm)

theorem state_run (hist : List (Op κ ν)) : State hk hv hist (run hk hv hist) := by
  induction hist using List.reverseRecOn with
  | nil =>
    refine ⟨⟨?_, ?_, ?_⟩, ?_, ?_, ?_⟩ <;> simp [run, empty, Dict.get?, Has, Listed]
  | append_singleton hist op h =>
    rw [run_snoc]
    cases op with
    | set k v =>
      by_cases hg : hk k = true ∧ hv v = true
      · obtain ⟨d', e, g1, g2, g3, g4, g5, g6⟩ := setItem_good (hk := hk) (hv := hv) h.inv hg.1 hg.2
        have e2 : (step hk hv (run hk hv hist) (.set k v)).2 = d' := by show (setItem hk hv _ k v).2 = _; rw [e]
        rw [e2]
        refine ⟨g1, fun x w => by rw [g2]; exact dict_put h hg.1 x w, fun w => ?_, fun w x => ?_⟩
        · by_cases ew : w = v
          · subst ew
            exact ⟨fun _ => ⟨hg.2, k, hg.1, by simp⟩, fun _ => g3⟩
          · rw [g4 w ew, h.keys]
            constructor
            · rintro ⟨c1, y, c2, c3⟩
              exact ⟨c1, y, c2, by simp [c3]⟩
            · rintro ⟨c1, y, c2, c3⟩
              rcases List.mem_append.1 c3 with c3 | c3
              · exact ⟨c1, y, c2, c3⟩
              · cases List.mem_singleton.1 c3; exact absurd rfl ew
        · rw [g6, h.has, listed_snoc]
          constructor
          · rintro (c | ⟨rfl, rfl⟩)
            · exact ⟨c.1, c.2.1, .inr ⟨by simp, c⟩⟩
            · exact ⟨hg.1, hg.2, .inl (.inl rfl)⟩
          · rintro ⟨_, _, (c | ⟨c, _⟩) | ⟨_, c⟩⟩
            · cases c; exact .inr ⟨rfl, rfl⟩
            · cases c
            · exact .inl c
      · have e2 : (step hk hv (run hk hv hist) (.set k v)).2 =
            if hk k then { run hk hv hist with dict := (run hk hv hist).dict.put k v } else run hk hv hist := by
          show (setItem hk hv _ k v).2 = _; rw [setItem_bad hg]
        rw [e2]
        have hl : ∀ w x, Has (run hk hv hist) w x ↔ Listed hk hv (hist ++ [.set k v]) w x := by
          intro w x
          rw [h.has, listed_snoc]
          constructor
          · intro c
            exact ⟨c.1, c.2.1, .inr ⟨by simp, c⟩⟩
          · rintro ⟨c1, c2, (c | ⟨c, _⟩) | ⟨_, c⟩⟩
            · cases c; exact absurd ⟨c1, c2⟩ hg
            · cases c
            · exact c
        have hkeys := keys_same h (op := .set k v) (fun k' w' e => by cases e; exact hg)
        by_cases h1 : hk k = true
        · rw [if_pos h1]
          exact ⟨inv_dict h.inv _, fun x w => dict_put h h1 x w, hkeys, hl⟩
        · rw [if_neg h1]
          exact ⟨h.inv, dict_same h (fun k' w' e => by cases e; simpa using h1), hkeys, hl⟩
    | add v k =>
      obtain ⟨m1, m2, m3, m4⟩ := mutate_spec (hk := hk) (hv := hv) h.inv (f := fun s => setAdd s k) (fun s hs => nodup_setAdd hs k) v k
      refine ⟨m1, ?_, ?_, fun w x => ?_⟩
      · show ∀ x w, (mutate hk hv _ _ v k).2.dict.get? x = some w ↔ _
        rw [m2]
        exact dict_same h (fun _ _ e => by cases e)
      · show ∀ w, (∃ a, (mutate hk hv _ _ v k).2.inv.get? w = some a) ↔ _
        rw [m3]
        exact keys_same h (fun _ _ e => by cases e)
      · refine (m4 w x).trans ?_
        rw [listed_snoc]
        split
        · rename_i c
          obtain ⟨rfl, c1, c2⟩ := c
          constructor
          · rintro ⟨a, s, ha, hs, hx⟩
            rcases mem_setAdd.1 hx with hx | rfl
            · have := (h.has w x).1 ⟨a, s, ha, hs, hx⟩
              exact ⟨this.1, this.2.1, .inr ⟨by simp, this⟩⟩
            · exact ⟨c1, c2, .inl (.inr ⟨rfl, ((h.keys w).1 ⟨a, ha⟩).2⟩)⟩
          · rintro ⟨p1, p2, (p | ⟨p, p3⟩) | ⟨_, p⟩⟩
            · cases p
            · cases p
              obtain ⟨a, ha⟩ := (h.keys w).2 ⟨p2, p3⟩
              exact ⟨a, _, ha, List.getElem?_eq_getElem (h.inv.lt _ _ ha), mem_setAdd.2 (.inr rfl)⟩
            · obtain ⟨a, s, ha, hs, hx⟩ := (h.has w x).2 p
              exact ⟨a, s, ha, hs, mem_setAdd.2 (.inl hx)⟩
        · rename_i c
          rw [h.has]
          constructor
          · intro p
            exact ⟨p.1, p.2.1, .inr ⟨by simp, p⟩⟩
          · rintro ⟨p1, p2, (p | ⟨p, p3⟩) | ⟨_, p⟩⟩
            · cases p
            · cases p; exact absurd ⟨rfl, p1, p2⟩ c
            · exact p
    | discard v k =>
      obtain ⟨m1, m2, m3, m4⟩ := mutate_spec (hk := hk) (hv := hv) h.inv (f := fun s => s.erase k) (fun s hs => hs.erase k) v k
      refine ⟨m1, ?_, ?_, fun w x => ?_⟩
      · show ∀ x w, (mutate hk hv _ _ v k).2.dict.get? x = some w ↔ _
        rw [m2]
        exact dict_same h (fun _ _ e => by cases e)
      · show ∀ w, (∃ a, (mutate hk hv _ _ v k).2.inv.get? w = some a) ↔ _
        rw [m3]
        exact keys_same h (fun _ _ e => by cases e)
      · refine (m4 w x).trans ?_
        rw [listed_snoc]
        split
        · rename_i c
          obtain ⟨rfl, c1, c2⟩ := c
          constructor
          · rintro ⟨a, s, ha, hs, hx⟩
            have hn := h.inv.nodup s (List.mem_of_getElem? hs)
            obtain ⟨q1, q2⟩ := (List.Nodup.mem_erase_iff hn).1 hx
            have := (h.has w x).1 ⟨a, s, ha, hs, q2⟩
            exact ⟨this.1, this.2.1, .inr ⟨fun e => q1 (by cases e; rfl), this⟩⟩
          · rintro ⟨p1, p2, (p | ⟨p, p3⟩) | ⟨q, p⟩⟩
            · cases p
            · cases p
            · obtain ⟨a, s, ha, hs, hx⟩ := (h.has w x).2 p
              have hn := h.inv.nodup s (List.mem_of_getElem? hs)
              exact ⟨a, s, ha, hs, (List.Nodup.mem_erase_iff hn).2 ⟨fun e => q (by rw [e]), hx⟩⟩
        · rename_i c
          rw [h.has]
          constructor
          · intro p
            exact ⟨p.1, p.2.1, .inr ⟨fun e => c (by cases e; exact ⟨rfl, p.1, p.2.1⟩), p⟩⟩
          · rintro ⟨p1, p2, (p | ⟨p, p3⟩) | ⟨_, p⟩⟩
            · cases p
            · cases p
            · exact p

/-- C209: a lookup gives the value of the last assignment to the key, also if that assignment raised because of its value. -/
theorem C209_get (hist : List (Op κ ν)) (k : κ) :
    (getItem hk (run hk hv hist) k = .error .type ↔ hk k = false) ∧
    (getItem hk (run hk hv hist) k = .error .key ↔ hk k = true ∧ ∀ v, Op.set k v ∉ hist) ∧
    ∀ v, getItem hk (run hk hv hist) k = .ok v ↔ hk k = true ∧ ∃ b a, hist = b ++ Op.set k v :: a ∧ ∀ w, Op.set k w ∉ a := by
  have h := state_run (hk := hk) (hv := hv) hist
  have hne : hk k = true → (∃ v, Op.set k v ∈ hist) → ∃ v, (run hk hv hist).dict.get? k = some v := by
    intro h1 hm
    obtain ⟨b, v, a, e, hn⟩ : ∃ b v a, hist = b ++ Op.set k v :: a ∧ ∀ w, Op.set k w ∉ a := by
      clear h
      induction hist using List.reverseRecOn with
      | nil => obtain ⟨_, hm⟩ := hm; cases hm
      | append_singleton hist op ih =>
        by_cases ho : ∃ w, op = .set k w
        · obtain ⟨w, rfl⟩ := ho
          exact ⟨hist, w, [], rfl, by simp⟩
        · obtain ⟨v, hm⟩ := hm
          rcases List.mem_append.1 hm with hm | hm
          · obtain ⟨b, v, a, rfl, hn⟩ := ih ⟨v, hm⟩
            refine ⟨b, v, a ++ [op], by simp, fun w c => ?_⟩
            rcases List.mem_append.1 c with c | c
            · exact hn w c
            · exact ho ⟨w, (List.mem_singleton.1 c).symm⟩
          · exact absurd ⟨v, (List.mem_singleton.1 hm).symm⟩ ho
    exact ⟨v, (h.dict k v).2 ⟨h1, b, a, e, hn⟩⟩
  have hd := h.dict k
  unfold getItem Dict.getItem
  cases h1 : hk k with
  | false => simp
  | true =>
    simp only [if_true]
    cases hg : (run hk hv hist).dict.get? k with
    | none =>
      refine ⟨by simp, ⟨fun _ => ⟨trivial, fun v hv' => ?_⟩, fun _ => rfl⟩, fun v => ⟨fun e => (by cases e), fun e => ?_⟩⟩
      · obtain ⟨w, hw⟩ := hne h1 ⟨v, hv'⟩
        rw [hg] at hw; cases hw
      · have := (hd v).2 ⟨h1, e.2⟩
        rw [hg] at this; cases this
    | some w =>
      refine ⟨by simp, ⟨fun e => (by cases e), fun e => ?_⟩, fun v => ⟨fun e => ?_, fun e => ?_⟩⟩
      · obtain ⟨_, b, a, rfl, _⟩ := (hd w).1 hg
        exact absurd (by simp) (e.2 w)
      · cases e
        exact ⟨trivial, ((hd w).1 hg).2⟩
      · have := (hd v).2 ⟨h1, e.2⟩
        rw [hg] at this
        cases this
        rfl

/-- C209: an assignment raises exactly if the key or the value cannot be hashed, with TypeError. An unhashable key changes nothing; an unhashable
value is stored for the key all the same, and no set changes. -/
theorem C209_raises (hist : List (Op κ ν)) (k : κ) (v : ν) :
    let d := run hk hv hist
    let r := setItem hk hv d k v
    (hk k = true → hv v = true → r.1 = .ok ()) ∧
    (hk k = false → r = (.error .type, d)) ∧
    (hk k = true → hv v = false → r.1 = .error .type ∧ getItem hk r.2 k = .ok v ∧ (∀ x, x ≠ k → getItem hk r.2 x = getItem hk d x) ∧
      r.2.inv = d.inv ∧ r.2.sets = d.sets) := by
  intro d r
  refine ⟨fun h1 h2 => ?_, fun h1 => ?_, fun h1 h2 => ?_⟩
  · obtain ⟨d', e, _⟩ := setItem_good (hk := hk) (hv := hv) (state_run hist).inv h1 h2
    show (setItem hk hv (run hk hv hist) k v).1 = _
    rw [e]
  · show setItem hk hv (run hk hv hist) k v = _
    rw [setItem_bad (by simp [h1])]
    simp [h1, d]
  · have e : r = (.error .type, { d with dict := d.dict.put k v }) := by
      show setItem hk hv (run hk hv hist) k v = _
      rw [setItem_bad (by simp [h2])]
      simp [h1, d]
    rw [e]
    refine ⟨rfl, ?_, fun x hx => ?_, rfl, rfl⟩
    · unfold getItem Dict.getItem
      simp [h1, Dict.get?_put_self]
    · unfold getItem Dict.getItem
      simp only [Dict.get?_put_of_ne _ _ (Ne.symm hx)]

/-- C209: the inverse lookup raises TypeError for a value that cannot be hashed and KeyError for one that no successful assignment had. The set it
returns has exactly the keys that were put there, by an assignment or by a caller, and not discarded since. -/
theorem C209_inverse (hist : List (Op κ ν)) (v : ν) :
    let d := run hk hv hist
    (inverse hv d v = .error .type ↔ hv v = false) ∧
    (inverse hv d v = .error .key ↔ hv v = true ∧ ∀ k, hk k = true → Op.set k v ∉ hist) ∧
    ∀ a, inverse hv d v = .ok a → ∃ s, d.sets[a]? = some s ∧ ∀ k, k ∈ s ↔ Listed hk hv hist v k := by
  intro d
  have h := state_run (hk := hk) (hv := hv) hist
  have hkey := h.keys v
  unfold inverse Dict.getItem
  cases h2 : hv v with
  | false => simp
  | true =>
    simp only [if_true]
    cases hg : d.inv.get? v with
    | none =>
      refine ⟨by simp, ⟨fun _ => ⟨trivial, fun k hk' hm => ?_⟩, fun _ => rfl⟩, fun a e => (by cases e)⟩
      obtain ⟨a, ha⟩ := hkey.2 ⟨h2, k, hk', hm⟩
      rw [show (run hk hv hist).inv.get? v = none from hg] at ha; cases ha
    | some a =>
      refine ⟨by simp, ⟨fun e => (by cases e), fun e => ?_⟩, fun b e => ?_⟩
      · obtain ⟨_, k, c1, c2⟩ := hkey.1 ⟨a, hg⟩
        exact absurd c2 (e.2 k c1)
      · cases e
        refine ⟨_, List.getElem?_eq_getElem (h.inv.lt v a hg), fun k => ?_⟩
        rw [← h.has]
        constructor
        · intro hx; exact ⟨a, _, hg, List.getElem?_eq_getElem (h.inv.lt v a hg), hx⟩
        · rintro ⟨b, s, hb, hs, hx⟩
          rw [show (run hk hv hist).inv.get? v = some a from hg] at hb
          cases hb
          rw [List.getElem?_eq_getElem (h.inv.lt v a hg)] at hs
          cases hs
          exact hx

theorem step_keeps {d : Obj κ ν} (h : Inv d) (op : Op κ ν) {v : ν} {a : Nat} (ha : d.inv.get? v = some a) :
    (step hk hv d op).2.inv.get? v = some a := by
  cases op with
  | set k w =>
    by_cases hg : hk k = true ∧ hv w = true
    · obtain ⟨d', e, _, _, _, _, g5, _⟩ := setItem_good (hk := hk) (hv := hv) h hg.1 hg.2
      show (setItem hk hv d k w).2.inv.get? v = _
      rw [e]
      exact g5 v a ha
    · show (setItem hk hv d k w).2.inv.get? v = _
      rw [setItem_bad hg]
      dsimp only
      split <;> exact ha
  | add w k =>
    have := (mutate_spec (hk := hk) (hv := hv) h (f := fun s => setAdd s k) (fun s hs => nodup_setAdd hs k) w k).2.2.1
    show (mutate hk hv _ d w k).2.inv.get? v = _
    rw [this]; exact ha
  | discard w k =>
    have := (mutate_spec (hk := hk) (hv := hv) h (f := fun s => s.erase k) (fun s hs => hs.erase k) w k).2.2.1
    show (mutate hk hv _ d w k).2.inv.get? v = _
    rw [this]; exact ha

/-- C209: a set that a lookup has returned stays the set of its value, so the holder sees all later changes; different values have different
sets. -/
theorem C209_same_object (hist more : List (Op κ ν)) {v : ν} {a : Nat} (h : inverse hv (run hk hv hist) v = .ok a) :
    inverse hv (run hk hv (hist ++ more)) v = .ok a ∧ ∀ w, inverse hv (run hk hv (hist ++ more)) w = .ok a → w = v := by
  have split : ∀ {d : Obj κ ν} {u : ν} {b : Nat}, inverse hv d u = .ok b ↔ hv u = true ∧ d.inv.get? u = some b := by
    intro d u b
    unfold inverse Dict.getItem
    cases hv u <;> simp
    cases d.inv.get? u <;> simp
  obtain ⟨h2, h1⟩ := split.1 h
  have hm : (run hk hv (hist ++ more)).inv.get? v = some a := by
    induction more using List.reverseRecOn with
    | nil => simpa using h1
    | append_singleton more op ih =>
      rw [← List.append_assoc, run_snoc]
      exact step_keeps (state_run _).inv op ih
  exact ⟨split.2 ⟨h2, hm⟩, fun w hw => (state_run _).inv.inj _ _ _ (split.1 hw).2 hm⟩

/-- C209: without changes by callers, with hashable keys and values and without re-assignment the set of a value has the keys with this value. -/
theorem C209_consistent (hist : List (Op κ ν)) (hset : ∀ op ∈ hist, ∃ k v, op = Op.set k v ∧ hk k = true ∧ hv v = true)
    (hfun : ∀ k v w, Op.set k v ∈ hist → Op.set k w ∈ hist → v = w) {v : ν} {a : Nat} (h : inverse hv (run hk hv hist) v = .ok a) :
    ∃ s, (run hk hv hist).sets[a]? = some s ∧ ∀ k, k ∈ s ↔ getItem hk (run hk hv hist) k = .ok v := by
  obtain ⟨s, hs, hm⟩ := (C209_inverse (hk := hk) (hv := hv) hist v).2.2 a h
  refine ⟨s, hs, fun k => ?_⟩
  rw [hm]
  obtain ⟨g1, g2, g3⟩ := C209_get (hk := hk) (hv := hv) hist k
  constructor
  · rintro ⟨h1, h2, b, op, aft, rfl, hd, rfl | ⟨rfl, _⟩⟩
    · cases hg : getItem hk (run hk hv (b ++ Op.set k v :: aft)) k with
      | ok w =>
        obtain ⟨_, b', a', e, _⟩ := (g3 w).1 hg
        rw [hfun k v w (by simp) (by rw [e]; simp)]
      | error x =>
        exfalso
        unfold getItem Dict.getItem at hg
        rw [if_pos h1] at hg
        have : getItem hk (run hk hv (b ++ Op.set k v :: aft)) k = .error .key := by
          unfold getItem Dict.getItem
          rw [if_pos h1]
          split at hg
          · cases hg
          · rfl
        exact (g2.1 this).2 v (by simp)
    · obtain ⟨_, _, c, _⟩ := hset (.add v k) (by simp)
      cases c
  · intro hg
    obtain ⟨h1, b, aft, e, _⟩ := (g3 v).1 hg
    obtain ⟨k', v', c, _, c2⟩ := hset (.set k v) (by rw [e]; simp)
    cases c
    refine ⟨h1, c2, b, _, aft, e, fun c => ?_, .inl rfl⟩
    obtain ⟨_, _, c, _⟩ := hset _ (show Op.discard v k ∈ hist by rw [e]; simp [c])
    cases c

/-- C209, disagreement: an assignment that raises leaves the two directions inconsistent: key 1 has the unhashable value 99, the set of its old
value 10 still lists it. -/
theorem C209_raising_assignment_is_stored :
    let hv : Nat → Bool := fun v => v ≠ 99
    let hk : Nat → Bool := fun _ => true
    let d := run hk hv [.set 1 10]
    let r := setItem hk hv d 1 99
    r.1 = .error .type ∧ getItem hk r.2 1 = .ok 99 ∧ inverse hv r.2 99 = .error .type ∧
    inverse hv r.2 10 = .ok 0 ∧ r.2.sets[0]? = some [1] := by decide

/-- C209, disagreement: a caller who changes the set they got changes the inverse lookup and not the lookup. -/
theorem C209_caller_changes_index :
    let h : Nat → Bool := fun _ => true
    let d := run h h [.set 1 10, .set 2 10, .discard 10 1, .add 10 7]
    inverse h d 10 = .ok 0 ∧ d.sets[0]? = some [2, 7] ∧ getItem h d 1 = .ok 10 ∧ getItem h d 7 = .error .key := by decide

example : let h : Nat → Bool := fun v => v < 50
    let d := run h h [.set 1 10, .set 2 10, .set 60 10, .set 3 70, .set 3 20, .add 30 1]
    d.dict = [(1, 10), (2, 10), (3, 20)] ∧ d.inv = [(10, 0), (20, 1)] ∧ d.sets = [[1, 2], [3]] := by decide

end Prolothar.TwoWayDictHeap
