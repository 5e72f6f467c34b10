import Verif.Model.AppendFiles
import Verif.Model.Upd
import Mathlib.Logic.Relation
import Mathlib.Data.List.Induction
/-
C190: several processes append to a text file of the result collector.
-/
namespace Prolothar.ResultCollector

variable {blocks : Nat → List (List (List Char))} {flushes : List (List Char) → List Char → Nat → Prop}

/-- the states that processes with the given blocks can reach if the file has the content `old` -/
abbrev Appending (blocks : Nat → List (List (List Char))) (flushes : List (List Char) → List Char → Nat → Prop) (old : List Char) (s : AppendState) : Prop :=
  Relation.ReflTransGen (AppendStep blocks flushes) (AppendState.start old) s

/-- the text of block `k` of process `i` -/
def blockText (blocks : Nat → List (List (List Char))) (i k : Nat) : List Char := (((blocks i)[k]?).getD []).flatten

/-- the characters of process `i` -/
def ownChars (tags : List (Nat × Char)) (i : Nat) : List Char := (tags.filter fun p => decide (p.1 = i)).map (·.2)

/-- the blocks of process `i` -/
def ownBlocks (order : List (Nat × Nat)) (i : Nat) : List Nat := (order.filter fun p => decide (p.1 = i)).map (·.2)

theorem ownChars_append (tags : List (Nat × Char)) (j i : Nat) (cs : List Char) :
    ownChars (tags ++ cs.map fun c => (j, c)) i = if j = i then ownChars tags i ++ cs else ownChars tags i := by
  unfold ownChars
  rw [List.filter_append, List.map_append]
  have : ((cs.map fun c => (j, c)).filter fun p => decide (p.1 = i)).map (·.2) = if j = i then cs else [] := by
    induction cs with
    | nil => simp
    | cons c cs ih =>
      rw [List.map_cons, List.filter_cons]
      by_cases h : j = i
      · simp only [h, decide_true, if_true] at ih ⊢
        rw [List.map_cons, ih]
      · simp only [h, decide_false, if_false] at ih ⊢
        exact ih
  rw [this]
  split <;> simp

theorem ownBlocks_append (order : List (Nat × Nat)) (j k i : Nat) :
    ownBlocks (order ++ [(j, k)]) i = if j = i then ownBlocks order i ++ [k] else ownBlocks order i := by
  unfold ownBlocks
  rw [List.filter_append, List.map_append, List.filter_singleton]
  by_cases h : j = i <;> simp [h]

theorem take_flatten {bs : List (List (List Char))} {k : Nat} {ws : List (List Char)} (h : bs[k]? = some ws) :
    (bs.take (k + 1)).flatten.flatten = (bs.take k).flatten.flatten ++ ws.flatten := by
  rw [List.take_add_one, h]
  simp

/-- what holds for a process when the characters `own` of the file are from it -/
def CharInv (bs : List (List (List Char))) (pc : AppendPc) (buffer own : List Char) : Prop :=
  match pc with
  | .idle k => k ≤ bs.length ∧ buffer = [] ∧ own = (bs.take k).flatten.flatten
  | .writing k todo => k < bs.length ∧ own ++ buffer ++ todo.flatten = (bs.take (k + 1)).flatten.flatten

theorem append_inv {old : List Char} {s : AppendState} (h : Appending blocks flushes old s) :
    ∃ tags : List (Nat × Char), s.file = old ++ tags.map (·.2) ∧ ∀ i, CharInv (blocks i) (s.pc i) (s.buffer i) (ownChars tags i) := by
  induction h with
  | refl => exact ⟨[], (List.append_nil _).symm, fun i => ⟨Nat.zero_le _, rfl, rfl⟩⟩
  | @tail s _ _ hst ih =>
    obtain ⟨tags, h1, h2⟩ := ih
    cases hst with
    | @openFile i k ws hp hb =>
      refine ⟨tags, h1, fun j => ?_⟩
      by_cases hj : j = i
      · subst hj
        have := h2 j
        rw [hp] at this
        obtain ⟨a1, a2, a3⟩ := this
        show CharInv (blocks j) (upd _ j _ j) _ _
        rw [upd_self]
        obtain ⟨hlt, -⟩ := List.getElem?_eq_some_iff.1 hb
        refine ⟨hlt, ?_⟩
        rw [a2, a3, take_flatten hb, List.append_nil]
      · show CharInv (blocks j) (upd _ i _ j) _ _
        rw [upd_ne _ _ hj]
        exact h2 j
    | @write i k w ws hp =>
      refine ⟨tags, h1, fun j => ?_⟩
      by_cases hj : j = i
      · subst hj
        have := h2 j
        rw [hp] at this
        obtain ⟨a1, a2⟩ := this
        show CharInv (blocks j) (upd _ j _ j) (upd _ j _ j) _
        rw [upd_self, upd_self]
        refine ⟨a1, ?_⟩
        rw [← a2]
        simp
      · show CharInv (blocks j) (upd _ i _ j) (upd _ i _ j) _
        rw [upd_ne _ _ hj, upd_ne _ _ hj]
        exact h2 j
    | @flush i k todo n hp hf =>
      refine ⟨tags ++ ((s.buffer i).take n).map fun c => (i, c), ?_, fun j => ?_⟩
      · show s.file ++ _ = _
        rw [h1, List.map_append, List.map_map, List.append_assoc]
        congr 2
        exact (List.map_id _).symm
      · rw [ownChars_append]
        by_cases hj : j = i
        · subst hj
          have := h2 j
          rw [hp] at this
          obtain ⟨a1, a2⟩ := this
          show CharInv (blocks j) (s.pc j) (upd _ j _ j) _
          rw [upd_self, if_pos rfl, hp]
          refine ⟨a1, ?_⟩
          rw [← a2]
          simp
        · show CharInv (blocks j) (s.pc j) (upd _ i _ j) _
          rw [upd_ne _ _ hj, if_neg (Ne.symm hj)]
          exact h2 j
    | @close i k hp hb =>
      refine ⟨tags, h1, fun j => ?_⟩
      by_cases hj : j = i
      · subst hj
        have := h2 j
        rw [hp] at this
        obtain ⟨a1, a2⟩ := this
        show CharInv (blocks j) (upd _ j _ j) _ _
        rw [upd_self]
        refine ⟨a1, hb, ?_⟩
        rw [← a2, hb]
        simp
      · show CharInv (blocks j) (upd _ i _ j) _ _
        rw [upd_ne _ _ hj]
        exact h2 j

/-- C190: Nothing is overwritten or lost, whatever the processes do and whenever some of them are killed: the old content stays at the beginning of
the file, and what follows consists of the characters of the processes; those of a process are a beginning of its text, in the right order. If a
process has closed the file after its first `k` blocks, these are complete. -/
theorem C190_nothing_lost {old : List Char} {s : AppendState} (h : Appending blocks flushes old s) :
    ∃ tags : List (Nat × Char), s.file = old ++ tags.map (·.2) ∧
      ∀ i, ownChars tags i <+: (blocks i).flatten.flatten ∧ ∀ k, s.pc i = .idle k → ownChars tags i = ((blocks i).take k).flatten.flatten := by
  obtain ⟨tags, h1, h2⟩ := append_inv h
  refine ⟨tags, h1, fun i => ⟨?_, fun k hk => ?_⟩⟩
  · have hpre : ∀ k, ((blocks i).take k).flatten.flatten <+: (blocks i).flatten.flatten := by
      intro k
      conv_rhs => rw [← List.take_append_drop k (blocks i), List.flatten_append, List.flatten_append]
      exact List.prefix_append _ _
    have := h2 i
    cases hp : s.pc i with
    | idle k =>
      rw [hp] at this
      rw [this.2.2]
      exact hpre k
    | writing k todo =>
      rw [hp] at this
      refine List.IsPrefix.trans ?_ (hpre (k + 1))
      rw [← this.2, List.append_assoc]
      exact List.prefix_append _ _
  · have := h2 i
    rw [hk] at this
    exact this.2.2

/-! ### blocks that fit into the buffer -/

/-- what holds for a process when `own` of its blocks are in the file -/
def BlockInv (blocks : Nat → List (List (List Char))) (i : Nat) (pc : AppendPc) (buffer : List Char) (own : List Nat) : Prop :=
  match pc with
  | .idle k => k ≤ (blocks i).length ∧ buffer = [] ∧ own = List.range k
  | .writing k todo => k < (blocks i).length ∧
      ((buffer ++ todo.flatten = blockText blocks i k ∧ own = List.range k) ∨ (todo = [] ∧ buffer = [] ∧ own = List.range (k + 1)))

theorem block_inv {old : List Char} {s : AppendState} (h : Appending blocks onlyAtTheEnd old s) :
    ∃ order : List (Nat × Nat), s.file = old ++ order.flatMap (fun p => blockText blocks p.1 p.2) ∧
      ∀ i, BlockInv blocks i (s.pc i) (s.buffer i) (ownBlocks order i) := by
  induction h with
  | refl => exact ⟨[], (List.append_nil _).symm, fun i => ⟨Nat.zero_le _, rfl, rfl⟩⟩
  | @tail s _ _ hst ih =>
    obtain ⟨order, h1, h2⟩ := ih
    cases hst with
    | @openFile i k ws hp hb =>
      refine ⟨order, h1, fun j => ?_⟩
      by_cases hj : j = i
      · subst hj
        have := h2 j
        rw [hp] at this
        obtain ⟨a1, a2, a3⟩ := this
        show BlockInv blocks j (upd _ j _ j) _ _
        rw [upd_self]
        obtain ⟨hlt, -⟩ := List.getElem?_eq_some_iff.1 hb
        refine ⟨hlt, .inl ⟨?_, a3⟩⟩
        unfold blockText
        rw [hb, a2]
        rfl
      · show BlockInv blocks j (upd _ i _ j) _ _
        rw [upd_ne _ _ hj]
        exact h2 j
    | @write i k w ws hp =>
      refine ⟨order, h1, fun j => ?_⟩
      by_cases hj : j = i
      · subst hj
        have := h2 j
        rw [hp] at this
        obtain ⟨a1, a2⟩ := this
        show BlockInv blocks j (upd _ j _ j) (upd _ j _ j) _
        rw [upd_self, upd_self]
        refine ⟨a1, ?_⟩
        rcases a2 with ⟨a2, a3⟩ | ⟨a2, _⟩
        · refine .inl ⟨?_, a3⟩
          rw [← a2]
          simp
        · cases a2
      · show BlockInv blocks j (upd _ i _ j) (upd _ i _ j) _
        rw [upd_ne _ _ hj, upd_ne _ _ hj]
        exact h2 j
    | @flush i k todo n hp hf =>
      obtain ⟨rfl, hn⟩ := hf
      have hi := h2 i
      rw [hp] at hi
      obtain ⟨a1, a2⟩ := hi
      have ht : (s.buffer i).take n = s.buffer i := List.take_of_length_le hn
      have hd : (s.buffer i).drop n = [] := List.drop_of_length_le hn
      rcases a2 with ⟨a2, a3⟩ | ⟨_, a2, a3⟩
      · refine ⟨order ++ [(i, k)], ?_, fun j => ?_⟩
        · show s.file ++ _ = _
          rw [ht, h1, List.flatMap_append, List.flatMap_singleton, ← a2, List.append_assoc]
          simp
        · rw [ownBlocks_append]
          by_cases hj : j = i
          · subst hj
            show BlockInv blocks j (s.pc j) (upd _ j _ j) _
            rw [upd_self, if_pos rfl, hp, hd, a3]
            exact ⟨a1, .inr ⟨rfl, rfl, List.range_succ.symm⟩⟩
          · show BlockInv blocks j (s.pc j) (upd _ i _ j) _
            rw [upd_ne _ _ hj, if_neg (Ne.symm hj)]
            exact h2 j
      · refine ⟨order, ?_, fun j => ?_⟩
        · show s.file ++ _ = _
          rw [ht, a2, List.append_nil, h1]
        · by_cases hj : j = i
          · subst hj
            show BlockInv blocks j (s.pc j) (upd _ j _ j) _
            rw [upd_self, hp, hd, a3]
            exact ⟨a1, .inr ⟨rfl, rfl, rfl⟩⟩
          · show BlockInv blocks j (s.pc j) (upd _ i _ j) _
            rw [upd_ne _ _ hj]
            exact h2 j
    | @close i k hp hb =>
      have hi := h2 i
      rw [hp] at hi
      obtain ⟨a1, a2⟩ := hi
      rcases a2 with ⟨a2, a3⟩ | ⟨_, _, a3⟩
      · refine ⟨order ++ [(i, k)], ?_, fun j => ?_⟩
        · show s.file = _
          rw [hb] at a2
          rw [h1, List.flatMap_append, List.flatMap_singleton, ← a2]
          simp
        · rw [ownBlocks_append]
          by_cases hj : j = i
          · subst hj
            show BlockInv blocks j (upd _ j _ j) _ _
            rw [upd_self, if_pos rfl, a3]
            exact ⟨a1, hb, List.range_succ.symm⟩
          · show BlockInv blocks j (upd _ i _ j) _ _
            rw [upd_ne _ _ hj, if_neg (Ne.symm hj)]
            exact h2 j
      · refine ⟨order, h1, fun j => ?_⟩
        by_cases hj : j = i
        · subst hj
          show BlockInv blocks j (upd _ j _ j) _ _
          rw [upd_self, a3]
          exact ⟨a1, hb, rfl⟩
        · show BlockInv blocks j (upd _ i _ j) _ _
          rw [upd_ne _ _ hj]
          exact h2 j

/-- C190: If the blocks fit into the buffer, the file always consists of the old content and complete blocks one after the other, also if processes
are killed: every process has a beginning of its list of blocks in the file, each block once and in the right order. -/
theorem C190_whole_blocks {old : List Char} {s : AppendState} (h : Appending blocks onlyAtTheEnd old s) :
    ∃ order : List (Nat × Nat), s.file = old ++ order.flatMap (fun p => blockText blocks p.1 p.2) ∧
      ∀ i, (∃ k, k ≤ (blocks i).length ∧ ownBlocks order i = List.range k) ∧ ∀ k, s.pc i = .idle k → ownBlocks order i = List.range k := by
  obtain ⟨order, h1, h2⟩ := block_inv h
  refine ⟨order, h1, fun i => ?_⟩
  have := h2 i
  cases hp : s.pc i with
  | idle k =>
    rw [hp] at this
    exact ⟨⟨k, this.1, this.2.2⟩, fun k' hk' => by cases hk'; exact this.2.2⟩
  | writing k todo =>
    rw [hp] at this
    refine ⟨?_, fun k' hk' => by cases hk'⟩
    rcases this.2 with ⟨_, a⟩ | ⟨_, _, a⟩
    · exact ⟨k, Nat.le_of_lt this.1, a⟩
    · exact ⟨k + 1, this.1, a⟩

/-- C190: the blocks of the result collector: if they fit into the buffer, the lines of a block of a process that has closed the file stand in the
file in one piece. -/
theorem C190_collector {C : Type} (m : Mode C) (xName : String) (saved : Nat → List (String × Dict Rat C)) {old : List Char} {s : AppendState}
    (h : Appending (fun i => (saved i).map fun e => blockWrites m xName e.1 e.2) onlyAtTheEnd old s) (i k : Nat) (hk : s.pc i = .idle k)
    (e : String × Dict Rat C) (he : e ∈ (saved i).take k) :
    ((block m xName e.1 e.2).flatMap fun line => line.toList ++ ['\n']) <:+: s.file := by
  obtain ⟨order, h1, h2⟩ := C190_whole_blocks h
  obtain ⟨j, hj⟩ := List.mem_iff_getElem?.1 he
  rw [List.getElem?_take] at hj
  split at hj
  · rename_i hjk
    have hm : j ∈ ownBlocks order i := by
      rw [(h2 i).2 k hk]
      exact List.mem_range.2 hjk
    unfold ownBlocks at hm
    obtain ⟨q, hq, hq2⟩ := List.mem_map.1 hm
    obtain ⟨hq1, hq3⟩ := List.mem_filter.1 hq
    have hqe : q = (i, j) := Prod.ext (of_decide_eq_true hq3) hq2
    subst hqe
    have ht : blockText (fun i => (saved i).map fun e => blockWrites m xName e.1 e.2) i j =
        (block m xName e.1 e.2).flatMap fun line => line.toList ++ ['\n'] := by
      unfold blockText blockWrites
      beta_reduce
      rw [List.getElem?_map, hj]
      exact List.flatMap_def.symm
    rw [← ht, h1]
    obtain ⟨a, b, hab⟩ := List.append_of_mem hq1
    rw [hab, List.flatMap_append, List.flatMap_cons]
    generalize (fun i => (saved i).map fun e => blockWrites m xName e.1 e.2) = bs
    refine ⟨old ++ a.flatMap fun p => blockText bs p.1 p.2, b.flatMap fun p => blockText bs p.1 p.2, ?_⟩
    rw [List.append_assoc, List.append_assoc]
  · cases hj

/-! ### progress -/

/-- a process writes its texts into its buffer -/
theorem write_texts (i k : Nat) : ∀ (ws : List (List Char)) (s : AppendState), s.pc i = .writing k ws →
    Relation.ReflTransGen (AppendStep blocks flushes) s
      ⟨s.file, upd s.pc i (.writing k []), upd s.buffer i (s.buffer i ++ ws.flatten)⟩ := by
  intro ws
  induction ws with
  | nil =>
    intro s hp
    have h1 : upd s.pc i (.writing k []) = s.pc := by
      funext j
      by_cases hj : j = i
      · subst hj; rw [upd_self, hp]
      · rw [upd_ne _ _ hj]
    have h2 : upd s.buffer i (s.buffer i ++ [].flatten) = s.buffer := by
      funext j
      by_cases hj : j = i
      · subst hj; rw [upd_self]; simp
      · rw [upd_ne _ _ hj]
    rw [h1, h2]
  | cons w ws ih =>
    intro s hp
    refine Relation.ReflTransGen.head (AppendStep.write i hp) ?_
    have := ih { s with pc := upd s.pc i (.writing k ws), buffer := upd s.buffer i (s.buffer i ++ w) } (upd_self _ _ _)
    have h1 : upd (upd s.pc i (.writing k ws)) i (.writing k []) = upd s.pc i (.writing k []) := by
      funext j
      by_cases hj : j = i
      · subst hj; rw [upd_self, upd_self]
      · rw [upd_ne _ _ hj, upd_ne _ _ hj, upd_ne _ _ hj]
    have h2 : upd (upd s.buffer i (s.buffer i ++ w)) i (upd s.buffer i (s.buffer i ++ w) i ++ ws.flatten) =
        upd s.buffer i (s.buffer i ++ (w :: ws).flatten) := by
      funext j
      by_cases hj : j = i
      · subst hj; rw [upd_self, upd_self, upd_self]; simp
      · rw [upd_ne _ _ hj, upd_ne _ _ hj, upd_ne _ _ hj]
    simp only [h1, h2] at this
    exact this

/-- a process that has the file open can write the rest of its block and close the file -/
theorem finish_block (hfl : ∀ b : List Char, flushes [] b b.length) (i k : Nat) (ws : List (List Char)) (s : AppendState) (hp : s.pc i = .writing k ws) :
    Relation.ReflTransGen (AppendStep blocks flushes) s
      ⟨s.file ++ (s.buffer i ++ ws.flatten), upd s.pc i (.idle (k + 1)), upd s.buffer i []⟩ := by
  have h1 := write_texts (blocks := blocks) (flushes := flushes) i k ws s hp
  have h2 := AppendStep.flush (blocks := blocks) (flushes := flushes)
    (s := ⟨s.file, upd s.pc i (.writing k []), upd s.buffer i (s.buffer i ++ ws.flatten)⟩) i (k := k) (todo := [])
    (s.buffer i ++ ws.flatten).length (upd_self _ _ _) (by
      show flushes [] (upd s.buffer i _ i) _
      rw [upd_self]
      exact hfl _)
  have h3 := h1.tail h2
  refine h3.tail ?_
  have h4 := AppendStep.close (blocks := blocks) (flushes := flushes)
    (s := ⟨s.file ++ (s.buffer i ++ ws.flatten), upd s.pc i (.writing k []), upd s.buffer i []⟩) i (k := k) (upd_self _ _ _) (upd_self _ _ _)
  have e1 : upd (upd s.buffer i (s.buffer i ++ ws.flatten)) i ((upd s.buffer i (s.buffer i ++ ws.flatten) i).drop (s.buffer i ++ ws.flatten).length) =
      upd s.buffer i [] := by
    funext j
    by_cases hj : j = i
    · subst hj; rw [upd_self, upd_self, upd_self, List.drop_length]
    · rw [upd_ne _ _ hj, upd_ne _ _ hj, upd_ne _ _ hj]
  have e2 : upd (upd s.pc i (.writing k [])) i (.idle (k + 1)) = upd s.pc i (.idle (k + 1)) := by
    funext j
    by_cases hj : j = i
    · subst hj; rw [upd_self, upd_self]
    · rw [upd_ne _ _ hj, upd_ne _ _ hj, upd_ne _ _ hj]
  simp only [upd_self, List.take_length] at h4 ⊢
  simp only [upd_self] at e1
  rw [e1]
  rw [e2] at h4
  exact h4

/-- a process that does not have the file open can write its next block -/
theorem next_block (hfl : ∀ b : List Char, flushes [] b b.length) (i k : Nat) (s : AppendState) (hp : s.pc i = .idle k) (hb : s.buffer i = [])
    (hk : k < (blocks i).length) :
    Relation.ReflTransGen (AppendStep blocks flushes) s ⟨s.file ++ blockText blocks i k, upd s.pc i (.idle (k + 1)), upd s.buffer i []⟩ := by
  have hws : (blocks i)[k]? = some (blocks i)[k] := List.getElem?_eq_getElem hk
  refine Relation.ReflTransGen.head (AppendStep.openFile i hp hws) ?_
  have := finish_block (blocks := blocks) hfl i k (blocks i)[k] { s with pc := upd s.pc i (.writing k (blocks i)[k]) } (upd_self _ _ _)
  have e2 : upd (upd s.pc i (.writing k (blocks i)[k])) i (.idle (k + 1)) = upd s.pc i (.idle (k + 1)) := by
    funext j
    by_cases hj : j = i
    · subst hj; rw [upd_self, upd_self]
    · rw [upd_ne _ _ hj, upd_ne _ _ hj, upd_ne _ _ hj]
  simp only [e2, hb, List.nil_append] at this
  unfold blockText
  rw [hws]
  exact this

/-- C190: no process has to wait for another one: whatever the others have done, and even if they have been killed, a process can write all its blocks. -/
theorem C190_no_waiting (hfl : ∀ b : List Char, flushes [] b b.length) {old : List Char} {s : AppendState} (h : Appending blocks flushes old s) (i : Nat) :
    ∃ t, Relation.ReflTransGen (AppendStep blocks flushes) s t ∧ t.pc i = .idle (blocks i).length ∧ ∀ j, j ≠ i → t.pc j = s.pc j := by
  have key : ∀ (n k : Nat) (s : AppendState), s.pc i = .idle k → s.buffer i = [] → k + n = (blocks i).length →
      ∃ t, Relation.ReflTransGen (AppendStep blocks flushes) s t ∧ t.pc i = .idle (blocks i).length ∧ ∀ j, j ≠ i → t.pc j = s.pc j := by
    intro n
    induction n with
    | zero => intro k s hp _ hk; exact ⟨s, .refl, by rw [hp, ← hk]; rfl, fun _ _ => rfl⟩
    | succ n ih =>
      intro k s hp hb hk
      have h1 := next_block (blocks := blocks) hfl i k s hp hb (by omega)
      obtain ⟨t, t1, t2, t3⟩ := ih (k + 1) ⟨s.file ++ blockText blocks i k, upd s.pc i (.idle (k + 1)), upd s.buffer i []⟩ (upd_self _ _ _)
        (upd_self _ _ _) (by omega)
      exact ⟨t, h1.trans t1, t2, fun j hj => (t3 j hj).trans (upd_ne _ _ hj)⟩
  obtain ⟨tags, _, h2⟩ := append_inv h
  have hi := h2 i
  cases hp : s.pc i with
  | idle k =>
    rw [hp] at hi
    exact key ((blocks i).length - k) k s hp hi.2.1 (by have := hi.1; omega)
  | writing k todo =>
    rw [hp] at hi
    have h1 := finish_block (blocks := blocks) hfl i k todo s hp
    obtain ⟨t, t1, t2, t3⟩ := key ((blocks i).length - (k + 1)) (k + 1) ⟨s.file ++ (s.buffer i ++ todo.flatten), upd s.pc i (.idle (k + 1)), upd s.buffer i []⟩
      (upd_self _ _ _) (upd_self _ _ _) (by have := hi.1; omega)
    exact ⟨t, h1.trans t1, t2, fun j hj => (t3 j hj).trans (upd_ne _ _ hj)⟩

/-- C190: the order of the blocks of different processes is not determined: every order in which the blocks of each process are in the right order
can be in the file. -/
theorem C190_any_order (hfl : ∀ b : List Char, flushes [] b b.length) (old : List Char) (order : List (Nat × Nat))
    (ho : ∀ i, ∃ k, k ≤ (blocks i).length ∧ ownBlocks order i = List.range k) :
    ∃ s, Appending blocks flushes old s ∧ s.file = old ++ order.flatMap (fun p => blockText blocks p.1 p.2) ∧
      ∀ i, s.pc i = .idle (ownBlocks order i).length ∧ s.buffer i = [] := by
  induction order using List.reverseRecOn with
  | nil => exact ⟨_, .refl, (List.append_nil _).symm, fun i => ⟨rfl, rfl⟩⟩
  | append_singleton order p ih =>
    obtain ⟨j, m⟩ := p
    have hinit : ∀ i, ∃ k, k ≤ (blocks i).length ∧ ownBlocks order i = List.range k := by
      intro i
      obtain ⟨k, h1, h2⟩ := ho i
      rw [ownBlocks_append] at h2
      split at h2
      · cases k with
        | zero => simp at h2
        | succ k =>
          rw [List.range_succ] at h2
          exact ⟨k, by omega, List.append_inj_left' h2 rfl⟩
      · exact ⟨k, h1, h2⟩
    have hjm : (ownBlocks order j).length = m ∧ m < (blocks j).length := by
      obtain ⟨k, h1, h2⟩ := ho j
      rw [ownBlocks_append, if_pos rfl] at h2
      cases k with
      | zero => simp at h2
      | succ k =>
        rw [List.range_succ] at h2
        have h3 := List.append_inj_left' h2 rfl
        have h4 := List.append_inj_right' h2 rfl
        rw [List.cons.injEq] at h4
        rw [h3, List.length_range, h4.1]
        exact ⟨rfl, by omega⟩
    obtain ⟨s, s1, s2, s3⟩ := ih hinit
    have h1 := next_block (blocks := blocks) hfl j m s (by rw [(s3 j).1, hjm.1]) (s3 j).2 hjm.2
    refine ⟨_, s1.trans h1, ?_, fun i => ?_⟩
    · show s.file ++ _ = _
      rw [s2, List.flatMap_append, List.flatMap_singleton, List.append_assoc]
    · rw [ownBlocks_append]
      by_cases hi : i = j
      · subst hi
        rw [if_pos rfl, List.length_append, hjm.1]
        exact ⟨upd_self _ _ _, upd_self _ _ _⟩
      · rw [if_neg (Ne.symm hi)]
        exact ⟨(upd_ne _ _ hi).trans (s3 i).1, (upd_ne _ _ hi).trans (s3 i).2⟩

/-- a non-trivial order: two processes with two blocks each -/
example : ∃ (blocks : Nat → List (List (List Char))) (order : List (Nat × Nat)),
    (∀ i, ∃ k, k ≤ (blocks i).length ∧ ownBlocks order i = List.range k) ∧ order.length = 4 := by
  refine ⟨fun i => if i < 2 then [[['a']], [['b']]] else [], [(0, 0), (1, 0), (1, 1), (0, 1)], fun i => ?_, rfl⟩
  match i with
  | 0 => exact ⟨2, by decide, by decide⟩
  | 1 => exact ⟨2, by decide, by decide⟩
  | i + 2 => exact ⟨0, Nat.zero_le _, rfl⟩

/-- both kinds of buffering can write the buffer at the end -/
example : (∀ b : List Char, anyPart [] b b.length) ∧ ∀ b : List Char, onlyAtTheEnd [] b b.length := ⟨fun _ => trivial, fun _ => ⟨rfl, Nat.le_refl _⟩⟩

/-! ### long blocks -/

/-- two processes with one block each -/
def twoBlocks : Nat → List (List (List Char))
  | 0 => [["x: 1\n".toList, "values for A: 7\n".toList]]
  | 1 => [["x: 2\n".toList, "values for B: 8\n".toList]]
  | _ => []

/-- C190: blocks that do not fit into the buffer can end up inside each other: here the values of the first process stand below the x values of the
second one, and the other way round -/
theorem C190_mixed_witness : ∃ s, Appending twoBlocks anyPart [] s ∧ s.pc 0 = .idle 1 ∧ s.pc 1 = .idle 1 ∧
    s.file = "x: 1\nx: 2\nvalues for A: 7\nvalues for B: 8\n".toList := by
  let s0 := AppendState.start []
  let s1 : AppendState := { s0 with pc := upd s0.pc 0 (.writing 0 ["x: 1\n".toList, "values for A: 7\n".toList]) }
  have h1 : AppendStep twoBlocks anyPart s0 s1 := .openFile 0 rfl rfl
  let s2 : AppendState := { s1 with pc := upd s1.pc 0 (.writing 0 ["values for A: 7\n".toList]), buffer := upd s1.buffer 0 (s1.buffer 0 ++ "x: 1\n".toList) }
  have h2 : AppendStep twoBlocks anyPart s1 s2 := .write 0 rfl
  let s3 : AppendState := { s2 with file := s2.file ++ (s2.buffer 0).take 5, buffer := upd s2.buffer 0 ((s2.buffer 0).drop 5) }
  have h3 : AppendStep twoBlocks anyPart s2 s3 := .flush 0 5 rfl trivial
  let s4 : AppendState := { s3 with pc := upd s3.pc 1 (.writing 0 ["x: 2\n".toList, "values for B: 8\n".toList]) }
  have h4 : AppendStep twoBlocks anyPart s3 s4 := .openFile 1 rfl rfl
  let s5 : AppendState := { s4 with pc := upd s4.pc 1 (.writing 0 ["values for B: 8\n".toList]), buffer := upd s4.buffer 1 (s4.buffer 1 ++ "x: 2\n".toList) }
  have h5 : AppendStep twoBlocks anyPart s4 s5 := .write 1 rfl
  let s6 : AppendState := { s5 with file := s5.file ++ (s5.buffer 1).take 5, buffer := upd s5.buffer 1 ((s5.buffer 1).drop 5) }
  have h6 : AppendStep twoBlocks anyPart s5 s6 := .flush 1 5 rfl trivial
  have h7 := finish_block (blocks := twoBlocks) (flushes := anyPart) (fun _ => trivial) 0 0 ["values for A: 7\n".toList] s6 rfl
  have h8 := finish_block (blocks := twoBlocks) (flushes := anyPart) (fun _ => trivial) 1 0 ["values for B: 8\n".toList]
    ⟨s6.file ++ (s6.buffer 0 ++ ["values for A: 7\n".toList].flatten), upd s6.pc 0 (.idle 1), upd s6.buffer 0 []⟩ rfl
  refine ⟨_, ((((((Relation.ReflTransGen.single h1).tail h2).tail h3).tail h4).tail h5).tail h6 |>.trans h7).trans h8, rfl, rfl, ?_⟩
  decide +kernel

end Prolothar.ResultCollector
