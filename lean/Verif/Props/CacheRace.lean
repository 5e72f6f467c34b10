import Verif.Model.CacheRace
/-
C158: the result cache used by several processes at the same time, for every schedule and every crash point.
-/
namespace Prolothar.CacheRace
variable {V : Type}

/-- specification: all calls for the same file that evaluate the function get the same result (a deterministic function and keys
that tell apart what it tells apart) -/
def SameResults (job : Nat → Job V) (f : String → V) : Prop := ∀ i v, (job i).ev = some v → v = f (job i).path

/-! ### writing -/

theorem getElem?_writeAt (c : Bytes) (d : Nat) (xs : Bytes) (k : Nat) :
    (writeAt c d xs)[k]? = if k < d then (if k < c.length then c[k]? else some 0)
      else if k < d + xs.length then xs[k - d]? else c[k]? := by
  have hl : ((c ++ List.replicate (d - c.length) 0).take d).length = d := by simp; omega
  unfold writeAt
  rw [List.append_assoc]
  by_cases hk : k < d
  · rw [if_pos hk, List.getElem?_append_left (by omega), List.getElem?_take_of_lt hk]
    by_cases hc : k < c.length
    · rw [if_pos hc, List.getElem?_append_left hc]
    · rw [if_neg hc, List.getElem?_append_right (by omega), List.getElem?_replicate, if_pos (by omega)]
  · rw [if_neg hk, List.getElem?_append_right (by omega), hl]
    by_cases hx : k < d + xs.length
    · rw [if_pos hx, List.getElem?_append_left (by omega)]
    · rw [if_neg hx, List.getElem?_append_right (by omega), List.getElem?_drop]
      congr 1; omega

theorem length_writeAt (c : Bytes) (d : Nat) (xs : Bytes) : (writeAt c d xs).length = d + xs.length + (c.length - (d + xs.length)) := by
  unfold writeAt
  simp
  omega

/-- the first `n` bytes are the same -/
def Agree (a b : Bytes) (n : Nat) : Prop := ∀ k, k < n → a[k]? = b[k]?

theorem length_piece {b : Bytes} {d e : Nat} (hd : d < e) (he : e ≤ b.length) : ((b.take e).drop d).length = e - d := by
  simp; omega

theorem getElem?_piece (b : Bytes) (d e k : Nat) (hk : k < e) (hd : d ≤ k) : ((b.take e).drop d)[k - d]? = b[k]? := by
  rw [List.getElem?_drop, List.getElem?_take_of_lt (by omega)]
  congr 1; omega

theorem writeAt_agree {c b : Bytes} {d e n : Nat} (hd : d < e) (he : e ≤ b.length) (h : Agree c b n) (hn : n ≤ c.length) :
    Agree (writeAt c d ((b.take e).drop d)) b n := by
  intro k hk
  rw [getElem?_writeAt, length_piece hd he]
  by_cases h1 : k < d
  · rw [if_pos h1, if_pos (by omega), h k hk]
  · rw [if_neg h1]
    by_cases h2 : k < d + (e - d)
    · rw [if_pos h2, getElem?_piece b d e k (by omega) (by omega)]
    · rw [if_neg h2, h k hk]

theorem writeAt_own {c b : Bytes} {d e : Nat} (hd : d < e) (he : e ≤ b.length) (h : Agree c b d) (hn : d ≤ c.length) :
    Agree (writeAt c d ((b.take e).drop d)) b e := by
  intro k hk
  rw [getElem?_writeAt, length_piece hd he]
  by_cases h1 : k < d
  · rw [if_pos h1, if_pos (by omega), h k h1]
  · rw [if_neg h1, if_pos (by omega), getElem?_piece b d e k hk (by omega)]

theorem eq_of_agree {c b : Bytes} (hl : c.length ≤ b.length) (h : Agree c b b.length) : c = b := by
  apply List.ext_getElem?
  intro k
  by_cases hk : k < b.length
  · exact h k hk
  · rw [List.getElem?_eq_none (by omega), List.getElem?_eq_none (by omega)]

theorem writeAt_same {b : Bytes} {d e : Nat} (hd : d < e) (he : e ≤ b.length) : writeAt b d ((b.take e).drop d) = b := by
  apply eq_of_agree
  · rw [length_writeAt, length_piece hd he]; omega
  · exact writeAt_agree hd he (fun _ _ => rfl) (Nat.le_refl _)

/-! ### pieces that are read -/

theorem take_more (b : Bytes) (k n : Nat) (hk : k ≤ b.length) : b.take k ++ (b.drop (b.take k).length).take n = b.take (k + n) := by
  have : (b.take k).length = k := by simp; omega
  rw [this, List.take_add]

/-! ### the files stay, and a call that finds one does not evaluate -/

variable {c : Codec V} {job : Nat → Job V} {chunk : Bytes → Nat → Nat → Prop}

theorem Step.files_stay {s t : St V} (h : Step c job chunk s t) (p : String) (hp : ∃ b, s.files p = some b) : ∃ b, t.files p = some b := by
  cases h with
  | openWrite i v h =>
    by_cases e : p = (job i).path
    · subst e; exact ⟨[], upd_self _ _ _⟩
    · simpa [St.go, upd_ne _ _ e] using hp
  | write i v d e h hd he hc b hf =>
    by_cases e : p = (job i).path
    · subst e; exact ⟨_, upd_self _ _ _⟩
    · simpa [St.go, upd_ne _ _ e] using hp
  | _ => exact hp

theorem C158_files_stay {s t : St V} (h : Steps c job chunk s t) (p : String) (hp : ∃ b, s.files p = some b) : ∃ b, t.files p = some b := by
  induction h with
  | refl => exact hp
  | tail _ h ih => exact h.files_stay p ih

/-- a call that has found a file, or can only find one -/
def Reader (p : Pc V) : Prop :=
  match p with
  | .missing => False
  | .evaluated _ => False
  | .writing _ _ => False
  | _ => True

theorem pc_go (s : St V) (i j : Nat) (p : Pc V) : (s.go i p).pc j = if j = i then p else s.pc j := rfl

theorem Step.reader {s t : St V} (h : Step c job chunk s t) (i : Nat) (hf : ∃ b, s.files (job i).path = some b) (hr : Reader (s.pc i)) :
    Reader (t.pc i) ∧ (i ∈ t.evals → i ∈ s.evals) := by
  cases h with
  | no j h hn =>
    by_cases e : i = j
    · subst e; rw [hn] at hf; obtain ⟨b, hb⟩ := hf; cases hb
    · refine ⟨?_, id⟩
      rw [pc_go, if_neg e]; exact hr
  | eval j h v hv =>
    by_cases e : i = j
    · subst e; rw [h] at hr; exact hr.elim
    · refine ⟨?_, fun hm => ?_⟩
      · show Reader ((s.go j _).pc i)
        rw [pc_go, if_neg e]; exact hr
      · rcases List.mem_append.1 hm with h | h
        · exact h
        · exact absurd (List.mem_singleton.1 h) e
  | evalRaise j h hv =>
    by_cases e : i = j
    · subst e; rw [h] at hr; exact hr.elim
    · refine ⟨?_, fun hm => ?_⟩
      · show Reader ((s.go j _).pc i)
        rw [pc_go, if_neg e]; exact hr
      · rcases List.mem_append.1 hm with h | h
        · exact h
        · exact absurd (List.mem_singleton.1 h) e
  | openWrite j v h =>
    refine ⟨?_, id⟩
    by_cases e : i = j
    · subst e; rw [h] at hr; exact hr.elim
    · show Reader ((s.go j _).pc i)
      rw [pc_go, if_neg e]; exact hr
  | write j v d e h hd he hc b hf' =>
    refine ⟨?_, id⟩
    by_cases e : i = j
    · subst e; rw [h] at hr; exact hr.elim
    · show Reader ((s.go j _).pc i)
      rw [pc_go, if_neg e]; exact hr
  | yes j h b hb =>
    refine ⟨?_, id⟩
    rw [pc_go]
    split
    · exact True.intro
    · exact hr
  | close j v h =>
    refine ⟨?_, id⟩
    rw [pc_go]
    split
    · exact True.intro
    · exact hr
  | openRead j h =>
    refine ⟨?_, id⟩
    rw [pc_go]
    split
    · exact True.intro
    · exact hr
  | read j got h hm b hb n hn hl =>
    refine ⟨?_, id⟩
    rw [pc_go]
    split
    · exact True.intro
    · exact hr
  | loaded j got h v hv =>
    refine ⟨?_, id⟩
    rw [pc_go]
    split
    · exact True.intro
    · exact hr
  | badBytes j got h hv =>
    refine ⟨?_, id⟩
    rw [pc_go]
    split
    · exact True.intro
    · exact hr
  | eof j got h hv b hb hl =>
    refine ⟨?_, id⟩
    rw [pc_go]
    split
    · exact True.intro
    · exact hr
  | kill j h =>
    refine ⟨?_, id⟩
    rw [pc_go]
    split
    · exact True.intro
    · exact hr

theorem Steps.reader {s t : St V} (h : Steps c job chunk s t) (i : Nat) (hf : ∃ b, s.files (job i).path = some b) (hr : Reader (s.pc i)) :
    Reader (t.pc i) ∧ (i ∈ t.evals → i ∈ s.evals) := by
  induction h with
  | refl => exact ⟨hr, id⟩
  | @tail u t hs h ih =>
    obtain ⟨h1, h2⟩ := h.reader i (C158_files_stay hs _ hf) ih.1
    exact ⟨h1, fun hm => ih.2 (h2 hm)⟩

/-- bookkeeping of the evaluations: a call evaluates once, when it is past its test of the file -/
structure EvalInv (job : Nat → Job V) (s : St V) : Prop where
  nodup : s.evals.Nodup
  fresh : ∀ i, s.pc i = .idle ∨ s.pc i = .missing ∨ s.pc i = .found ∨ (∃ g, s.pc i = .reading g) → i ∉ s.evals
  own : ∀ i v, (s.pc i = .evaluated v ∨ ∃ d, s.pc i = .writing v d) → (job i).ev = some v
  result : ∀ i v, s.pc i = .returned v → i ∈ s.evals → (job i).ev = some v
  exc : ∀ i, s.pc i = .raised → i ∈ s.evals → (job i).ev = none

theorem EvalInv.init : EvalInv job (St.init : St V) := by
  refine ⟨List.nodup_nil, fun i _ h => List.not_mem_nil h, ?_, ?_, ?_⟩
  · rintro i v (h | ⟨d, h⟩) <;> cases h
  · intro i v h; cases h
  · intro i h; cases h

/-- a step that moves one call without an evaluation -/
theorem EvalInv.move {s t : St V} (hs : EvalInv job s) (i : Nat) (p : Pc V) (hpc : t.pc = upd s.pc i p) (hev : t.evals = s.evals)
    (h1 : (p = .idle ∨ p = .missing ∨ p = .found ∨ ∃ g, p = .reading g) → i ∉ s.evals)
    (h2 : ∀ v, (p = .evaluated v ∨ ∃ d, p = .writing v d) → (job i).ev = some v)
    (h3 : ∀ v, p = .returned v → i ∈ s.evals → (job i).ev = some v) (h4 : p = .raised → i ∈ s.evals → (job i).ev = none) :
    EvalInv job t := by
  have hne : ∀ j, j ≠ i → t.pc j = s.pc j := fun j hj => by rw [hpc, upd_ne _ _ hj]
  have hi : t.pc i = p := by rw [hpc, upd_self]
  refine ⟨hev ▸ hs.nodup, ?_, ?_, ?_, ?_⟩ <;> intro j
  · by_cases e : j = i
    · subst e; rw [hi, hev]; exact h1
    · rw [hne j e, hev]; exact hs.fresh j
  · by_cases e : j = i
    · subst e; rw [hi]; exact h2
    · rw [hne j e]; exact hs.own j
  · by_cases e : j = i
    · subst e; rw [hi, hev]; exact h3
    · rw [hne j e, hev]; exact hs.result j
  · by_cases e : j = i
    · subst e; rw [hi, hev]; exact h4
    · rw [hne j e, hev]; exact hs.exc j

/-- a step that is the evaluation of one call -/
theorem EvalInv.evaluate {s t : St V} (hs : EvalInv job s) (i : Nat) (p : Pc V) (hm : s.pc i = .missing) (hpc : t.pc = upd s.pc i p)
    (hev : t.evals = s.evals ++ [i]) (h1 : p = .raised ∧ (job i).ev = none ∨ ∃ v, p = .evaluated v ∧ (job i).ev = some v) :
    EvalInv job t := by
  have hne : ∀ j, j ≠ i → t.pc j = s.pc j := fun j hj => by rw [hpc, upd_ne _ _ hj]
  have hi : t.pc i = p := by rw [hpc, upd_self]
  have hmem : ∀ j, j ≠ i → (j ∈ t.evals ↔ j ∈ s.evals) := by
    intro j hj; rw [hev, List.mem_append, List.mem_singleton]; exact ⟨fun h => h.resolve_right hj, Or.inl⟩
  have hfr := hs.fresh i (Or.inr (Or.inl hm))
  refine ⟨?_, ?_, ?_, ?_, ?_⟩
  · rw [hev]
    refine List.nodup_append.2 ⟨hs.nodup, by simp, ?_⟩
    intro a ha b hb e
    rw [List.mem_singleton.1 hb] at e
    exact hfr (e ▸ ha)
  · intro j
    by_cases e : j = i
    · subst e; rw [hi]
      rcases h1 with ⟨rfl, _⟩ | ⟨v, rfl, _⟩ <;> rintro (h | h | h | ⟨g, h⟩) <;> cases h
    · rw [hne j e, hmem j e]; exact hs.fresh j
  · intro j
    by_cases e : j = i
    · subst e; rw [hi]; intro v
      rcases h1 with ⟨rfl, _⟩ | ⟨w, rfl, hw⟩
      · rintro (h | ⟨d, h⟩) <;> cases h
      · rintro (h | ⟨d, h⟩)
        · cases h; exact hw
        · cases h
    · rw [hne j e]; exact hs.own j
  · intro j
    by_cases e : j = i
    · subst e; rw [hi]; intro v h
      rcases h1 with ⟨rfl, _⟩ | ⟨w, rfl, hw⟩ <;> cases h
    · rw [hne j e, hmem j e]; exact hs.result j
  · intro j
    by_cases e : j = i
    · subst e; rw [hi]; intro h
      rcases h1 with ⟨rfl, hn⟩ | ⟨w, rfl, hw⟩
      · exact fun _ => hn
      · cases h
    · rw [hne j e, hmem j e]; exact hs.exc j

theorem EvalInv.step {s t : St V} (hs : EvalInv job s) (h : Step c job chunk s t) : EvalInv job t := by
  cases h with
  | eval i h v hv => exact hs.evaluate i _ h rfl rfl (Or.inr ⟨v, rfl, hv⟩)
  | evalRaise i h hv => exact hs.evaluate i _ h rfl rfl (Or.inl ⟨rfl, hv⟩)
  | yes i h b hb => exact hs.move i _ rfl rfl (fun _ => hs.fresh i (by simp [h])) (by simp) (by simp) (by simp)
  | no i h hb => exact hs.move i _ rfl rfl (fun _ => hs.fresh i (by simp [h])) (by simp) (by simp) (by simp)
  | openWrite i v h =>
    refine hs.move i (.writing v 0) rfl rfl (by simp) ?_ (by simp) (by simp)
    rintro w (hw | ⟨d, hw⟩) <;> cases hw
    exact hs.own i v (Or.inl h)
  | write i v d e h hd he hc b hf =>
    refine hs.move i (.writing v e) rfl rfl (by simp) ?_ (by simp) (by simp)
    rintro w (hw | ⟨d, hw⟩) <;> cases hw
    exact hs.own i v (Or.inr ⟨d, h⟩)
  | close i v h =>
    refine hs.move i (.returned v) rfl rfl (by simp) (by simp) ?_ (by simp)
    intro w hw _; cases hw
    exact hs.own i v (Or.inr ⟨_, h⟩)
  | openRead i h => exact hs.move i _ rfl rfl (fun _ => hs.fresh i (by simp [h])) (by simp) (by simp) (by simp)
  | read i got h hm b hb n hn hl => exact hs.move i _ rfl rfl (fun _ => hs.fresh i (by simp [h])) (by simp) (by simp) (by simp)
  | loaded i got h v hv =>
    exact hs.move i _ rfl rfl (by simp) (by simp) (fun _ _ hm => absurd hm (hs.fresh i (by simp [h]))) (by simp)
  | badBytes i got h hv => exact hs.move i _ rfl rfl (by simp) (by simp) (by simp) (fun _ hm => absurd hm (hs.fresh i (by simp [h])))
  | eof i got h hv b hb hl => exact hs.move i _ rfl rfl (by simp) (by simp) (by simp) (fun _ hm => absurd hm (hs.fresh i (by simp [h])))
  | kill i h => exact hs.move i _ rfl rfl (by simp) (by simp) (by simp) (by simp)

theorem EvalInv.steps {s t : St V} (hs : EvalInv job s) (h : Steps c job chunk s t) : EvalInv job t := by
  induction h with
  | refl => exact hs
  | tail _ h ih => exact ih.step h

/-- Every call evaluates the function at most once, and if it does, then it ends with the result or the exception of this evaluation. -/
theorem C158_evaluates_once {s : St V} (h : Steps c job chunk St.init s) :
    s.evals.Nodup ∧ ∀ i, i ∈ s.evals → (∀ v, s.pc i = .returned v → (job i).ev = some v) ∧ (s.pc i = .raised → (job i).ev = none) := by
  have hi := EvalInv.init.steps h
  exact ⟨hi.nodup, fun i hm => ⟨fun v hv => hi.result i v hv hm, fun hr => hi.exc i hr hm⟩⟩

/-- A call that starts when there is a file for it does not evaluate the function. -/
theorem C158_no_evaluation {s t : St V} (h0 : Steps c job chunk St.init s) (h : Steps c job chunk s t) (i : Nat)
    (hi : s.pc i = .idle) (b : Bytes) (hf : s.files (job i).path = some b) : i ∉ t.evals := by
  intro hm
  have := (Steps.reader h i ⟨b, hf⟩ (by rw [hi]; exact True.intro)).2 hm
  exact (EvalInv.init.steps h0).fresh i (Or.inl hi) this

/-! ### results that are written at once -/

variable {f : String → V}

/-- with results that are written at once -/
structure SmallInv (c : Codec V) (job : Nat → Job V) (f : String → V) (s : St V) : Prop where
  file : ∀ p b, s.files p = some b → b = [] ∨ b = c.encode (f p)
  ev : ∀ i v, s.pc i = .evaluated v → v = f (job i).path
  wr : ∀ i v d, s.pc i = .writing v d → v = f (job i).path
  rd : ∀ i g, s.pc i = .reading g → ∃ k, k ≤ (c.encode (f (job i).path)).length ∧ g = (c.encode (f (job i).path)).take k
  ret : ∀ i v, s.pc i = .returned v → v = f (job i).path

theorem SmallInv.move {s t : St V} (hs : SmallInv c job f s) (i : Nat) (p : Pc V) (hpc : t.pc = upd s.pc i p)
    (hf : ∀ p b, t.files p = some b → b = [] ∨ b = c.encode (f p))
    (h1 : ∀ v, p = .evaluated v → v = f (job i).path) (h2 : ∀ v d, p = .writing v d → v = f (job i).path)
    (h3 : ∀ g, p = .reading g → ∃ k, k ≤ (c.encode (f (job i).path)).length ∧ g = (c.encode (f (job i).path)).take k)
    (h4 : ∀ v, p = .returned v → v = f (job i).path) : SmallInv c job f t := by
  have hne : ∀ j, j ≠ i → t.pc j = s.pc j := fun j hj => by rw [hpc, upd_ne _ _ hj]
  have hi : t.pc i = p := by rw [hpc, upd_self]
  refine ⟨hf, ?_, ?_, ?_, ?_⟩ <;> intro j <;> by_cases e : j = i
  · subst e; rw [hi]; exact h1
  · rw [hne j e]; exact hs.ev j
  · subst e; rw [hi]; exact h2
  · rw [hne j e]; exact hs.wr j
  · subst e; rw [hi]; exact h3
  · rw [hne j e]; exact hs.rd j
  · subst e; rw [hi]; exact h4
  · rw [hne j e]; exact hs.ret j

/-- what a call knows of a pickled value of which it has read a part -/
theorem Codec.Lawful.of_take (hc : c.Lawful) (v : V) (rest : Bytes) (k : Nat) :
    c.decode ((c.encode v ++ rest).take k) = if k < (c.encode v).length then .more else .done v := by
  by_cases h : k < (c.encode v).length
  · rw [if_pos h, List.take_append_of_le_length (by omega), hc.part v k h]
  · rw [if_neg h, List.take_append, List.take_of_length_le (by omega)]
    exact hc.full v _

theorem SmallInv.step {s t : St V} (hc : c.Lawful) (hj : SameResults job f) (hs : SmallInv c job f s) (h : Step c job whole s t) :
    SmallInv c job f t := by
  cases h with
  | yes i h b hb => exact hs.move i _ rfl hs.file (by simp) (by simp) (by simp) (by simp)
  | no i h hb => exact hs.move i _ rfl hs.file (by simp) (by simp) (by simp) (by simp)
  | eval i h v hv =>
    refine hs.move i (.evaluated v) rfl hs.file ?_ (by simp) (by simp) (by simp)
    intro w hw; cases hw; exact hj i v hv
  | evalRaise i h hv => exact hs.move i .raised rfl hs.file (by simp) (by simp) (by simp) (by simp)
  | openWrite i v h =>
    refine hs.move i (.writing v 0) rfl ?_ (by simp) ?_ (by simp) (by simp)
    · intro p b hp
      dsimp only at hp
      by_cases e : p = (job i).path
      · subst e; rw [upd_self] at hp; cases hp; exact Or.inl rfl
      · rw [upd_ne _ _ e] at hp; exact hs.file p b hp
    · intro w d hw; cases hw; exact hs.ev i v h
  | write i v d e h hd he hch b hf =>
    have hv := hs.wr i v d h
    refine hs.move i (.writing v e) rfl ?_ (by simp) ?_ (by simp) (by simp)
    · intro p b' hp
      dsimp only at hp
      by_cases e' : p = (job i).path
      · subst e'; rw [upd_self] at hp
        obtain ⟨hd0, hel⟩ := hch
        subst hd0 hel
        refine Or.inr ?_
        rw [← hv, ← Option.some.inj hp]
        rcases hs.file _ b hf with h' | h'
        · subst h'; simp [writeAt]
        · rw [← hv] at h'; subst h'; exact writeAt_same hd he
      · rw [upd_ne _ _ e'] at hp; exact hs.file p b' hp
    · intro w d' hw; cases hw; exact hv
  | close i v h =>
    refine hs.move i _ rfl hs.file (by simp) (by simp) (by simp) ?_
    intro w hw; cases hw; exact hs.wr i v _ h
  | openRead i h =>
    refine hs.move i _ rfl hs.file (by simp) (by simp) ?_ (by simp)
    intro g hg; cases hg; exact ⟨0, Nat.zero_le _, rfl⟩
  | read i got h hm b hb n hn hl =>
    refine hs.move i _ rfl hs.file (by simp) (by simp) ?_ (by simp)
    intro g hg; cases hg
    obtain ⟨k, hk, rfl⟩ := hs.rd i got h
    rcases hs.file _ b hb with h' | h'
    · subst h'; simp at hl
    · subst h'
      rw [take_more _ k n hk]
      refine ⟨min (k + n) (c.encode (f (job i).path)).length, Nat.min_le_right _ _, ?_⟩
      exact List.take_eq_take_min
  | loaded i got h v hv =>
    refine hs.move i _ rfl hs.file (by simp) (by simp) (by simp) ?_
    intro w hw; cases hw
    obtain ⟨k, hk, rfl⟩ := hs.rd i got h
    have := hc.of_take (f (job i).path) [] k
    rw [List.append_nil, hv] at this
    split at this
    · cases this
    · cases this; rfl
  | badBytes i got h hv => exact hs.move i _ rfl hs.file (by simp) (by simp) (by simp) (by simp)
  | eof i got h hv b hb hl => exact hs.move i _ rfl hs.file (by simp) (by simp) (by simp) (by simp)
  | kill i h => exact hs.move i _ rfl hs.file (by simp) (by simp) (by simp) (by simp)

/-- If the pickled results fit into the buffer of the file object, then for every number of processes, every schedule and every crash
point: a call that returns gives the result of the function. -/
theorem C158_small_results (hc : c.Lawful) (hj : SameResults job f) {s : St V} (h : Steps c job whole St.init s) (i : Nat) (v : V)
    (hv : s.pc i = .returned v) : v = f (job i).path := by
  suffices SmallInv c job f s from this.ret i v hv
  clear hv
  induction h with
  | refl => refine ⟨?_, ?_, ?_, ?_, ?_⟩ <;> intro _ _ <;> simp [St.init]
  | tail _ h ih => exact ih.step hc hj h

/-! ### results that are written in pieces -/

/-- with results that are written in pieces: the call that has opened the file last knows a correct beginning of it -/
structure PieceInv (c : Codec V) (job : Nat → Job V) (f : String → V) (s : St V) : Prop where
  file : ∀ p b, s.files p = some b → b.length ≤ (c.encode (f p)).length ∧ (b = c.encode (f p) ∨ ∃ l d, (job l).path = p ∧
    ((∃ v, s.pc l = .writing v d) ∨ s.pc l = .killed (some d)) ∧ d ≤ b.length ∧ Agree b (c.encode (f p)) d)
  ev : ∀ i v, s.pc i = .evaluated v → v = f (job i).path
  wr : ∀ i v d, s.pc i = .writing v d → v = f (job i).path ∧ d ≤ (c.encode v).length

theorem PieceInv.move {s t : St V} (hs : PieceInv c job f s) (i : Nat) (p : Pc V) (hpc : t.pc = upd s.pc i p) (hfi : t.files = s.files)
    (h0 : (∀ v d, s.pc i ≠ .writing v d) ∧ ∀ d, s.pc i ≠ .killed (some d))
    (h1 : ∀ v, p = .evaluated v → v = f (job i).path) (h2 : ∀ v d, p ≠ .writing v d) : PieceInv c job f t := by
  have hne : ∀ j, j ≠ i → t.pc j = s.pc j := fun j hj => by rw [hpc, upd_ne _ _ hj]
  have hi : t.pc i = p := by rw [hpc, upd_self]
  refine ⟨?_, ?_, ?_⟩
  · intro q b hb
    rw [hfi] at hb
    obtain ⟨hl, h⟩ := hs.file q b hb
    refine ⟨hl, h.imp_right ?_⟩
    rintro ⟨l, d, hp, hw, hr⟩
    have : l ≠ i := by
      rintro rfl
      rcases hw with ⟨v, hw⟩ | hw
      · exact h0.1 v d hw
      · exact h0.2 d hw
    exact ⟨l, d, hp, by rw [hne l this]; exact hw, hr⟩
  · intro j; by_cases e : j = i
    · subst e; rw [hi]; exact h1
    · rw [hne j e]; exact hs.ev j
  · intro j; by_cases e : j = i
    · subst e; rw [hi]; intro v d h; exact absurd h (h2 v d)
    · rw [hne j e]; exact hs.wr j

theorem PieceInv.step {s t : St V} (hj : SameResults job f) (hs : PieceInv c job f s) (h : Step c job chunk s t) : PieceInv c job f t := by
  cases h with
  | yes i h b hb => exact hs.move i _ rfl rfl (by simp [h]) (by simp) (by simp)
  | no i h hb => exact hs.move i _ rfl rfl (by simp [h]) (by simp) (by simp)
  | eval i h v hv =>
    refine hs.move i (.evaluated v) rfl rfl (by simp [h]) ?_ (by simp)
    intro w hw; cases hw; exact hj i v hv
  | evalRaise i h hv => exact hs.move i .raised rfl rfl (by simp [h]) (by simp) (by simp)
  | openWrite i v h =>
    refine ⟨?_, ?_, ?_⟩
    · intro p b hb
      dsimp only at hb
      by_cases e : p = (job i).path
      · subst e
        rw [upd_self] at hb; cases hb
        refine ⟨Nat.zero_le _, Or.inr ⟨i, 0, rfl, Or.inl ⟨v, by simp [St.go]⟩, Nat.le_refl _, fun k hk => by omega⟩⟩
      · rw [upd_ne _ _ e] at hb
        obtain ⟨hl, h'⟩ := hs.file p b hb
        refine ⟨hl, h'.imp_right ?_⟩
        rintro ⟨l, d, hp, hw, hr⟩
        have : l ≠ i := by rintro rfl; exact e hp.symm
        refine ⟨l, d, hp, ?_, hr⟩
        simpa [St.go, upd_ne _ _ this] using hw
    · intro j w hw
      by_cases e : j = i
      · subst e; simp [St.go] at hw
      · simp only [St.go, upd_ne _ _ e] at hw; exact hs.ev j w hw
    · intro j w d hw
      by_cases e : j = i
      · subst e
        simp only [St.go, upd_self, Pc.writing.injEq] at hw
        obtain ⟨rfl, rfl⟩ := hw
        exact ⟨hs.ev j v h, Nat.zero_le _⟩
      · simp only [St.go, upd_ne _ _ e] at hw; exact hs.wr j w d hw
  | write i v d e h hd he hch b hf =>
    obtain ⟨hv, hdl⟩ := hs.wr i v d h
    refine ⟨?_, ?_, ?_⟩
    · intro p b' hb
      dsimp only at hb
      by_cases e' : p = (job i).path
      · subst e'
        rw [upd_self] at hb
        obtain rfl := (Option.some.inj hb).symm
        rw [← hv]
        obtain ⟨hl, h'⟩ := hs.file _ b hf
        rw [← hv] at hl h'
        have hle : (writeAt b d (((c.encode v).take e).drop d)).length ≤ (c.encode v).length := by
          rw [length_writeAt, length_piece hd he]; omega
        have hge : b.length ≤ (writeAt b d (((c.encode v).take e).drop d)).length := by
          rw [length_writeAt]; omega
        refine ⟨hle, ?_⟩
        rcases h' with h' | ⟨l, d', hp, hw, hdb, ha⟩
        · left; rw [h']; exact writeAt_same hd he
        · right
          by_cases el : l = i
          · subst el
            have : d' = d := by
              rcases hw with ⟨w, hw⟩ | hw
              · rw [h] at hw; cases hw; rfl
              · rw [h] at hw; cases hw
            subst this
            refine ⟨l, e, rfl, Or.inl ⟨v, by simp [St.go]⟩, ?_, writeAt_own hd he ha hdb⟩
            rw [length_writeAt, length_piece hd he]; omega
          · refine ⟨l, d', hp, ?_, by omega, writeAt_agree hd he ha hdb⟩
            simpa [St.go, upd_ne _ _ el] using hw
      · rw [upd_ne _ _ e'] at hb
        obtain ⟨hl, h'⟩ := hs.file p b' hb
        refine ⟨hl, h'.imp_right ?_⟩
        rintro ⟨l, d', hp, hw, hr⟩
        have : l ≠ i := by rintro rfl; exact e' hp.symm
        refine ⟨l, d', hp, ?_, hr⟩
        simpa [St.go, upd_ne _ _ this] using hw
    · intro j w hw
      by_cases e' : j = i
      · subst e'; simp [St.go] at hw
      · simp only [St.go, upd_ne _ _ e'] at hw; exact hs.ev j w hw
    · intro j w d' hw
      by_cases e' : j = i
      · subst e'
        simp only [St.go, upd_self, Pc.writing.injEq] at hw
        obtain ⟨rfl, rfl⟩ := hw
        exact ⟨hv, he⟩
      · simp only [St.go, upd_ne _ _ e'] at hw; exact hs.wr j w d' hw
  | close i v h =>
    obtain ⟨hv, hdl⟩ := hs.wr i v _ h
    refine ⟨?_, ?_, ?_⟩
    · intro p b hb
      obtain ⟨hl, h'⟩ := hs.file p b hb
      refine ⟨hl, ?_⟩
      rcases h' with h' | ⟨l, d, hp, hw, hdb, ha⟩
      · exact Or.inl h'
      · by_cases el : l = i
        · subst el hp
          left
          have : d = (c.encode v).length := by
            rcases hw with ⟨w, hw⟩ | hw
            · rw [h] at hw; cases hw; rfl
            · rw [h] at hw; cases hw
          rw [← hv] at hl ha ⊢
          rw [this] at ha
          exact eq_of_agree hl ha
        · right
          refine ⟨l, d, hp, ?_, hdb, ha⟩
          simpa [St.go, upd_ne _ _ el] using hw
    · intro j w hw
      by_cases e' : j = i
      · subst e'; simp [St.go] at hw
      · simp only [St.go, upd_ne _ _ e'] at hw; exact hs.ev j w hw
    · intro j w d' hw
      by_cases e' : j = i
      · subst e'; simp [St.go] at hw
      · simp only [St.go, upd_ne _ _ e'] at hw; exact hs.wr j w d' hw
  | openRead i h => exact hs.move i _ rfl rfl (by simp [h]) (by simp) (by simp)
  | read i got h hm b hb n hn hl => exact hs.move i _ rfl rfl (by simp [h]) (by simp) (by simp)
  | loaded i got h v hv => exact hs.move i _ rfl rfl (by simp [h]) (by simp) (by simp)
  | badBytes i got h hv => exact hs.move i _ rfl rfl (by simp [h]) (by simp) (by simp)
  | eof i got h hv b hb hl => exact hs.move i _ rfl rfl (by simp [h]) (by simp) (by simp)
  | kill i h =>
    refine ⟨?_, ?_, ?_⟩
    · intro p b hb
      obtain ⟨hl, h'⟩ := hs.file p b hb
      refine ⟨hl, h'.imp_right ?_⟩
      rintro ⟨l, d, hp, hw, hr⟩
      refine ⟨l, d, hp, ?_, hr⟩
      by_cases el : l = i
      · subst el
        rcases hw with ⟨w, hw⟩ | hw
        · right; simp [St.go, hw, Pc.opened]
        · rw [hw] at h; exact h.elim
      · simpa [St.go, upd_ne _ _ el] using hw
    · intro j w hw
      by_cases e' : j = i
      · subst e'; simp [St.go] at hw
      · simp only [St.go, upd_ne _ _ e'] at hw; exact hs.ev j w hw
    · intro j w d' hw
      by_cases e' : j = i
      · subst e'; simp [St.go] at hw
      · simp only [St.go, upd_ne _ _ e'] at hw; exact hs.wr j w d' hw

theorem PieceInv.reach (hj : SameResults job f) {s : St V} (h : Steps c job chunk St.init s) : PieceInv c job f s := by
  induction h with
  | refl => refine ⟨?_, ?_, ?_⟩ <;> intro _ _ <;> simp [St.init]
  | tail _ h ih => exact ih.step hj h

/-- Results of any size, any schedule: whenever no call is writing a file and none has been killed while it was writing it, the file
holds exactly the result. -/
theorem C158_settled (hj : SameResults job f) {s : St V} (h : Steps c job chunk St.init s) (p : String) (b : Bytes)
    (hf : s.files p = some b)
    (hq : ∀ i, (job i).path = p → (∀ v d, s.pc i ≠ .writing v d) ∧ ∀ d, s.pc i ≠ .killed (some d)) : b = c.encode (f p) := by
  rcases ((PieceInv.reach hj h).file p b hf).2 with h' | ⟨l, d, hp, hw, _⟩
  · exact h'
  · rcases hw with ⟨v, hw⟩ | hw
    · exact absurd hw ((hq l hp).1 v d)
    · exact absurd hw ((hq l hp).2 d)

/-- a call of which nothing but the value `v` can come -/
def Gets (c : Codec V) (v : V) (rest : Bytes) (p : Pc V) : Prop :=
  match p with
  | .idle => True
  | .found => True
  | .reading g => ∃ k, k ≤ (c.encode v ++ rest).length ∧ g = (c.encode v ++ rest).take k
  | .returned w => w = v
  | .killed _ => True
  | _ => False

theorem Step.keeps {s t : St V} (h : Step c job chunk s t) (p : String) (b : Bytes) (hf : s.files p = some b)
    (hq : ∀ i, (job i).path = p → Reader (s.pc i)) : t.files p = some b := by
  cases h with
  | openWrite i v h =>
    by_cases e : p = (job i).path
    · have := hq i e.symm; rw [h] at this; exact this.elim
    · show upd s.files _ _ p = _
      rw [upd_ne _ _ e]; exact hf
  | write i v d e h hd he hc b' hf' =>
    by_cases e : p = (job i).path
    · have := hq i e.symm; rw [h] at this; exact this.elim
    · show upd s.files _ _ p = _
      rw [upd_ne _ _ e]; exact hf
  | _ => exact hf

theorem Steps.keeps {s t : St V} (h : Steps c job chunk s t) (p : String) (b : Bytes) (hf : s.files p = some b)
    (hq : ∀ i, (job i).path = p → Reader (s.pc i)) : t.files p = some b ∧ ∀ i, (job i).path = p → Reader (t.pc i) := by
  have hr : ∀ i, (job i).path = p → Reader (t.pc i) := fun i hi => (Steps.reader h i ⟨b, by rw [hi]; exact hf⟩ (hq i hi)).1
  refine ⟨?_, hr⟩
  clear hr
  induction h with
  | refl => exact hf
  | @tail u t hs h ih =>
    refine h.keeps p b ih fun i hi => (Steps.reader hs i ⟨b, by rw [hi]; exact hf⟩ (hq i hi)).1

theorem Gets.step {s t : St V} (hc : c.Lawful) (h : Step c job chunk s t) (v : V) (rest : Bytes) (i : Nat)
    (hf : s.files (job i).path = some (c.encode v ++ rest)) (hg : Gets c v rest (s.pc i)) : Gets c v rest (t.pc i) := by
  have other : ∀ (j : Nat) (p : Pc V), t.pc = upd s.pc j p → (i = j → Gets c v rest p) → Gets c v rest (t.pc i) := by
    intro j p hpc hp
    rw [hpc]; unfold upd
    split
    · next e => exact hp e
    · exact hg
  cases h with
  | yes j h b hb => exact other j _ rfl fun _ => True.intro
  | no j h hb => exact other j _ rfl fun e => by subst e; rw [hf] at hb; cases hb
  | eval j h w hv => exact other j (.evaluated w) rfl fun e => by subst e; rw [h] at hg; exact hg.elim
  | evalRaise j h hv => exact other j .raised rfl fun e => by subst e; rw [h] at hg; exact hg.elim
  | openWrite j w h => exact other j (.writing w 0) rfl fun e => by subst e; rw [h] at hg; exact hg.elim
  | write j w d e h hd he hch b hb => exact other j (.writing w e) rfl fun e => by subst e; rw [h] at hg; exact hg.elim
  | close j w h => exact other j _ rfl fun e => by subst e; rw [h] at hg; exact hg.elim
  | openRead j h => exact other j _ rfl fun _ => ⟨0, Nat.zero_le _, rfl⟩
  | read j got h hm b hb n hn hl =>
    refine other j _ rfl fun e => ?_
    subst e
    rw [h] at hg
    obtain ⟨k, hk, rfl⟩ := hg
    rw [hf] at hb; cases hb
    rw [take_more _ k n hk]
    exact ⟨min (k + n) (c.encode v ++ rest).length, Nat.min_le_right _ _, List.take_eq_take_min⟩
  | loaded j got h w hv =>
    refine other j _ rfl fun e => ?_
    subst e
    rw [h] at hg
    obtain ⟨k, hk, rfl⟩ := hg
    rw [hc.of_take v rest k] at hv
    split at hv
    · cases hv
    · cases hv; rfl
  | badBytes j got h hv =>
    refine other j _ rfl fun e => ?_
    subst e
    rw [h] at hg
    obtain ⟨k, hk, rfl⟩ := hg
    rw [hc.of_take v rest k] at hv
    split at hv <;> cases hv
  | eof j got h hv b hb hl =>
    refine other j _ rfl fun e => ?_
    subst e
    rw [h] at hg
    obtain ⟨k, hk, rfl⟩ := hg
    rw [hf] at hb; cases hb
    rw [hc.of_take v rest k] at hv
    split at hv
    · next hlt => simp at hl hlt; omega
    · cases hv
  | kill j h => exact other j _ rfl fun _ => True.intro

/-- Once the file of a call begins with a pickled value and no call is on its way to write it, it never changes again, and every call
that starts from now on ends with this value, unless it is killed. -/
theorem C158_settled_forever (hc : c.Lawful) {s t : St V} (h : Steps c job chunk s t) (p : String) (v : V) (rest : Bytes)
    (hf : s.files p = some (c.encode v ++ rest))
    (hq : ∀ i, (job i).path = p → s.pc i ≠ .missing ∧ (∀ w, s.pc i ≠ .evaluated w) ∧ ∀ w d, s.pc i ≠ .writing w d) :
    t.files p = some (c.encode v ++ rest) ∧
    ∀ i, (job i).path = p → s.pc i = .idle → t.pc i ≠ .raised ∧ ∀ w, t.pc i = .returned w → w = v := by
  have hq' : ∀ i, (job i).path = p → Reader (s.pc i) := by
    intro i hi
    obtain ⟨h1, h2, h3⟩ := hq i hi
    cases hp : s.pc i with
    | missing => exact h1 hp
    | evaluated w => exact h2 w hp
    | writing w d => exact h3 w d hp
    | _ => exact True.intro
  refine ⟨(Steps.keeps h p _ hf hq').1, fun i hi hidle => ?_⟩
  have : Gets c v rest (t.pc i) := by
    induction h with
    | refl => rw [hidle]; exact True.intro
    | @tail u t hs h ih => exact Gets.step hc h v rest i (by rw [hi]; exact (Steps.keeps hs p _ hf hq').1) ih
  refine ⟨fun hr => ?_, fun w hw => ?_⟩
  · rw [hr] at this; exact this
  · rw [hw] at this; exact this

/-! ### no call waits for another -/

theorem writing_le {s : St V} (h : Steps c job chunk St.init s) (i : Nat) :
    ∀ v d, s.pc i = .writing v d → d ≤ (c.encode v).length ∧ ∃ b, s.files (job i).path = some b := by
  induction h with
  | refl => intro v d h; cases h
  | @tail u t hs h ih =>
    intro v d ht
    have other : ∀ (j : Nat) (p : Pc V), t.pc = upd u.pc j p → (∀ w e, p ≠ .writing w e) → u.pc i = .writing v d := by
      intro j p hpc hp
      rw [hpc] at ht; unfold upd at ht
      split at ht
      · exact absurd ht (hp v d)
      · exact ht
    have stay := h.files_stay (job i).path
    suffices d ≤ (c.encode v).length ∧ ((∃ b, u.files (job i).path = some b) ∨ ∃ b, t.files (job i).path = some b) from
      ⟨this.1, this.2.elim stay id⟩
    cases h with
    | openWrite j w h =>
      by_cases e : i = j
      · subst e
        simp only [St.go, upd_self, Pc.writing.injEq] at ht
        rw [← ht.2]
        exact ⟨Nat.zero_le _, Or.inr ⟨[], upd_self _ _ _⟩⟩
      · simp only [St.go, upd_ne _ _ e] at ht
        exact ⟨(ih v d ht).1, Or.inl (ih v d ht).2⟩
    | write j w d' e' h hd he hch b hb =>
      by_cases e : i = j
      · subst e
        simp only [St.go, upd_self, Pc.writing.injEq] at ht
        obtain ⟨rfl, rfl⟩ := ht
        exact ⟨he, Or.inl ⟨b, hb⟩⟩
      · simp only [St.go, upd_ne _ _ e] at ht
        exact ⟨(ih v d ht).1, Or.inl (ih v d ht).2⟩
    | yes j h b hb => have := ih v d (other j _ rfl (by simp)); exact ⟨this.1, Or.inl this.2⟩
    | no j h hb => have := ih v d (other j _ rfl (by simp)); exact ⟨this.1, Or.inl this.2⟩
    | eval j h w hv => have := ih v d (other j (.evaluated w) rfl (by simp)); exact ⟨this.1, Or.inl this.2⟩
    | evalRaise j h hv => have := ih v d (other j .raised rfl (by simp)); exact ⟨this.1, Or.inl this.2⟩
    | close j w h => have := ih v d (other j _ rfl (by simp)); exact ⟨this.1, Or.inl this.2⟩
    | openRead j h => have := ih v d (other j _ rfl (by simp)); exact ⟨this.1, Or.inl this.2⟩
    | read j got h hm b hb n hn hl => have := ih v d (other j _ rfl (by simp)); exact ⟨this.1, Or.inl this.2⟩
    | loaded j got h w hv => have := ih v d (other j _ rfl (by simp)); exact ⟨this.1, Or.inl this.2⟩
    | badBytes j got h hv => have := ih v d (other j _ rfl (by simp)); exact ⟨this.1, Or.inl this.2⟩
    | eof j got h hv b hb hl => have := ih v d (other j _ rfl (by simp)); exact ⟨this.1, Or.inl this.2⟩
    | kill j h => have := ih v d (other j _ rfl (by simp)); exact ⟨this.1, Or.inl this.2⟩

/-- a call that has found a file -/
def Found (p : Pc V) : Prop := p = .found ∨ ∃ g, p = .reading g

theorem found_file {s : St V} (h : Steps c job chunk St.init s) (i : Nat) : Found (s.pc i) → ∃ b, s.files (job i).path = some b := by
  induction h with
  | refl => rintro (h | ⟨g, h⟩) <;> cases h
  | @tail u t hs h ih =>
    intro ht
    have stay := h.files_stay (job i).path
    apply stay
    have other : ∀ (j : Nat) (p : Pc V), t.pc = upd u.pc j p → ¬ Found p → ∃ b, u.files (job i).path = some b := by
      intro j p hpc hp
      rw [hpc] at ht; unfold upd at ht
      split at ht
      · exact absurd ht hp
      · exact ih ht
    have next : ∀ (j : Nat) (p : Pc V), t.pc = upd u.pc j p → Found (u.pc j) → ∃ b, u.files (job i).path = some b := by
      intro j p hpc hp
      rw [hpc] at ht; unfold upd at ht
      split at ht
      · next e => exact ih (e ▸ hp)
      · exact ih ht
    cases h with
    | yes j h b hb =>
      by_cases e : i = j
      · subst e; exact ⟨b, hb⟩
      · rw [pc_go, if_neg e] at ht; exact ih ht
    | no j h hb => exact other j _ rfl (by simp [Found])
    | eval j h w hv => exact other j (.evaluated w) rfl (by simp [Found])
    | evalRaise j h hv => exact other j .raised rfl (by simp [Found])
    | openWrite j w h => exact other j (.writing w 0) rfl (by simp [Found])
    | write j w d' e' h hd he hch b hb => exact other j (.writing w e') rfl (by simp [Found])
    | close j w h => exact other j _ rfl (by simp [Found])
    | openRead j h => exact next j _ rfl (Or.inl h)
    | read j got h hm b hb n hn hl => exact next j _ rfl (Or.inr ⟨got, h⟩)
    | loaded j got h w hv => exact other j _ rfl (by simp [Found])
    | badBytes j got h hv => exact other j _ rfl (by simp [Found])
    | eof j got h hv b hb hl => exact other j _ rfl (by simp [Found])
    | kill j h => exact other j _ rfl (by simp [Found])

/-- A call that has not ended can always go on by itself, whatever the other calls do. -/
theorem C158_never_stuck {s : St V} (h : Steps c job anyChunk St.init s) (i : Nat) (ha : (s.pc i).Alive) :
    ∃ t, Step c job anyChunk s t ∧ (∀ j, j ≠ i → t.pc j = s.pc j) ∧ t.pc i ≠ s.pc i ∧ ∀ o, t.pc i ≠ .killed o := by
  have go : ∀ (t : St V) (p : Pc V), Step c job anyChunk s t → t.pc = upd s.pc i p → p ≠ s.pc i → (∀ o, p ≠ .killed o) →
      ∃ t, Step c job anyChunk s t ∧ (∀ j, j ≠ i → t.pc j = s.pc j) ∧ t.pc i ≠ s.pc i ∧ ∀ o, t.pc i ≠ .killed o := by
    intro t p hst hpc h1 h2
    refine ⟨t, hst, fun j hj => by rw [hpc, upd_ne _ _ hj], ?_, ?_⟩
    · rw [hpc, upd_self]; exact h1
    · rw [hpc, upd_self]; exact h2
  cases hp : s.pc i with
  | idle =>
    cases hf : s.files (job i).path with
    | none => exact hp ▸ go _ _ (.no s i hp hf) rfl (by simp [hp]) (by simp)
    | some b => exact hp ▸ go _ _ (.yes s i hp b hf) rfl (by simp [hp]) (by simp)
  | missing =>
    cases hv : (job i).ev with
    | none => exact hp ▸ go _ .raised (.evalRaise s i hp hv) rfl (by simp [hp]) (by simp)
    | some v => exact hp ▸ go _ (.evaluated v) (.eval s i hp v hv) rfl (by simp [hp]) (by simp)
  | evaluated v => exact hp ▸ go _ (.writing v 0) (.openWrite s i v hp) rfl (by simp [hp]) (by simp)
  | writing v d =>
    obtain ⟨hd, b, hb⟩ := writing_le h i v d hp
    by_cases e : d = (c.encode v).length
    · subst e; exact hp ▸ go _ _ (.close s i v hp) rfl (by simp [hp]) (by simp)
    · exact hp ▸ go _ (.writing v (d + 1)) (.write s i v d (d + 1) hp (by omega) (by omega) True.intro b hb) rfl (by simp [hp]) (by simp)
  | found => exact hp ▸ go _ _ (.openRead s i hp) rfl (by simp [hp]) (by simp)
  | reading g =>
    obtain ⟨b, hb⟩ := found_file h i (Or.inr ⟨g, hp⟩)
    cases hd : c.decode g with
    | done v => exact hp ▸ go _ _ (.loaded s i g hp v hd) rfl (by simp [hp]) (by simp)
    | bad => exact hp ▸ go _ _ (.badBytes s i g hp hd) rfl (by simp [hp]) (by simp)
    | more =>
      by_cases hl : g.length < b.length
      · refine hp ▸ go _ _ (.read s i g hp hd b hb 1 Nat.one_pos hl) rfl ?_ (by simp)
        rw [hp]
        intro e
        have := congrArg List.length (Pc.reading.inj e)
        simp at this
        omega
      · exact hp ▸ go _ _ (.eof s i g hp hd b hb (by omega)) rfl (by simp [hp]) (by simp)
  | returned v => rw [hp] at ha; exact ha.elim
  | raised => rw [hp] at ha; exact ha.elim
  | killed o => rw [hp] at ha; exact ha.elim

/-- A call ends after at most four steps and one step per byte of the result, whatever the other calls do. -/
theorem C158_ends (hj : SameResults job f) (i : Nat) :
    ∃ left : Pc V → Nat, (∀ p, left p ≤ (c.encode (f (job i).path)).length + 4) ∧
      ∀ s t, Steps c job chunk St.init s → Step c job chunk s t → t.pc i = s.pc i ∨ left (t.pc i) < left (s.pc i) := by
  let L := (c.encode (f (job i).path)).length
  refine ⟨fun p => match p with
    | .idle => L + 4
    | .missing => L + 3
    | .evaluated _ => L + 2
    | .writing _ d => L - d + 1
    | .found => L + 3
    | .reading g => L - g.length + 1
    | _ => 0, ?_, ?_⟩
  · intro p
    cases p <;> dsimp only <;> omega
  · intro s t h hst
    have hI := PieceInv.reach hj h
    have other : ∀ (j : Nat) (p : Pc V) (q : Prop), t.pc = upd s.pc j p → (i = j → t.pc i = p → q) → t.pc i = s.pc i ∨ q := by
      intro j p q hpc hq
      by_cases e : i = j
      · subst e; exact Or.inr (hq rfl (by rw [hpc, upd_self]))
      · left; rw [hpc, upd_ne _ _ e]
    cases hst with
    | yes j h b hb => refine other j _ _ rfl fun e hp => ?_; subst e; rw [hp, h]; dsimp only; omega
    | no j h hb => refine other j _ _ rfl fun e hp => ?_; subst e; rw [hp, h]; dsimp only; omega
    | eval j h w hv => refine other j (.evaluated w) _ rfl fun e hp => ?_; subst e; rw [hp, h]; dsimp only; omega
    | evalRaise j h hv => refine other j .raised _ rfl fun e hp => ?_; subst e; rw [hp, h]; dsimp only; omega
    | openWrite j w h => refine other j (.writing w 0) _ rfl fun e hp => ?_; subst e; rw [hp, h]; dsimp only; omega
    | write j w d e h hd he hch b hb =>
      refine other j (.writing w e) _ rfl fun e' hp => ?_
      subst e'; rw [hp, h]; dsimp only
      have := (hI.wr i w d h).1
      subst this
      have : e ≤ L := he
      omega
    | close j w h => refine other j _ _ rfl fun e hp => ?_; subst e; rw [hp, h]; dsimp only; omega
    | openRead j h => refine other j _ _ rfl fun e hp => ?_; subst e; rw [hp, h]; simp
    | read j got h hm b hb n hn hl =>
      refine other j _ _ rfl fun e hp => ?_
      subst e; rw [hp, h]; dsimp only
      have : b.length ≤ L := (hI.file _ b hb).1
      simp
      omega
    | loaded j got h w hv => refine other j _ _ rfl fun e hp => ?_; subst e; rw [hp, h]; dsimp only; omega
    | badBytes j got h hv => refine other j _ _ rfl fun e hp => ?_; subst e; rw [hp, h]; dsimp only; omega
    | eof j got h hv b hb hl => refine other j _ _ rfl fun e hp => ?_; subst e; rw [hp, h]; dsimp only; omega
    | kill j h =>
      refine other j _ _ rfl fun e hp => ?_
      subst e; rw [hp]
      cases hp' : s.pc i with
      | returned v => rw [hp'] at h; exact h.elim
      | raised => rw [hp'] at h; exact h.elim
      | killed o => rw [hp'] at h; exact h.elim
      | _ => dsimp only; omega

/-! ### what can go wrong -/

/-- a format as pickle has it: the byte 1 before each element, the byte 0 at the end -/
def enc : List UInt8 → Bytes
  | [] => [0]
  | x :: xs => 1 :: x :: enc xs

/-- reading this format -/
def dec : Bytes → Decoded (List UInt8)
  | [] => .more
  | [x] => if x = 0 then .done [] else if x = 1 then .more else .bad
  | x :: y :: r => if x = 0 then .done [] else if x = 1 then
      match dec r with
      | .done v => .done (y :: v)
      | .more => .more
      | .bad => .bad
    else .bad

/-- the format -/
def demo : Codec (List UInt8) := ⟨enc, dec⟩

theorem demo_lawful : demo.Lawful := by
  constructor
  · intro v rest
    show dec (enc v ++ rest) = _
    induction v with
    | nil => cases rest <;> simp [enc, dec]
    | cons x xs ih => simp [enc, dec, ih]
  · intro v
    show ∀ n, n < (enc v).length → dec ((enc v).take n) = _
    induction v with
    | nil => intro n hn; simp [enc] at hn; subst hn; rfl
    | cons x xs ih =>
      intro n hn
      match n with
      | 0 => rfl
      | 1 => simp [enc, dec]
      | n + 2 =>
        simp only [enc, List.length_cons] at hn
        simp [enc, dec, ih n (by omega)]

/-- every call is a call of the same deterministic function without a key -/
def same : Nat → Job (List UInt8) := fun _ => ⟨"f", some [5, 7, 9]⟩

theorem same_results : SameResults same (fun _ => [5, 7, 9]) := fun _ _ h => (Option.some.inj h).symm

/-- Even small results are evaluated by every call that starts before the first one has opened its file. -/
theorem C158_evaluated_twice_witness : ∃ s, Steps demo same whole St.init s ∧ s.evals = [0, 1] ∧
    s.pc 0 = .returned [5, 7, 9] ∧ s.pc 1 = .returned [5, 7, 9] := by
  refine ⟨_, .tail (.tail (.tail (.tail (.tail (.tail (.tail (.tail (.tail (.tail .refl
    (.no _ 0 rfl rfl)) (.no _ 1 rfl rfl)) (.eval _ 0 rfl [5, 7, 9] rfl)) (.eval _ 1 rfl [5, 7, 9] rfl))
    (.openWrite _ 0 [5, 7, 9] rfl)) (.write _ 0 [5, 7, 9] 0 7 rfl (by decide) (by decide) ⟨rfl, rfl⟩ _ rfl)) (.close _ 0 [5, 7, 9] rfl))
    (.openWrite _ 1 [5, 7, 9] rfl)) (.write _ 1 [5, 7, 9] 0 7 rfl (by decide) (by decide) ⟨rfl, rfl⟩ _ rfl)) (.close _ 1 [5, 7, 9] rfl),
    rfl, rfl, rfl⟩

/-- A call can raise although the function never raises and no process is killed: it reads while another one is writing. -/
theorem C158_raises_witness : ∃ s, Steps demo same whole St.init s ∧ s.pc 1 = .raised ∧ s.pc 0 = .returned [5, 7, 9] := by
  refine ⟨_, .tail (.tail (.tail (.tail (.tail (.tail (.tail (.tail .refl
    (.no _ 0 rfl rfl)) (.eval _ 0 rfl [5, 7, 9] rfl)) (.openWrite _ 0 [5, 7, 9] rfl))
    (.yes _ 1 rfl _ rfl)) (.openRead _ 1 rfl)) (.eof _ 1 [] rfl rfl _ rfl (by decide)))
    (.write _ 0 [5, 7, 9] 0 7 rfl (by decide) (by decide) ⟨rfl, rfl⟩ _ rfl)) (.close _ 0 [5, 7, 9] rfl),
    rfl, rfl⟩

/-- Results that are written in pieces: with a deterministic function and one kill, a wrong value stays in the cache. All calls that
have started have ended, and every call that starts later gets the wrong value. -/
theorem C158_wrong_forever_witness : ∃ s, Steps demo same anyChunk St.init s ∧ s.pc 0 = .returned [5, 7, 9] ∧ s.pc 1 = .killed (some 2) ∧
    (∀ i, 2 ≤ i → s.pc i = .idle) ∧ s.files "f" = some [1, 5, 0, 0, 1, 9, 0] ∧
    (∀ t, Steps demo same anyChunk s t → ∀ i, 2 ≤ i → t.pc i ≠ .raised ∧ ∀ w, t.pc i = .returned w → w = [5]) ∧
    ∃ t, Steps demo same anyChunk s t ∧ t.pc 2 = .returned [5] := by
  refine ⟨_, .tail (.tail (.tail (.tail (.tail (.tail (.tail (.tail (.tail (.tail (.tail .refl
    (.no _ 0 rfl rfl)) (.no _ 1 rfl rfl)) (.eval _ 0 rfl [5, 7, 9] rfl)) (.eval _ 1 rfl [5, 7, 9] rfl))
    (.openWrite _ 0 [5, 7, 9] rfl)) (.write _ 0 [5, 7, 9] 0 4 rfl (by decide) (by decide) True.intro _ rfl))
    (.openWrite _ 1 [5, 7, 9] rfl)) (.write _ 1 [5, 7, 9] 0 2 rfl (by decide) (by decide) True.intro _ rfl))
    (.kill _ 1 True.intro)) (.write _ 0 [5, 7, 9] 4 7 rfl (by decide) (by decide) True.intro _ rfl)) (.close _ 0 [5, 7, 9] rfl),
    rfl, rfl, ?_, rfl, ?_, ?_⟩
  · rintro (_ | _ | i) hi
    · omega
    · omega
    · rfl
  · intro t ht i hi
    refine (C158_settled_forever demo_lawful ht "f" [5] [0, 1, 9, 0] rfl ?_).2 i rfl ?_
    · rintro (_ | _ | i) _
      · exact ⟨nofun, fun _ => nofun, fun _ _ => nofun⟩
      · exact ⟨nofun, fun _ => nofun, fun _ _ => nofun⟩
      · exact ⟨nofun, fun _ => nofun, fun _ _ => nofun⟩
    · match i, hi with
      | i + 2, _ => rfl
  · exact ⟨_, .tail (.tail (.tail (.tail .refl (.yes _ 2 rfl _ rfl)) (.openRead _ 2 rfl))
      (.read _ 2 [] rfl rfl _ rfl 7 (by decide) (by decide))) (.loaded _ 2 _ rfl [5] rfl), rfl⟩

/-- two calls of a function that gives different results, without a key -/
def differ : Nat → Job (List UInt8) := fun i => ⟨"f", some (if i = 0 then [5, 7] else [6, 8])⟩

/-- Results that differ and are written in pieces: without any kill, the file can end up with a value that no evaluation gave. -/
theorem C158_mixture_witness : ∃ s, Steps demo differ anyChunk St.init s ∧ s.pc 0 = .returned [5, 7] ∧ s.pc 1 = .returned [6, 8] ∧
    s.files "f" = some (demo.encode [6, 7]) := by
  exact ⟨_, .tail (.tail (.tail (.tail (.tail (.tail (.tail (.tail (.tail (.tail (.tail .refl
    (.no _ 0 rfl rfl)) (.no _ 1 rfl rfl)) (.eval _ 0 rfl [5, 7] rfl)) (.eval _ 1 rfl [6, 8] rfl))
    (.openWrite _ 0 [5, 7] rfl)) (.openWrite _ 1 [6, 8] rfl))
    (.write _ 0 [5, 7] 0 2 rfl (by decide) (by decide) True.intro _ rfl)) (.write _ 1 [6, 8] 0 5 rfl (by decide) (by decide) True.intro _ rfl))
    (.write _ 0 [5, 7] 2 5 rfl (by decide) (by decide) True.intro _ rfl)) (.close _ 0 [5, 7] rfl)) (.close _ 1 [6, 8] rfl),
    rfl, rfl, rfl⟩

/-! ### the decorator -/

/-- Decorating in several processes at the same time: one that got past the decorator has a directory, and it never goes away. -/
theorem C158_directory {s : Bool × (Nat → MkPc)} (h : Relation.ReflTransGen MkStep (false, fun _ => .start) s) (i : Nat)
    (hi : s.2 i = .ready) : s.1 = true := by
  suffices ∀ i, s.2 i = .ready ∨ s.2 i = .raised → s.1 = true from this i (Or.inl hi)
  clear hi i
  induction h with
  | refl => rintro i (h | h) <;> cases h
  | tail _ h ih =>
    cases h with
    | notThere f j h =>
      intro i hi
      by_cases e : i = j
      · subst e; simp at hi
      · simp only [upd_ne _ _ e] at hi; exact ih i hi
    | _ => exact fun _ _ => rfl

/-- Decorating in several processes at the same time can raise FileExistsError. -/
theorem C158_directory_raises_witness : ∃ s, Relation.ReflTransGen MkStep (false, fun _ => .start) s ∧ s.2 1 = .raised :=
  ⟨_, .tail (.tail (.tail (.tail .refl (.notThere _ 0 rfl)) (.notThere _ 1 rfl)) (.made _ 0 rfl)) (.fails _ 1 rfl), rfl⟩

/-! ### the hypotheses are met -/

/-- two calls, one after the other, with a result in two pieces: the state is settled, and the second one reads -/
example : ∃ s, Steps demo same anyChunk St.init s ∧ s.files "f" = some (demo.encode [5, 7, 9]) ∧ s.pc 0 = .returned [5, 7, 9] ∧
    s.pc 1 = .returned [5, 7, 9] ∧ s.pc 2 = .idle ∧ s.evals = [0] := by
  exact ⟨_, .tail (.tail (.tail (.tail (.tail (.tail (.tail (.tail (.tail (.tail .refl
    (.no _ 0 rfl rfl)) (.eval _ 0 rfl [5, 7, 9] rfl))
    (.openWrite _ 0 [5, 7, 9] rfl)) (.write _ 0 [5, 7, 9] 0 4 rfl (by decide) (by decide) True.intro _ rfl))
    (.write _ 0 [5, 7, 9] 4 7 rfl (by decide) (by decide) True.intro _ rfl)) (.close _ 0 [5, 7, 9] rfl))
    (.yes _ 1 rfl _ rfl)) (.openRead _ 1 rfl)) (.read _ 1 [] rfl rfl _ rfl 9 (by decide) (by decide))) (.loaded _ 1 _ rfl [5, 7, 9] rfl),
    rfl, rfl, rfl, rfl, rfl⟩

end Prolothar.CacheRace
