import Verif.Model.SeqInstance
/-
C204: the sequence and the symbols of a `TargetSequenceInstance`.
-/
namespace Prolothar.SeqInstance
variable {σ : Type} [DecidableEq σ]

/-- the symbols that the instance reports are those of its sequence -/
def Agrees (x : SeqInst σ) : Prop :=
  (∀ s, containsSymbol x s = true ↔ s ∈ getTargetSequence x) ∧ (getSymbols x).Nodup ∧ ∀ s, s ∈ getSymbols x ↔ s ∈ getTargetSequence x

/-- an instance after its construction and any calls of `set_target_sequence`; calls that raise are caught -/
inductive Reached (hashable : σ → Bool) (ok : SeqArg σ → Prop) : SeqInst σ → Prop
  | new {arg x} : ok arg → new hashable arg = .ok x → Reached hashable ok x
  | set {arg x} : Reached hashable ok x → ok arg → Reached hashable ok (setTargetSequence hashable arg x).2

theorem frozenset_ok {hashable : σ → Bool} {l : List σ} (h : ∀ a ∈ l, hashable a = true) : frozenset hashable l = .ok l.dedup := by
  unfold frozenset
  rw [if_pos (List.all_eq_true.2 h)]

theorem frozenset_error {hashable : σ → Bool} {l : List σ} (h : ∃ a ∈ l, hashable a = false) : frozenset hashable l = .error .type := by
  unfold frozenset
  rw [if_neg]
  obtain ⟨a, h1, h2⟩ := h
  intro hc
  rw [List.all_eq_true.1 hc a h1] at h2
  cases h2

theorem agrees_dedup (l : List σ) : Agrees (⟨l, l.dedup⟩ : SeqInst σ) :=
  ⟨fun s => by simp [containsSymbol, getTargetSequence], List.nodup_dedup l, fun s => by simp [getSymbols, getTargetSequence]⟩

/-- C204: a call with a tuple or a list of hashable elements sets the sequence to these elements, and the instance reports exactly their
symbols, whatever it reported before -/
theorem C204_set {hashable : σ → Bool} {l : List σ} (h : ∀ a ∈ l, hashable a = true) (x : SeqInst σ) :
    (setTargetSequence hashable (.container l) x).1 = .ok () ∧
    getTargetSequence (setTargetSequence hashable (.container l) x).2 = l ∧ Agrees (setTargetSequence hashable (.container l) x).2 ∧
    ∃ y, new hashable (.container l) = .ok y ∧ getTargetSequence y = l ∧ Agrees y := by
  have hset : ∀ x, setTargetSequence hashable (.container l) x = (.ok (), ⟨l, l.dedup⟩) := by
    intro x
    unfold setTargetSequence
    dsimp only
    rw [frozenset_ok h]
  rw [hset]
  refine ⟨rfl, rfl, agrees_dedup l, ⟨l, l.dedup⟩, ?_, rfl, agrees_dedup l⟩
  unfold new
  rw [hset]

/-- C204: so after any history of calls with tuples and lists of hashable elements, in which also iterators that raise may occur, the
reported symbols are those of the sequence -/
theorem C204_agrees {hashable : σ → Bool} {x : SeqInst σ} (hx : Reached hashable
    (fun arg => (∃ l, arg = .container l ∧ ∀ a ∈ l, hashable a = true) ∨ ∃ l e, arg = .iterator l (some e)) x) : Agrees x := by
  induction hx with
  | new ha hn =>
    rcases ha with ⟨l, rfl, h⟩ | ⟨l, e, rfl⟩
    · obtain ⟨_, _, _, y, h1, _, h3⟩ := C204_set h (⟨[], []⟩ : SeqInst σ)
      rw [hn] at h1
      cases h1
      exact h3
    · cases hn
  | @set arg x _ ha ih =>
    rcases ha with ⟨l, rfl, h⟩ | ⟨l, e, rfl⟩
    · exact (C204_set h x).2.2.1
    · exact ih

/-- C204: an iterator (a generator, `map`, `reversed`) is accepted: the sequence is right, but the instance reports no symbols at all -/
theorem C204_iterator (hashable : σ → Bool) (l : List σ) (x : SeqInst σ) :
    (setTargetSequence hashable (.iterator l none) x).1 = .ok () ∧
    getTargetSequence (setTargetSequence hashable (.iterator l none) x).2 = l ∧
    getSymbols (setTargetSequence hashable (.iterator l none) x).2 = [] ∧
    (∀ s, containsSymbol (setTargetSequence hashable (.iterator l none) x).2 s = false) ∧
    ∃ y, new hashable (.iterator l none) = .ok y ∧ getTargetSequence y = l ∧ getSymbols y = [] := by
  have hset : ∀ x, setTargetSequence hashable (.iterator l none) x = (.ok (), ⟨l, []⟩) := by
    intro x
    unfold setTargetSequence
    dsimp only
    rw [frozenset_ok (by simp)]
    rfl
  rw [hset]
  refine ⟨rfl, rfl, rfl, fun s => by simp [containsSymbol], ⟨l, []⟩, ?_, rfl, rfl⟩
  unfold new
  rw [hset]

/-- C204: calls that raise. An iterator that raises leaves the instance as it was. An element that cannot be hashed raises a TypeError and
leaves the new sequence with the old symbols behind. The constructor raises in the same cases. -/
theorem C204_raises (hashable : σ → Bool) (l : List σ) (x : SeqInst σ) (e : PyErr) :
    setTargetSequence hashable (.iterator l (some e)) x = (.error e, x) ∧ new hashable (.iterator l (some e)) = .error e ∧
    ((∃ a ∈ l, hashable a = false) →
      (setTargetSequence hashable (.container l) x).1 = .error .type ∧
      getTargetSequence (setTargetSequence hashable (.container l) x).2 = l ∧
      getSymbols (setTargetSequence hashable (.container l) x).2 = getSymbols x ∧ new hashable (.container l) = .error .type) := by
  refine ⟨rfl, rfl, fun h => ?_⟩
  have hset : ∀ x, setTargetSequence hashable (.container l) x = (.error .type, { x with seq := l }) := by
    intro x
    unfold setTargetSequence
    dsimp only
    rw [frozenset_error h]
  rw [hset]
  refine ⟨rfl, rfl, rfl, ?_⟩
  unfold new
  rw [hset]

/-- C204: a copy reports the right symbols even if the original does not; copying raises if an element cannot be hashed -/
theorem C204_copy (hashable : σ → Bool) (x : SeqInst σ) :
    ((∀ a ∈ getTargetSequence x, hashable a = true) →
      ∃ y, copy hashable x = .ok y ∧ getTargetSequence y = getTargetSequence x ∧ Agrees y) ∧
    ((∃ a ∈ getTargetSequence x, hashable a = false) → copy hashable x = .error .type) := by
  constructor
  · intro h
    exact (C204_set h x).2.2.2
  · intro h
    exact ((C204_raises hashable x.seq x .type).2.2 h).2.2.2

/-- the hypotheses are met: a history with a list, an iterator that raises and a tuple; the same elements from a generator -/
example : ∃ x : SeqInst String, Reached (fun _ => true)
      (fun arg => (∃ l, arg = .container l ∧ ∀ a ∈ l, (fun _ : String => true) a = true) ∨ ∃ l e, arg = .iterator l (some e)) x ∧
    getTargetSequence x = ["b", "c", "b"] ∧ containsSymbol x "c" = true ∧ containsSymbol x "a" = false ∧
    containsSymbol (setTargetSequence (fun _ => true) (.iterator ["b", "c", "b"] none) x).2 "c" = false :=
  ⟨⟨["b", "c", "b"], ["b", "c", "b"].dedup⟩,
    .set (arg := .container ["b", "c", "b"]) (.set (arg := .iterator ["z"] (some .key)) (.new (arg := .container ["a"])
      (.inl ⟨_, rfl, by simp⟩) (x := ⟨["a"], ["a"].dedup⟩) (by rfl)) (.inr ⟨_, _, rfl⟩)) (.inl ⟨_, rfl, by simp⟩),
    rfl, by decide, by decide, by decide⟩

end Prolothar.SeqInstance
