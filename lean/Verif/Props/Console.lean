import Verif.Spec.Console
import Mathlib.Tactic.Set
/-
C73: nullify_output.
-/
namespace Prolothar.Console
open Prolothar.Spec.Console

variable {α : Type}

/-- C73: whatever the body does (also to the streams themselves), and whether it returns or raises, the suppressed
streams are afterwards the objects they were before, the others are what the body made them, and the body's result or
exception is passed on -/
theorem C73_restored (so se : Bool) (body : State → State × Py α) (s : State) :
    ∃ inside after, body inside = after ∧ (nullify so se body s).2 = after.2 ∧
      (nullify so se body s).1.stdout = (if so then s.stdout else after.1.stdout) ∧
      (nullify so se body s).1.stderr = (if se then s.stderr else after.1.stderr) ∧
      (nullify so se body s).1.written = after.1.written ∧
      inside.stdout = (if so then s.next else s.stdout) ∧ inside.stderr = (if se then s.next else s.stderr) ∧
      inside.written = s.written ∧ inside.closed = s.closed :=
  ⟨_, _, rfl, rfl, rfl, rfl, rfl, rfl, rfl, rfl, rfl⟩

/-- what a program that only prints does to the rest of the world -/
theorem run_spec (p : Prog α) : ∀ s : State,
    (p.run s).1.stdout = s.stdout ∧ (p.run s).1.stderr = s.stderr ∧ s.next ≤ (p.run s).1.next ∧
      ∀ x < s.next, (p.run s).1.closed x = s.closed x ∧ (x ≠ s.stdout → x ≠ s.stderr → (p.run s).1.written x = s.written x) := by
  induction p with
  | done r => intro s; simp [Prog.run]
  | print e text k ih =>
    intro s
    simp only [Prog.run]
    set w := write (if e then s.stderr else s.stdout) text s with hw
    have hs : w.1.stdout = s.stdout ∧ w.1.stderr = s.stderr ∧ w.1.next = s.next ∧ w.1.closed = s.closed ∧
        ∀ x, x ≠ s.stdout → x ≠ s.stderr → w.1.written x = s.written x := by
      rw [hw]
      have key : ∀ y, (y = s.stdout ∨ y = s.stderr) → (write y text s).1.stdout = s.stdout ∧ (write y text s).1.stderr = s.stderr ∧
          (write y text s).1.next = s.next ∧ (write y text s).1.closed = s.closed ∧
          ∀ x, x ≠ s.stdout → x ≠ s.stderr → (write y text s).1.written x = s.written x := by
        intro y hy
        unfold write
        split
        · simp
        · refine ⟨rfl, rfl, rfl, rfl, fun x h1 h2 => upd_ne _ _ ?_⟩
          rcases hy with rfl | rfl <;> assumption
      exact key _ (by cases e <;> simp)
    obtain ⟨h1, h2, h3, h4, h5⟩ := hs
    obtain ⟨i1, i2, i3, i4⟩ := ih w.2 w.1
    refine ⟨i1.trans h1, i2.trans h2, h3 ▸ i3, fun x hx => ?_⟩
    obtain ⟨j1, j2⟩ := i4 x (h3 ▸ hx)
    exact ⟨by rw [j1, h4], fun a b => by rw [j2 (h1 ▸ a) (h2 ▸ b), h5 x a b]⟩
  | nullified so se body k ihb ihk =>
    intro s
    simp only [Prog.run]
    obtain ⟨b1, b2, b3, b4⟩ := ihb (enter so se s).1
    obtain ⟨i1, i2, i3, i4⟩ := ihk (nullify so se body.run s).2 (nullify so se body.run s).1
    have hn : (enter so se s).1.next = s.next + 1 := rfl
    have e1 : (nullify so se body.run s).1.stdout = s.stdout := by
      show (if so then s.stdout else (body.run (enter so se s).1).1.stdout) = s.stdout
      rw [b1]; unfold enter; cases so <;> rfl
    have e2 : (nullify so se body.run s).1.stderr = s.stderr := by
      show (if se then s.stderr else (body.run (enter so se s).1).1.stderr) = s.stderr
      rw [b2]; unfold enter; cases se <;> rfl
    have e3 : s.next + 1 ≤ (nullify so se body.run s).1.next := b3
    refine ⟨i1.trans e1, i2.trans e2, by omega, fun x hx => ?_⟩
    obtain ⟨j1, j2⟩ := i4 x (by omega)
    obtain ⟨l1, l2⟩ := b4 x (by rw [hn]; omega)
    refine ⟨?_, fun a b => ?_⟩
    · rw [j1]
      show upd (body.run (enter so se s).1).1.closed s.next true x = s.closed x
      rw [upd_ne _ _ (by omega), l1]; rfl
    · rw [j2 (e1 ▸ a) (e2 ▸ b)]
      show (body.run (enter so se s).1).1.written x = s.written x
      refine (l2 ?_ ?_).trans rfl
      · unfold enter; cases so
        · exact a
        · exact (by simp only [if_true]; omega)
      · unfold enter; cases se
        · exact b
        · exact (by simp only [if_true]; omega)

/-- C73: nothing a program prints inside the block reaches a stream that existed before, unless only the other one of
stdout and stderr is suppressed; no existing stream is closed -/
theorem C73_silent (so se : Bool) (p : Prog α) (s : State) : ∀ x < s.next,
    (so = false → x ≠ s.stdout) → (se = false → x ≠ s.stderr) →
      (nullify so se p.run s).1.written x = s.written x ∧ (nullify so se p.run s).1.closed x = s.closed x := by
  intro x hx h1 h2
  obtain ⟨_, _, b3, b4⟩ := run_spec p (enter so se s).1
  have hn : (enter so se s).1.next = s.next + 1 := rfl
  obtain ⟨l1, l2⟩ := b4 x (by rw [hn]; omega)
  constructor
  · show (p.run (enter so se s).1).1.written x = s.written x
    refine (l2 ?_ ?_).trans rfl
    · unfold enter; cases so
      · exact h1 rfl
      · exact (by simp only [if_true]; omega)
    · unfold enter; cases se
      · exact h2 rfl
      · exact (by simp only [if_true]; omega)
  · show upd (p.run (enter so se s).1).1.closed s.next true x = s.closed x
    rw [upd_ne _ _ (by omega), l1]; rfl

/-- C73: with both streams suppressed, as by default, nothing reaches any existing stream -/
theorem C73_silent_both (p : Prog α) (s : State) (x : Nat) (hx : x < s.next) :
    (nullify true true p.run s).1.written x = s.written x :=
  (C73_silent true true p s x hx (by simp) (by simp)).1

/-- the streams of the process are open -/
def Open (s : State) : Prop := s.closed s.stdout = false ∧ s.closed s.stderr = false ∧ ∀ x, s.next ≤ x → s.closed x = false

theorem run_open (p : Prog α) : ∀ s : State, Open s → s.stdout < s.next → s.stderr < s.next →
    Open (p.run s).1 ∧ ∀ s' : State, Open s' → s'.stdout < s'.next → s'.stderr < s'.next → (p.run s').2 = (p.run s).2 := by
  have enter_ok : ∀ (so se : Bool) (s : State), Open s → s.stdout < s.next → s.stderr < s.next →
      Open (enter so se s).1 ∧ (enter so se s).1.stdout < (enter so se s).1.next ∧ (enter so se s).1.stderr < (enter so se s).1.next := by
    intro so se s ⟨h1, h2, h3⟩ h4 h5
    refine ⟨⟨?_, ?_, fun x hx => ?_⟩, ?_, ?_⟩
    · show s.closed (if so then s.next else s.stdout) = false
      split
      · exact h3 _ (Nat.le_refl _)
      · exact h1
    · show s.closed (if se then s.next else s.stderr) = false
      split
      · exact h3 _ (Nat.le_refl _)
      · exact h2
    · exact h3 x (by have : (enter so se s).1.next = s.next + 1 := rfl; omega)
    · show (if so then s.next else s.stdout) < s.next + 1
      split <;> omega
    · show (if se then s.next else s.stderr) < s.next + 1
      split <;> omega
  have leave_ok : ∀ (so se : Bool) (q : Prog α) (s : State), Open s → s.stdout < s.next → s.stderr < s.next →
      Open (q.run (enter so se s).1).1 → (Open (nullify so se q.run s).1 ∧ (nullify so se q.run s).1.stdout < (nullify so se q.run s).1.next ∧
        (nullify so se q.run s).1.stderr < (nullify so se q.run s).1.next) := by
    intro so se q s ⟨h1, h2, h3⟩ h4 h5 ⟨o1, o2, o3⟩
    obtain ⟨b1, b2, b3, b4⟩ := run_spec q (enter so se s).1
    have hn : (enter so se s).1.next = s.next + 1 := rfl
    have e1 : (nullify so se q.run s).1.stdout = s.stdout := by
      show (if so then s.stdout else (q.run (enter so se s).1).1.stdout) = s.stdout
      rw [b1]; unfold enter; cases so <;> rfl
    have e2 : (nullify so se q.run s).1.stderr = s.stderr := by
      show (if se then s.stderr else (q.run (enter so se s).1).1.stderr) = s.stderr
      rw [b2]; unfold enter; cases se <;> rfl
    have e3 : (nullify so se q.run s).1.next = (q.run (enter so se s).1).1.next := rfl
    have e4 : ∀ x, x ≠ s.next → (nullify so se q.run s).1.closed x = (q.run (enter so se s).1).1.closed x := fun x hx => upd_ne _ _ hx
    refine ⟨⟨?_, ?_, fun x hx => ?_⟩, by rw [e1, e3]; omega, by rw [e2, e3]; omega⟩
    · rw [e1, e4 _ (by omega), (b4 _ (by omega)).1]; exact h1
    · rw [e2, e4 _ (by omega), (b4 _ (by omega)).1]; exact h2
    · rw [e4 _ (by omega)]; exact o3 x (by omega)
  induction p with
  | done r => intro s hs _ _; exact ⟨hs, fun _ _ _ _ => rfl⟩
  | print e text k ih =>
    intro s hs h4 h5
    have hw : ∀ s : State, Open s → write (if e then s.stderr else s.stdout) text s =
        ({ s with written := upd s.written (if e then s.stderr else s.stdout) (s.written (if e then s.stderr else s.stdout) ++ [text]) }, .ok ()) := by
      intro s hs
      unfold write
      rw [if_neg]
      cases e
      · simpa using hs.1
      · simpa using hs.2.1
    simp only [Prog.run]
    rw [hw s hs]
    obtain ⟨i1, i2⟩ := ih (.ok ()) { s with written := upd s.written (if e then s.stderr else s.stdout) (s.written (if e then s.stderr else s.stdout) ++ [text]) } hs h4 h5
    refine ⟨i1, fun s' hs' h4' h5' => ?_⟩
    rw [hw s' hs']
    exact i2 _ hs' h4' h5'
  | nullified so se body k ihb ihk =>
    intro s hs h4 h5
    simp only [Prog.run]
    obtain ⟨e1, e2, e3⟩ := enter_ok so se s hs h4 h5
    obtain ⟨b1, b2⟩ := ihb _ e1 e2 e3
    obtain ⟨l1, l2, l3⟩ := leave_ok so se body s hs h4 h5 b1
    obtain ⟨k1, k2⟩ := ihk (nullify so se body.run s).2 _ l1 l2 l3
    refine ⟨k1, fun s' hs' h4' h5' => ?_⟩
    obtain ⟨e1', e2', e3'⟩ := enter_ok so se s' hs' h4' h5'
    have hb : (nullify so se body.run s').2 = (nullify so se body.run s).2 := b2 _ e1' e2' e3'
    obtain ⟨l1', l2', l3'⟩ := leave_ok so se body s' hs' h4' h5' (ihb _ e1' e2' e3').1
    rw [hb]
    exact k2 _ l1' l2' l3'

/-- C73: suppression does not change what the program computes: it returns or raises the same as without the block -/
theorem C73_transparent (so se : Bool) (p : Prog α) (s : State) (ho : Open s) (h1 : s.stdout < s.next) (h2 : s.stderr < s.next) :
    (nullify so se p.run s).2 = (p.run s).2 := by
  refine (run_open p s ho h1 h2).2 (enter so se s).1 ?_ ?_ ?_
  · refine ⟨?_, ?_, fun x hx => ho.2.2 x (by have : (enter so se s).1.next = s.next + 1 := rfl; omega)⟩
    · show s.closed (if so then s.next else s.stdout) = false
      split
      · exact ho.2.2 _ (Nat.le_refl _)
      · exact ho.1
    · show s.closed (if se then s.next else s.stderr) = false
      split
      · exact ho.2.2 _ (Nat.le_refl _)
      · exact ho.2.1
  · show (if so then s.next else s.stdout) < s.next + 1
    split <;> omega
  · show (if se then s.next else s.stderr) < s.next + 1
    split <;> omega

/-- the start of a process: stdout is stream 0, stderr is stream 1 -/
def init : State := ⟨0, 1, fun _ => false, fun _ => [], 2⟩

/-- C73 fails for blocks of two threads that overlap without being nested (enter A, enter B, leave A, leave B): stdout
is then the closed null device of A, and printing raises a ValueError -/
theorem C73_overlap_witness :
    let a := enter true true init
    let b := enter true true a.1
    let s := leave true true b.2 (leave true true a.2 b.1)
    s.stdout ≠ init.stdout ∧ (write s.stdout "hello" s).2 = .error .value := by
  refine ⟨by decide, rfl⟩

/-- a program that prints, catches an exception of a nested block and raises -/
example :
    let p : Prog Nat := .print false "a" fun _ => .nullified true false (.print true "b" fun _ => .done (.error .key)) fun r =>
      .print true "c" fun _ => match r with | .error _ => .done (.error .value) | .ok v => .done (.ok v)
    (p.run init).1.written 0 = ["a"] ∧ (p.run init).1.written 1 = ["b", "c"] ∧
      (nullify true true p.run init).1.written 0 = [] ∧ (nullify true true p.run init).2 = .error .value ∧
      (nullify true true p.run init).1.stdout = 0 := by
  refine ⟨rfl, rfl, rfl, rfl, rfl⟩

example : Open init ∧ init.stdout < init.next ∧ init.stderr < init.next := ⟨⟨rfl, rfl, fun _ _ => rfl⟩, by decide, by decide⟩

end Prolothar.Console
