import Verif.Model.Timeout
import Mathlib.Tactic.Common
/-
Calls with a timeout, C134.
-/
namespace Prolothar.Timeout
variable {V : Type} {s : Nat} {main : Bool}

/-- what holds in every reachable state -/
structure Inv (s : Nat) (σ : St V) : Prop where
  early : σ.timer = .waiting ∨ σ.timer = .testing ∨ σ.timer = .firing → σ.sent = 0
  test : σ.timer = .testing → σ.finished = true ∨ s ≤ σ.clock
  late : σ.timer = .firing ∨ 0 < σ.sent → s ≤ σ.clock
  once : σ.sent ≤ 1
  count : σ.outside + σ.pending.toNat ≤ σ.sent
  before : σ.clock < s → (σ.pc = .body ∨ ∃ o, σ.pc = .ended o) → σ.timer = .waiting ∧ σ.finished = false

theorem inv_start : Inv s (start V) :=
  ⟨fun _ => rfl, fun h => by simp [start] at h, fun h => by simp [start] at h, by simp [start], by simp [start], fun _ _ => ⟨rfl, rfl⟩⟩

theorem inv_step {σ τ : St V} {l : Label V} (h : Inv s σ) (st : Step s main σ l τ) : Inv s τ := by
  obtain ⟨h1, h2, h3, h4, h5, h6⟩ := h
  obtain ⟨c, pc, t, f, p, n, o⟩ := σ
  cases st with
  | tick =>
    refine ⟨h1, fun h => (h2 h).imp id Nat.le_succ_of_le, fun h => Nat.le_succ_of_le (h3 h), h4, h5, fun hc hp => h6 ?_ hp⟩
    exact Nat.lt_of_succ_lt hc
  | wake h hw =>
    refine ⟨fun _ => h1 (.inl h), fun _ => hw, fun hh => h3 (hh.imp (by intro h; cases h) id), h4, h5, fun hc hp => ?_⟩
    have := h6 hc hp
    simp only at hw hc this
    rw [this.2] at hw
    rcases hw with hw | hw
    · simp at hw
    · omega
  | _ => constructor <;> simp_all <;> omega

theorem inv_exec {τ : St V} {ls : List (Label V)} (h : Exec s main (start V) ls τ) : Inv s τ := by
  generalize hσ : start V = σ at h
  induction h with
  | nil => subst hσ; exact inv_start
  | snoc _ st ih => exact inv_step ih st

/-- a KeyboardInterrupt is raised in the main thread -/
def isDeliver : Label V → Bool
  | .deliver => true
  | _ => false

theorem deliver_count {τ : St V} {ls : List (Label V)} (h : Exec s main (start V) ls τ) :
    ls.countP isDeliver + τ.pending.toNat = τ.sent ∧ τ.outside ≤ ls.countP isDeliver := by
  generalize hσ : start V = σ at h
  induction h with
  | nil => subst hσ; simp [start]
  | snoc e st ih =>
    subst hσ
    have hi := inv_exec e
    have h0 := hi.early
    rw [List.countP_append]
    cases st with
    | fire hf =>
      have hs := h0 (.inr (.inr hf))
      have ih1 : List.countP isDeliver _ + _ = 0 := hs ▸ ih.1
      have : List.countP isDeliver [(Label.timer : Label V)] = 0 := rfl
      refine ⟨?_, ?_⟩
      · simp only [this, Bool.toNat_true]
        omega
      · have := ih.2
        simp only
        omega
    | _ => simp_all [isDeliver] <;> omega

/-- C134: the interrupt is never sent before the time is over, and at most once per call; every interrupt that was sent and is
not pending any more has been raised exactly once in the main thread, inside or outside of the call. -/
theorem C134_not_early_and_once {τ : St V} {ls : List (Label V)} (h : Exec s main (start V) ls τ) :
    (0 < τ.sent → s ≤ τ.clock) ∧ τ.sent ≤ 1 ∧ ls.countP isDeliver + τ.pending.toNat = τ.sent ∧ τ.outside ≤ ls.countP isDeliver :=
  ⟨fun hs => (inv_exec h).late (.inr hs), (inv_exec h).once, deliver_count h⟩

/-- the timer has been cancelled in time -/
def Safe (σ : St V) : Prop :=
  σ.finished = true ∧ σ.timer ≠ .firing ∧ σ.sent = 0 ∧ σ.pending = false ∧ σ.outside = 0

theorem safe_step {σ τ : St V} {l : Label V} (h : Safe σ) (st : Step s main σ l τ) : Safe τ := by
  unfold Safe at *
  obtain ⟨c, pc, t, f, p, n, o⟩ := σ
  cases st <;> simp_all

/-- C134: if the function ends and the timer is cancelled before the time is over, then no interrupt is ever sent, whatever the
timer thread does afterwards, and the outcome of the function is the outcome of the call. -/
theorem C134_fast_calls {σ τ υ : St V} {ls ls' : List (Label V)} (h : Exec s main (start V) ls σ) (hc : σ.clock < s)
    (st : Step s main σ .cancel τ) (h' : Exec s main τ ls' υ) :
    υ.sent = 0 ∧ υ.outside = 0 ∧ ∃ o, σ.pc = .ended o ∧ .deliver ∉ ls' ∧ (υ.pc = .leaving o ∨ υ.pc = .left o) := by
  have hi := inv_exec h
  cases st with
  | cancel o ho =>
    have hb := hi.before hc (.inr ⟨o, ho⟩)
    have hs := hi.early (.inl hb.1)
    have hcnt := hi.count
    rw [hs] at hcnt
    have hp : σ.pending = false := by
      cases hpe : σ.pending with
      | false => rfl
      | true => rw [hpe] at hcnt; simp at hcnt
    have hsafe : Safe ({ σ with pc := .leaving o, finished := true } : St V) :=
      ⟨rfl, by simp only [hb.1]; decide, hs, hp, by simp only; omega⟩
    have key : Safe υ ∧ .deliver ∉ ls' ∧ (υ.pc = .leaving o ∨ υ.pc = .left o) := by
      generalize hτ : ({ σ with pc := .leaving o, finished := true } : St V) = τ at h' hsafe
      induction h' with
      | nil => exact ⟨hsafe, by simp, by rw [← hτ]; exact .inl rfl⟩
      | snoc _ st' ih =>
        obtain ⟨i1, i2, i3⟩ := ih
        refine ⟨safe_step i1 st', ?_, ?_⟩
        · simp only [List.mem_append, List.mem_singleton, not_or]
          refine ⟨i2, ?_⟩
          rintro rfl
          have := i1.2.2.2.1
          cases st' <;> simp_all
        · have := i1.2.2.2.1
          cases st' <;> simp_all
    exact ⟨key.1.2.2.1, key.1.2.2.2.2, o, ho, key.2⟩

/-- C134: a call ends with an outcome of the function, unless an interrupt has been delivered to it; calls from other threads
than the main thread are never interrupted. -/
theorem C134_outcome {τ : St V} {ls : List (Label V)} {o : Outcome V} (h : Exec s main (start V) ls τ) (ho : τ.pc = .left o) :
    (.fn o ∈ ls ∧ o ≠ .interrupted) ∨ (o = .interrupted ∧ main = true ∧ .deliver ∈ ls ∧ s ≤ τ.clock) := by
  have key : ∀ o, (τ.pc = .ended o ∨ τ.pc = .leaving o ∨ τ.pc = .left o) →
      (.fn o ∈ ls ∧ o ≠ .interrupted) ∨ (o = .interrupted ∧ main = true ∧ .deliver ∈ ls ∧ s ≤ τ.clock) := by
    clear ho
    generalize hσ : start V = σ at h
    induction h with
    | nil => subst hσ; intro o h; simp [start] at h
    | snoc e st ih =>
      have hi : ∀ σ' : St V, Inv s σ' → σ'.pending = true → s ≤ σ'.clock := by
        intro σ' hh hp
        have := hh.count
        rw [hp] at this
        apply hh.late
        right
        simp at this
        omega
      subst hσ
      have hl := hi _ (inv_exec e)
      intro o' ho'
      simp only [List.mem_append, List.mem_singleton]
      cases st with
      | tick =>
        rcases ih o' ho' with h | h
        · exact .inl ⟨.inl h.1, h.2⟩
        · exact .inr ⟨h.1, h.2.1, .inl h.2.2.1, Nat.le_succ_of_le h.2.2.2⟩
      | fn o hb hne => simp_all
      | interruptBody hm hp hb => simp_all
      | interruptFinally o hm hp hb => simp_all
      | interruptLeaving o hm hp hb => simp_all
      | cancel o hb =>
        simp only at ho'
        have : o' = o := by simpa [eq_comm] using ho'
        subst this
        rcases ih o' (.inl hb) with h | h
        · exact .inl ⟨.inl h.1, h.2⟩
        · exact .inr ⟨h.1, h.2.1, .inl h.2.2.1, h.2.2.2⟩
      | leave o hb =>
        simp only at ho'
        have : o' = o := by simpa [eq_comm] using ho'
        subst this
        rcases ih o' (.inr (.inl hb)) with h | h
        · exact .inl ⟨.inl h.1, h.2⟩
        · exact .inr ⟨h.1, h.2.1, .inl h.2.2.1, h.2.2.2⟩
      | _ =>
        rcases ih o' ho' with h | h
        · exact .inl ⟨.inl h.1, h.2⟩
        · exact .inr ⟨h.1, h.2.1, .inl h.2.2.1, h.2.2.2⟩
  exact key o (.inr (.inr ho))

/-! ### slow calls -/

/-- an infinite execution in which time goes on, the timer thread is not starved and the timer is never cancelled -/
structure SlowRun (s : Nat) (main : Bool) (ρ : Nat → St V) (l : Nat → Label V) : Prop where
  init : ρ 0 = start V
  step : ∀ n, Step s main (ρ n) (l n) (ρ (n + 1))
  time : ∀ n, ∃ m, n ≤ m ∧ l m = .tick
  fair : ∀ n, ∃ m, n ≤ m ∧ (l m = .timer ∨ ¬ ∃ τ, Step s main (ρ m) .timer τ)
  slow : ∀ n, l n ≠ .cancel

theorem run_exec {ρ : Nat → St V} {l : Nat → Label V} (h : SlowRun s main ρ l) (n : Nat) : ∃ ls, Exec s main (start V) ls (ρ n) := by
  induction n with
  | zero => exact ⟨[], by rw [h.init]; exact .nil _⟩
  | succ n ih =>
    obtain ⟨ls, e⟩ := ih
    exact ⟨_, e.snoc (h.step n)⟩

theorem run_alive {ρ : Nat → St V} {l : Nat → Label V} (h : SlowRun s main ρ l) (n : Nat) :
    ((ρ n).timer = .closing ∨ (ρ n).timer = .dead → (ρ n).sent = 1) ∧ ((ρ n).finished = true → (ρ n).timer = .dead) := by
  induction n with
  | zero => rw [h.init]; simp [start]
  | succ n ih =>
    have st := h.step n
    have hc := h.slow n
    obtain ⟨ls, e⟩ := run_exec h n
    have hi := inv_exec e
    have he := hi.early
    generalize ρ n = σ at st ih he
    generalize ρ (n + 1) = τ at st
    generalize l n = lab at st hc
    cases st <;> simp_all

/-- how far the timer thread is -/
def rank : TimerPc → Nat
  | .waiting => 0
  | .testing => 1
  | .firing => 2
  | .closing => 3
  | .dead => 4

theorem rank_step {σ τ : St V} {l : Label V} (st : Step s main σ l τ) :
    rank σ.timer ≤ rank τ.timer ∧ (l = .timer → rank σ.timer < rank τ.timer) ∧ σ.clock ≤ τ.clock ∧ (l = .tick → σ.clock < τ.clock) := by
  cases st <;> simp_all [rank]

theorem run_mono {ρ : Nat → St V} {l : Nat → Label V} (h : SlowRun s main ρ l) (n k : Nat) :
    rank (ρ n).timer ≤ rank (ρ (n + k)).timer ∧ (ρ n).clock ≤ (ρ (n + k)).clock := by
  induction k with
  | zero => exact ⟨Nat.le_refl _, Nat.le_refl _⟩
  | succ k ih =>
    have := rank_step (h.step (n + k))
    exact ⟨Nat.le_trans ih.1 this.1, Nat.le_trans ih.2 this.2.2.1⟩

theorem run_time {ρ : Nat → St V} {l : Nat → Label V} (h : SlowRun s main ρ l) (k : Nat) : ∃ n, k ≤ (ρ n).clock := by
  induction k with
  | zero => exact ⟨0, Nat.zero_le _⟩
  | succ k ih =>
    obtain ⟨n, hn⟩ := ih
    obtain ⟨m, hm, ht⟩ := h.time n
    have h1 := (run_mono h n (m - n)).2
    rw [show n + (m - n) = m by omega] at h1
    have h2 := (rank_step (h.step m)).2.2.2 ht
    exact ⟨m + 1, by omega⟩

theorem timer_enabled (σ : St V) (hd : σ.timer ≠ .dead) (hc : s ≤ σ.clock) : ∃ τ, Step s main σ .timer τ := by
  cases ht : σ.timer with
  | waiting => exact ⟨_, .wake σ ht (.inr hc)⟩
  | testing =>
    cases hf : σ.finished with
    | true => exact ⟨_, .testSet σ ht hf⟩
    | false => exact ⟨_, .testUnset σ ht hf⟩
  | firing => exact ⟨_, .fire σ ht⟩
  | closing => exact ⟨_, .close σ ht⟩
  | dead => exact absurd ht hd

theorem run_fires {ρ : Nat → St V} {l : Nat → Label V} (h : SlowRun s main ρ l) : ∃ n, (ρ n).sent = 1 := by
  have key : ∀ k, k ≤ 3 → ∃ n, s ≤ (ρ n).clock ∧ k ≤ rank (ρ n).timer := by
    intro k
    induction k with
    | zero => intro _; obtain ⟨n, hn⟩ := run_time h s; exact ⟨n, hn, Nat.zero_le _⟩
    | succ k ih =>
      intro hk
      obtain ⟨n, hn, hr⟩ := ih (by omega)
      obtain ⟨m, hm, hf⟩ := h.fair n
      have h1 := run_mono h n (m - n)
      rw [show n + (m - n) = m by omega] at h1
      rcases hf with hf | hf
      · have h2 := rank_step (h.step m)
        exact ⟨m + 1, by omega, by have := h2.2.1 hf; omega⟩
      · refine ⟨m, by omega, ?_⟩
        by_contra hlt
        apply hf
        apply timer_enabled _ _ (by omega)
        intro hd
        rw [hd] at hlt
        simp only [rank] at hlt
        omega
  obtain ⟨n, _, hn⟩ := key 3 (Nat.le_refl _)
  refine ⟨n, (run_alive h n).1 ?_⟩
  cases ht : (ρ n).timer <;> rw [ht] at hn <;> simp [rank] at hn ⊢

/-- C134: if the function does not end, then the interrupt is sent after the time is over, in every execution in which the timer
thread is not starved; and KeyboardInterrupt is raised in the main thread if that thread is not starved either. -/
theorem C134_slow_calls {ρ : Nat → St V} {l : Nat → Label V} (h : SlowRun s main ρ l) :
    (∃ n, (ρ n).sent = 1 ∧ s ≤ (ρ n).clock) ∧
    ((∀ n, ∃ m, n ≤ m ∧ (l m = .deliver ∨ (ρ m).pending = false)) → ∃ n, l n = .deliver) := by
  constructor
  · obtain ⟨n, hn⟩ := run_fires h
    obtain ⟨ls, e⟩ := run_exec h n
    exact ⟨n, hn, (inv_exec e).late (.inr (by omega))⟩
  · intro hf
    by_contra hno
    simp only [not_exists] at hno
    have hp : ∀ n, (ρ n).sent = 1 → (ρ n).pending = true := by
      intro n
      induction n with
      | zero => rw [h.init]; simp [start]
      | succ n ih =>
        have st := h.step n
        have hd := hno n
        generalize ρ n = σ at st ih
        generalize ρ (n + 1) = τ at st
        generalize l n = lab at st hd
        cases st <;> simp_all
    have hs : ∀ n k, (ρ n).sent = 1 → (ρ (n + k)).sent = 1 := by
      intro n k h1
      induction k with
      | zero => exact h1
      | succ k ih =>
        have st := h.step (n + k)
        obtain ⟨ls, e⟩ := run_exec h (n + k + 1)
        have ho := (inv_exec e).once
        rw [show n + (k + 1) = n + k + 1 by omega]
        generalize ρ (n + k) = σ at st ih
        generalize ρ (n + k + 1) = τ at st ho
        generalize l (n + k) = lab at st
        cases st <;> simp_all
    obtain ⟨n, hn⟩ := run_fires h
    obtain ⟨m, hm, hd⟩ := hf n
    rcases hd with hd | hd
    · exact hno m hd
    · have := hp m (by have := hs n (m - n) hn; rwa [show n + (m - n) = m by omega] at this)
      rw [hd] at this
      cases this

/-- a function that never ends and a timeout of 1: the run ticks, wakes, tests, fires, delivers (the function catches the
exception), closes and then ticks forever -/
def exRun : Nat → St Nat
  | 0 => start Nat
  | 1 => ⟨1, .body, .waiting, false, false, 0, 0⟩
  | 2 => ⟨1, .body, .testing, false, false, 0, 0⟩
  | 3 => ⟨1, .body, .firing, false, false, 0, 0⟩
  | 4 => ⟨1, .body, .closing, false, true, 1, 0⟩
  | 5 => ⟨1, .body, .closing, false, false, 1, 0⟩
  | n + 6 => ⟨n + 1, .body, .dead, true, false, 1, 0⟩

def exLabels : Nat → Label Nat
  | 0 => .tick
  | 1 | 2 | 3 => .timer
  | 4 => .deliver
  | 5 => .timer
  | _ => .tick

example : SlowRun 1 true exRun exLabels where
  init := rfl
  step := by
    intro n
    match n with
    | 0 => exact .tick _
    | 1 => exact .wake _ rfl (.inr (Nat.le_refl _))
    | 2 => exact .testUnset _ rfl rfl
    | 3 => exact .fire _ rfl
    | 4 => exact .interruptCaught _ rfl rfl rfl
    | 5 => exact .close _ rfl
    | n + 6 => exact .tick _
  time := fun n => ⟨n + 6, by omega, rfl⟩
  fair := fun n => ⟨n + 6, by omega, .inr (by
    rintro ⟨τ, st⟩
    generalize hσ : exRun (n + 6) = σ at st
    have hd : σ.timer = .dead := by rw [← hσ]; rfl
    generalize hl : (Label.timer : Label Nat) = l at st
    cases st <;> simp_all)⟩
  slow := fun n => by
    match n with
    | 0 | 1 | 2 | 3 | 4 | 5 => simp [exLabels]
    | n + 6 => simp [exLabels]

/-! ### late interrupts -/

theorem exec_cons {σ τ υ : St V} {l : Label V} {ls : List (Label V)} (st : Step s main σ l τ) (h : Exec s main τ ls υ) :
    Exec s main σ (l :: ls) υ := by
  induction h with
  | nil => exact (Exec.nil σ).snoc st
  | snoc _ st' ih => exact ih.snoc st'

/-- C134: the documentation is not kept where the function ends about when the time is over. For every timeout and every result
there are executions in which the function returns the result, but (1) the call raises KeyboardInterrupt and the result is lost,
or (2) the call returns the result and the KeyboardInterrupt strikes the caller afterwards, or (3) the function is called
in another thread, is not stopped, and the main thread is interrupted instead. -/
theorem C134_late_interrupts (s : Nat) (v : V) :
    (∃ (ls : List (Label V)) (τ : St V), Exec s true (start V) ls τ ∧ .fn (.value v) ∈ ls ∧ τ.pc = .left .interrupted) ∧
    (∃ (ls : List (Label V)) (τ : St V), Exec s true (start V) ls τ ∧ τ.pc = .left (.value v) ∧ τ.outside = 1) ∧
    ∃ (ls : List (Label V)) (τ : St V), Exec s false (start V) ls τ ∧ τ.pc = .body ∧ τ.outside = 1 := by
  have wait : ∀ (main : Bool) (k : Nat), ∃ ls, Exec s main (start V) ls ⟨k, .body, .waiting, false, false, 0, 0⟩ := by
    intro main k
    induction k with
    | zero => exact ⟨_, .nil _⟩
    | succ k ih =>
      obtain ⟨ls, e⟩ := ih
      exact ⟨_, e.snoc (.tick _)⟩
  have fired : ∀ main : Bool, ∃ ls, Exec s main (start V) ls ⟨s, .body, .closing, false, true, 1, 0⟩ := by
    intro main
    obtain ⟨ls, e⟩ := wait main s
    have e1 := e.snoc (.wake _ rfl (.inr (Nat.le_refl _)))
    have e2 := e1.snoc (.testUnset _ rfl rfl)
    exact ⟨_, e2.snoc (.fire _ rfl)⟩
  obtain ⟨ls, e⟩ := fired true
  obtain ⟨ls', e'⟩ := fired false
  have f := e.snoc (.fn _ (.value v) rfl (by simp))
  have c := f.snoc (.cancel _ (.value v) rfl)
  refine ⟨⟨_, _, (c.snoc (.interruptLeaving _ (.value v) rfl rfl rfl)).snoc (.leave _ .interrupted rfl), by simp, rfl⟩, ?_, ?_⟩
  · exact ⟨_, _, (c.snoc (.leave _ (.value v) rfl)).snoc (.interruptOutside _ rfl (.inr ⟨_, rfl⟩)), rfl, rfl⟩
  · exact ⟨_, _, e'.snoc (.interruptOutside _ rfl (.inl rfl)), rfl, rfl⟩

/-- a fast call -/
example : ∃ τ, Exec 3 true (start Nat) [.tick, .fn (.value 5), .cancel, .timer, .timer, .leave, .timer] τ ∧ τ.pc = .left (.value 5) :=
  ⟨_, exec_cons (.tick _) (exec_cons (.fn _ (.value 5) rfl (by simp)) (exec_cons (.cancel _ (.value 5) rfl) (exec_cons (.wake _ rfl (.inl rfl))
    (exec_cons (.testSet _ rfl rfl) (exec_cons (.leave _ (.value 5) rfl) (exec_cons (.close _ rfl) (.nil _))))))), rfl⟩

end Prolothar.Timeout
