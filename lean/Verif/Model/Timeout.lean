import Verif.Model.Py
/-
Model of /repo/prolothar_common/timeout.py: one call of a decorated function together with the timer thread it starts, as a
transition system. Every interleaving of the two threads (and of the main thread, if the call is made elsewhere) is an execution.

Simplifications: time is a natural number, and 0 is the moment at which the timer is started; the steps of
`threading.Timer.run` (wait, test of the event, call of the function, set of the event) are atomic each; no other source of
KeyboardInterrupt exists.
-/
namespace Prolothar.Timeout

/-- how a call ends: with a value, with an exception of the function, or with KeyboardInterrupt; used for timeout.py 38-45 -/
inductive Outcome (V : Type) where
  | value (v : V)
  | raised (e : PyErr)
  | interrupted
deriving DecidableEq, Repr

/-- where the calling thread is in `inner`, timeout.py 38-45: in line 42, before or in line 44, before the end of line 45, or
back in the code of the caller -/
inductive Pc (V : Type) where
  | body
  | ended (o : Outcome V)
  | leaving (o : Outcome V)
  | left (o : Outcome V)
deriving DecidableEq, Repr

/-- where the timer thread is in `threading.Timer.run`: in `finished.wait(interval)`, before `if not finished.is_set()`, before
the call of `quit_function`, before `finished.set()`, at the end; used for timeout.py 39-40 -/
inductive TimerPc where
  | waiting
  | testing
  | firing
  | closing
  | dead
deriving DecidableEq, Repr

/-- the state: clock, calling thread, timer thread, the event `finished` of the timer, whether an interrupt of the main thread
is pending, how many calls of `interrupt_main` there have been, and how many KeyboardInterrupts have been raised in the main
thread outside of the decorated call; used for timeout.py 39-40 -/
structure St (V : Type) where
  clock : Nat
  pc : Pc V
  timer : TimerPc
  finished : Bool
  pending : Bool
  sent : Nat
  outside : Nat
deriving DecidableEq, Repr

/-- after `timer.start()`, timeout.py 39-40 -/
def start (V : Type) : St V := ⟨0, .body, .waiting, false, false, 0, 0⟩

/-- what happens in a step: time passes, the timer thread makes a step, the function ends, the timer is cancelled, the call
returns or raises, the main thread notices the pending interrupt; used for timeout.py 32-47 -/
inductive Label (V : Type) where
  | tick
  | timer
  | fn (o : Outcome V)
  | cancel
  | leave
  | deliver
deriving DecidableEq, Repr

/-- the steps, for a timeout of `s` and a call that is made in the main thread (`main`) or in another thread; used for timeout.py 32-47 -/
inductive Step {V : Type} (s : Nat) (main : Bool) : St V → Label V → St V → Prop where
  /-- time passes -/
  | tick (σ : St V) : Step s main σ .tick { σ with clock := σ.clock + 1 }
  /-- `finished.wait(s)` ends because the event is set or the time is over -/
  | wake (σ : St V) (h : σ.timer = .waiting) (hw : σ.finished = true ∨ s ≤ σ.clock) :
      Step s main σ .timer { σ with timer := .testing }
  /-- `if not finished.is_set()` -/
  | testSet (σ : St V) (h : σ.timer = .testing) (hf : σ.finished = true) :
      Step s main σ .timer { σ with timer := .closing }
  | testUnset (σ : St V) (h : σ.timer = .testing) (hf : σ.finished = false) :
      Step s main σ .timer { σ with timer := .firing }
  /-- `thread.interrupt_main()`, timeout.py 28-30 -/
  | fire (σ : St V) (h : σ.timer = .firing) :
      Step s main σ .timer { σ with timer := .closing, pending := true, sent := σ.sent + 1 }
  /-- `finished.set()` -/
  | close (σ : St V) (h : σ.timer = .closing) : Step s main σ .timer { σ with timer := .dead, finished := true }
  /-- the function ends by itself, timeout.py 42 -/
  | fn (σ : St V) (o : Outcome V) (h : σ.pc = .body) (ho : o ≠ .interrupted) : Step s main σ (.fn o) { σ with pc := .ended o }
  /-- `timer.cancel()`, timeout.py 44 -/
  | cancel (σ : St V) (o : Outcome V) (h : σ.pc = .ended o) : Step s main σ .cancel { σ with pc := .leaving o, finished := true }
  /-- `return result`, timeout.py 45, or the exception leaves `inner` -/
  | leave (σ : St V) (o : Outcome V) (h : σ.pc = .leaving o) : Step s main σ .leave { σ with pc := .left o }
  /-- KeyboardInterrupt while the function runs in the main thread; the `finally` block comes next -/
  | interruptBody (σ : St V) (hm : main = true) (hp : σ.pending = true) (h : σ.pc = .body) :
      Step s main σ .deliver { σ with pending := false, pc := .ended .interrupted }
  /-- KeyboardInterrupt while the function runs in the main thread, which catches the exception and goes on -/
  | interruptCaught (σ : St V) (hm : main = true) (hp : σ.pending = true) (h : σ.pc = .body) :
      Step s main σ .deliver { σ with pending := false }
  /-- KeyboardInterrupt in the `finally` block, which is left without the call of `cancel` -/
  | interruptFinally (σ : St V) (o : Outcome V) (hm : main = true) (hp : σ.pending = true) (h : σ.pc = .ended o) :
      Step s main σ .deliver { σ with pending := false, pc := .leaving .interrupted }
  /-- KeyboardInterrupt between `cancel` and the end of the call -/
  | interruptLeaving (σ : St V) (o : Outcome V) (hm : main = true) (hp : σ.pending = true) (h : σ.pc = .leaving o) :
      Step s main σ .deliver { σ with pending := false, pc := .leaving .interrupted }
  /-- KeyboardInterrupt in the main thread outside of the call -/
  | interruptOutside (σ : St V) (hp : σ.pending = true) (h : main = false ∨ ∃ o, σ.pc = .left o) :
      Step s main σ .deliver { σ with pending := false, outside := σ.outside + 1 }

/-- finite executions with their labels, from `σ`; used for timeout.py 32-47 -/
inductive Exec {V : Type} (s : Nat) (main : Bool) : St V → List (Label V) → St V → Prop where
  | nil (σ : St V) : Exec s main σ [] σ
  | snoc {σ τ υ : St V} {ls : List (Label V)} {l : Label V} : Exec s main σ ls τ → Step s main τ l υ → Exec s main σ (ls ++ [l]) υ

end Prolothar.Timeout
