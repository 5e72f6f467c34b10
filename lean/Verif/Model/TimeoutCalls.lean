import Verif.Model.Timeout
/-
Model of any number of calls of functions that are decorated with `timeout` (/repo/prolothar_common/timeout.py), nested in each other,
one after another, or in several threads. `thread.interrupt_main()` only marks the main thread: it is not known in the main thread whose
timer it was, and a second mark before the first one is noticed changes nothing.

Simplifications: as in Model/Timeout.lean; the end of the function and the call of `cancel` are one step.
-/
namespace Prolothar.Timeout

/-- a call of a decorated function with its timer: when the time is over, the timer thread, the event `finished` of the timer, whether the
call is still running, whether it was made in the main thread; used for timeout.py 38-45 -/
structure Call where
  deadline : Nat
  timer : TimerPc
  finished : Bool
  active : Bool
  main : Bool
deriving DecidableEq, Repr

/-- the clock, all calls in the order of their starts, and whether an interrupt of the main thread is pending; used for timeout.py 28-47 -/
structure Sys where
  clock : Nat
  calls : List Call
  pending : Bool
deriving DecidableEq, Repr

/-- what happens: time passes; a decorated function is called, in the main thread or elsewhere, with a timeout of `s`; the steps of the timer
of call `i`; the function of call `i` ends and the timer is cancelled; call `i` is left by a KeyboardInterrupt in its `finally` block,
without the call of `cancel`; KeyboardInterrupt is raised elsewhere in the main thread; used for timeout.py 28-47 -/
inductive Act where
  | tick
  | start (main : Bool) (s : Nat)
  | wake (i : Nat)
  | test (i : Nat)
  | fire (i : Nat)
  | close (i : Nat)
  | ends (i : Nat)
  | abandon (i : Nat)
  | deliver
deriving DecidableEq, Repr

/-- the call `i` becomes `c`; used for timeout.py 38-45 -/
def Sys.put (σ : Sys) (i : Nat) (c : Call) : Sys := { σ with calls := σ.calls.set i c }

/-- a call of the main thread can only end if all calls that it has made have ended; used for timeout.py 42-45 -/
def Sys.innermost (σ : Sys) (i : Nat) (c : Call) : Bool :=
  !c.main || (σ.calls.drop (i + 1)).all fun d => !(d.main && d.active)

/-- the state after an action, `none` if it is not possible; timeout.py 28-47 and `threading.Timer.run` as in Model/Timeout.lean -/
def Sys.step (σ : Sys) : Act → Option Sys
  | .tick => some { σ with clock := σ.clock + 1 }
  | .start main s => some { σ with calls := σ.calls ++ [⟨σ.clock + s, .waiting, false, true, main⟩] }
  | .wake i => do
    let c ← σ.calls[i]?
    if c.timer = .waiting ∧ (c.finished = true ∨ c.deadline ≤ σ.clock) then some (σ.put i { c with timer := .testing }) else none
  | .test i => do
    let c ← σ.calls[i]?
    if c.timer = .testing then some (σ.put i { c with timer := if c.finished then .closing else .firing }) else none
  | .fire i => do
    let c ← σ.calls[i]?
    if c.timer = .firing then some { σ.put i { c with timer := .closing } with pending := true } else none
  | .close i => do
    let c ← σ.calls[i]?
    if c.timer = .closing then some (σ.put i { c with timer := .dead, finished := true }) else none
  | .ends i => do
    let c ← σ.calls[i]?
    if c.active = true ∧ σ.innermost i c = true then some (σ.put i { c with finished := true, active := false }) else none
  | .abandon i => do
    let c ← σ.calls[i]?
    if c.active = true ∧ σ.innermost i c = true ∧ c.main = true ∧ σ.pending = true then
      some { σ.put i { c with active := false } with pending := false }
    else none
  | .deliver => if σ.pending then some { σ with pending := false } else none

/-- a history of the process from its start on; used for timeout.py 28-47 -/
def run (ls : List Act) : Option Sys := ls.foldlM Sys.step ⟨0, [], false⟩

end Prolothar.Timeout
