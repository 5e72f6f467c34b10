import Verif.Model.TimeoutCalls
/-
Notions for histories of calls with a timeout, on the list of the actions only.
-/
namespace Prolothar.Timeout

/-- how much time has passed -/
def ticks (ls : List Act) : Nat := ls.countP fun a => match a with | .tick => true | _ => false

/-- how many calls have been made; the calls have the numbers 0, 1, … -/
def starts (ls : List Act) : Nat := ls.countP fun a => match a with | .start _ _ => true | _ => false

/-- how often KeyboardInterrupt was raised in the main thread -/
def interrupts (ls : List Act) : Nat := ls.countP fun a => match a with | .deliver => true | .abandon _ => true | _ => false

/-- the calls whose timers have interrupted the main thread, in this order -/
def fires (ls : List Act) : List Nat := ls.filterMap fun a => match a with | .fire i => some i | _ => none

/-- call `i` was made with the timeout `s`; the actions `since` came later -/
def CallSince (ls : List Act) (i s : Nat) (since : List Act) : Prop :=
  ∃ before main, ls = before ++ .start main s :: since ∧ starts before = i

/-- call `i` has ended before its time was over -/
def InTime (ls : List Act) (i : Nat) : Prop :=
  ∃ s l later, CallSince ls i s (l ++ .ends i :: later) ∧ ticks l < s

end Prolothar.Timeout
