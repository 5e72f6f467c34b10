import Verif.Model.EventLogHeap
/-
Value semantics of programs on event logs: every variable holds its own log, and a command changes one variable only. This is the
specification of `Props/EventLogHeap.lean`; there are no object identities.
-/
namespace Prolothar.LogStore
open Prolothar.EventLog Prolothar.EventLogHeap
variable {I A V : Type}

/-- change of the trace at index `i` -/
def modifyTrace (log : Log I A V) (i : Nat) (f : Trace I A V → Trace I A V) : Py (Log I A V) :=
  if i < log.length then .ok (log.modify i f) else .error .index

/-- the effect of a command on the values of the variables -/
def exec [DecidableEq A] (s : Nat → Log I A V) : Cmd I A V → Py (Nat → Log I A V)
  | .new dst => .ok (upd s dst [])
  | .copy src dst => if ∃ t ∈ s src, t.events = [] then .error .value else .ok (upd s dst (s src))
  | .addTrace l id es attrs => if es = [] then .error .value else .ok (upd s l (s l ++ [⟨id, es, attrs⟩]))
  | .cut l a b => .ok (upd s l (cutTraces (s l) a b))
  | .filter l p b => .ok (upd s l (filterActivities (s l) p b))
  | .addStart l a => .ok (upd s l (addStartActivity (s l) a))
  | .addEnd l a => .ok (upd s l (addEndActivity (s l) a))
  | .keepFirst l => .ok (upd s l (keepFirst (s l)))
  | .setId l i id => do return upd s l (← modifyTrace (s l) i fun t => { t with id := id })
  | .setAttribute l i k v => do return upd s l (← modifyTrace (s l) i fun t => { t with attributes := t.attributes.put k v })
  | .appendEvent l i e => do return upd s l (← modifyTrace (s l) i fun t => { t with events := t.events ++ [e] })

/-- a program -/
def execAll [DecidableEq A] : (Nat → Log I A V) → List (Cmd I A V) → Py (Nat → Log I A V)
  | s, [] => .ok s
  | s, c :: cs => do
    let s ← exec s c
    execAll s cs

end Prolothar.LogStore
