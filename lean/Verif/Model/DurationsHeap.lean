import Verif.Model.EventLogHeap
import Verif.Model.LogDurations
/-
Model of `derive_event_duration_by_end_date` of /repo/prolothar_common/models/eventlog/eventlog.py on event logs with object identities
(`Model/EventLogHeap.lean`): the method changes the event objects. Every function returns the objects afterwards and the exception if
there is one.
-/
namespace Prolothar.DurationsHeap
open Prolothar.EventLog Prolothar.EventLogHeap Prolothar.LogTable
variable {I A : Type}

/-- the statements for one event object, eventlog.py 133-140 and 142-149 -/
def deriveObj (kS kE kD : String) (h : Heap I A Int) (e : Nat) (startDefault : Py Int) : Heap I A Int × Py Unit :=
  let r := deriveEventS kS kE kD (h.event e) startDefault
  ({ h with event := upd h.event e r.1 }, r.2)

/-- the loop over `pairwise(trace.events)`, eventlog.py 141-149; `last` is `last_event` -/
def deriveObjs (kS kE kD : String) : Heap I A Int → Nat → List Nat → Heap I A Int × Py Unit
  | h, _, [] => (h, .ok ())
  | h, last, e :: es =>
    let r := deriveObj kS kE kD h e ((h.event last).attributes.getItem kE)
    match r.2 with
    | .error x => (r.1, .error x)
    | .ok _ => deriveObjs kS kE kD r.1 e es

/-- one trace, eventlog.py 132-149 -/
def deriveTraceObj (kS kE kD : String) (h : Heap I A Int) (t : Nat) : Heap I A Int × Py Unit :=
  match h.list (h.traceEvents t) with
  | [] => (h, .error .index)
  | e :: es =>
    let r := deriveObj kS kE kD h e ((h.event e).attributes.getItem kE)
    match r.2 with
    | .error x => (r.1, .error x)
    | .ok _ => deriveObjs kS kE kD r.1 e es

/-- the loop over the traces, eventlog.py 131-149 -/
def deriveTraces (kS kE kD : String) : Heap I A Int → List Nat → Heap I A Int × Py Unit
  | h, [] => (h, .ok ())
  | h, t :: ts =>
    let r := deriveTraceObj kS kE kD h t
    match r.2 with
    | .error x => (r.1, .error x)
    | .ok _ => deriveTraces kS kE kD r.1 ts

/-- `log.derive_event_duration_by_end_date(...)`, eventlog.py 128-149 -/
def derive (kS kE kD : String) (h : Heap I A Int) (l : Nat) : Heap I A Int × Py Unit := deriveTraces kS kE kD h (h.traces l)

end Prolothar.DurationsHeap
