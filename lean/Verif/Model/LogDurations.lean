import Verif.Model.LogTable
/-
Model of `derive_event_duration_by_end_date` of /repo/prolothar_common/models/eventlog/eventlog.py, together with the state in which it leaves
the log when it raises an exception. The value that is returned without an exception is that of `LogTable.deriveDuration`.
For event objects that occur twice see `Model/DurationsHeap.lean`.
-/
namespace Prolothar.LogTable
open Prolothar.EventLog
variable {I A : Type}

/-- one event of `derive_event_duration_by_end_date`, eventlog.py 133-140 and 142-149: the event afterwards, and the exception if there is one.
The right hand sides of the assignments are evaluated before anything is assigned. -/
def deriveEventS (kStart kEnd kDur : String) (e : Event A Int) (startDefault : Py Int) : Event A Int × Py Unit :=
  match (if e.attributes.has kStart then .ok e.attributes
    else startDefault.map fun d => e.attributes.put kStart d : Py (Dict String Int)) with
  | .error x => (e, .error x)
  | .ok attrs =>
    match (do let stop ← attrs.getItem kEnd; let start ← attrs.getItem kStart; return stop - start : Py Int) with
    | .error x => ({ e with attributes := attrs }, .error x)
    | .ok d =>
      ({ e with attributes := attrs.put kDur d },
        match (attrs.put kDur d).getItem kDur with
        | .error x => .error x
        | .ok dur => if dur < 0 then .error .value else .ok ())

/-- the loop over `pairwise(trace.events)`, eventlog.py 141-149 -/
def deriveLoopS (kStart kEnd kDur : String) : Event A Int → List (Event A Int) → List (Event A Int) × Py Unit
  | _, [] => ([], .ok ())
  | last, e :: es =>
    match deriveEventS kStart kEnd kDur e (last.attributes.getItem kEnd) with
    | (e', .error x) => (e' :: es, .error x)
    | (e', .ok _) => (e' :: (deriveLoopS kStart kEnd kDur e' es).1, (deriveLoopS kStart kEnd kDur e' es).2)

/-- one trace, eventlog.py 132-149 -/
def deriveTraceS (kStart kEnd kDur : String) (t : Trace I A Int) : Trace I A Int × Py Unit :=
  match t.events with
  | [] => (t, .error .index)
  | e :: es =>
    match deriveEventS kStart kEnd kDur e (e.attributes.getItem kEnd) with
    | (e', .error x) => ({ t with events := e' :: es }, .error x)
    | (e', .ok _) => ({ t with events := e' :: (deriveLoopS kStart kEnd kDur e' es).1 }, (deriveLoopS kStart kEnd kDur e' es).2)

/-- `derive_event_duration_by_end_date`, eventlog.py 128-149: the log afterwards, and the exception if there is one -/
def deriveDurationS (kStart kEnd kDur : String) : Log I A Int → Log I A Int × Py Unit
  | [] => ([], .ok ())
  | t :: log =>
    match deriveTraceS kStart kEnd kDur t with
    | (t', .error x) => (t' :: log, .error x)
    | (t', .ok _) => (t' :: (deriveDurationS kStart kEnd kDur log).1, (deriveDurationS kStart kEnd kDur log).2)

end Prolothar.LogTable
