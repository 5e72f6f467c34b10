import Verif.Model.EventLog
/-
Model of `join_sucessive_events_with_same_activity` of /repo/prolothar_common/models/eventlog/eventlog.py, together with the state in which it
leaves the log when it raises an exception. The value that is returned without an exception is that of `joinSuccessive`. No event object occurs
twice in the log.
-/
namespace Prolothar.EventLog
variable {I A V : Type} [DecidableEq A] [DecidableEq V]

/-- `_join_events`, eventlog.py 448-472: `event_a` afterwards, and the exception if there is one. The end date is assigned before the duration
is computed. -/
def joinEventsS (args : JoinArgs A V) (a b : Event A V) : Event A V × Py Unit :=
  match (if args.raiseError then (a.attributes.keys ++ b.attributes.keys).forM (checkAttribute args a b) else .ok () : Py Unit) with
  | .error x => (a, .error x)
  | .ok _ =>
    match joinEnd args a b with
    | .error x => (a, .error x)
    | .ok a' =>
      match joinDuration args a' b with
      | .error x => (a', .error x)
      | .ok a'' => (a'', .ok ())

/-- the events of a trace while it is being joined, eventlog.py 177-189: `head` and `tail` are the objects in `trace.events`, `joined` is `event_list` -/
structure JoinState (A V : Type) where
  head : Event A V
  tail : List (Event A V)
  joined : List (Event A V)
  result : Py Unit

/-- the loop of eventlog.py 177-188; `cur` is `event_list[-1]`, from there on the trace has the events `cur` and the given list -/
def joinLoopS (args : JoinArgs A V) : Event A V → List (Event A V) → JoinState A V
  | cur, [] => ⟨cur, [], [cur], .ok ()⟩
  | cur, e :: es =>
    if cur.activity = e.activity ∧ args.blacklist e.activity = false then
      match joinEventsS args cur e with
      | (cur', .error x) => ⟨cur', e :: es, [cur'], .error x⟩
      | (cur', .ok _) =>
        let r := joinLoopS args cur' es
        ⟨r.head, e :: r.tail, r.joined, r.result⟩
    else
      let r := joinLoopS args e es
      ⟨cur, r.head :: r.tail, cur :: r.joined, r.result⟩

/-- one trace, eventlog.py 176-189: `trace.events` is assigned after the loop -/
def joinTraceS (args : JoinArgs A V) (t : Trace I A V) : Trace I A V × Py Unit :=
  match t.events with
  | [] => (t, .error .index)
  | e :: es =>
    match (joinLoopS args e es).result with
    | .error x => ({ t with events := (joinLoopS args e es).head :: (joinLoopS args e es).tail }, .error x)
    | .ok _ => ({ t with events := (joinLoopS args e es).joined }, .ok ())

/-- `join_sucessive_events_with_same_activity`, eventlog.py 151-189: the log afterwards, and the exception if there is one -/
def joinSuccessiveS (args : JoinArgs A V) : Log I A V → Log I A V × Py Unit
  | [] => ([], .ok ())
  | t :: log =>
    match joinTraceS args t with
    | (t', .error x) => (t' :: log, .error x)
    | (t', .ok _) => (t' :: (joinSuccessiveS args log).1, (joinSuccessiveS args log).2)

end Prolothar.EventLog
