import Verif.Model.EventLog
import Verif.Model.Upd
/-
Model of event logs with object identities: /repo/prolothar_common/models/eventlog/{event.pyx,trace.pyx,eventlog.py}.

`Model/EventLog.lean` treats logs, traces and events as values. Here events, event lists, attribute dictionaries of traces and
traces are objects with addresses, so that two logs may share them. The attribute dictionary of an event is part of the event
object. A log is named by a variable; no two variables name the same `EventLog` object.
-/
namespace Prolothar.EventLogHeap
open Prolothar.EventLog
variable {I A V : Type}

/-- the objects: events, lists of events, attribute dictionaries, traces (event.pyx 20-25, trace.pyx 21-35: the attributes `__id`,
`events` and `attributes`), and the traces of the logs (eventlog.py 36-38) -/
structure Heap (I A V : Type) where
  event : Nat → Event A V
  list : Nat → List Nat
  dict : Nat → Dict String V
  traceId : Nat → I
  traceEvents : Nat → Nat
  traceAttributes : Nat → Nat
  traces : Nat → List Nat
  next : Nat

/-- what a user sees of a trace object; used for eventlog.py 36-41 -/
def viewTrace (h : Heap I A V) (t : Nat) : Trace I A V :=
  ⟨h.traceId t, (h.list (h.traceEvents t)).map h.event, h.dict (h.traceAttributes t)⟩

/-- what a user sees of a log; used for eventlog.py 36-41 -/
def view (h : Heap I A V) (l : Nat) : Log I A V := (h.traces l).map (viewTrace h)

/-- `Event(...)`, event.pyx 21-25, with a new attribute dictionary -/
def newEvent (h : Heap I A V) (e : Event A V) : Heap I A V × Nat :=
  ({ h with event := upd h.event h.next e, next := h.next + 1 }, h.next)

/-- a new list object; used for eventlog.py 113-114 -/
def newList (h : Heap I A V) (es : List Nat) : Heap I A V × Nat :=
  ({ h with list := upd h.list h.next es, next := h.next + 1 }, h.next)

/-- a new dictionary object; used for eventlog.py 113-114 -/
def newDict (h : Heap I A V) (d : Dict String V) : Heap I A V × Nat :=
  ({ h with dict := upd h.dict h.next d, next := h.next + 1 }, h.next)

/-- `Trace.__init__`, trace.pyx 22-35: the list and the dictionary are not copied -/
def newTrace (h : Heap I A V) (id : I) (events attributes : Nat) : Py (Heap I A V × Nat) :=
  if h.list events = [] then .error .value
  else .ok ({ h with traceId := upd h.traceId h.next id, traceEvents := upd h.traceEvents h.next events,
                     traceAttributes := upd h.traceAttributes h.next attributes, next := h.next + 1 }, h.next)

/-- `trace.events = [...]`; used for eventlog.py 254-257 -/
def setEvents (h : Heap I A V) (t : Nat) (es : List Nat) : Heap I A V :=
  { (newList h es).1 with traceEvents := upd h.traceEvents t (newList h es).2 }

/-- `Trace(trace.get_id(), list(trace.events), dict(trace.attributes))`, eventlog.py 113-114 -/
def copyTrace (h : Heap I A V) (t : Nat) : Py (Heap I A V × Nat) :=
  let a := newList h (h.list (h.traceEvents t))
  let b := newDict a.1 (a.1.dict (a.1.traceAttributes t))
  newTrace b.1 (b.1.traceId t) a.2 b.2

/-- the loop of `EventLog.copy`, eventlog.py 112-114; `done` are the new traces -/
def copyLoop (h : Heap I A V) : List Nat → List Nat → Py (Heap I A V × List Nat)
  | [], done => .ok (h, done)
  | t :: ts, done => do
    let r ← copyTrace h t
    copyLoop r.1 ts (done ++ [r.2])

/-- `dst = src.copy()`, eventlog.py 110-115 -/
def copy (h : Heap I A V) (src dst : Nat) : Py (Heap I A V) := do
  let r ← copyLoop h (h.traces src) []
  return { r.1 with traces := upd r.1.traces dst r.2 }

/-- the event objects of `[Event(...), ...]`; used for eventlog.py 40-41 -/
def newEvents (h : Heap I A V) : List (Event A V) → List Nat → Heap I A V × List Nat
  | [], done => (h, done)
  | e :: es, done => newEvents (newEvent h e).1 es (done ++ [(newEvent h e).2])

/-- `log.add_trace(Trace(id, [Event(...), ...], {...}))` with new events and a new dictionary, eventlog.py 40-41 -/
def addTrace (h : Heap I A V) (l : Nat) (id : I) (events : List (Event A V)) (attributes : Dict String V) : Py (Heap I A V) := do
  let r := newEvents h events []
  let a := newList r.1 r.2
  let b := newDict a.1 attributes
  let t ← newTrace b.1 id a.2 b.2
  return { t.1 with traces := upd t.1.traces l (t.1.traces l ++ [t.2]) }

/-- `for trace in self.traces: ...`; used for eventlog.py 249-266 -/
def forTraces (h : Heap I A V) (l : Nat) (f : Heap I A V → Nat → Heap I A V) : Heap I A V := (h.traces l).foldl f h

/-- `self.traces = [t for t in self.traces if len(t) > 0]`, eventlog.py 266 and 279 -/
def dropEmpty (h : Heap I A V) (l : Nat) : Heap I A V :=
  { h with traces := upd h.traces l ((h.traces l).filter fun t => decide ((h.list (h.traceEvents t)).length > 0)) }

/-- loop body of `cut_traces`, eventlog.py 254-257 -/
def cutStart (S : A → Bool) (h : Heap I A V) (t : Nat) : Heap I A V :=
  setEvents h t (sliceFrom (h.list (h.traceEvents t)) (firstIndexOfMatching (viewTrace h t) S))

/-- loop body of `cut_traces`, eventlog.py 261-264 -/
def cutEnd (E : A → Bool) (h : Heap I A V) (t : Nat) : Heap I A V :=
  setEvents h t (sliceTo (h.list (h.traceEvents t)) (lastIndexOfMatching (viewTrace h t) E + 1))

/-- `cut_traces`, eventlog.py 249-266 -/
def cut (h : Heap I A V) (l : Nat) (start stop : Option (A → Bool)) : Heap I A V :=
  let h := match start with
    | none => h
    | some S => forTraces h l (cutStart S)
  let h := match stop with
    | none => h
    | some E => forTraces h l (cutEnd E)
  dropEmpty h l

/-- loop body of `filter_activities`, eventlog.py 275-277 -/
def filterTrace (allowed : A → Bool) (h : Heap I A V) (t : Nat) : Heap I A V :=
  setEvents h t ((h.list (h.traceEvents t)).filter fun e => allowed (h.event e).activity)

/-- `filter_activities`, eventlog.py 268-279 -/
def filterLog (h : Heap I A V) (l : Nat) (allowed : A → Bool) (removeEmpty : Bool) : Heap I A V :=
  let h := forTraces h l (filterTrace allowed)
  if removeEmpty then dropEmpty h l else h

/-- `trace.events.insert(0, Event(activity))`, eventlog.py 309: changes the list object -/
def insertStart (a : A) (h : Heap I A V) (t : Nat) : Heap I A V :=
  let r := newEvent h (Event.new a)
  { r.1 with list := upd r.1.list (r.1.traceEvents t) (r.2 :: r.1.list (r.1.traceEvents t)) }

/-- `trace.events.append(event)` for a new event, eventlog.py 314: changes the list object -/
def appendEvent (e : Event A V) (h : Heap I A V) (t : Nat) : Heap I A V :=
  let r := newEvent h e
  { r.1 with list := upd r.1.list (r.1.traceEvents t) (r.1.list (r.1.traceEvents t) ++ [r.2]) }

/-- loop body of `keep_first_occurence_of_activity_only`, eventlog.py 323-326 -/
def keepStep [DecidableEq A] (h : Heap I A V) (st : List A × List Nat) (e : Nat) : List A × List Nat :=
  if (h.event e).activity ∈ st.1 then st else (setAdd st.1 (h.event e).activity, st.2 ++ [e])

/-- loop body of `keep_first_occurence_of_activity_only`, eventlog.py 320-327 -/
def keepTrace [DecidableEq A] (h : Heap I A V) (t : Nat) : Heap I A V :=
  setEvents h t ((h.list (h.traceEvents t)).foldl (keepStep h) ([], [])).2

/-- the trace object `l.traces[i]`; used for eventlog.py 36-41 -/
def traceAt (h : Heap I A V) (l i : Nat) : Py Nat :=
  match (h.traces l)[i]? with
  | some t => .ok t
  | none => .error .index

/-- commands of a program that works with logs; used for eventlog.py 36-41 -/
inductive Cmd (I A V : Type)
  /-- `dst = EventLog()` -/
  | new (dst : Nat)
  /-- `dst = src.copy()` -/
  | copy (src dst : Nat)
  | addTrace (l : Nat) (id : I) (events : List (Event A V)) (attributes : Dict String V)
  | cut (l : Nat) (start stop : Option (A → Bool))
  | filter (l : Nat) (allowed : A → Bool) (removeEmpty : Bool)
  | addStart (l : Nat) (a : A)
  | addEnd (l : Nat) (a : A)
  | keepFirst (l : Nat)
  /-- `l.traces[i].set_id(id)`, trace.pyx 41-42 -/
  | setId (l i : Nat) (id : I)
  /-- `l.traces[i].attributes[k] = v` -/
  | setAttribute (l i : Nat) (k : String) (v : V)
  /-- `l.traces[i].events.append(Event(...))` -/
  | appendEvent (l i : Nat) (e : Event A V)

/-- the effect of a command on the objects; used for eventlog.py 36-41 -/
def step [DecidableEq A] (h : Heap I A V) : Cmd I A V → Py (Heap I A V)
  | .new dst => .ok { h with traces := upd h.traces dst [] }
  | .copy src dst => copy h src dst
  | .addTrace l id es attrs => addTrace h l id es attrs
  | .cut l s e => .ok (cut h l s e)
  | .filter l p b => .ok (filterLog h l p b)
  | .addStart l a => .ok (forTraces h l (insertStart a))
  | .addEnd l a => .ok (forTraces h l (appendEvent (Event.new a)))
  | .keepFirst l => .ok (forTraces h l keepTrace)
  | .setId l i id => do
    let t ← traceAt h l i
    return { h with traceId := upd h.traceId t id }
  | .setAttribute l i k v => do
    let t ← traceAt h l i
    return { h with dict := upd h.dict (h.traceAttributes t) ((h.dict (h.traceAttributes t)).put k v) }
  | .appendEvent l i e => do
    let t ← traceAt h l i
    return appendEvent e h t

/-- a program; used for eventlog.py 36-41 -/
def run [DecidableEq A] : Heap I A V → List (Cmd I A V) → Py (Heap I A V)
  | h, [] => .ok h
  | h, c :: cs => do
    let h ← step h c
    run h cs

/-- `l.traces[i].events[j].attributes[k] = v`: changes the event object; used for eventlog.py 36-41 -/
def setEventAttribute (h : Heap I A V) (l i j : Nat) (k : String) (v : V) : Py (Heap I A V) := do
  let t ← traceAt h l i
  match (h.list (h.traceEvents t))[j]? with
  | some e => return { h with event := upd h.event e { h.event e with attributes := (h.event e).attributes.put k v } }
  | none => .error .index

/-- loop body of `join_sucessive_events_with_same_activity`, eventlog.py 178-188: `_join_events` changes the event object at the
end of the new list -/
def joinStep [DecidableEq A] [DecidableEq V] (args : JoinArgs A V) (st : Heap I A V × List Nat × Nat) (e : Nat) :
    Py (Heap I A V × List Nat × Nat) :=
  let h := st.1
  let last := st.2.2
  if (h.event last).activity = (h.event e).activity ∧ args.blacklist (h.event e).activity = false then do
    let a ← joinEvents args (h.event last) (h.event e)
    return ({ h with event := upd h.event last a }, st.2.1, last)
  else .ok (h, st.2.1 ++ [last], e)

/-- loop body of `join_sucessive_events_with_same_activity`, eventlog.py 177-189 -/
def joinTrace [DecidableEq A] [DecidableEq V] (args : JoinArgs A V) (h : Heap I A V) (t : Nat) : Py (Heap I A V) :=
  match h.list (h.traceEvents t) with
  | [] => .error .index
  | e :: es => do
    let st ← es.foldlM (joinStep args) (h, [], e)
    return setEvents st.1 t (st.2.1 ++ [st.2.2])

/-- `join_sucessive_events_with_same_activity`, eventlog.py 151-189 -/
def join [DecidableEq A] [DecidableEq V] (args : JoinArgs A V) (h : Heap I A V) (l : Nat) : Py (Heap I A V) :=
  (h.traces l).foldlM (joinTrace args) h

/-- `train, test = l.train_test_split(p)`, eventlog.py 359-368: `shuffled` are the shuffled trace objects of `l`, `k` the split index -/
def split (h : Heap I A V) (train test : Nat) (shuffled : List Nat) (k : Nat) : Heap I A V :=
  { h with traces := upd (upd h.traces train (shuffled.take k)) test (shuffled.drop k) }

end Prolothar.EventLogHeap
