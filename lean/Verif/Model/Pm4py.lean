import Verif.Model.Petri
import Verif.Model.EventLog
/-
Model of prolothar_common/pm4py_utils.py. The objects of pm4py are modelled by their data: a net is a set of places, a set of
transitions and a collection of arcs between objects, a log is a list of traces with attributes whose events are
dictionaries. Sets are lists in the order of iteration.
-/
namespace Prolothar.Pm4py
open Prolothar.Petri

/-- an arc of pm4py's `PetriNet`; used for pm4py_utils.py 76-87 -/
inductive Arc (P T : Type) where
  | input (p : P) (t : T)
  | output (t : T) (p : P)
  deriving DecidableEq

/-- pm4py's `PetriNet` with place objects of type `P` and transition objects of type `T`; used for pm4py_utils.py 36-52 -/
structure PmNet (P T : Type) where
  places : List P
  transitions : List T
  placeName : P → String
  transName : T → String
  transLabel : T → Option String
  arcs : List (Arc P T)

/-! ### nets to pm4py -/

/-- the arcs of a transition that is being added: `added_arcs` and the arcs of pm4py's net. The pm4py objects that are made
for a place or transition are named by its id. Used for pm4py_utils.py 78-82. -/
abbrev ArcState := List (String × String) × List (Arc String String)

/-- the body of the inner loop of `_add_transition_to_pm4py_net`, first part, pm4py_utils.py 78-82; `places_dict` has the places of the net -/
def addInput (places : List String) (t s : String) (st : ArcState) : Py ArcState :=
  if (s, t) ∈ st.1 then .ok st
  else if s ∈ places then .ok (st.1 ++ [(s, t)], st.2 ++ [.input s t]) else .error .key

/-- the body of the inner loop of `_add_transition_to_pm4py_net`, second part, pm4py_utils.py 83-87 -/
def addOutput (places : List String) (t e : String) (st : ArcState) : Py ArcState :=
  if (t, e) ∈ st.1 then .ok st
  else if e ∈ places then .ok (st.1 ++ [(t, e)], st.2 ++ [.output t e]) else .error .key

/-- the body of the inner loop of `_add_transition_to_pm4py_net`, pm4py_utils.py 78-87 -/
def arcStep (places : List String) (t s : String) (st : ArcState) (e : String) : Py ArcState := do
  addOutput places t e (← addInput places t s st)

/-- the loops of `_add_transition_to_pm4py_net`, pm4py_utils.py 76-87 -/
def transArcs (n : Net) (t : String) : Py (List (Arc String String)) := do
  let st ← (n.pre t).foldlM (fun st s => (n.post t).foldlM (arcStep n.places t s) st) ([], [])
  return st.2

/-- one of the loops of `_create_markings`, pm4py_utils.py 94-97 -/
def marking (places ids : List String) : Py (Dict String Int) :=
  ids.foldlM (fun (m : Dict String Int) p => if p ∈ places then .ok (m.put p 1) else .error .key) []

/-- `convert_data_petri_net_to_pm4py`, pm4py_utils.py 36-52 -/
def toPm4py (n : Net) : Py (PmNet String String × Dict String Int × Dict String Int) := do
  let arcs ← n.transitions.mapM (transArcs n)
  let initial ← marking n.places n.sourceSink.1
  let final ← marking n.places n.sourceSink.2
  return (⟨n.places, n.transitions, fun p => "p" ++ p, fun t => "t" ++ t,
    fun t => if n.visible t then some (n.transLabel t) else none, arcs.flatten⟩, initial, final)

/-! ### nets from pm4py -/

variable {P T : Type}

/-- the body of the loop over the arcs, pm4py_utils.py 113-122 -/
def arcBack (net : PmNet P T) (n : Net) : Arc P T → Py Net
  | .input p t =>
    if net.transName t ∉ n.transitions then .error .key
    else if net.placeName p ∉ n.places then .error .key
    else .ok { n with
      out := upd n.out (net.placeName p) (setAdd (n.out (net.placeName p)) (net.transName t))
      pre := upd n.pre (net.transName t) (setAdd (n.pre (net.transName t)) (net.placeName p)) }
  | .output t p =>
    if net.transName t ∉ n.transitions then .error .key
    else if net.placeName p ∉ n.places then .error .key
    else .ok { n with post := upd n.post (net.transName t) (setAdd (n.post (net.transName t)) (net.placeName p)) }

/-- `convert_pm4py_to_data_petri_net`, pm4py_utils.py 100-123; a place that is not in the marking has no token -/
def fromPm4py (net : PmNet P T) (m : P → Int) : Py Net := do
  let n ← net.places.foldlM (fun (n : Net) p => n.addPlace (net.placeName p) "" (m p)) Net.empty
  let n ← net.transitions.foldlM (fun (n : Net) t => n.addTransition (net.transName t) (net.transLabel t) (net.transLabel t).isSome) n
  net.arcs.foldlM (arcBack net) n

/-! ### logs -/

open Prolothar.EventLog

variable {V : Type}

/-- pm4py's `Trace`: attributes and events; used for pm4py_utils.py 130-139 -/
structure PmTrace (V : Type) where
  attributes : Dict String V
  events : List (Dict String V)

/-- `CONCEPT_NAME`, pm4py_utils.py 34 -/
def conceptName : String := "concept:name"

/-- `convert_trace_to_pm4py`, pm4py_utils.py 130-139. Ids, activities and attributes are python values. -/
def traceToPm4py (t : EventLog.Trace V V V) : PmTrace V :=
  ⟨t.attributes.foldl (fun d e => Dict.put d e.1 e.2) [(conceptName, t.id)], t.events.map fun e => [(conceptName, e.activity)]⟩

/-- `convert_eventlog_to_pm4py`, pm4py_utils.py 125-128 -/
def logToPm4py (log : Log V V V) : List (PmTrace V) := log.map traceToPm4py

/-- the event that is made from an event of pm4py, pm4py_utils.py 149: the activity must be a string -/
def eventFromPm4py (isStr : V → Bool) (activityKey : String) (e : Dict String V) : Py (EventLog.Event V V) := do
  let a ← e.getItem activityKey
  if isStr a then return ⟨a, e, none⟩ else .error .type

/-- the trace that is made from a trace of pm4py, pm4py_utils.py 148-150 -/
def traceFromPm4py (isStr : V → Bool) (activityKey idKey : String) (t : PmTrace V) : Py (EventLog.Trace V V V) := do
  let i ← t.attributes.getItem idKey
  let es ← t.events.mapM (eventFromPm4py isStr activityKey)
  EventLog.Trace.new i es t.attributes

/-- `convert_pm4py_log`, pm4py_utils.py 141-151 -/
def logFromPm4py (isStr : V → Bool) (activityKey idKey : String) (log : List (PmTrace V)) : Py (Log V V V) :=
  log.mapM (traceFromPm4py isStr activityKey idKey)

end Prolothar.Pm4py
