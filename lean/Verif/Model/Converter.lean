import Verif.Model.TargetDatasets
import Verif.Model.EventLog
/-
Model of prolothar_common/models/converter/dataset_to_eventlog_converter.py. Instances are addresses of a heap (as in
`Model/Dataset.lean`). A trace gets the feature dictionary of the instance itself, not a copy, so it is represented by the address of
the instance.
-/
namespace Prolothar.Converter
open Prolothar.Data
open Prolothar.EventLog (Event Trace Log)

/-- a trace whose attributes are the feature dictionary of the instance at the address `attributes`; used for dataset_to_eventlog_converter.py 36-38 -/
structure TraceRef where
  id : Val
  events : List (Event String Val)
  attributes : Nat
deriving DecidableEq

/-- the loop body, dataset_to_eventlog_converter.py 36-38, with the check for no events of trace.pyx 30-31 -/
def convertStep (h : Heap (List String)) (log : List TraceRef) (a : Nat) : Py (List TraceRef) :=
  let events := (h a).target.map Event.new
  if events = [] then .error .value else .ok (log ++ [⟨(h a).id, events, a⟩])

/-- `convert`, dataset_to_eventlog_converter.py 30-40 -/
def convert (h : Heap (List String)) (d : SeqDs) : Py (List TraceRef) := d.base.instances.foldlM (convertStep h) []

/-- what a reader of the log sees; used for dataset_to_eventlog_converter.py 36-38 -/
def view (h : Heap (List String)) (log : List TraceRef) : Log Val String Val :=
  log.map fun t => ⟨t.id, t.events, (h t.attributes).features⟩

/-- `trace.attributes[k] = v`; used for dataset_to_eventlog_converter.py 36-38 -/
def setTraceAttribute (h : Heap (List String)) (t : TraceRef) (k : String) (v : Val) : Heap (List String) :=
  upd h t.attributes { h t.attributes with features := (h t.attributes).features.put k v }

end Prolothar.Converter
