import Verif.Model.Dict
import Verif.Model.ListUtils
import Mathlib.Data.Rat.Floor
/-
Model of /repo/prolothar_common/models/eventlog/{event.pyx,trace.pyx,eventlog.py}.

Activities, trace ids and attribute values are arbitrary types `A`, `I`, `V`. Objects are values: the
model assumes that no `Trace` or `Event` object occurs twice in a log (aliasing is the subject of
`Model/EventLogHeap.lean`). `ComplexEvent` and the pandas conversions are not modelled here.
-/
namespace Prolothar.EventLog
open Prolothar.ListUtils
variable {I A V : Type}

/-- event.pyx 20-25 -/
structure Event (A V : Type) where
  activity : A
  attributes : Dict String V
  transition : Option String
  deriving DecidableEq

/-- trace.pyx 21-35 -/
structure Trace (I A V : Type) where
  id : I
  events : List (Event A V)
  attributes : Dict String V
  deriving DecidableEq

/-- `EventLog.traces`, eventlog.py 36-38 -/
abbrev Log (I A V : Type) := List (Trace I A V)

/-- `Event(activity)`, event.pyx 21-25 with default arguments -/
def Event.new (a : A) : Event A V := ⟨a, [], none⟩

/-- `Trace.__init__`, trace.pyx 22-35: raises ValueError for no events -/
def Trace.new (id : I) (events : List (Event A V)) (attributes : Dict String V) : Py (Trace I A V) :=
  if events = [] then .error .value else .ok ⟨id, events, attributes⟩

/-- `Trace.to_activity_list`, trace.pyx 83-84 -/
def Trace.activities (t : Trace I A V) : List A := t.events.map Event.activity

/-- `get_first_index_of_first_matching_activity`, trace.pyx 44-51; `enumerate` is `zipIdx` -/
def firstIndexOfMatching (t : Trace I A V) (S : A → Bool) : Int :=
  match t.events.zipIdx.find? (fun p => S p.1.activity) with
  | some p => (p.2 : Int)
  | none => -1

/-- `get_last_index_of_first_matching_activity`, trace.pyx 53-60 -/
def lastIndexOfMatching (t : Trace I A V) (S : A → Bool) : Int :=
  match (enumerateReversed t.events).find? (fun p => S p.2.activity) with
  | some p => p.1
  | none => -1

/-- `contains_activity`, trace.pyx 62-67 -/
def Trace.containsActivity [DecidableEq A] (t : Trace I A V) (a : A) : Bool :=
  t.events.any fun e => e.activity = a

/-- python `l[i:]`; used for eventlog.py 249-266 -/
def sliceFrom {β : Type} (l : List β) (i : Int) : List β :=
  l.drop (if i < 0 then (i + l.length).toNat else i.toNat)

/-- python `l[:i]`; used for eventlog.py 249-266 -/
def sliceTo {β : Type} (l : List β) (i : Int) : List β :=
  l.take (if i < 0 then (i + l.length).toNat else i.toNat)

/-- `cut_traces`, eventlog.py 249-266 -/
def cutTraces (log : Log I A V) (start stop : Option (A → Bool)) : Log I A V :=
  let log := match start with
    | none => log
    | some S => log.map fun (t : Trace I A V) => { t with events := sliceFrom t.events (firstIndexOfMatching t S) }
  let log := match stop with
    | none => log
    | some E => log.map fun (t : Trace I A V) => { t with events := sliceTo t.events (lastIndexOfMatching t E + 1) }
  log.filter fun t => decide (t.events.length > 0)

/-- `filter_activities`, eventlog.py 268-279 -/
def filterActivities (log : Log I A V) (allowed : A → Bool) (removeEmpty : Bool) : Log I A V :=
  let log := log.map fun t => { t with events := t.events.filter fun e => allowed e.activity }
  if removeEmpty then log.filter fun t => decide (t.events.length > 0) else log

/-- `counter[k] += 1`; used for eventlog.py 293-296 -/
def bump {κ : Type} [DecidableEq κ] (c : Dict κ Nat) (k : κ) : Dict κ Nat :=
  c.put k ((c.get? k).getD 0 + 1)

/-- `s.add(a)` for a set represented by a list; used for eventlog.py 117-126 -/
def setAdd [DecidableEq A] (s : List A) (a : A) : List A := if a ∈ s then s else s ++ [a]

/-- `compute_activity_set`, eventlog.py 117-126 -/
def activitySet [DecidableEq A] (log : Log I A V) : List A :=
  log.foldl (fun s t => t.events.foldl (fun s e => setAdd s e.activity) s) []

/-- loop body of `count_follows_directly_or_indirectly`, eventlog.py 293-296 -/
def countStep [DecidableEq A] (st : Dict (A × A) Nat × List A) (e : Event A V) :
    Dict (A × A) Nat × List A :=
  (st.2.foldl (fun c a => bump c (a, e.activity)) st.1, setAdd st.2 e.activity)

/-- `count_follows_directly_or_indirectly`, eventlog.py 281-304. Sets are iterated in insertion
order, which fixes the order of the entries only. -/
def countFollows [DecidableEq A] (log : Log I A V) : Dict (A × A) Nat :=
  let counter := log.foldl (fun c t => (t.events.foldl countStep (c, [])).1) []
  let S := activitySet log
  S.foldl (fun c a => S.foldl (fun c b => if (c.get? (a, b)).isSome then c else c.put (a, b) 0) c) counter

/-- `add_start_activity_to_every_trace`, eventlog.py 306-309 -/
def addStartActivity (log : Log I A V) (a : A) : Log I A V :=
  log.map fun t => { t with events := Event.new a :: t.events }

/-- `add_end_activity_to_every_trace`, eventlog.py 311-314 -/
def addEndActivity (log : Log I A V) (a : A) : Log I A V :=
  log.map fun t => { t with events := t.events ++ [Event.new a] }

/-- `compute_set_of_start_activities`, eventlog.py 204-210 -/
def startActivities [DecidableEq A] (log : Log I A V) : Py (List A) :=
  log.foldlM (fun s t => do let e ← pyGet t.events 0; return setAdd s e.activity) []

/-- `compute_set_of_end_activities`, eventlog.py 212-218 -/
def endActivities [DecidableEq A] (log : Log I A V) : Py (List A) :=
  log.foldlM (fun s t => do let e ← pyGet t.events (-1); return setAdd s e.activity) []

/-- loop body of `keep_first_occurence_of_activity_only`, eventlog.py 323-326 -/
def keepFirstStep [DecidableEq A] (st : List A × List (Event A V)) (e : Event A V) :
    List A × List (Event A V) :=
  if e.activity ∈ st.1 then st else (setAdd st.1 e.activity, st.2 ++ [e])

/-- `keep_first_occurence_of_activity_only`, eventlog.py 316-327 -/
def keepFirst [DecidableEq A] (log : Log I A V) : Log I A V :=
  log.map fun t => { t with events := (t.events.foldl keepFirstStep ([], [])).2 }

/-- the arguments of `join_sucessive_events_with_same_activity`, eventlog.py 151-154, and the
arithmetic of attribute values -/
structure JoinArgs (A V : Type) where
  startdate : Option String := none
  enddate : Option String := none
  duration : Option String := none
  raiseError : Bool := true
  blacklist : A → Bool := fun _ => false
  sub : V → V → V
  add : V → V → V

/-- the attribute check of `_join_events`, eventlog.py 453-461, for the attribute `k`. The KeyError
of a missing attribute is the error of `a.attributes[k]`. -/
def checkAttribute [DecidableEq V] (args : JoinArgs A V) (a b : Event A V) (k : String) : Py Unit :=
  if some k ≠ args.startdate ∧ some k ≠ args.enddate ∧ some k ≠ args.duration then do
    let x ← a.attributes.getItem k
    let y ← b.attributes.getItem k
    if x = y then .ok () else .error .value
  else .ok ()

/-- `event_a.attributes[enddate] = event_b.attributes[enddate]`, eventlog.py 462-463 -/
def joinEnd (args : JoinArgs A V) (a b : Event A V) : Py (Event A V) :=
  match args.enddate with
  | none => .ok a
  | some k => do
    let v ← b.attributes.getItem k
    return { a with attributes := a.attributes.put k v }

/-- the duration of the joined event, eventlog.py 464-472 -/
def joinDuration (args : JoinArgs A V) (a b : Event A V) : Py (Event A V) :=
  match args.duration with
  | none => .ok a
  | some d =>
    match args.startdate, args.enddate with
    | some s, some e => do
      let x ← a.attributes.getItem e
      let y ← a.attributes.getItem s
      return { a with attributes := a.attributes.put d (args.sub x y) }
    | _, _ => do
      let x ← a.attributes.getItem d
      let y ← b.attributes.getItem d
      return { a with attributes := a.attributes.put d (args.add x y) }

/-- `_join_events`, eventlog.py 448-472: the new value of `event_a`. The union of the key sets is
iterated in insertion order. -/
def joinEvents [DecidableEq V] (args : JoinArgs A V) (a b : Event A V) : Py (Event A V) := do
  if args.raiseError then
    (a.attributes.keys ++ b.attributes.keys).forM (checkAttribute args a b)
  let a ← joinEnd args a b
  joinDuration args a b

/-- loop body of `join_sucessive_events_with_same_activity`, eventlog.py 178-188; the event list is
kept as all but the last element and the last element -/
def joinStep [DecidableEq A] [DecidableEq V] (args : JoinArgs A V)
    (st : List (Event A V) × Event A V) (e : Event A V) : Py (List (Event A V) × Event A V) :=
  if st.2.activity = e.activity ∧ args.blacklist e.activity = false then do
    let a ← joinEvents args st.2 e
    return (st.1, a)
  else .ok (st.1 ++ [st.2], e)

/-- the new events of one trace, eventlog.py 177-189; `trace.events[0]` raises IndexError for an
empty trace -/
def joinTrace [DecidableEq A] [DecidableEq V] (args : JoinArgs A V) (events : List (Event A V)) :
    Py (List (Event A V)) :=
  match events with
  | [] => .error .index
  | e :: es => do
    let st ← es.foldlM (joinStep args) ([], e)
    return st.1 ++ [st.2]

/-- `join_sucessive_events_with_same_activity`, eventlog.py 151-189 -/
def joinSuccessive [DecidableEq A] [DecidableEq V] (args : JoinArgs A V) (log : Log I A V) :
    Py (Log I A V) :=
  log.mapM fun t => do
    let es ← joinTrace args t.events
    return { t with events := es }

/-- `train_test_split`, eventlog.py 329-368. `shuffle` is `random.shuffle`; the proportion is an
exact rational, `int` truncates. Returns `(train, test)`. -/
def trainTestSplit (shuffle : Log I A V → Log I A V) (log : Log I A V) (p : ℚ) :
    Py (Log I A V × Log I A V) :=
  if 0 ≤ p ∧ p ≤ 1 then
    let traces := shuffle log
    let k := (⌊(traces.length : ℚ) * (1 - p)⌋).toNat
    .ok (traces.take k, traces.drop k)
  else .error .value

/-- sizes of the folds of `sklearn.model_selection.KFold(k)` on `n` samples (library code, its
documented behaviour): the first `n % k` folds have size `n // k + 1`, the others `n // k`; used for eventlog.py 370-404 -/
def foldSizes (n k : Nat) : List Nat :=
  (List.range k).map fun i => if i < n % k then n / k + 1 else n / k

/-- the loop of `KFold.split` (library code) from sample `start` on: the test indices are the next
`size` samples, the train indices all others; used for eventlog.py 370-404 -/
def foldLoop (log : Log I A V) : List Nat → Nat → List (Log I A V × Log I A V)
  | [], _ => []
  | size :: sizes, start =>
    (log.take start ++ log.drop (start + size), (log.drop start).take size)
      :: foldLoop log sizes (start + size)

/-- `k_folds`, eventlog.py 370-404: the list of generated `(train, test)` pairs. `KFold` raises
ValueError for more folds than samples. -/
def kFolds (log : Log I A V) (k : Int) : Py (List (Log I A V × Log I A V)) :=
  if k < 2 then .error .value
  else if k > log.length then .error .value
  else .ok (foldLoop log (foldSizes log.length k.toNat) 0)

/-- `to_simple_activity_log`, eventlog.py 68-74 -/
def toSimple (log : Log I A V) : List (List A) := log.map fun t => t.events.map Event.activity

/-- `create_from_simple_activity_log`, eventlog.py 406-413 -/
def fromSimple (l : List (List A)) : Py (Log Nat A V) :=
  l.zipIdx.mapM fun p => Trace.new p.2 (p.1.map Event.new) []

/-- `Event.to_dict`, event.pyx 40-45: activity name and attributes -/
abbrev EventDict (A V : Type) := A × Dict String V
/-- `Trace.to_dict`, trace.pyx 86-92: id, attributes, events -/
abbrev TraceDict (I A V : Type) := I × Dict String V × List (EventDict A V)

/-- `Event.to_dict`, event.pyx 40-45 -/
def Event.toDict (e : Event A V) : EventDict A V := (e.activity, e.attributes)
/-- `Event.create_from_dict`, event.pyx 47-52 -/
def Event.ofDict (d : EventDict A V) : Event A V := ⟨d.1, d.2, none⟩
/-- `Trace.to_dict`, trace.pyx 86-92 -/
def Trace.toDict (t : Trace I A V) : TraceDict I A V := (t.id, t.attributes, t.events.map Event.toDict)
/-- `Trace.create_from_dict`, trace.pyx 94-102 -/
def Trace.ofDict (d : TraceDict I A V) : Py (Trace I A V) :=
  Trace.new d.1 (d.2.2.map Event.ofDict) d.2.1
/-- `EventLog.to_dict`, eventlog.py 99-108 -/
def toDict (log : Log I A V) : List (TraceDict I A V) := log.map Trace.toDict
/-- `EventLog.create_from_dict`, eventlog.py 438-446 -/
def fromDict (d : List (TraceDict I A V)) : Py (Log I A V) := d.mapM Trace.ofDict

/-! ### equality -/

/-- `Event.__eq__`, event.pyx 31-35 -/
def Event.Eq (a b : Event A V) : Prop :=
  a.activity = b.activity ∧ a.transition = b.transition ∧ a.attributes.Same b.attributes

/-- `Trace.__eq__`, trace.pyx 74-75 -/
def Trace.Eq (t u : Trace I A V) : Prop :=
  List.Forall₂ Event.Eq t.events u.events ∧ t.attributes.Same u.attributes

/-- two traces are the same dict key: equal hashes (trace.pyx 77-78) and `__eq__` -/
def SameKey (hash : I → Int) (t u : Trace I A V) : Prop := hash t.id = hash u.id ∧ Trace.Eq t u

open Classical in
/-- `Counter(traces)`: the keys are the first traces of their kind; used for eventlog.py 281-304 -/
noncomputable def counter (hash : I → Int) (log : Log I A V) : List (Trace I A V × Nat) :=
  log.foldl (fun c t =>
    if ∃ p ∈ c, SameKey hash p.1 t
    then c.map (fun p => if SameKey hash p.1 t then (p.1, p.2 + 1) else p)
    else c ++ [(t, 1)]) []

open Classical in
/-- `counter[t]`, 0 for a missing key; used for eventlog.py 65-66 -/
noncomputable def counterGet (hash : I → Int) (c : List (Trace I A V × Nat)) (t : Trace I A V) : Nat :=
  match c.find? (fun p => decide (SameKey hash p.1 t)) with
  | some p => p.2
  | none => 0

/-- `EventLog.__eq__`, eventlog.py 65-66: `Counter.__eq__` compares the counts of all keys of both
counters -/
def LogEq (hash : I → Int) (l m : Log I A V) : Prop :=
  (∀ p ∈ counter hash l, counterGet hash (counter hash l) p.1 = counterGet hash (counter hash m) p.1) ∧
  (∀ p ∈ counter hash m, counterGet hash (counter hash l) p.1 = counterGet hash (counter hash m) p.1)

/-! ### counting and copying -/

/-- `count_nr_of_events`, eventlog.py 191-195 -/
def countEvents (log : Log I A V) : Nat := log.foldl (fun n t => n + t.events.length) 0

/-- `compute_activity_supports`, eventlog.py 197-202 -/
def activitySupports [DecidableEq A] (log : Log I A V) : Dict A Nat :=
  log.foldl (fun c t => t.events.foldl (fun c e => bump c e.activity) c) []

end Prolothar.EventLog
