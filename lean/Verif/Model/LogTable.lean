import Verif.Model.EventLog
import Mathlib.Data.List.Sort
import Mathlib.Data.String.Basic
/-
Model of the table conversions of /repo/prolothar_common/models/eventlog/eventlog.py: `to_pandas_df`, `create_from_pandas_df`,
`write_to_csv`, `derive_event_duration_by_end_date`.

Trace ids, activities and attribute values are python values of one linearly ordered type `V`. A data frame is its list of column names
and its rows; an empty cell (`None`/`NaN`) is `none`. Conversions of column types by pandas are not modelled.
-/
namespace Prolothar.LogTable
open Prolothar.EventLog
variable {V : Type}

/-- a pandas data frame; used for eventlog.py 220-247 -/
structure Frame (V : Type) where
  columns : List String
  rows : List (List (Option V))
  deriving DecidableEq

/-- `sorted(attributes.items())`, eventlog.py 234, 237: keys are pairwise different, so the values are never compared -/
def sortedItems (d : Dict String V) : List (String × V) := d.insertionSort fun p q => p.1 ≤ q.1

/-- one row of the table, eventlog.py 231-239 -/
def tableRow (appendId : Bool) (t : Trace V V V) (e : Event V V) : List (Option V) :=
  (if appendId then [some t.id] else []) ++ (sortedItems t.attributes).map (fun p => some p.2) ++ [some e.activity] ++
    (sortedItems e.attributes).map fun p => some p.2

/-- `pd.DataFrame(rows, columns=columns)`: rows are filled up to the length of the longest one; this must be the number of columns; used for eventlog.py 220-247 -/
def makeFrame (rows : List (List (Option V))) (columns : List String) : Py (Frame V) :=
  let m := (rows.map List.length).foldl max 0
  if m ≠ columns.length then .error .value
  else .ok ⟨columns, rows.map fun r => r ++ List.replicate (m - r.length) none⟩

/-- `to_pandas_df`, eventlog.py 220-247 -/
def toFrame (log : Log V V V) (appendId : Bool) : Py (Frame V) := do
  let rows := log.flatMap fun t => t.events.map fun e => tableRow appendId t e
  let t0 ← match log with
    | [] => .error .index
    | t :: _ => .ok t
  let e0 ← match t0.events with
    | [] => .error .index
    | e :: _ => .ok e
  let columns := (if appendId then ["trace"] else []) ++ t0.attributes.keys.insertionSort (· ≤ ·) ++ ["Activity"] ++
    e0.attributes.keys.insertionSort (· ≤ ·)
  makeFrame rows columns

/-- the cell of a row under a column name; for names that occur once among the columns; used for eventlog.py 415-436 -/
def cell (columns : List String) (c : String) (row : List (Option V)) : Option V := (row[columns.idxOf c]?).join

/-- a column of the frame, for names that occur once; an unknown name raises `err`; used for eventlog.py 415-436 -/
def Frame.column (f : Frame V) (err : PyErr) (c : String) : Py (List (Option V)) :=
  if c ∈ f.columns then .ok (f.rows.map (cell f.columns c)) else .error err

section
variable [LinearOrder V]

/-- the group keys of `df.groupby(c)`: sorted, each once, without the empty cells; used for eventlog.py 415-436 -/
def groupKeys (col : List (Option V)) : List V := (col.filterMap id).dedup.insertionSort (· ≤ ·)

/-- the entries of the column `x` in the rows of the group `k` of the column `col`; used for eventlog.py 428-431 -/
def groupCells (col x : List (Option V)) (k : V) : List (Option V) :=
  ((col.zip x).filter fun p => p.1 = some k).map Prod.snd

/-- `event.attributes[name] = v` unless `v is None`, eventlog.py 430-431 with `add_none_attributes = False` -/
def withAttr (e : Event V V) (name : String) (v : Option V) : Event V V :=
  { e with attributes := match v with
    | some v => e.attributes.put name v
    | none => e.attributes }

/-- `getattr(row, c)`: a column other than the one that is grouped by; column names are identifiers that occur once; used for eventlog.py 428-431 -/
def Frame.other (f : Frame V) (caseId c : String) : Py (List (Option V)) :=
  if c = caseId then .error .attribute else f.column .attribute c

/-- the loop over one event attribute, eventlog.py 428-431 -/
def eventStep (f : Frame V) (ids : List (Option V)) (caseId : String) (k : V) (es : List (Event V V)) (c : String) : Py (List (Event V V)) := do
  let col ← f.other caseId c
  return (es.zip (groupCells ids col k)).map fun p => withAttr p.1 c p.2

/-- one trace attribute, eventlog.py 433-434. A python `None` cannot be held by the model of the event log: the model answers with a
`ValueError`. -/
def attrStep (f : Frame V) (ids : List (Option V)) (caseId : String) (k : V) (d : Dict String V) (c : String) : Py (Dict String V) := do
  let col ← f.other caseId c
  match (groupCells ids col k)[0]? with
  | some (some v) => return d.put c v
  | _ => .error .value

/-- `Event(activity)`, eventlog.py 427; again a `None` is not held by the model -/
def readEvent (a : Option V) : Py (Event V V) :=
  match a with
  | some a => .ok ⟨a, [], none⟩
  | none => .error .value

/-- one trace, eventlog.py 427-435 -/
def readTrace (f : Frame V) (ids : List (Option V)) (caseId activity : String) (eventCols traceCols : List String) (k : V) :
    Py (Trace V V V) := do
  let acts ← f.other caseId activity
  let es ← (groupCells ids acts k).mapM readEvent
  let es ← eventCols.foldlM (eventStep f ids caseId k) es
  let attrs ← traceCols.foldlM (attrStep f ids caseId k) (Dict.put [] caseId k)
  Trace.new k es attrs

/-- `create_from_pandas_df`, eventlog.py 415-436, for `add_none_attributes = False` -/
def fromFrame (f : Frame V) (caseId activity : String) (eventCols traceCols : List String) : Py (Log V V V) := do
  let ids ← f.column .key caseId
  (groupKeys ids).mapM (readTrace f ids caseId activity eventCols traceCols)
end

/-! ### csv -/

/-- `str(i)` for a natural number; used for eventlog.py 76-98 -/
def natStr (n : Nat) : List Char := Nat.toDigits 10 n

/-- `write_to_csv`, eventlog.py 76-98: what is written; strings are lists of characters. `name` is the activity name. -/
def csv {I A V : Type} (name : A → List Char) (log : Log I A V) (traceCol activityCol sep : List Char) : List Char :=
  traceCol ++ sep ++ activityCol ++ ['\n'] ++
    (log.zipIdx.flatMap fun p => p.1.events.flatMap fun e => natStr p.2 ++ sep ++ name e.activity ++ ['\n'])

/-! ### durations -/

section
variable {I A : Type}

/-- one event of `derive_event_duration_by_end_date`, eventlog.py 133-140 and 142-149: `startDefault` is the end date the start date
is taken from if it is missing. Dates and durations are integers. -/
def deriveEvent (kStart kEnd kDur : String) (e : Event A Int) (startDefault : Py Int) : Py (Event A Int) := do
  let attrs ← (if e.attributes.has kStart then .ok e.attributes
    else startDefault.map fun d => e.attributes.put kStart d : Py (Dict String Int))
  let stop ← attrs.getItem kEnd
  let start ← attrs.getItem kStart
  let attrs := attrs.put kDur (stop - start)
  let dur ← attrs.getItem kDur
  if dur < 0 then .error .value else .ok { e with attributes := attrs }

/-- the loop over `pairwise(trace.events)`, eventlog.py 141-149 -/
def deriveLoop (kStart kEnd kDur : String) : Event A Int → List (Event A Int) → Py (List (Event A Int))
  | _, [] => .ok []
  | last, e :: es => do
    let e' ← deriveEvent kStart kEnd kDur e (last.attributes.getItem kEnd)
    let rest ← deriveLoop kStart kEnd kDur e' es
    return e' :: rest

/-- one trace, eventlog.py 132-149 -/
def deriveTrace (kStart kEnd kDur : String) (t : Trace I A Int) : Py (Trace I A Int) :=
  match t.events with
  | [] => .error .index
  | e :: es => do
    let e' ← deriveEvent kStart kEnd kDur e (e.attributes.getItem kEnd)
    let rest ← deriveLoop kStart kEnd kDur e' es
    return { t with events := e' :: rest }

/-- `derive_event_duration_by_end_date`, eventlog.py 128-149; what remains of the log after an exception is modelled in Model/LogDurations.lean -/
def deriveDuration (kStart kEnd kDur : String) (log : Log I A Int) : Py (Log I A Int) := log.mapM (deriveTrace kStart kEnd kDur)
end

end Prolothar.LogTable
