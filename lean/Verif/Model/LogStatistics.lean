import Verif.Model.LogTable
import Verif.Model.Statistics
/-
Model of /repo/prolothar_common/models/log_statistics.py. Numbers are rationals.
-/
namespace Prolothar.LogStatistics
open Prolothar.EventLog Prolothar.LogTable

/-- `TraceStatistics`, log_statistics.py 36-47 -/
structure TraceStats where
  nrTraces : Nat
  nrVariants : Nat
  minLength : Int
  averageLength : ℚ
  maxLength : Int
  deriving DecidableEq

section
variable {I A V : Type} [DecidableEq A]

/-- `int(x)` of a float that may be NaN; used for log_statistics.py 41-47 -/
def pyInt (x : Option ℚ) : Py Int :=
  match x with
  | some q => .ok ⌊q⌋
  | none => .error .value

/-- `TraceStatistics.__init__`, log_statistics.py 41-47; the lengths are not negative, so that `int` rounds down -/
def traceStatistics (log : Log I A V) : Py TraceStats := do
  let variants := (log.map Trace.activities).foldl setAdd []
  let s := Statistics.pushAll Statistics.new (log.map fun t => (t.events.length : ℚ))
  let lo ← pyInt s.min
  let hi ← pyInt s.max
  return ⟨log.length, variants.length, lo, s.mean, hi⟩

/-- `', '.join(variant)`; used for log_statistics.py 154-168 -/
def joinNames (name : A → List Char) : List A → List Char
  | [] => []
  | [a] => name a
  | a :: as => name a ++ [',', ' '] ++ joinNames name as

/-- `compute_variant_statistics_df`, log_statistics.py 154-168 -/
def variantStatistics (name : A → List Char) (log : Log I A V) : List (List Char × Nat) :=
  let counter := log.foldl (fun c t => bump c t.activities) ([] : Dict (List A) Nat)
  counter.map fun p => (joinNames name p.1, p.2)
end

section
variable {V : Type} [LinearOrder V]

/-- a row of the activity statistics; `agg` are the minima, maxima and means of the chosen attributes; used for log_statistics.py 106-107 -/
structure ActivityStats (R : Type) where
  support : Nat
  traces : Nat
  agg : List R
  frequency : ℚ
  frequencyTraces : ℚ
  aGivenStart : ℚ
  aGivenEnd : ℚ
  startGivenA : ℚ
  endGivenA : ℚ

/-- `Counter` of the first (last) activities, log_statistics.py 125-130; `pick` is `events[0]` or `events[-1]` -/
def endCounter (pick : List (Event V V) → Option (Event V V)) (log : Log V V V) : Py (Dict V Nat) :=
  log.foldlM (fun c t => match pick t.events with
    | some e => return bump c e.activity
    | none => .error .index) []

/-- the columns that are computed after grouping, log_statistics.py 106-107 and 132-150 -/
def finishRow {R : Type} (starts ends : Dict V Nat) (n total : Nat) (a : V) (support traces : Nat) (agg : List R) : ActivityStats R :=
  let frequency : ℚ := support / total
  let aGivenStart : ℚ := ((starts.get? a).getD 0 : Nat) / n
  let aGivenEnd : ℚ := ((ends.get? a).getD 0 : Nat) / n
  ⟨support, traces, agg, frequency, traces / n, aGivenStart, aGivenEnd,
    aGivenStart * ((n : ℚ) / total) / frequency, aGivenEnd * ((n : ℚ) / total) / frequency⟩

/-- `compute_activity_statistics_df`, log_statistics.py 66-152. `idAttr` is the parameter `trace_id_attribute`. `aggs` is the list of the
pairs of an aggregation function and the column it is applied to; `count` and `nunique` skip empty cells. -/
def activityStatistics {R : Type} (log : Log V V V) (idAttr : Option String) (aggs : List ((List (Option V) → R) × String)) :
    Py (List (V × ActivityStats R)) := do
  let f ← toFrame log idAttr.isNone
  let acts ← f.column .key "Activity"
  let ids ← f.column .key (idAttr.getD "trace")
  let cols ← aggs.mapM fun g => do
    let c ← f.column .key g.2
    return (g.1, c)
  let rows := (groupKeys acts).map fun a =>
    (a, ((groupCells acts ids a).filterMap id).length, ((groupCells acts ids a).filterMap id).dedup.length,
      cols.map fun g => g.1 (groupCells acts g.2 a))
  let total := (rows.map fun r => r.2.1).sum
  let starts ← endCounter List.head? log
  let ends ← endCounter List.getLast? log
  return rows.map fun r => (r.1, finishRow starts ends log.length total r.1 r.2.1 r.2.2.1 r.2.2.2)
end

end Prolothar.LogStatistics
