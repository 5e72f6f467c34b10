import Verif.Model.EventLogHeap
/-
Logs that share trace objects: `Query.execute` in /repo/prolothar_common/models/log_queries/query.py, `train_test_split`, `k_folds`, `add_trace`
and `add_traces` in /repo/prolothar_common/models/eventlog/eventlog.py put existing trace objects into other logs. The other commands are those of
`Model/EventLogHeap.lean`.
-/
namespace Prolothar.LogShare
open Prolothar.EventLog Prolothar.EventLogHeap
variable {I A V : Type}

/-- commands of a program that works with logs; used for query.py 25-34 and eventlog.py 40-45 -/
inductive Op (I A V : Type)
  | cmd (c : Cmd I A V)
  /-- `dst = query.execute(src)`; `keep` is what `matches_trace` answers -/
  | query (src dst : Nat) (keep : Trace I A V → Bool)
  /-- a log with the traces of `src` at the given positions, as the parts of a split and the folds -/
  | pick (src dst : Nat) (positions : List Nat)
  /-- `dst.add_trace(src.traces[i])` -/
  | share (src i dst : Nat)
  /-- `dst.add_traces(src.traces)` -/
  | extend (src dst : Nat)

/-- `Query.execute`, query.py 25-34: the new log has the same trace objects -/
def query (h : Heap I A V) (src dst : Nat) (keep : Trace I A V → Bool) : Heap I A V :=
  { h with traces := upd h.traces dst ((h.traces src).filter fun t => keep (viewTrace h t)) }

/-- `[self.traces[i] for i in positions]`; the slices of the shuffled list in eventlog.py 361-366 and the folds in eventlog.py 399-404 -/
def pick (h : Heap I A V) (src dst : Nat) (positions : List Nat) : Py (Heap I A V) := do
  let ts ← positions.mapM (traceAt h src)
  return { h with traces := upd h.traces dst ts }

/-- `dst.add_trace(src.traces[i])`, eventlog.py 40-41 -/
def share (h : Heap I A V) (src i dst : Nat) : Py (Heap I A V) := do
  let t ← traceAt h src i
  return { h with traces := upd h.traces dst (h.traces dst ++ [t]) }

/-- `dst.add_traces(src.traces)`, eventlog.py 43-44 -/
def extend (h : Heap I A V) (src dst : Nat) : Heap I A V :=
  { h with traces := upd h.traces dst (h.traces dst ++ h.traces src) }

/-- the effect of a command on the objects; used for query.py 25-34 and eventlog.py 40-45 -/
def stepOp [DecidableEq A] (h : Heap I A V) : Op I A V → Py (Heap I A V)
  | .cmd c => step h c
  | .query src dst keep => .ok (query h src dst keep)
  | .pick src dst positions => pick h src dst positions
  | .share src i dst => share h src i dst
  | .extend src dst => .ok (extend h src dst)

/-- a program; used for query.py 25-34 and eventlog.py 40-45 -/
def runOps [DecidableEq A] : Heap I A V → List (Op I A V) → Py (Heap I A V)
  | h, [] => .ok h
  | h, op :: ops => do
    let h ← stepOp h op
    runOps h ops

end Prolothar.LogShare
