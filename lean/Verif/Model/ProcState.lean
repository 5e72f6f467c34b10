import Verif.Model.ParallelState
/-
Model of /repo/prolothar_common/parallel/multiprocess with functions that have side effects. The functions of the caller read and write a
state outside of the processes (files, a data base). As in Model/ParallelState.lean every call has a beginning and one moment at which it
takes effect and has its answer. The memory of the processes themselves (global variables) is not modelled: every worker process has its own.
-/
namespace Prolothar.Parallel
open Prolothar.ListUtils
variable {α O σ : Type}

/-- `MapWorker.run`, multiprocess_partitionable_list.py 154-160: an exception is put into the queue like a result, and the loop goes on.
`append` stands for `result_queue.put`. -/
def procMapProg (B : Builtins O) : List α → Prog α O
  | [] => .append B.stop .done
  | x :: xs => .call (.map x) fun
    | .error e => .append e (procMapProg B xs)
    | .ok o => .append o (procMapProg B xs)

/-- `MapFilterWorker.run`, multiprocess_partitionable_list.py 173-181; `truthy` is python's `bool` -/
def procFilterProg (B : Builtins O) (truthy : O → Bool) : List α → Prog α O
  | [] => .append B.stop .done
  | x :: xs => .call (.map x) fun
    | .error e => .append e (procFilterProg B truthy xs)
    | .ok o => .call (.filter o) fun
      | .error e => .append e (procFilterProg B truthy xs)
      | .ok b => if truthy b then .append o (procFilterProg B truthy xs) else procFilterProg B truthy xs

/-- the loop of `functools.reduce` and what follows it, multiprocess_partitionable_list.py 193-201 -/
def procReduceLoop (B : Builtins O) : O → List α → Prog α O
  | acc, [] => .append acc (.append B.stop .done)
  | acc, x :: xs => .call (.map x) fun
    | .error e => .append e (.append B.stop .done)
    | .ok v => .call (.reduce acc v) fun
      | .error e => .append e (.append B.stop .done)
      | .ok acc' => procReduceLoop B acc' xs

/-- `MapReduceWorker.run`, multiprocess_partitionable_list.py 193-201 -/
def procReduceProg (B : Builtins O) : List α → Prog α O
  | [] => .append B.typeError (.append B.stop .done)
  | x :: xs => .call (.map x) fun
    | .error e => .append e (.append B.stop .done)
    | .ok v => procReduceLoop B v xs

/-- a worker process: not started, between two calls, inside a call that has not taken effect yet, ended, ended by a signal;
multiprocess_partitionable_list.py 143-201 -/
inductive XW (α O : Type) where
  | idle
  | running (p : Prog α O)
  | calling (c : Call α O) (next : Except O O → Prog α O)
  | finished
  | killed

/-- Calling process, workers, queues, collector and outside state, multiprocess_partitionable_list.py 39-141. With one queue for all workers
(`ordered = false`) only `queues 0`, `mapped 0` and `nrFinished` are used; with one queue per worker `openWorkers` is the deque. The number in
front of a message (the worker that has put it), `calls`, `written` and `taken` (what every worker has put and what the collector has got
from it) only record what has happened. -/
structure XS (σ α O : Type) where
  main : PMain O
  ws : Nat → XW α O
  queues : Nat → List (Nat × O)
  mapped : Nat → List O
  openWorkers : List Nat
  nrFinished : Nat
  mem : σ
  calls : List (Nat × Call α O × Except O O)
  written : Nat → List O
  taken : Nat → List O

/-- before the first worker is started, multiprocess_partitionable_list.py 46-68 -/
def XS.init (m : σ) : XS σ α O :=
  ⟨.starting 0, fun _ => .idle, fun _ => [], fun _ => [], [], 0, m, [], fun _ => [], fun _ => []⟩

/-- the queue of worker `k`, multiprocess_partitionable_list.py 48, 65 -/
def ofQueue (ordered : Bool) (k : Nat) : Nat := if ordered then k else 0

/-- One step of the program. Worker `k` runs `progs[k]`. The `get` rules are the two collectors, multiprocess_partitionable_list.py 100-117 and
119-141, the others 39-98 and 143-201. `worker.terminate()` sends a signal and does not wait: after an exception has been got, a worker
can be ended at any moment, also inside a call that has not taken effect, and can go on until then. -/
inductive XStep (B : Builtins O) (fn : Call α O → σ → Except O O × σ) (ordered : Bool) (progs : List (Prog α O)) : XS σ α O → XS σ α O → Prop where
  | start {s : XS σ α O} {k p} : s.main = .starting k → progs[k]? = some p →
      XStep B fn ordered progs s { s with main := .starting (k + 1), ws := Function.update s.ws k (.running p) }
  | started {s : XS σ α O} : s.main = .starting progs.length →
      XStep B fn ordered progs s { s with main := .collecting, openWorkers := List.range progs.length }
  | getStop {s : XS σ α O} {j o q} : ordered = false → s.main = .collecting → s.nrFinished < progs.length → s.queues 0 = (j, o) :: q →
      B.isStop o = true →
      XStep B fn ordered progs s { s with
        queues := Function.update s.queues 0 q
        nrFinished := s.nrFinished + 1
        taken := Function.update s.taken j (s.taken j ++ [o]) }
  | getExc {s : XS σ α O} {j o q} : ordered = false → s.main = .collecting → s.nrFinished < progs.length → s.queues 0 = (j, o) :: q →
      B.isStop o = false → B.isExc o = true →
      XStep B fn ordered progs s { s with
        queues := Function.update s.queues 0 q
        main := .raised o
        taken := Function.update s.taken j (s.taken j ++ [o]) }
  | getItem {s : XS σ α O} {j o q} : ordered = false → s.main = .collecting → s.nrFinished < progs.length → s.queues 0 = (j, o) :: q →
      B.isStop o = false → B.isExc o = false →
      XStep B fn ordered progs s { s with
        queues := Function.update s.queues 0 q
        mapped := Function.update s.mapped 0 (s.mapped 0 ++ [o])
        taken := Function.update s.taken j (s.taken j ++ [o]) }
  | collected {s : XS σ α O} : ordered = false → s.main = .collecting → ¬ s.nrFinished < progs.length →
      XStep B fn ordered progs s { s with main := .joining 0 }
  | getStopOf {s : XS σ α O} {os k j o q} : ordered = true → s.main = .collecting → s.openWorkers = os ++ [k] → s.queues k = (j, o) :: q →
      B.isStop o = true →
      XStep B fn ordered progs s { s with
        queues := Function.update s.queues k q
        openWorkers := os
        taken := Function.update s.taken j (s.taken j ++ [o]) }
  | getExcOf {s : XS σ α O} {os k j o q} : ordered = true → s.main = .collecting → s.openWorkers = os ++ [k] → s.queues k = (j, o) :: q →
      B.isStop o = false → B.isExc o = true →
      XStep B fn ordered progs s { s with
        queues := Function.update s.queues k q
        main := .raised o
        taken := Function.update s.taken j (s.taken j ++ [o]) }
  | getItemOf {s : XS σ α O} {os k j o q} : ordered = true → s.main = .collecting → s.openWorkers = os ++ [k] → s.queues k = (j, o) :: q →
      B.isStop o = false → B.isExc o = false →
      XStep B fn ordered progs s { s with
        queues := Function.update s.queues k q
        mapped := Function.update s.mapped k (s.mapped k ++ [o])
        openWorkers := k :: os
        taken := Function.update s.taken j (s.taken j ++ [o]) }
  | collectedAll {s : XS σ α O} : ordered = true → s.main = .collecting → s.openWorkers = [] →
      XStep B fn ordered progs s { s with main := .joining 0 }
  | join {s : XS σ α O} {k} : s.main = .joining k → k < progs.length → s.ws k = .finished →
      XStep B fn ordered progs s { s with main := .joining (k + 1) }
  | joined {s : XS σ α O} : s.main = .joining progs.length →
      XStep B fn ordered progs s { s with main := .returned }
  | enter {s : XS σ α O} {k c next} : s.ws k = .running (.call c next) →
      XStep B fn ordered progs s { s with ws := Function.update s.ws k (.calling c next) }
  | effect {s : XS σ α O} {k c next} : s.ws k = .calling c next →
      XStep B fn ordered progs s { s with
        ws := Function.update s.ws k (.running (next (fn c s.mem).1))
        mem := (fn c s.mem).2
        calls := s.calls ++ [(k, c, (fn c s.mem).1)] }
  | put {s : XS σ α O} {k o p} : s.ws k = .running (.append o p) →
      XStep B fn ordered progs s { s with
        ws := Function.update s.ws k (.running p)
        queues := Function.update s.queues (ofQueue ordered k) (s.queues (ofQueue ordered k) ++ [(k, o)])
        written := Function.update s.written k (s.written k ++ [o]) }
  | finish {s : XS σ α O} {k} : s.ws k = .running .done →
      XStep B fn ordered progs s { s with ws := Function.update s.ws k .finished }
  | kill {s : XS σ α O} {k e} : s.main = .raised e → ((∃ p, s.ws k = .running p) ∨ ∃ c next, s.ws k = .calling c next) →
      XStep B fn ordered progs s { s with ws := Function.update s.ws k .killed }

/-- the states that can be reached from the outside state `m`, multiprocess_partitionable_list.py 39-141 -/
def XReach (B : Builtins O) (fn : Call α O → σ → Except O O × σ) (ordered : Bool) (progs : List (Prog α O)) (m : σ) (s : XS σ α O) : Prop :=
  Relation.ReflTransGen (XStep B fn ordered progs) (XS.init m) s

/-- `MultiprocessPartitionableList.map`, multiprocess_partitionable_list.py 39-68, 117, 138-141, on a non-empty list with at least one worker: started
with the outside state `m`, it can reach the state `s` and return `out`. -/
def ProcMapReturns (B : Builtins O) (n : Int) (fn : Call α O → σ → Except O O × σ) (keepOrder : Bool) (l : List α) (m : σ) (s : XS σ α O) (out : List O) : Prop :=
  ∃ parts, viewOfNPartitions l n = .ok parts ∧ s.main = .returned ∧ XReach B fn keepOrder (parts.map (procMapProg B)) m s ∧
    out = if keepOrder then ((List.range parts.length).map s.mapped).tail.foldl (· ++ ·) (((List.range parts.length).map s.mapped).headD [])
      else s.mapped 0

/-- `MultiprocessPartitionableList.map_filter`, multiprocess_partitionable_list.py 70-82 -/
def ProcMapFilterReturns (B : Builtins O) (n : Int) (truthy : O → Bool) (fn : Call α O → σ → Except O O × σ) (l : List α) (m : σ) (s : XS σ α O)
    (out : List O) : Prop :=
  ∃ parts, viewOfNPartitions l n = .ok parts ∧ s.main = .returned ∧ XReach B fn false (parts.map (procFilterProg B truthy)) m s ∧ out = s.mapped 0

/-- `MultiprocessPartitionableList.map_reduce`, multiprocess_partitionable_list.py 84-98: `s` is the state after the workers have been joined, then the
calling process makes the calls `last` and returns `out` with the outside state `m'`. -/
def ProcMapReduceReturns (B : Builtins O) (n : Int) (fn : Call α O → σ → Except O O × σ) (l : List α) (m : σ) (s : XS σ α O)
    (last : List (Call α O × Except O O)) (m' : σ) (out : O) : Prop :=
  ∃ parts, viewOfNPartitions l n = .ok parts ∧ s.main = .returned ∧ XReach B fn false (parts.map (procReduceProg B)) m s ∧
    ∃ o os, s.mapped 0 = o :: os ∧ reduceMain fn o os s.mem = (last, .ok out, m')

end Prolothar.Parallel
