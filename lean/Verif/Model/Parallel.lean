import Verif.Model.ListUtils
import Mathlib.Logic.Function.Basic
import Mathlib.Logic.Relation
/-
Model of /repo/prolothar_common/parallel/{single_thread,threading,multiprocess}.

Caller supplied functions are pure functions that return a python object or raise one (`Except O`).
`O` is the type of python objects; `Builtins O` says which of them are exceptions. The `parameter`
argument is part of the functions (partial application). The progress bar is not modelled.
Threads and processes are small-step transition systems: every step of a worker or of the calling
thread is one transition, and the scheduler picks any enabled transition.
-/
namespace Prolothar.Parallel
open Prolothar.ListUtils
variable {α O : Type}

/-- the python objects the collectors look at; used for local_partitionable_list.py 38-42 -/
structure Builtins (O : Type) where
  /-- `isinstance(o, Exception)` -/
  isExc : O → Bool
  /-- `isinstance(o, StopIteration)` -/
  isStop : O → Bool
  /-- `StopIteration()` -/
  stop : O
  /-- the `ZeroDivisionError` raised by `divmod(_, 0)` -/
  zeroDivision : O
  /-- the `TypeError` raised by `functools.reduce` on an empty iterable -/
  typeError : O
  stop_isStop : isStop stop = true
  stop_isExc : ∀ o, isStop o = true → isExc o = true

/-! ### functools.reduce -/

/-- `reduce(op, (f(x) for x in l))`: `f` is called lazily, in between the calls of `op`. A
StopIteration raised by `f` inside the generator (turned into RuntimeError by python) is kept. Used for local_partitionable_list.py 38-42. -/
def reduceGen (B : Builtins O) (f : α → Except O O) (op : O → O → Except O O) : List α → Except O O
  | [] => .error B.typeError
  | x :: xs => do
    let r ← f x
    xs.foldlM (fun r y => do let v ← f y; op r v) r

/-! ### single thread: single_thread/partitionable/local_partitionable_list.py -/

/-- `LocalPartitionableList.map`, local_partitionable_list.py 28-30 -/
def localMap (f : α → Except O O) (l : List α) : Except O (List O) := l.mapM f

/-- `LocalPartitionableList.map_filter`, local_partitionable_list.py 32-36 -/
def localMapFilter (f : α → Except O O) (p : O → Except O Bool) (l : List α) : Except O (List O) := do
  let mapped ← localMap f l
  let kept ← mapped.mapM fun o => do
    let b ← p o
    return if b then some o else none
  return kept.filterMap id

/-- `LocalPartitionableList.map_reduce`, local_partitionable_list.py 38-42 -/
def localMapReduce (B : Builtins O) (f : α → Except O O) (op : O → O → Except O O) (l : List α) :
    Except O O := reduceGen B f op l

/-! ### the loop bodies of the workers -/

/-- body of `MapWorker`: threading_partitionable_list.py 134-136,
multiprocess_partitionable_list.py 154-156; always one result -/
def mapAct (f : α → Except O O) (x : α) : Except O (Option O) := do
  let r ← f x
  return some r

/-- body of `MapFilterWorker`: threading_partitionable_list.py 149-153,
multiprocess_partitionable_list.py 173-177 -/
def mapFilterAct (f : α → Except O O) (p : O → Except O Bool) (x : α) : Except O (Option O) := do
  let r ← f x
  let b ← p r
  return if b then some r else none

/-- body of `MapReduceWorker`: threading_partitionable_list.py 166-170,
multiprocess_partitionable_list.py 193-200; the whole partition is one unit of work -/
def reduceAct (B : Builtins O) (f : α → Except O O) (op : O → O → Except O O) (part : List α) :
    Except O (Option O) := do
  let r ← reduceGen B f op part
  return some r

/-! ### threads: threading/partitionable/threading_partitionable_list.py -/

/-- a worker thread: not started, in the loop, with a computed result that is not appended yet,
ended, ended with `self.exception` set (threading_partitionable_list.py 113-122) -/
inductive TW (α O : Type) where
  | idle
  | running (todo : List α)
  | holding (o : O) (todo : List α)
  | finished
  | failed (e : O)

/-- one step of a worker thread; the middle argument is the object appended to its result list
(`list.append` is atomic); used for threading_partitionable_list.py 48-61 -/
inductive TWStep (act : α → Except O (Option O)) : TW α O → Option O → TW α O → Prop where
  | keep {x xs o} : act x = .ok (some o) → TWStep act (.running (x :: xs)) none (.holding o xs)
  | skip {x xs} : act x = .ok none → TWStep act (.running (x :: xs)) none (.running xs)
  | raise {x xs e} : act x = .error e → TWStep act (.running (x :: xs)) none (.failed e)
  | append {o xs} : TWStep act (.holding o xs) (some o) (.running xs)
  | done : TWStep act (.running []) none .finished

/-- program counter of the calling thread: starting worker `k`
(threading_partitionable_list.py 53-57), joining worker `k` (35-39), result or exception -/
inductive TMain (O : Type) where
  | starting (k : Nat)
  | joining (k : Nat)
  | returned
  | raised (e : O)

/-- the state of the program with threads: calling thread, workers and result lists, threading_partitionable_list.py 41-79 -/
structure TS (α O : Type) where
  main : TMain O
  ws : Nat → TW α O
  lists : Nat → List O

/-- before the first worker is started, threading_partitionable_list.py 41-46 -/
def TS.init : TS α O := ⟨.starting 0, fun _ => .idle, fun _ => []⟩

/-- One step of the whole program. Worker `k` works on `parts[k]` and appends to result list
number `dest k`: `dest k = 0` for the shared `result_list` (threading_partitionable_list.py 48-61,
81-95, 97-109), `dest k = k` for `result_lists` (63-74). -/
inductive TStep (act : α → Except O (Option O)) (parts : List (List α)) (dest : Nat → Nat) :
    TS α O → TS α O → Prop where
  | start {s : TS α O} {k part} : s.main = .starting k → parts[k]? = some part →
      TStep act parts dest s
        { s with main := .starting (k + 1), ws := Function.update s.ws k (.running part) }
  | started {s : TS α O} : s.main = .starting parts.length →
      TStep act parts dest s { s with main := .joining 0 }
  | join {s : TS α O} {k} : s.main = .joining k → k < parts.length → s.ws k = .finished →
      TStep act parts dest s { s with main := .joining (k + 1) }
  | joinRaise {s : TS α O} {k e} : s.main = .joining k → k < parts.length → s.ws k = .failed e →
      TStep act parts dest s { s with main := .raised e }
  | joined {s : TS α O} : s.main = .joining parts.length →
      TStep act parts dest s { s with main := .returned }
  | worker {s : TS α O} {k eo w} : TWStep act (s.ws k) eo w →
      TStep act parts dest s { s with
        ws := Function.update s.ws k w
        lists := Function.update s.lists (dest k) (s.lists (dest k) ++ eo.toList) }

/-- the possible results of running all workers: the result lists, or the raised exception; used for threading_partitionable_list.py 41-79 -/
def ThreadRun (act : α → Except O (Option O)) (parts : List (List α)) (dest : Nat → Nat)
    (out : Except O (Nat → List O)) : Prop :=
  ∃ s, Relation.ReflTransGen (TStep act parts dest) TS.init s ∧
    ((s.main = .returned ∧ out = .ok s.lists) ∨ ∃ e, s.main = .raised e ∧ out = .error e)

/-- `reduce(combine_lists, result_lists)`, threading_partitionable_list.py 76-79 -/
def combineLists (B : Builtins O) : List (List O) → Except O (List O)
  | [] => .error B.typeError
  | x :: xs => .ok (xs.foldl (· ++ ·) x)

/-- `ThreadingPartitionableList.map`, threading_partitionable_list.py 41-79: `out` is a possible
outcome. -/
def ThreadMap (B : Builtins O) (n : Int) (f : α → Except O O) (keepOrder : Bool) (l : List α)
    (out : Except O (List O)) : Prop :=
  match viewOfNPartitions l n with
  | .error _ => out = .error B.zeroDivision
  | .ok parts =>
    if keepOrder then ∃ r, ThreadRun (mapAct f) parts id r ∧
      out = r.bind fun lists => combineLists B ((List.range parts.length).map lists)
    else ∃ r, ThreadRun (mapAct f) parts (fun _ => 0) r ∧ out = r.map fun lists => lists 0

/-- `ThreadingPartitionableList.map_filter`, threading_partitionable_list.py 81-95 -/
def ThreadMapFilter (B : Builtins O) (n : Int) (f : α → Except O O) (p : O → Except O Bool)
    (l : List α) (out : Except O (List O)) : Prop :=
  match viewOfNPartitions l n with
  | .error _ => out = .error B.zeroDivision
  | .ok parts =>
    ∃ r, ThreadRun (mapFilterAct f p) parts (fun _ => 0) r ∧ out = r.map fun lists => lists 0

/-- `ThreadingPartitionableList.map_reduce`, threading_partitionable_list.py 97-111 -/
def ThreadMapReduce (B : Builtins O) (n : Int) (f : α → Except O O) (op : O → O → Except O O)
    (l : List α) (out : Except O O) : Prop :=
  match viewOfNPartitions l n with
  | .error _ => out = .error B.zeroDivision
  | .ok parts =>
    ∃ r, ThreadRun (reduceAct B f op) (parts.map fun part => [part]) (fun _ => 0) r ∧
      out = r.bind fun lists => reduceGen B .ok op (lists 0)

/-! ### processes: multiprocess/partitionable/multiprocess_partitionable_list.py -/

/-- a worker process; `holding o` is about to execute `result_queue.put(o)`; used for multiprocess_partitionable_list.py 153-159 -/
inductive PW (α O : Type) where
  | idle
  | running (todo : List α)
  | holding (o : O) (todo : List α)
  | finished

/-- one step of a worker process (multiprocess_partitionable_list.py 153-159, 172-180, 193-201);
the middle argument is the object put into its queue. Exceptions are put like results. The feeder
thread of `multiprocessing.Queue` delays puts but keeps the order of each process, which the
scheduler can imitate by delaying the `put` step. -/
inductive PWStep (B : Builtins O) (act : α → Except O (Option O)) :
    PW α O → Option O → PW α O → Prop where
  | keep {x xs o} : act x = .ok (some o) → PWStep B act (.running (x :: xs)) none (.holding o xs)
  | skip {x xs} : act x = .ok none → PWStep B act (.running (x :: xs)) none (.running xs)
  | caught {x xs e} : act x = .error e → PWStep B act (.running (x :: xs)) none (.holding e xs)
  | put {o xs} : PWStep B act (.holding o xs) (some o) (.running xs)
  | stop : PWStep B act (.running []) (some B.stop) .finished

/-- the calling process, multiprocess_partitionable_list.py 39-68 -/
inductive PMain (O : Type) where
  | starting (k : Nat)
  | collecting
  | joining (k : Nat)
  | returned
  | raised (e : O)

/-- state with one shared queue (multiprocess_partitionable_list.py 46-57, 70-98, 100-117) -/
structure PS (α O : Type) where
  main : PMain O
  ws : Nat → PW α O
  queue : List O
  mapped : List O
  nrFinished : Nat

/-- before the first worker is started, multiprocess_partitionable_list.py 46-57 -/
def PS.init : PS α O := ⟨.starting 0, fun _ => .idle, [], [], 0⟩

/-- One step with a shared queue; the collector is `__collect_worker_results`,
multiprocess_partitionable_list.py 100-117. `queue.get()` blocks while the queue is empty. -/
inductive PStep (B : Builtins O) (act : α → Except O (Option O)) (parts : List (List α)) :
    PS α O → PS α O → Prop where
  | start {s : PS α O} {k part} : s.main = .starting k → parts[k]? = some part →
      PStep B act parts s
        { s with main := .starting (k + 1), ws := Function.update s.ws k (.running part) }
  | started {s : PS α O} : s.main = .starting parts.length →
      PStep B act parts s { s with main := .collecting }
  | getStop {s : PS α O} {o q} : s.main = .collecting → s.nrFinished < parts.length →
      s.queue = o :: q → B.isStop o = true →
      PStep B act parts s { s with queue := q, nrFinished := s.nrFinished + 1 }
  | getExc {s : PS α O} {o q} : s.main = .collecting → s.nrFinished < parts.length →
      s.queue = o :: q → B.isStop o = false → B.isExc o = true →
      PStep B act parts s { s with queue := q, main := .raised o }
  | getItem {s : PS α O} {o q} : s.main = .collecting → s.nrFinished < parts.length →
      s.queue = o :: q → B.isStop o = false → B.isExc o = false →
      PStep B act parts s { s with queue := q, mapped := s.mapped ++ [o] }
  | collected {s : PS α O} : s.main = .collecting → ¬ s.nrFinished < parts.length →
      PStep B act parts s { s with main := .joining 0 }
  | join {s : PS α O} {k} : s.main = .joining k → k < parts.length → s.ws k = .finished →
      PStep B act parts s { s with main := .joining (k + 1) }
  | joined {s : PS α O} : s.main = .joining parts.length →
      PStep B act parts s { s with main := .returned }
  | worker {s : PS α O} {k eo w} : PWStep B act (s.ws k) eo w →
      PStep B act parts s
        { s with ws := Function.update s.ws k w, queue := s.queue ++ eo.toList }

/-- the possible results with a shared queue, multiprocess_partitionable_list.py 46-57 -/
def ProcRun (B : Builtins O) (act : α → Except O (Option O)) (parts : List (List α))
    (out : Except O (List O)) : Prop :=
  ∃ s, Relation.ReflTransGen (PStep B act parts) PS.init s ∧
    ((s.main = .returned ∧ out = .ok s.mapped) ∨ ∃ e, s.main = .raised e ∧ out = .error e)

/-- state with one queue per worker (multiprocess_partitionable_list.py 59-68, 119-141);
`openWorkers` is the deque -/
structure QS (α O : Type) where
  main : PMain O
  ws : Nat → PW α O
  queues : Nat → List O
  mapped : Nat → List O
  openWorkers : List Nat

/-- before the first worker is started, multiprocess_partitionable_list.py 59-68 -/
def QS.init : QS α O := ⟨.starting 0, fun _ => .idle, fun _ => [], fun _ => [], []⟩

/-- One step with one queue per worker; the collector is
`__collect_worker_results_with_order_guarantee`, multiprocess_partitionable_list.py 119-141:
`open_workers.pop()` takes the last element, `appendleft` puts it in front. -/
inductive QStep (B : Builtins O) (act : α → Except O (Option O)) (parts : List (List α)) :
    QS α O → QS α O → Prop where
  | start {s : QS α O} {k part} : s.main = .starting k → parts[k]? = some part →
      QStep B act parts s
        { s with main := .starting (k + 1), ws := Function.update s.ws k (.running part) }
  | started {s : QS α O} : s.main = .starting parts.length →
      QStep B act parts s
        { s with main := .collecting, openWorkers := List.range parts.length }
  | getStop {s : QS α O} {os k o q} : s.main = .collecting → s.openWorkers = os ++ [k] →
      s.queues k = o :: q → B.isStop o = true →
      QStep B act parts s { s with queues := Function.update s.queues k q, openWorkers := os }
  | getExc {s : QS α O} {os k o q} : s.main = .collecting → s.openWorkers = os ++ [k] →
      s.queues k = o :: q → B.isStop o = false → B.isExc o = true →
      QStep B act parts s { s with queues := Function.update s.queues k q, main := .raised o }
  | getItem {s : QS α O} {os k o q} : s.main = .collecting → s.openWorkers = os ++ [k] →
      s.queues k = o :: q → B.isStop o = false → B.isExc o = false →
      QStep B act parts s { s with
        queues := Function.update s.queues k q
        mapped := Function.update s.mapped k (s.mapped k ++ [o])
        openWorkers := k :: os }
  | collected {s : QS α O} : s.main = .collecting → s.openWorkers = [] →
      QStep B act parts s { s with main := .joining 0 }
  | join {s : QS α O} {k} : s.main = .joining k → k < parts.length → s.ws k = .finished →
      QStep B act parts s { s with main := .joining (k + 1) }
  | joined {s : QS α O} : s.main = .joining parts.length →
      QStep B act parts s { s with main := .returned }
  | worker {s : QS α O} {k eo w} : PWStep B act (s.ws k) eo w →
      QStep B act parts s { s with
        ws := Function.update s.ws k w
        queues := Function.update s.queues k (s.queues k ++ eo.toList) }

/-- the result is `mapped[workers[0]]` extended by the others, multiprocess_partitionable_list.py
138-141 -/
def ProcRunOrdered (B : Builtins O) (act : α → Except O (Option O)) (parts : List (List α))
    (out : Except O (List O)) : Prop :=
  ∃ s, Relation.ReflTransGen (QStep B act parts) QS.init s ∧
    ((s.main = .returned ∧ out = .ok (((List.range parts.length).map s.mapped).tail.foldl (· ++ ·)
        (((List.range parts.length).map s.mapped).headD []))) ∨
      ∃ e, s.main = .raised e ∧ out = .error e)

/-- `MultiprocessPartitionableList.map`, multiprocess_partitionable_list.py 39-68 -/
def ProcMap (B : Builtins O) (n : Int) (f : α → Except O O) (keepOrder : Bool) (l : List α)
    (out : Except O (List O)) : Prop :=
  match viewOfNPartitions l n with
  | .error _ => out = .error B.zeroDivision
  | .ok parts =>
    if keepOrder then ProcRunOrdered B (mapAct f) parts out else ProcRun B (mapAct f) parts out

/-- `MultiprocessPartitionableList.map_filter`, multiprocess_partitionable_list.py 70-82 -/
def ProcMapFilter (B : Builtins O) (n : Int) (f : α → Except O O) (p : O → Except O Bool)
    (l : List α) (out : Except O (List O)) : Prop :=
  match viewOfNPartitions l n with
  | .error _ => out = .error B.zeroDivision
  | .ok parts => ProcRun B (mapFilterAct f p) parts out

/-- `MultiprocessPartitionableList.map_reduce`, multiprocess_partitionable_list.py 84-98 -/
def ProcMapReduce (B : Builtins O) (n : Int) (f : α → Except O O) (op : O → O → Except O O)
    (l : List α) (out : Except O O) : Prop :=
  match viewOfNPartitions l n with
  | .error _ => out = .error B.zeroDivision
  | .ok parts =>
    ∃ r, ProcRun B (reduceAct B f op) (parts.map fun part => [part]) r ∧
      out = r.bind fun results => reduceGen B .ok op results

end Prolothar.Parallel
