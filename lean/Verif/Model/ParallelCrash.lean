import Verif.Model.Parallel
/-
Model of /repo/prolothar_common/parallel/{threading,multiprocess} with crashes: the caller supplied function can leave a
worker by something that is no `Exception` (`SystemExit`, `KeyboardInterrupt`, the end of the process), a worker process
can be killed at any time, and an object put into a queue gets lost if it cannot be pickled (the feeder thread of
`multiprocessing.Queue` prints the error and goes on). `exits x` says that the work on `x` leaves the worker, `lost o`
that `o` cannot be pickled. A message is put into a queue completely or not at all; a worker that is killed while
messages wait in the buffer of its feeder thread is a worker that was killed earlier.
-/
namespace Prolothar.Parallel
open Prolothar.ListUtils
variable {α O : Type}

/-! ### threads -/

/-- one step of a worker thread: as `TWStep`; `AbstractWorker.run`, threading_partitionable_list.py 118-122, catches
`Exception` only, so that anything else ends the thread without setting `self.exception` -/
inductive TXStep (act : α → Except O (Option O)) (exits : α → Bool) : TW α O → Option O → TW α O → Prop where
  | keep {x xs o} : exits x = false → act x = .ok (some o) → TXStep act exits (.running (x :: xs)) none (.holding o xs)
  | skip {x xs} : exits x = false → act x = .ok none → TXStep act exits (.running (x :: xs)) none (.running xs)
  | raise {x xs e} : exits x = false → act x = .error e → TXStep act exits (.running (x :: xs)) none (.failed e)
  | append {o xs} : TXStep act exits (.holding o xs) (some o) (.running xs)
  | done : TXStep act exits (.running []) none .finished
  | exit {x xs} : exits x = true → TXStep act exits (.running (x :: xs)) none .finished

/-- one step of the whole program with threads, as `TStep`; used for threading_partitionable_list.py 41-79 -/
inductive TCStep (act : α → Except O (Option O)) (exits : α → Bool) (parts : List (List α)) (dest : Nat → Nat) :
    TS α O → TS α O → Prop where
  | start {s : TS α O} {k part} : s.main = .starting k → parts[k]? = some part →
      TCStep act exits parts dest s
        { s with main := .starting (k + 1), ws := Function.update s.ws k (.running part) }
  | started {s : TS α O} : s.main = .starting parts.length →
      TCStep act exits parts dest s { s with main := .joining 0 }
  | join {s : TS α O} {k} : s.main = .joining k → k < parts.length → s.ws k = .finished →
      TCStep act exits parts dest s { s with main := .joining (k + 1) }
  | joinRaise {s : TS α O} {k e} : s.main = .joining k → k < parts.length → s.ws k = .failed e →
      TCStep act exits parts dest s { s with main := .raised e }
  | joined {s : TS α O} : s.main = .joining parts.length →
      TCStep act exits parts dest s { s with main := .returned }
  | worker {s : TS α O} {k eo w} : TXStep act exits (s.ws k) eo w →
      TCStep act exits parts dest s { s with
        ws := Function.update s.ws k w
        lists := Function.update s.lists (dest k) (s.lists (dest k) ++ eo.toList) }

/-- the possible results of running all worker threads; used for threading_partitionable_list.py 41-79 -/
def ThreadRunC (act : α → Except O (Option O)) (exits : α → Bool) (parts : List (List α)) (dest : Nat → Nat)
    (out : Except O (Nat → List O)) : Prop :=
  ∃ s, Relation.ReflTransGen (TCStep act exits parts dest) TS.init s ∧
    ((s.main = .returned ∧ out = .ok s.lists) ∨ ∃ e, s.main = .raised e ∧ out = .error e)

/-- `ThreadingPartitionableList.map`, threading_partitionable_list.py 41-79, with exits -/
def ThreadMapC (B : Builtins O) (n : Int) (f : α → Except O O) (exits : α → Bool) (keepOrder : Bool) (l : List α)
    (out : Except O (List O)) : Prop :=
  match viewOfNPartitions l n with
  | .error _ => out = .error B.zeroDivision
  | .ok parts =>
    if keepOrder then ∃ r, ThreadRunC (mapAct f) exits parts id r ∧
      out = r.bind fun lists => combineLists B ((List.range parts.length).map lists)
    else ∃ r, ThreadRunC (mapAct f) exits parts (fun _ => 0) r ∧ out = r.map fun lists => lists 0

/-- `ThreadingPartitionableList.map_filter`, threading_partitionable_list.py 81-95, with exits -/
def ThreadMapFilterC (B : Builtins O) (n : Int) (f : α → Except O O) (p : O → Except O Bool) (exits : α → Bool)
    (l : List α) (out : Except O (List O)) : Prop :=
  match viewOfNPartitions l n with
  | .error _ => out = .error B.zeroDivision
  | .ok parts =>
    ∃ r, ThreadRunC (mapFilterAct f p) exits parts (fun _ => 0) r ∧ out = r.map fun lists => lists 0

/-- Whether `reduce` over the mapped elements, threading_partitionable_list.py 166-170 and
multiprocess_partitionable_list.py 195-198, is left by the work on one of the elements; an exception before ends it. -/
def reduceExits (f : α → Except O O) (op : O → O → Except O O) (exits : α → Bool) : Option O → List α → Bool
  | _, [] => false
  | acc, x :: xs =>
    if exits x then true
    else match f x, acc with
      | .error _, _ => false
      | .ok v, none => reduceExits f op exits (some v) xs
      | .ok v, some r => match op r v with
        | .error _ => false
        | .ok r' => reduceExits f op exits (some r') xs

/-- `ThreadingPartitionableList.map_reduce`, threading_partitionable_list.py 97-111, with exits; the reduce function does not leave the
worker -/
def ThreadMapReduceC (B : Builtins O) (n : Int) (f : α → Except O O) (op : O → O → Except O O) (exits : α → Bool)
    (l : List α) (out : Except O O) : Prop :=
  match viewOfNPartitions l n with
  | .error _ => out = .error B.zeroDivision
  | .ok parts =>
    ∃ r, ThreadRunC (reduceAct B f op) (reduceExits f op exits none) (parts.map fun part => [part]) (fun _ => 0) r ∧
      out = r.bind fun lists => reduceGen B .ok op (lists 0)

/-! ### processes -/

/-- a worker process; `dead` is a process that ended without sending its end marker; used for multiprocess_partitionable_list.py 110 -/
inductive CW (α O : Type) where
  | idle
  | running (todo : List α)
  | holding (o : O) (todo : List α)
  | finished
  | dead

/-- `worker.terminate()`, multiprocess_partitionable_list.py 110, 131 -/
def CW.terminate : CW α O → CW α O
  | .idle => .idle
  | .finished => .finished
  | _ => .dead

/-- one step of a worker process, multiprocess_partitionable_list.py 153-159, 172-180, 193-201, or its death; the middle
argument is the object that arrives in its queue -/
inductive CWStep (B : Builtins O) (act : α → Except O (Option O)) (exits : α → Bool) (lost : O → Bool) :
    CW α O → Option O → CW α O → Prop where
  | keep {x xs o} : exits x = false → act x = .ok (some o) →
      CWStep B act exits lost (.running (x :: xs)) none (.holding o xs)
  | skip {x xs} : exits x = false → act x = .ok none → CWStep B act exits lost (.running (x :: xs)) none (.running xs)
  | caught {x xs e} : exits x = false → act x = .error e →
      CWStep B act exits lost (.running (x :: xs)) none (.holding e xs)
  | put {o xs} : lost o = false → CWStep B act exits lost (.holding o xs) (some o) (.running xs)
  | drop {o xs} : lost o = true → CWStep B act exits lost (.holding o xs) none (.running xs)
  | stop : CWStep B act exits lost (.running []) (some B.stop) .finished
  | exit {x xs} : exits x = true → CWStep B act exits lost (.running (x :: xs)) none .dead
  | kill {xs} : CWStep B act exits lost (.running xs) none .dead
  | killHolding {o xs} : CWStep B act exits lost (.holding o xs) none .dead

/-- state with one shared queue, as `PS`; used for multiprocess_partitionable_list.py 46-57 -/
structure CS (α O : Type) where
  main : PMain O
  ws : Nat → CW α O
  queue : List O
  mapped : List O
  nrFinished : Nat

/-- before the first worker is started, multiprocess_partitionable_list.py 46-57 -/
def CS.init : CS α O := ⟨.starting 0, fun _ => .idle, [], [], 0⟩

/-- One step with a shared queue, multiprocess_partitionable_list.py 46-57, 70-117, as `PStep`; `join` returns for a dead
process, too, and an exception terminates all workers (109-111). -/
inductive CStep (B : Builtins O) (act : α → Except O (Option O)) (exits : α → Bool) (lost : O → Bool)
    (parts : List (List α)) : CS α O → CS α O → Prop where
  | start {s : CS α O} {k part} : s.main = .starting k → parts[k]? = some part →
      CStep B act exits lost parts s
        { s with main := .starting (k + 1), ws := Function.update s.ws k (.running part) }
  | started {s : CS α O} : s.main = .starting parts.length →
      CStep B act exits lost parts s { s with main := .collecting }
  | getStop {s : CS α O} {o q} : s.main = .collecting → s.nrFinished < parts.length →
      s.queue = o :: q → B.isStop o = true →
      CStep B act exits lost parts s { s with queue := q, nrFinished := s.nrFinished + 1 }
  | getExc {s : CS α O} {o q} : s.main = .collecting → s.nrFinished < parts.length →
      s.queue = o :: q → B.isStop o = false → B.isExc o = true →
      CStep B act exits lost parts s { s with queue := q, main := .raised o, ws := fun k => (s.ws k).terminate }
  | getItem {s : CS α O} {o q} : s.main = .collecting → s.nrFinished < parts.length →
      s.queue = o :: q → B.isStop o = false → B.isExc o = false →
      CStep B act exits lost parts s { s with queue := q, mapped := s.mapped ++ [o] }
  | collected {s : CS α O} : s.main = .collecting → ¬ s.nrFinished < parts.length →
      CStep B act exits lost parts s { s with main := .joining 0 }
  | join {s : CS α O} {k} : s.main = .joining k → k < parts.length → s.ws k = .finished ∨ s.ws k = .dead →
      CStep B act exits lost parts s { s with main := .joining (k + 1) }
  | joined {s : CS α O} : s.main = .joining parts.length →
      CStep B act exits lost parts s { s with main := .returned }
  | worker {s : CS α O} {k eo w} : CWStep B act exits lost (s.ws k) eo w →
      CStep B act exits lost parts s
        { s with ws := Function.update s.ws k w, queue := s.queue ++ eo.toList }

/-- the possible results with a shared queue; used for multiprocess_partitionable_list.py 39-68 -/
def ProcRunC (B : Builtins O) (act : α → Except O (Option O)) (exits : α → Bool) (lost : O → Bool)
    (parts : List (List α)) (out : Except O (List O)) : Prop :=
  ∃ s, Relation.ReflTransGen (CStep B act exits lost parts) CS.init s ∧
    ((s.main = .returned ∧ out = .ok s.mapped) ∨ ∃ e, s.main = .raised e ∧ out = .error e)

/-- state with one queue per worker, as `QS`; used for multiprocess_partitionable_list.py 59-68 -/
structure DS (α O : Type) where
  main : PMain O
  ws : Nat → CW α O
  queues : Nat → List O
  mapped : Nat → List O
  openWorkers : List Nat

/-- before the first worker is started, multiprocess_partitionable_list.py 59-68 -/
def DS.init : DS α O := ⟨.starting 0, fun _ => .idle, fun _ => [], fun _ => [], []⟩

/-- One step with one queue per worker, multiprocess_partitionable_list.py 59-68, 119-141, as `QStep`; `join` returns for
a dead process, too, and an exception terminates all workers (130-132). -/
inductive DStep (B : Builtins O) (act : α → Except O (Option O)) (exits : α → Bool) (lost : O → Bool)
    (parts : List (List α)) : DS α O → DS α O → Prop where
  | start {s : DS α O} {k part} : s.main = .starting k → parts[k]? = some part →
      DStep B act exits lost parts s
        { s with main := .starting (k + 1), ws := Function.update s.ws k (.running part) }
  | started {s : DS α O} : s.main = .starting parts.length →
      DStep B act exits lost parts s
        { s with main := .collecting, openWorkers := List.range parts.length }
  | getStop {s : DS α O} {os k o q} : s.main = .collecting → s.openWorkers = os ++ [k] →
      s.queues k = o :: q → B.isStop o = true →
      DStep B act exits lost parts s { s with queues := Function.update s.queues k q, openWorkers := os }
  | getExc {s : DS α O} {os k o q} : s.main = .collecting → s.openWorkers = os ++ [k] →
      s.queues k = o :: q → B.isStop o = false → B.isExc o = true →
      DStep B act exits lost parts s { s with
        queues := Function.update s.queues k q
        main := .raised o
        ws := fun k => (s.ws k).terminate }
  | getItem {s : DS α O} {os k o q} : s.main = .collecting → s.openWorkers = os ++ [k] →
      s.queues k = o :: q → B.isStop o = false → B.isExc o = false →
      DStep B act exits lost parts s { s with
        queues := Function.update s.queues k q
        mapped := Function.update s.mapped k (s.mapped k ++ [o])
        openWorkers := k :: os }
  | collected {s : DS α O} : s.main = .collecting → s.openWorkers = [] →
      DStep B act exits lost parts s { s with main := .joining 0 }
  | join {s : DS α O} {k} : s.main = .joining k → k < parts.length → s.ws k = .finished ∨ s.ws k = .dead →
      DStep B act exits lost parts s { s with main := .joining (k + 1) }
  | joined {s : DS α O} : s.main = .joining parts.length →
      DStep B act exits lost parts s { s with main := .returned }
  | worker {s : DS α O} {k eo w} : CWStep B act exits lost (s.ws k) eo w →
      DStep B act exits lost parts s { s with
        ws := Function.update s.ws k w
        queues := Function.update s.queues k (s.queues k ++ eo.toList) }

/-- the possible results with one queue per worker; used for multiprocess_partitionable_list.py 39-68 -/
def ProcRunOrderedC (B : Builtins O) (act : α → Except O (Option O)) (exits : α → Bool) (lost : O → Bool)
    (parts : List (List α)) (out : Except O (List O)) : Prop :=
  ∃ s, Relation.ReflTransGen (DStep B act exits lost parts) DS.init s ∧
    ((s.main = .returned ∧ out = .ok (((List.range parts.length).map s.mapped).tail.foldl (· ++ ·)
        (((List.range parts.length).map s.mapped).headD []))) ∨
      ∃ e, s.main = .raised e ∧ out = .error e)

/-- `MultiprocessPartitionableList.map`, multiprocess_partitionable_list.py 39-68, with crashes -/
def ProcMapC (B : Builtins O) (n : Int) (f : α → Except O O) (exits : α → Bool) (lost : O → Bool) (keepOrder : Bool)
    (l : List α) (out : Except O (List O)) : Prop :=
  match viewOfNPartitions l n with
  | .error _ => out = .error B.zeroDivision
  | .ok parts =>
    if keepOrder then ProcRunOrderedC B (mapAct f) exits lost parts out else ProcRunC B (mapAct f) exits lost parts out

/-- `MultiprocessPartitionableList.map_filter`, multiprocess_partitionable_list.py 70-82, with crashes -/
def ProcMapFilterC (B : Builtins O) (n : Int) (f : α → Except O O) (p : O → Except O Bool) (exits : α → Bool)
    (lost : O → Bool) (l : List α) (out : Except O (List O)) : Prop :=
  match viewOfNPartitions l n with
  | .error _ => out = .error B.zeroDivision
  | .ok parts => ProcRunC B (mapFilterAct f p) exits lost parts out

/-- `MultiprocessPartitionableList.map_reduce`, multiprocess_partitionable_list.py 84-98, with crashes; the reduce
function does not leave the worker -/
def ProcMapReduceC (B : Builtins O) (n : Int) (f : α → Except O O) (op : O → O → Except O O) (exits : α → Bool)
    (lost : O → Bool) (l : List α) (out : Except O O) : Prop :=
  match viewOfNPartitions l n with
  | .error _ => out = .error B.zeroDivision
  | .ok parts =>
    ∃ r, ProcRunC B (reduceAct B f op) (reduceExits f op exits none) lost (parts.map fun part => [part]) r ∧
      out = r.bind fun results => reduceGen B .ok op results

end Prolothar.Parallel
