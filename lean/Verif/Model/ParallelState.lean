import Verif.Model.Parallel
/-
Model of /repo/prolothar_common/parallel/threading with functions that have side effects. The functions of the caller read and write a
memory that all threads share. Every call of a function has a beginning and one moment at which it takes effect on the memory and has its
answer (a function that holds a lock, or a single atomic statement); between the two other threads can run. The `parameter` argument is part
of the functions.
-/
namespace Prolothar.Parallel
open Prolothar.ListUtils
variable {α O σ : Type}

/-- a call of one of the functions of the caller: `map_function(parameter, x)`, `filter_function(parameter, o)`, `reduce_function(a, b)`;
threading_partitionable_list.py 134-170 -/
inductive Call (α O : Type) where
  | map (x : α)
  | filter (o : O)
  | reduce (a b : O)

/-- what a thread has still to do: nothing, raise an exception, append an object to its result list, or call a function and go on in
accordance with the answer; threading_partitionable_list.py 113-122 -/
inductive Prog (α O : Type) where
  | done
  | fail (e : O)
  | append (o : O) (next : Prog α O)
  | call (c : Call α O) (next : Except O O → Prog α O)

/-- `MapWorker._run`, threading_partitionable_list.py 134-136 -/
def mapProg : List α → Prog α O
  | [] => .done
  | x :: xs => .call (.map x) fun
    | .error e => .fail e
    | .ok o => .append o (mapProg xs)

/-- `MapFilterWorker._run`, threading_partitionable_list.py 149-153; `truthy` is python's `bool` -/
def mapFilterProg (truthy : O → Bool) : List α → Prog α O
  | [] => .done
  | x :: xs => .call (.map x) fun
    | .error e => .fail e
    | .ok o => .call (.filter o) fun
      | .error e => .fail e
      | .ok b => if truthy b then .append o (mapFilterProg truthy xs) else mapFilterProg truthy xs

/-- the loop of `functools.reduce` in threading_partitionable_list.py 166-170 -/
def reduceLoop : O → List α → Prog α O
  | acc, [] => .append acc .done
  | acc, x :: xs => .call (.map x) fun
    | .error e => .fail e
    | .ok v => .call (.reduce acc v) fun
      | .error e => .fail e
      | .ok acc' => reduceLoop acc' xs

/-- `MapReduceWorker._run`, threading_partitionable_list.py 166-170 -/
def reduceProg (B : Builtins O) : List α → Prog α O
  | [] => .fail B.typeError
  | x :: xs => .call (.map x) fun
    | .error e => .fail e
    | .ok v => reduceLoop v xs

/-- a thread: not started, between two calls, inside a call that has not taken effect yet, ended, ended with `self.exception` set;
threading_partitionable_list.py 113-122 -/
inductive SW (α O : Type) where
  | idle
  | running (p : Prog α O)
  | calling (c : Call α O) (next : Except O O → Prog α O)
  | finished
  | failed (e : O)

/-- calling thread, workers, result lists and memory, threading_partitionable_list.py 41-111. `calls` and `written` only record what
has happened: the calls with their answers in the order in which they took effect, and the objects every worker has appended. -/
structure SS (σ α O : Type) where
  main : TMain O
  ws : Nat → SW α O
  lists : Nat → List O
  mem : σ
  calls : List (Nat × Call α O × Except O O)
  written : Nat → List O

/-- before the first worker is started, threading_partitionable_list.py 48-51 -/
def SS.init (m : σ) : SS σ α O := ⟨.starting 0, fun _ => .idle, fun _ => [], m, [], fun _ => []⟩

/-- One step of the program. Worker `k` runs `progs[k]` and appends to result list number `dest k`, as in `TStep`;
threading_partitionable_list.py 35-122. -/
inductive SStep (fn : Call α O → σ → Except O O × σ) (progs : List (Prog α O)) (dest : Nat → Nat) : SS σ α O → SS σ α O → Prop where
  | start {s : SS σ α O} {k p} : s.main = .starting k → progs[k]? = some p →
      SStep fn progs dest s { s with main := .starting (k + 1), ws := Function.update s.ws k (.running p) }
  | started {s : SS σ α O} : s.main = .starting progs.length →
      SStep fn progs dest s { s with main := .joining 0 }
  | join {s : SS σ α O} {k} : s.main = .joining k → k < progs.length → s.ws k = .finished →
      SStep fn progs dest s { s with main := .joining (k + 1) }
  | joinRaise {s : SS σ α O} {k e} : s.main = .joining k → k < progs.length → s.ws k = .failed e →
      SStep fn progs dest s { s with main := .raised e }
  | joined {s : SS σ α O} : s.main = .joining progs.length →
      SStep fn progs dest s { s with main := .returned }
  | enter {s : SS σ α O} {k c next} : s.ws k = .running (.call c next) →
      SStep fn progs dest s { s with ws := Function.update s.ws k (.calling c next) }
  | effect {s : SS σ α O} {k c next} : s.ws k = .calling c next →
      SStep fn progs dest s { s with
        ws := Function.update s.ws k (.running (next (fn c s.mem).1))
        mem := (fn c s.mem).2
        calls := s.calls ++ [(k, c, (fn c s.mem).1)] }
  | append {s : SS σ α O} {k o p} : s.ws k = .running (.append o p) →
      SStep fn progs dest s { s with
        ws := Function.update s.ws k (.running p)
        lists := Function.update s.lists (dest k) (s.lists (dest k) ++ [o])
        written := Function.update s.written k (s.written k ++ [o]) }
  | finish {s : SS σ α O} {k} : s.ws k = .running .done →
      SStep fn progs dest s { s with ws := Function.update s.ws k .finished }
  | fail {s : SS σ α O} {k e} : s.ws k = .running (.fail e) →
      SStep fn progs dest s { s with ws := Function.update s.ws k (.failed e) }

/-- the states that can be reached from the memory `m`, threading_partitionable_list.py 41-111 -/
def SReach (fn : Call α O → σ → Except O O × σ) (progs : List (Prog α O)) (dest : Nat → Nat) (m : σ) (s : SS σ α O) : Prop :=
  Relation.ReflTransGen (SStep fn progs dest) (SS.init m) s

/-- `ThreadingPartitionableList.map`, threading_partitionable_list.py 41-79, on a non-empty list with at least one worker: started with the memory
`m`, it can reach the state `s` and return `out`. -/
def MapReturns (n : Int) (fn : Call α O → σ → Except O O × σ) (keepOrder : Bool) (l : List α) (m : σ) (s : SS σ α O) (out : List O) : Prop :=
  ∃ parts, viewOfNPartitions l n = .ok parts ∧ s.main = .returned ∧
    if keepOrder then SReach fn (parts.map mapProg) id m s ∧ out = ((List.range parts.length).map s.lists).tail.foldl (· ++ ·)
        (((List.range parts.length).map s.lists).headD [])
    else SReach fn (parts.map mapProg) (fun _ => 0) m s ∧ out = s.lists 0

/-- `ThreadingPartitionableList.map_filter`, threading_partitionable_list.py 81-95 -/
def MapFilterReturns (n : Int) (truthy : O → Bool) (fn : Call α O → σ → Except O O × σ) (l : List α) (m : σ) (s : SS σ α O) (out : List O) : Prop :=
  ∃ parts, viewOfNPartitions l n = .ok parts ∧ s.main = .returned ∧
    SReach fn (parts.map (mapFilterProg truthy)) (fun _ => 0) m s ∧ out = s.lists 0

/-- `functools.reduce` with a function that has side effects, in the calling thread after all workers have ended, threading_partitionable_list.py 111:
the calls with their answers, the result or exception and the memory -/
def reduceMain (fn : Call α O → σ → Except O O × σ) : O → List O → σ → List (Call α O × Except O O) × Except O O × σ
  | acc, [], m => ([], .ok acc, m)
  | acc, o :: os, m =>
    match fn (.reduce acc o) m with
    | (.error e, m') => ([(.reduce acc o, .error e)], .error e, m')
    | (.ok acc', m') => ((.reduce acc o, .ok acc') :: (reduceMain fn acc' os m').1, (reduceMain fn acc' os m').2)

/-- `ThreadingPartitionableList.map_reduce`, threading_partitionable_list.py 97-111: `s` is the state after the workers have been joined, then the
calling thread makes the calls `last` and returns `out` with the memory `m'`. -/
def MapReduceReturns (B : Builtins O) (n : Int) (fn : Call α O → σ → Except O O × σ) (l : List α) (m : σ) (s : SS σ α O)
    (last : List (Call α O × Except O O)) (m' : σ) (out : O) : Prop :=
  ∃ parts, viewOfNPartitions l n = .ok parts ∧ s.main = .returned ∧ SReach fn (parts.map (reduceProg B)) (fun _ => 0) m s ∧
    ∃ o os, s.lists 0 = o :: os ∧ reduceMain fn o os s.mem = (last, .ok out, m')

end Prolothar.Parallel
