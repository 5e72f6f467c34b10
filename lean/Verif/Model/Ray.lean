import Verif.Model.Parallel
import Verif.Model.Upd
/-
Model of prolothar_common/parallel/ray/partitionable/ray_partitionable_list.py. Remote tasks run in any order and at any time after they
were submitted; a task that gets the reference of another task's result waits for this result and fails if that task failed.
`ray.get` of a list waits for all results and raises the exception of the first failed task in the list. Caller supplied functions are
pure functions that return a python object or raise one (`Except O`); the `parameter` argument is part of them. Failures of the
cluster are not modelled.
-/
namespace Prolothar.Ray
open Prolothar.Parallel
variable {α O : Type}

/-- the first exception in a list of results, otherwise their values; used for ray_partitionable_list.py 30-37 -/
def getAll (l : List (Except O O)) : Except O (List O) := l.mapM id

/-- the calling thread in `map`, ray_partitionable_list.py 30-37: submitting task `k`, waiting in `ray.get`, result -/
inductive MapMain (O : Type) where
  | submitting (k : Nat)
  | waiting
  | finished (out : Except O (List O))

/-- the calling thread and the results of the finished tasks; used for ray_partitionable_list.py 30-37 -/
structure MapState (O : Type) where
  main : MapMain O
  res : Nat → Option (Except O O)

/-- before the first task is submitted, ray_partitionable_list.py 30-37 -/
def MapState.init : MapState O := ⟨.submitting 0, fun _ => none⟩

/-- task `i` of `n` is submitted; used for ray_partitionable_list.py 30-37 -/
def MapMain.submitted (n : Nat) (i : Nat) : MapMain O → Prop
  | .submitting k => i < k
  | _ => i < n

/-- one step of the program, ray_partitionable_list.py 30-37 -/
inductive MapStep (f : α → Except O O) (l : List α) : MapState O → MapState O → Prop where
  | submit {k res} : k < l.length → MapStep f l ⟨.submitting k, res⟩ ⟨.submitting (k + 1), res⟩
  | get {res} : MapStep f l ⟨.submitting l.length, res⟩ ⟨.waiting, res⟩
  | work {main : MapMain O} {res i x} : main.submitted l.length i → l[i]? = some x → res i = none →
      MapStep f l ⟨main, res⟩ ⟨main, upd res i (some (f x))⟩
  | finish {res} {rs : List (Except O O)} : rs.length = l.length → (∀ i, i < l.length → res i = rs[i]?) →
      MapStep f l ⟨.waiting, res⟩ ⟨.finished (getAll rs), res⟩

/-- `out` is a possible result of `map`; used for ray_partitionable_list.py 52-55 -/
def RayMap (f : α → Except O O) (l : List α) (out : Except O (List O)) : Prop :=
  ∃ res, Relation.ReflTransGen (MapStep f l) MapState.init ⟨.finished out, res⟩

/-- `functools.reduce` on a list; used for ray_partitionable_list.py 52-55 -/
def reduceList (B : Builtins O) (op : O → O → Except O O) : List O → Except O O
  | [] => .error B.typeError
  | x :: xs => xs.foldlM op x

/-- `map_reduce`, ray_partitionable_list.py 52-55 -/
def RayMapReduce (B : Builtins O) (f : α → Except O O) (op : O → O → Except O O) (l : List α) (out : Except O O) : Prop :=
  ∃ mapped, RayMap f l mapped ∧ out = mapped.bind (reduceList B op)

/-- the calling thread in `map_filter`, ray_partitionable_list.py 39-50: submitting map task `k`, submitting filter task `k`, waiting for
filter task `k`, waiting for the kept results, result -/
inductive FilterMain (O : Type) where
  | submitting (k : Nat)
  | filtering (k : Nat) (kept : List Nat)
  | awaiting (k : Nat) (kept : List Nat)
  | getting (kept : List Nat)
  | finished (out : Except O (List O))

/-- the calling thread and the results of the finished tasks, ray_partitionable_list.py 39-50 -/
structure FilterState (O : Type) where
  main : FilterMain O
  res : Nat → Option (Except O O)
  fres : Nat → Option (Except O Bool)

/-- before the first task is submitted, ray_partitionable_list.py 39-50 -/
def FilterState.init : FilterState O := ⟨.submitting 0, fun _ => none, fun _ => none⟩

/-- map task `i` is submitted; used for ray_partitionable_list.py 39-50 -/
def FilterMain.submitted (n : Nat) (i : Nat) : FilterMain O → Prop
  | .submitting k => i < k
  | _ => i < n

/-- filter task `i` is submitted; only the last one can still be running; used for ray_partitionable_list.py 39-50 -/
def FilterMain.filterSubmitted (i : Nat) : FilterMain O → Prop
  | .awaiting k _ => i = k
  | _ => False

/-- one step of the program, ray_partitionable_list.py 39-50 -/
inductive FilterStep (f : α → Except O O) (p : O → Except O Bool) (l : List α) : FilterState O → FilterState O → Prop where
  | submit {k res fres} : k < l.length → FilterStep f p l ⟨.submitting k, res, fres⟩ ⟨.submitting (k + 1), res, fres⟩
  | filters {res fres} : FilterStep f p l ⟨.submitting l.length, res, fres⟩ ⟨.filtering 0 [], res, fres⟩
  | work {main : FilterMain O} {res fres i x} : main.submitted l.length i → l[i]? = some x → res i = none →
      FilterStep f p l ⟨main, res, fres⟩ ⟨main, upd res i (some (f x)), fres⟩
  | filterWork {main : FilterMain O} {res fres i r} : main.filterSubmitted i → fres i = none → res i = some r →
      FilterStep f p l ⟨main, res, fres⟩ ⟨main, res, upd fres i (some (r.bind p))⟩
  | submitFilter {k kept res fres} : k < l.length → FilterStep f p l ⟨.filtering k kept, res, fres⟩ ⟨.awaiting k kept, res, fres⟩
  | keep {k kept res fres} : fres k = some (.ok true) → FilterStep f p l ⟨.awaiting k kept, res, fres⟩ ⟨.filtering (k + 1) (kept ++ [k]), res, fres⟩
  | skip {k kept res fres} : fres k = some (.ok false) → FilterStep f p l ⟨.awaiting k kept, res, fres⟩ ⟨.filtering (k + 1) kept, res, fres⟩
  | raise {k kept res fres e} : fres k = some (.error e) → FilterStep f p l ⟨.awaiting k kept, res, fres⟩ ⟨.finished (.error e), res, fres⟩
  | get {kept res fres} : FilterStep f p l ⟨.filtering l.length kept, res, fres⟩ ⟨.getting kept, res, fres⟩
  | finish {kept res fres} {rs : List (Except O O)} : rs.length = kept.length → (∀ (j i : Nat), kept[j]? = some i → res i = rs[j]?) →
      FilterStep f p l ⟨.getting kept, res, fres⟩ ⟨.finished (getAll rs), res, fres⟩

/-- `out` is a possible result of `map_filter`; used for ray_partitionable_list.py 39-50 -/
def RayMapFilter (f : α → Except O O) (p : O → Except O Bool) (l : List α) (out : Except O (List O)) : Prop :=
  ∃ res fres, Relation.ReflTransGen (FilterStep f p l) FilterState.init ⟨.finished out, res, fres⟩

end Prolothar.Ray
