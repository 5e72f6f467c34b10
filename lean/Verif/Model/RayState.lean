import Verif.Model.ParallelState
import Verif.Model.Upd
/-
Model of prolothar_common/parallel/ray/partitionable/ray_partitionable_list.py with functions that have side effects on a state outside of the
remote tasks (files, a data base). Every call of a function takes effect at one moment. Remote tasks run in any order and at any time after
they were submitted, also after the caller has got an exception. A task that gets the reference of another task's result waits for this
result; if that task failed it fails with the same exception and its function is not called. `ray.get` returns when all results are there;
it may raise the exception of any failed task of its list, as soon as this task has failed. (This is more than the model in `Ray.lean` allows,
where `ray.get` waits for all tasks.) Failures of the cluster, after which ray repeats tasks, are not modelled.
-/
namespace Prolothar.RayState
open Prolothar.Parallel
variable {α O σ : Type}

/-- the caller in `map` and `map_filter`, ray_partitionable_list.py 30-50: submits map task `k`; submits filter task `k`; waits for filter task `k`;
waits for the results of the map tasks `ids`; has returned or raised -/
inductive RMain (O : Type) where
  | submitting (k : Nat)
  | filtering (k : Nat) (kept : List Nat)
  | awaiting (k : Nat) (kept : List Nat)
  | getting (ids : List Nat)
  | returned (out : List O)
  | raised (e : O)

/-- the caller, the results of the finished map and filter tasks and the outside state, ray_partitionable_list.py 30-50. `calls` only records the
calls with the number of their element and with their answers, in the order in which they took effect. -/
structure RS (σ α O : Type) where
  main : RMain O
  mres : Nat → Option (Except O O)
  fres : Nat → Option (Except O O)
  mem : σ
  calls : List (Nat × Call α O × Except O O)

/-- before the first task is submitted, ray_partitionable_list.py 30-50 -/
def RS.init (m : σ) : RS σ α O := ⟨.submitting 0, fun _ => none, fun _ => none, m, []⟩

/-- map task `i` of `n` has been submitted; used for ray_partitionable_list.py 34-37 and 43-46 -/
def RMain.submitted (n i : Nat) : RMain O → Prop
  | .submitting k => i < k
  | _ => i < n

/-- One step of `map` (`flt = false`), ray_partitionable_list.py 30-37, or `map_filter` (`flt = true`), ray_partitionable_list.py 39-50; `truthy` is
python's `bool`. -/
inductive RStep (fn : Call α O → σ → Except O O × σ) (truthy : O → Bool) (flt : Bool) (l : List α) : RS σ α O → RS σ α O → Prop where
  | submit {s : RS σ α O} {k} : s.main = .submitting k → k < l.length → RStep fn truthy flt l s { s with main := .submitting (k + 1) }
  | get {s : RS σ α O} : s.main = .submitting l.length → flt = false → RStep fn truthy flt l s { s with main := .getting (List.range l.length) }
  | filters {s : RS σ α O} : s.main = .submitting l.length → flt = true → RStep fn truthy flt l s { s with main := .filtering 0 [] }
  | work {s : RS σ α O} {i x} : s.main.submitted l.length i → l[i]? = some x → s.mres i = none →
      RStep fn truthy flt l s { s with
        mres := upd s.mres i (some (fn (.map x) s.mem).1)
        mem := (fn (.map x) s.mem).2
        calls := s.calls ++ [(i, .map x, (fn (.map x) s.mem).1)] }
  | submitFilter {s : RS σ α O} {k kept} : s.main = .filtering k kept → k < l.length → RStep fn truthy flt l s { s with main := .awaiting k kept }
  | filterWork {s : RS σ α O} {k kept o} : s.main = .awaiting k kept → s.fres k = none → s.mres k = some (.ok o) →
      RStep fn truthy flt l s { s with
        fres := upd s.fres k (some (fn (.filter o) s.mem).1)
        mem := (fn (.filter o) s.mem).2
        calls := s.calls ++ [(k, .filter o, (fn (.filter o) s.mem).1)] }
  | filterFail {s : RS σ α O} {k kept e} : s.main = .awaiting k kept → s.fres k = none → s.mres k = some (.error e) →
      RStep fn truthy flt l s { s with fres := upd s.fres k (some (.error e)) }
  | keep {s : RS σ α O} {k kept b} : s.main = .awaiting k kept → s.fres k = some (.ok b) → truthy b = true →
      RStep fn truthy flt l s { s with main := .filtering (k + 1) (kept ++ [k]) }
  | skip {s : RS σ α O} {k kept b} : s.main = .awaiting k kept → s.fres k = some (.ok b) → truthy b = false →
      RStep fn truthy flt l s { s with main := .filtering (k + 1) kept }
  | filterRaise {s : RS σ α O} {k kept e} : s.main = .awaiting k kept → s.fres k = some (.error e) →
      RStep fn truthy flt l s { s with main := .raised e }
  | getKept {s : RS σ α O} {kept} : s.main = .filtering l.length kept → RStep fn truthy flt l s { s with main := .getting kept }
  | finish {s : RS σ α O} {ids} {out : List O} : s.main = .getting ids → ids.map s.mres = out.map (fun o => some (.ok o)) →
      RStep fn truthy flt l s { s with main := .returned out }
  | raise {s : RS σ α O} {ids i e} : s.main = .getting ids → i ∈ ids → s.mres i = some (.error e) →
      RStep fn truthy flt l s { s with main := .raised e }

/-- the states that can be reached from the outside state `m`, ray_partitionable_list.py 30-50 -/
def RReach (fn : Call α O → σ → Except O O × σ) (truthy : O → Bool) (flt : Bool) (l : List α) (m : σ) (s : RS σ α O) : Prop :=
  Relation.ReflTransGen (RStep fn truthy flt l) (RS.init m) s

/-- `map_reduce`, ray_partitionable_list.py 52-55: `map` reaches the state `s` and returns `o :: os`, then the caller makes the calls `last` of the
reduce function and returns `out` with the outside state `m'` -/
def RayMapReduceReturns (fn : Call α O → σ → Except O O × σ) (truthy : O → Bool) (l : List α) (m : σ) (s : RS σ α O)
    (last : List (Call α O × Except O O)) (m' : σ) (out : O) : Prop :=
  ∃ o os, RReach fn truthy false l m s ∧ s.main = .returned (o :: os) ∧ reduceMain fn o os s.mem = (last, .ok out, m')

end Prolothar.RayState
