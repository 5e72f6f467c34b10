import Verif.Model.Lts
import Verif.Model.PrefixTree
import Verif.Model.EventLog
/-
The generators of the library as objects: every call of `next` runs the body to the next `yield`, and between two
calls the iterated object may be asked and changed.
-/
namespace Prolothar.Lazy

/-- outcome of `next(generator)`: a value, StopIteration or RuntimeError (size of a dictionary changed during
iteration); used for labeled_transition_system.py 122-124 -/
inductive Next (α : Type) where
  | value (a : α)
  | stop
  | runtime
  deriving DecidableEq, Repr

/-- iterator of `dict.items()` (language): number of delivered entries, size of the dictionary at its creation; used for labeled_transition_system.py 122-124 -/
structure DictIter where
  pos : Nat
  size : Nat
  deriving DecidableEq, Repr

/-- `iter(d.items())`; used for labeled_transition_system.py 122-124 -/
def DictIter.new {κ ν : Type} (d : Dict κ ν) : DictIter := ⟨0, d.length⟩

/-- `next` of a dictionary iterator: the size is compared first, also behind the last entry; used for labeled_transition_system.py 122-124 -/
def DictIter.next {κ ν : Type} (d : Dict κ ν) (i : DictIter) : Next ((κ × ν) × DictIter) :=
  if d.length ≠ i.size then .runtime
  else match d[i.pos]? with
    | some e => .value (e, { i with pos := i.pos + 1 })
    | none => .stop

/-! labeled_transition_system.py, `transition_iterator`, 118-124 -/
section
open Prolothar.Lts
variable {S E : Type} [DecidableEq S] [DecidableEq E]

/-- the suspended generator: not started, at the `yield` in the inner loop over the entries of `state`, or ended; used for labeled_transition_system.py 122-124 -/
inductive Gen (S : Type) where
  | fresh
  | suspended (outer : DictIter) (state : S) (inner : DictIter)
  | ended
  deriving DecidableEq, Repr

/-- the outer loop, labeled_transition_system.py 122-124, from the next entry on; the fuel bounds the number of skipped empty dictionaries -/
def outerLoop (t : System S E) : Nat → DictIter → Gen S × Next (S × E × S)
  | 0, _ => (.ended, .stop)
  | fuel + 1, o =>
    match o.next t.rel with
    | .runtime => (.ended, .runtime)
    | .stop => (.ended, .stop)
    | .value ((s, d), o') =>
      match (DictIter.new d).next d with
      | .value ((e, s'), i) => (.suspended o' s i, .value (s, e, s'))
      | _ => outerLoop t fuel o'

/-- `next` of `transition_iterator()`, labeled_transition_system.py 118-124. The inner dictionary of a state is one object for ever: its
current entries are looked up. -/
def genNext (t : System S E) : Gen S → Gen S × Next (S × E × S)
  | .fresh => outerLoop t (t.rel.length + 1) (DictIter.new t.rel)
  | .suspended o s i =>
    match i.next ((t.rel.get? s).getD []) with
    | .value ((e, s'), i') => (.suspended o s i', .value (s, e, s'))
    | .runtime => (.ended, .runtime)
    | .stop => outerLoop t (t.rel.length + 1) o
  | .ended => (.ended, .stop)

/-- what the program does between the calls of `next`; used for labeled_transition_system.py 96-124 -/
inductive Op (S E : Type) where
  /-- `get_next_state(s, e)`, or the first `next` of `yield_outgoing_transitions(s)` -/
  | ask (s : S)
  /-- `add_sequence(seq)` -/
  | add (seq : List E)
  /-- `next(generator)` -/
  | next

/-- the effect of `ask` on the `defaultdict`, labeled_transition_system.py 96-101 -/
def ask (t : System S E) (s : S) : System S E := { t with rel := (touch t.rel s).1 }

/-- the system after a history without a generator; used for labeled_transition_system.py 96-124 -/
def after (f : List E → S) (ops : List (Op S E)) (t : System S E) : System S E :=
  ops.foldl (fun t op => match op with
    | .ask s => ask t s
    | .add seq => addSequence f t seq
    | .next => t) t

/-- a history with one generator: the outcomes of the calls of `next`, each with the system at that time; used for labeled_transition_system.py 118-124 -/
def run (f : List E → S) : List (Op S E) → System S E → Gen S → List (System S E × Next (S × E × S))
  | [], _, _ => []
  | .ask s :: ops, t, g => run f ops (ask t s) g
  | .add seq :: ops, t, g => run f ops (addSequence f t seq) g
  | .next :: ops, t, g => (t, (genNext t g).2) :: run f ops t (genNext t g).1

/-- `for s, e, s2 in lts.transition_iterator(): ...` with a body that asks for the outgoing transitions of `s2`: the
visited transitions, and whether the loop ended normally (`some true`) or with a RuntimeError (`some false`). The fuel
bounds the number of rounds. Used for labeled_transition_system.py 96-124. -/
def successorLoop : Nat → System S E → Gen S → List (S × E × S) × Option Bool
  | 0, _, _ => ([], none)
  | fuel + 1, t, g =>
    match genNext t g with
    | (_, .stop) => ([], some true)
    | (_, .runtime) => ([], some false)
    | (g', .value x) =>
      let r := successorLoop fuel (ask t x.2.2) g'
      (x :: r.1, r.2)

end

/-! prefix_tree.py, `traverse_level_order`, 93-103 -/
section
open Prolothar.PrefixTree
variable {A : Type} [LinearOrder A]

/-- the node object which is reached by a word. `append` keeps the node objects and inserts new ones, so that a word
names the same object for ever. Used for prefix_tree.py 37-69. -/
def sub (t : PrefixTree.Tree A) : List A → Option (PrefixTree.Tree A)
  | [] => some t
  | a :: w =>
    match Dict.get? t.children a with
    | some c => sub c w
    | none => none

/-- the words of the current children of the node named by `w`; used for prefix_tree.py 98-103 -/
def kids (t : PrefixTree.Tree A) (w : List A) : List (List A) :=
  match sub t w with
  | some n => n.children.map fun c => w ++ [c.1]
  | none => []

/-- the suspended generator: not started, at the `yield` of the node `last` with a queue, or ended; used for prefix_tree.py 100-102 -/
inductive Walk (A : Type) where
  | fresh
  | suspended (queue : List (List A)) (last : List A)
  | ended

/-- the head of the loop, prefix_tree.py 100-102 -/
def pop : List (List A) → Walk A × Option (List A)
  | [] => (.ended, none)
  | w :: queue => (.suspended queue w, some w)

/-- `next` of `traverse_level_order()`, prefix_tree.py 98-103: the children of a node are read when the generator goes on -/
def walkNext (t : PrefixTree.Tree A) : Walk A → Walk A × Option (List A)
  | .fresh => pop (kids t [])
  | .suspended queue last => pop (queue ++ kids t last)
  | .ended => (.ended, none)

/-- a history of a traversal: `some s` is `append(s)` and `none` is `next(generator)`; the outcomes of `next`, the
last tree and whether the generator has ended; used for prefix_tree.py 93-103 -/
def walk : List (Option (List A)) → PrefixTree.Tree A → Walk A → Py (List (List A) × PrefixTree.Tree A × Bool)
  | [], t, g => .ok ([], t, match g with | .ended => true | _ => false)
  | some s :: ops, t, g => do
    let t' ← append s t
    walk ops t' g
  | none :: ops, t, g =>
    match walkNext t g with
    | (g', none) => walk ops t g'
    | (g', some w) => do
      let r ← walk ops t g'
      return (w :: r.1, r.2)

end

/-! list_utils.pyx -/

/-- the generator of `enumerate_reversed(l)`, list_utils.pyx 141-144, after its start: number of yielded pairs and position of the
reversed list iterator, which is fixed at the start -/
structure RevGen where
  count : Nat
  pos : Int

/-- `reversed(l)`, list_utils.pyx 142 -/
def RevGen.new {α : Type} (l : List α) : RevGen := ⟨0, (l.length : Int) - 1⟩

/-- `next` of `enumerate_reversed`, list_utils.pyx 142-144: the list iterator delivers the element at its position and ends for a
position outside of the list; the index is computed from the current length -/
def RevGen.next {α : Type} (l : List α) (g : RevGen) : RevGen × Option (Int × α) :=
  if 0 ≤ g.pos then
    match l[g.pos.toNat]? with
    | some x => (⟨g.count + 1, g.pos - 1⟩, some ((l.length : Int) - 1 - g.count, x))
    | none => (⟨g.count, -1⟩, none)
  else (⟨g.count, -1⟩, none)

/-- `del l[i]` (language): negative indices count from the end, IndexError outside of the list; used for list_utils.pyx 141-144 -/
def delItem {α : Type} (l : List α) (i : Int) : Py (List α) :=
  let k : Int := if i < 0 then i + l.length else i
  if 0 ≤ k ∧ k < l.length then .ok (l.eraseIdx k.toNat) else .error .index

/-- `for i, x in enumerate_reversed(l): if bad(x): del l[i]`: the list after the loop; the fuel bounds the number of
rounds; used for list_utils.pyx 141-144 -/
def deleteLoop {α : Type} (bad : α → Bool) : Nat → List α → RevGen → Py (List α)
  | 0, _, _ => .error .diverge
  | fuel + 1, l, g =>
    match g.next l with
    | (_, none) => .ok l
    | (g', some (i, x)) =>
      if bad x then
        match delItem l i with
        | .ok l' => deleteLoop bad fuel l' g'
        | .error e => .error e
      else deleteLoop bad fuel l g'

/-! eventlog.py, `__k_folds`, 397-404 -/
section
open Prolothar.EventLog
variable {I A V : Type}

/-- the indices of `KFold(n_splits=k).split` for one fold, eventlog.py 399: they are computed from the number of traces at the
first `next` -/
def foldIndices (n start size : Nat) : List Nat × List Nat :=
  ((List.range n).filter (fun i => decide (i < start ∨ start + size ≤ i)), (List.range size).map (start + ·))

/-- one round of the loop, eventlog.py 399-404, with the traces at that time: `self.traces[i]` raises IndexError behind the end -/
def liveFold (now : Log I A V) (n start size : Nat) : Py (Log I A V × Log I A V) := do
  let train ← (foldIndices n start size).1.mapM fun i : Nat => pyGet now (i : Int)
  let test ← (foldIndices n start size).2.mapM fun i : Nat => pyGet now (i : Int)
  return (train, test)

/-- the rounds of the loop, one for each call of `next`; `logs` lists the log at the time of each call; used for eventlog.py 370-404 -/
def liveFolds (n : Nat) : List Nat → Nat → List (Log I A V) → Py (List (Log I A V × Log I A V))
  | size :: sizes, start, now :: logs => do
    let p ← liveFold now n start size
    let ps ← liveFolds n sizes (start + size) logs
    return p :: ps
  | _, _, _ => .ok []

/-- `k_folds(k)`, eventlog.py 370-404, consumed call by call while the log changes: `logs` are the logs at the calls of `next` -/
def kFoldsLive (logs : List (Log I A V)) (k : Int) : Py (List (Log I A V × Log I A V)) :=
  if k < 2 then .error .value
  else match logs with
    | [] => .ok []
    | log :: _ =>
      if k > log.length then .error .value
      else liveFolds log.length (foldSizes log.length k.toNat) 0 logs

end
end Prolothar.Lazy
