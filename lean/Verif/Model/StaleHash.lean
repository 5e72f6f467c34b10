import Verif.Model.ActivityPattern
/-
Model of `prune` on nets whose transitions have been renamed. The transitions of a place are a python set of `Transition` objects, which
hash by their id (data_petri_net.py 217-220). A set stores the hash that an object had when it was added. When the composition functions of
activity_pattern.py assign new ids (343-344 and 143-151), the sets are not rebuilt. Every other operation on these sets in the repository
iterates over them or adds new objects; only `start_place.transitions.remove(t)` (data_petri_net.py 437) searches an object that may have been
renamed. In the model the ids of a net are renamed everywhere, and `stored t` is the id that the transition `t` had when it was added to
the sets. The sets of places are not concerned, because places hash by identity.
-/
namespace Prolothar.StaleHash
open Prolothar.Petri Prolothar.ActivityPattern

/-- `start_place.transitions.remove(t)`, data_petri_net.py 437: an entry is found if its stored hash is the hash of `t` and it is `t` or equal
to `t`. Different transitions of a net have different ids, so only `t` itself is equal to `t`. -/
def removeHashed (hash : String → Nat) (stored : String → String) (s : List String) (t : String) : Py (List String) :=
  if t ∈ s ∧ hash (stored t) = hash t then .ok (s.erase t) else .error .key

/-- `_prune_transition`, data_petri_net.py 434-445 -/
def pruneTransition (hash : String → Nat) (stored : String → String) (n : Net) (t : String) : Py Net :=
  (n.pre t).foldlM (fun n s => do
    let pre ← setRemove (n.pre t) s
    let out ← removeHashed hash stored (n.out s) t
    let n := { n with pre := upd n.pre t pre, out := upd n.out s out }
    (n.post t).foldlM (fun n e => do
      let post ← setRemove (n.post t) e
      n.transitions.foldlM (redirect s e) { n with post := upd n.post t post }) n) n

/-- the first loop of `prune`, data_petri_net.py 421-425 -/
def pruneLoop (hash : String → Nat) (stored : String → String) (sources sinks : List String) : List String → Net → List String → Py (Net × List String)
  | [], n, rem => .ok (n, rem)
  | t :: ts, n, rem =>
    if canPrune n sources sinks t then do
      let n ← pruneTransition hash stored n t
      pruneLoop hash stored sources sinks ts n rem
    else pruneLoop hash stored sources sinks ts n (rem ++ [t])

/-- `DataPetriNet.prune`, data_petri_net.py 413-432 -/
def prune (hash : String → Nat) (stored : String → String) (n : Net) : Py Net := do
  let ss := n.sourceSink
  let r ← pruneLoop hash stored ss.1 ss.2 n.transitions n []
  return { r.1 with
    transitions := r.2
    places := r.2.foldl (fun s t => (r.1.post t).foldl setAdd ((r.1.pre t).foldl setAdd s)) [] }

/-- `ActivityPattern.prune`, activity_pattern.py 83-90. The keys of the map are transitions that are not renamed after they have been added to
it. -/
def prunePattern (hash : String → Nat) (stored : String → String) (a : Pattern) : Py Pattern := do
  let n ← prune hash stored a.net
  return ⟨n, a.map.filter fun e => decide (e.1 ∈ n.transitions)⟩

/-- the ids in the sets of the net that is built by `_prepare_composition`, activity_pattern.py 332-360: `copy` builds new sets, but the transitions of
the second net are renamed afterwards -/
def prepareStored (a b : Pattern) : Py (String → String) := do
  let c1 ← copied a.net
  let c2 ← copied b.net
  let rt ← renames c1.transitions c2.transitions
  return fun t => (oldId rt t).getD t

/-- `ActivityPattern.__init__`, activity_pattern.py 43-45: the net is copied, with new sets, if it is no workflow net -/
def initStored (n : Net) (stored : String → String) : String → String := if n.isWorkflow then stored else id

/-- `sequence`, activity_pattern.py 92-103, with the ids in the sets of the result -/
def sequence (a b : Pattern) : Py (Pattern × (String → String)) := do
  let c ← prepare a b
  let stored ← prepareStored a b
  let t := c.e1 ++ "," ++ c.s2
  let n ← c.net.addTransition t none false
  let n ← n.addConnection c.e1 t c.s2
  let r ← mkPattern n (.dict c.map)
  return (r, initStored n stored)

/-- `parallel`, activity_pattern.py 216-237, with the ids in the sets of the result -/
def parallel (a b : Pattern) : Py (Pattern × (String → String)) := do
  let c ← prepare a b
  let stored ← prepareStored a b
  let s := c.s1 ++ "," ++ c.s2
  let n ← c.net.addPlace s "" 0
  let n ← n.addTransition c.s1 none false
  let n ← n.addConnection s c.s1 c.s1
  let n ← n.addConnection s c.s1 c.s2
  let e := c.e1 ++ "," ++ c.e2
  let n ← n.addPlace e "" 0
  let n ← n.addTransition e none false
  let n ← n.addConnection c.e1 e e
  let n ← n.addConnection c.e2 e e
  let r ← mkPattern n (.dict c.map)
  return (r, initStored n stored)

/-- the ids in the sets of the net that is built by `choice_list`, activity_pattern.py 127-214: the transitions of all the copies are renamed in 143-151.
The result has one source and one sink, so `__init__` does not copy it. -/
def choiceListStored (choices : List Pattern) : Py (String → String) := do
  let cs ← choices.mapM Pattern.copy
  let rts ← renamesAll [] (cs.map fun a => a.net.transitions)
  return fun t => (oldId rts.flatten t).getD t

end Prolothar.StaleHash
