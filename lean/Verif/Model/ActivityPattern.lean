import Verif.Model.Petri
/-
Model of prolothar_common/models/activity_pattern.py. A transition is hashed and compared by its id, so the map to high level
activities is a dictionary of ids. Places are compared by identity; as in `Model/Petri.lean` they are identified with their ids, and
changing the ids of the places and transitions of a net is a renaming of the whole net. Elements of sets are popped in
the order of the model's lists; the order matters only if a net has more than one source or sink.
-/
namespace Prolothar.ActivityPattern
open Prolothar.Petri

/-- `ActivityPattern`, activity_pattern.py 24-59 -/
structure Pattern where
  net : Net
  map : Dict String String

/-- `net.copy()`, data_petri_net.py 372-391, without the values of the copied variables, which no guard refers to -/
def copied (n : Net) : Py Net := do
  let r ← n.copy (fun _ => none) 0
  return r.1

/-- the argument `high_level_activity_map`; used for activity_pattern.py 28-59 -/
inductive MapArg
  | name (s : String)
  | dict (d : Dict String String)

/-- `ActivityPattern.__init__`, activity_pattern.py 28-59 -/
def mkPattern (n : Net) (arg : MapArg) : Py Pattern := do
  let net ← if n.isWorkflow then pure n else do
    let c ← copied n
    toWorkflow c
  match arg with
  | .name s => return ⟨net, n.transitions.foldl (fun d t => d.put t s) []⟩
  | .dict d => if n.transitions.any fun t => n.visible t && !d.has t then throw .value else return ⟨net, d⟩

/-- `ActivityPattern.copy`, activity_pattern.py 61-63 -/
def Pattern.copy (a : Pattern) : Py Pattern := do
  let n ← copied a.net
  mkPattern n (.dict a.map)

/-- `set.pop()`; used for activity_pattern.py 65-69 -/
def popSet : List String → Py String
  | [] => .error .key
  | x :: _ => .ok x

/-- `get_all_zeros_marking`, activity_pattern.py 77-81 -/
def Pattern.allZeros (a : Pattern) : Dict String Int := a.net.places.map fun p => (p, 0)

/-- `get_standard_initial_marking`, activity_pattern.py 65-69 -/
def Pattern.initialMarking (a : Pattern) : Py (Dict String Int) := do
  let s ← popSet a.net.sourceSink.1
  return a.allZeros.put s 1

/-- `get_standard_final_marking`, activity_pattern.py 71-75 -/
def Pattern.finalMarking (a : Pattern) : Py (Dict String Int) := do
  let e ← popSet a.net.sourceSink.2
  return a.allZeros.put e 1

/-- `ActivityPattern.prune`, activity_pattern.py 83-90 -/
def Pattern.prune (a : Pattern) : Py Pattern := do
  let n ← a.net.prune
  return ⟨n, a.map.filter fun e => decide (e.1 ∈ n.transitions)⟩

/-- the new ids of activity_pattern.py 339-341 and 342-346: each id is made unique and added to the existing ones -/
def renames (existing : List String) : List String → Py (List (String × String))
  | [] => .ok []
  | x :: xs => do
    let y ← makeIdUnique existing (existing.length + 1) x
    let r ← renames (existing ++ [y]) xs
    return (x, y) :: r

/-- the new id of an object; used for activity_pattern.py 339-348 -/
def newId (r : List (String × String)) (x : String) : String := (Dict.get? r x).getD x

/-- the old id of the object which now has the id `y`; used for activity_pattern.py 339-348 -/
def oldId (r : List (String × String)) (y : String) : Option String := (r.find? fun e => e.2 = y).map Prod.fst

/-- adding the renamed places and transitions of `b` to the net `a`, activity_pattern.py 339-348 and 184-188: `rp` and `rt` are the new ids of the places and
transitions of `b`, `ps` and `ts` those that are added -/
def addNet (a b : Net) (rp rt : List (String × String)) (ps ts : List String) : Net where
  places := a.places ++ ps
  transitions := a.transitions ++ ts
  placeLabel p := match oldId rp p with | some q => b.placeLabel q | none => a.placeLabel p
  transLabel t := match oldId rt t with | some u => b.transLabel u | none => a.transLabel t
  tokens p := match oldId rp p with | some q => b.tokens q | none => a.tokens p
  out p := match oldId rp p with | some q => (b.out q).map (newId rt) | none => a.out p
  visible t := match oldId rt t with | some u => b.visible u | none => a.visible t
  pre t := match oldId rt t with | some u => (b.pre u).map (newId rp) | none => a.pre t
  post t := match oldId rt t with | some u => (b.post u).map (newId rp) | none => a.post t
  guard t := match oldId rt t with | some u => b.guard u | none => a.guard t
  vars := a.vars

/-- the activity names of activity_pattern.py 342-348 -/
def addNames (visible : String → Bool) (names : Dict String String) : List (String × String) → Dict String String → Py (Dict String String)
  | [], d => .ok d
  | (t, u) :: r, d =>
    if visible t then
      match names.get? t with
      | none => .error .key
      | some s => addNames visible names r (d.put u s)
    else addNames visible names r d

/-- the result of `_prepare_composition`: source and sink of both nets, the activity map and the net; used for activity_pattern.py 332-360 -/
structure Prep where
  s1 : String
  e1 : String
  s2 : String
  e2 : String
  map : Dict String String
  net : Net

/-- `_prepare_composition`, activity_pattern.py 332-360 -/
def prepare (a b : Pattern) : Py Prep := do
  let c1 ← copied a.net
  let c2 ← copied b.net
  let ss1 := c1.sourceSink
  let ss2 := c2.sourceSink
  let rp ← renames c1.places c2.places
  let rt ← renames c1.transitions c2.transitions
  let map ← addNames c2.visible b.map rt a.map
  let s1 ← popSet ss1.1
  let e1 ← popSet ss1.2
  let s2 ← popSet ss2.1
  let e2 ← popSet ss2.2
  return ⟨s1, e1, newId rp s2, newId rp e2, map, addNet c1 c2 rp rt (rp.map Prod.snd) (rt.map Prod.snd)⟩

/-- `sequence`, activity_pattern.py 92-103 -/
def sequence (a b : Pattern) : Py Pattern := do
  let c ← prepare a b
  let t := c.e1 ++ "," ++ c.s2
  let n ← c.net.addTransition t none false
  let n ← n.addConnection c.e1 t c.s2
  mkPattern n (.dict c.map)

/-- `choice`, activity_pattern.py 105-125 -/
def choice (a b : Pattern) : Py Pattern := do
  let c ← prepare a b
  let s := c.s1 ++ "," ++ c.s2
  let n ← c.net.addPlace s "" 0
  let t1 ← makeIdUnique n.transitions (n.transitions.length + 1) c.s1
  let n ← n.addTransition t1 none false
  let t2 ← makeIdUnique n.transitions (n.transitions.length + 1) c.s2
  let n ← n.addTransition t2 none false
  let n ← n.addConnection s t1 c.s1
  let n ← n.addConnection s t2 c.s2
  let n ← copied n
  let n ← toWorkflow n
  mkPattern n (.dict c.map)

/-- the new ids of all choices, activity_pattern.py 143-148 and 159-164: an id is made unique among the ids of the earlier choices and of its own -/
def renamesAll (existing : List String) : List (List String) → Py (List (List (String × String)))
  | [] => .ok []
  | l :: ls => do
    let r ← renames existing l
    let rs ← renamesAll (existing ++ r.map Prod.snd) ls
    return r :: rs

/-- the loop of activity_pattern.py 167-170, which changes the keys of the dictionary of places: `d` maps the keys to the objects -/
def rekey : List (String × String) → Dict String String → Py (Dict String String)
  | [], d => .ok d
  | (o, n) :: r, d =>
    if o = n then rekey r d
    else
      match d.get? o with
      | none => .error .key
      | some x => rekey r ((d.del o).put n x)

/-- the places of a choice that are added to the new net, activity_pattern.py 187-188: the objects that are still in the dictionary of places -/
def remaining (rp : List (String × String)) : Py (List String) := do
  let d ← rekey rp (rp.map fun e => (e.1, e.1))
  return d.map fun e => newId rp e.2

/-- the activity names of activity_pattern.py 149-150, for all choices -/
def choiceNames : List (Pattern × List (String × String)) → Dict String String → Dict String String
  | [], d => d
  | (a, rt) :: l, d =>
    choiceNames l (rt.foldl (fun d e => match a.map.get? e.1 with | some s => d.put e.2 s | none => d) d)

/-- the places and transitions of all choices, activity_pattern.py 183-188 -/
def choiceNets : List (Pattern × List (String × String) × List (String × String)) → Net → Py Net
  | [], n => .ok n
  | (a, rt, rp) :: l, n => do
    let ps ← remaining rp
    choiceNets l (addNet n a.net rp rt ps (rt.map Prod.snd))

/-- `choice_list`, activity_pattern.py 127-214 -/
def choiceList (choices : List Pattern) : Py Pattern := do
  let cs ← choices.mapM Pattern.copy
  let rts ← renamesAll [] (cs.map fun a => a.net.transitions)
  let rps ← renamesAll [] (cs.map fun a => a.net.places)
  let ends ← (cs.zip rps).mapM fun e => do
    let s ← popSet e.1.net.sourceSink.1
    let t ← popSet e.1.net.sourceSink.2
    return (newId e.2 s, newId e.2 t)
  let n ← choiceNets (cs.zip (rts.zip rps)) Net.empty
  let s := ",".intercalate (ends.map Prod.fst)
  let n ← n.addPlace s "" 0
  let n ← (ends.map Prod.fst).foldlM (fun n p => do
    let n ← n.addTransition (s ++ "," ++ p) none false
    n.addConnection s (s ++ "," ++ p) p) n
  let e := ",".intercalate (ends.map Prod.snd)
  let n ← n.addPlace e "" 0
  let n ← (ends.map Prod.snd).foldlM (fun n p => do
    let n ← n.addTransition (p ++ "," ++ e) none false
    n.addConnection p (p ++ "," ++ e) e) n
  mkPattern n (.dict (choiceNames (cs.zip rts) []))

/-- `parallel`, activity_pattern.py 216-237 -/
def parallel (a b : Pattern) : Py Pattern := do
  let c ← prepare a b
  let s := c.s1 ++ "," ++ c.s2
  let n ← c.net.addPlace s "" 0
  let n ← n.addTransition c.s1 none false
  let n ← n.addConnection s c.s1 c.s1
  let n ← n.addConnection s c.s1 c.s2
  let e := c.e1 ++ "," ++ c.e2
  let n ← n.addPlace e "" 0
  let n ← n.addTransition e none false
  let n ← n.addConnection c.e1 e e
  let n ← n.addConnection c.e2 e e
  mkPattern n (.dict c.map)

/-- `interleaving`, activity_pattern.py 239-298 -/
def interleaving (a b : Pattern) : Py Pattern := do
  let c ← prepare a b
  let s := c.s1 ++ "," ++ c.s2
  let n ← c.net.addPlace s "" 0
  let n ← n.addTransition s none false
  let x := s ++ ",px"
  let n ← n.addPlace x "" 0
  let e := c.e1 ++ "," ++ c.e2
  let n ← n.addPlace e "" 0
  let n ← n.addTransition e none false
  let n ← n.addPlace (c.s1 ++ "_") "" 0
  let n ← n.addTransition (c.s1 ++ "_") none false
  let n ← n.addPlace (c.s2 ++ "_") "" 0
  let n ← n.addTransition (c.s2 ++ "_") none false
  let n ← n.addPlace (c.e1 ++ "_") "" 0
  let n ← n.addTransition (c.e1 ++ "_") none false
  let n ← n.addPlace (c.e2 ++ "_") "" 0
  let n ← n.addTransition (c.e2 ++ "_") none false
  let n ← n.addConnection s s (c.s1 ++ "_")
  let n ← n.addConnection s s (c.s2 ++ "_")
  let n ← n.addConnection s s x
  let n ← n.addConnection (c.s1 ++ "_") (c.s1 ++ "_") c.s1
  let n ← n.addConnection (c.s1 ++ "_") (c.s1 ++ "_") x
  let n ← n.addConnection (c.s2 ++ "_") (c.s2 ++ "_") c.s2
  let n ← n.addConnection (c.s2 ++ "_") (c.s2 ++ "_") x
  let n ← n.addConnection c.e1 (c.e1 ++ "_") (c.e1 ++ "_")
  let n ← n.addConnection c.e1 (c.e1 ++ "_") x
  let n ← n.addConnection c.e2 (c.e2 ++ "_") (c.e2 ++ "_")
  let n ← n.addConnection c.e2 (c.e2 ++ "_") x
  let n ← n.addConnection (c.e1 ++ "_") e e
  let n ← n.addConnection (c.e2 ++ "_") e e
  let n ← n.addConnection x e e
  let n ← n.addConnection x (c.s1 ++ "_") c.s1
  let n ← n.addConnection x (c.s2 ++ "_") c.s2
  mkPattern n (.dict c.map)

/-- `unbounded_repetition`, activity_pattern.py 300-330 -/
def repetition (a : Pattern) : Py Pattern := do
  let n ← copied a.net
  let ss := n.sourceSink
  let s ← popSet ss.1
  let e ← popSet ss.2
  let s' ← makeIdUnique n.places (n.places.length + 1) s
  let n ← n.addPlace s' "" 0
  let e' ← makeIdUnique n.places (n.places.length + 1) e
  let n ← n.addPlace e' "" 0
  let ts ← makeIdUnique n.transitions (n.transitions.length + 1) s
  let n ← n.addTransition ts none false
  let te ← makeIdUnique n.transitions (n.transitions.length + 1) e
  let n ← n.addTransition te none false
  let tr ← makeIdUnique n.transitions (n.transitions.length + 1) (s ++ "," ++ e)
  let n ← n.addTransition tr none false
  let n ← n.addConnection s' ts s
  let n ← n.addConnection e te e'
  let n ← n.addConnection e tr s
  mkPattern n (.dict a.map)

end Prolothar.ActivityPattern
