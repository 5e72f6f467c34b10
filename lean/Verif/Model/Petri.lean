import Verif.Model.Dict
import Verif.Model.Upd
/-
Model of prolothar_common/models/data_petri_net.py. Place and transition objects are identified with their
ids (a net never contains two places or two transitions with the same id), their attributes are functions of
the id. Python sets are lists without duplicates whose order is not specified. Variable objects have an
identity (a number), because guards keep references to them. Values of variables are `None` or numbers (a
boolean is the number 0 or 1).
-/
namespace Prolothar.Petri

/-- the value of a variable; used for data_petri_net.py 91-166 -/
abbrev Val := Option Int

/-- the values of the variable objects; used for data_petri_net.py 91-166 -/
abbrev Heap := Nat → Val

/-- the guard classes, data_petri_net.py 91-166, with references to variable objects -/
inductive Guard where
  | always
  | lambda (a : Nat) (f : Val → Py Bool)
  | equal (a : Nat) (v : Val)
  | smaller (a : Nat) (v : Val)
  | smallerEq (a : Nat) (v : Val)
  | greater (a : Nat) (v : Val)
  | greaterEq (a : Nat) (v : Val)
  | isTrue (a : Nat)
  | isFalse (a : Nat)
  | allOf (gs : List Guard)

/-- comparing with `None` raises a TypeError; used for data_petri_net.py 91-166 -/
def cmp (r : Int → Int → Bool) : Val → Val → Py Bool
  | some a, some b => .ok (r a b)
  | _, _ => .error .type

/-- the truth value of a value; used for data_petri_net.py 91-166 -/
def truth : Val → Bool
  | some a => decide (a ≠ 0)
  | none => false

mutual
/-- `Guard.accept` and its implementations, data_petri_net.py 91-166 -/
def Guard.accept (h : Heap) : Guard → Py Bool
  | .always => .ok true
  | .lambda a f => f (h a)
  | .equal a v => .ok (decide (h a = v))
  | .smaller a v => cmp (fun x y => decide (x < y)) (h a) v
  | .smallerEq a v => cmp (fun x y => decide (x ≤ y)) (h a) v
  | .greater a v => cmp (fun x y => decide (x > y)) (h a) v
  | .greaterEq a v => cmp (fun x y => decide (x ≥ y)) (h a) v
  | .isTrue a => .ok (truth (h a))
  | .isFalse a => .ok (!truth (h a))
  | .allOf gs => acceptAll h gs

/-- the loop of `AllOfGuard.accept`, data_petri_net.py 157-161 -/
def acceptAll (h : Heap) : List Guard → Py Bool
  | [] => .ok true
  | g :: gs => do
    let b ← g.accept h
    if b then acceptAll h gs else return false
end

/-- `isinstance(guard, AcceptAlwaysGuard)`; used for data_petri_net.py 454-474 -/
def Guard.isAlways : Guard → Bool
  | .always => true
  | _ => false

/-- `DataPetriNet`, data_petri_net.py 232-235, with the attributes of its places, 168-184, and transitions, 195-206. `places` and
`transitions` are the keys of the dictionaries, `vars` maps names to variable objects. -/
structure Net where
  places : List String
  transitions : List String
  placeLabel : String → String
  transLabel : String → String
  tokens : String → Int
  out : String → List String
  visible : String → Bool
  pre : String → List String
  post : String → List String
  guard : String → Guard
  vars : Dict String Nat

/-- `DataPetriNet()`, data_petri_net.py 232-235 -/
def Net.empty : Net :=
  ⟨[], [], fun _ => "", fun _ => "", fun _ => 0, fun _ => [], fun _ => true, fun _ => [], fun _ => [], fun _ => .always, []⟩

/-- set insertion; used for data_petri_net.py 255-266 -/
def setAdd (s : List String) (a : String) : List String := if a ∈ s then s else s ++ [a]

/-- `add_place(Place(id, label, nr_of_tokens))`, data_petri_net.py 237-241 and 169-175 -/
def Net.addPlace (n : Net) (id label : String) (tokens : Int) : Py Net :=
  if tokens < 0 then .error .value
  else if id ∈ n.places then .error .value
  else .ok { n with
    places := n.places ++ [id], placeLabel := upd n.placeLabel id label, tokens := upd n.tokens id tokens, out := upd n.out id [] }

/-- `add_transition(Transition(id, label, visible))`, data_petri_net.py 243-247 and 197-206 -/
def Net.addTransition (n : Net) (id : String) (label : Option String) (visible : Bool) : Py Net :=
  if id ∈ n.transitions then .error .value
  else .ok { n with
    transitions := n.transitions ++ [id], transLabel := upd n.transLabel id (label.getD id), visible := upd n.visible id visible,
    pre := upd n.pre id [], post := upd n.post id [], guard := upd n.guard id .always }

/-- `add_variable`, data_petri_net.py 249-253, for the variable object `a` -/
def Net.addVariable (n : Net) (name : String) (a : Nat) : Py Net :=
  if n.vars.has name then .error .value else .ok { n with vars := n.vars.put name a }

/-- `add_connection`, data_petri_net.py 255-266, for places and transitions which are objects of the net if their ids are -/
def Net.addConnection (n : Net) (s t e : String) : Py Net :=
  if s ∉ n.places then .error .value
  else if e ∉ n.places then .error .value
  else if t ∉ n.transitions then .error .value
  else .ok { n with
    out := upd n.out s (setAdd (n.out s) t), pre := upd n.pre t (setAdd (n.pre t) s), post := upd n.post t (setAdd (n.post t) e) }

/-- the first loop of `_fire_transition`, data_petri_net.py 312-313: the net afterwards and whether no exception was raised -/
def decAll : Net → List String → Net × Py Unit
  | n, [] => (n, .ok ())
  | n, p :: ps => if n.tokens p ≤ 0 then (n, .error .value) else decAll { n with tokens := upd n.tokens p (n.tokens p - 1) } ps

/-- the second loop of `_fire_transition`, data_petri_net.py 314-315 -/
def incAll : Net → List String → Net
  | n, [] => n
  | n, p :: ps => incAll { n with tokens := upd n.tokens p (n.tokens p + 1) } ps

/-- `_fire_transition`, data_petri_net.py 311-315 -/
def Net.fire (n : Net) (t : String) : Net × Py Unit :=
  match decAll n (n.pre t) with
  | (n', .ok _) => (incAll n' (n.post t), .ok ())
  | (n', .error e) => (n', .error e)

/-- `force_transition`, data_petri_net.py 317-327 -/
def Net.force (n : Net) (t : String) : Net × Py Unit :=
  if t ∉ n.transitions then (n, .error .value) else n.fire t

/-- the filter of `get_fireable_transitions`, data_petri_net.py 289-292 -/
def isFireable (h : Heap) (ignoreGuards : Bool) (n : Net) (t : String) : Py Bool := do
  let b ← if ignoreGuards then .ok true else (n.guard t).accept h
  return b && decide (((n.pre t).map n.tokens).sum = (n.pre t).length)

/-- `filter` with a condition that may raise; used for data_petri_net.py 287-293 -/
def filterPy {β : Type} (f : β → Py Bool) : List β → Py (List β)
  | [] => .ok []
  | x :: xs => do
    let b ← f x
    let r ← filterPy f xs
    return if b then x :: r else r

/-- `get_fireable_transitions`, data_petri_net.py 287-293 -/
def Net.fireable (h : Heap) (n : Net) (ignoreGuards : Bool) : Py (List String) :=
  filterPy (isFireable h ignoreGuards n) n.transitions

/-- the first loop of `simulate_one_timestep`, data_petri_net.py 271-281: `pick` is the random choice at each place; the dictionary
counts the selections of each transition -/
def select (h : Heap) (n : Net) (pick : String → Nat) : List String → Dict String Nat → Py (Dict String Nat)
  | [], d => .ok d
  | p :: ps, d =>
    if n.tokens p > 0 then do
      let ts ← filterPy (fun t => (n.guard t).accept h) (n.out p)
      match ts[pick p % ts.length]? with
      | none => select h n pick ps d
      | some t => select h n pick ps (d.put t ((d.get? t).getD 0 + 1))
    else select h n pick ps d

/-- the second loop of `simulate_one_timestep`, data_petri_net.py 283-285 -/
def fireSelected : Net → List (String × Nat) → Net × Py Unit
  | n, [] => (n, .ok ())
  | n, (t, k) :: rest =>
    if k ≥ (n.pre t).length then
      match n.fire t with
      | (n', .ok _) => fireSelected n' rest
      | (n', .error e) => (n', .error e)
    else fireSelected n rest

/-- `simulate_one_timestep`, data_petri_net.py 268-285 -/
def Net.simulate (h : Heap) (n : Net) (pick : String → Nat) : Net × Py Unit :=
  match select h n pick n.places [] with
  | .error e => (n, .error e)
  | .ok d => fireSelected n d

/-- `get_marking`, data_petri_net.py 295-299 -/
def Net.getMarking (n : Net) : Dict String Int := n.places.map fun p => (p, n.tokens p)

/-- `set_marking`, data_petri_net.py 301-303 -/
def Net.setMarking (n : Net) : Dict String Int → Net × Py Unit
  | [] => (n, .ok ())
  | (p, k) :: m =>
    if p ∉ n.places then (n, .error .key) else Net.setMarking { n with tokens := upd n.tokens p k } m

/-- `matches_marking`, data_petri_net.py 305-309 -/
def Net.matchesMarking (n : Net) : Dict String Int → Py Bool
  | [] => .ok true
  | (p, k) :: m =>
    if p ∉ n.places then .error .key else if n.tokens p ≠ k then .ok false else Net.matchesMarking n m

/-- `get_source_sink_places`, data_petri_net.py 347-357 -/
def Net.sourceSink (n : Net) : List String × List String :=
  let before := n.transitions.foldl (fun s t => (n.pre t).foldl setAdd s) []
  let after := n.transitions.foldl (fun s t => (n.post t).foldl setAdd s) []
  (before.filter fun p => decide (p ∉ after), after.filter fun p => decide (p ∉ before))

/-- `is_workflow_net`, data_petri_net.py 339-345 -/
def Net.isWorkflow (n : Net) : Bool :=
  decide (n.places.length ≥ 2) && decide (n.sourceSink.1.length = 1) && decide (n.sourceSink.2.length = 1)

/-- `copy`, data_petri_net.py 372-391. A place with a negative number of tokens, which `set_marking` accepts, raises a ValueError. The attributes of the new objects are the same functions of the ids; the lookups fail if a
place or transition refers to an id that is not in the net. Variables are deep-copied to the new objects
`next, next + 1, …`, the guards are shared. Returns the copy, the heap and the next unused object. -/
def Net.copy (h : Heap) (next : Nat) (n : Net) : Py (Net × Heap × Nat) :=
  if ∃ p ∈ n.places, n.tokens p < 0 then .error .value
  else if (∀ p ∈ n.places, ∀ t ∈ n.out p, t ∈ n.transitions) ∧
     (∀ t ∈ n.transitions, (∀ p ∈ n.pre t, p ∈ n.places) ∧ ∀ p ∈ n.post t, p ∈ n.places) then
    .ok ({ n with vars := n.vars.zipIdx.map fun e => (e.1.1, next + e.2) },
      (fun a => if a < next then h a else match n.vars[a - next]? with | some e => h e.2 | none => h a),
      next + n.vars.length)
  else .error .key

/-- `_introduce_new_source_place`, data_petri_net.py 476-482 -/
def newSource (n : Net) (old : List String) : Py Net := do
  let s := ",".intercalate old
  let n ← n.addPlace s "" 0
  old.foldlM (fun n p => do
    let n ← n.addTransition p none false
    n.addConnection s p p) n

/-- `make_id_unique`, data_petri_net.py 493-502; the fuel bounds the loop -/
def makeIdUnique (existing : List String) : Nat → String → Py String
  | 0, _ => .error .diverge
  | fuel + 1, id => if id ∈ existing then makeIdUnique existing fuel (id ++ "'") else .ok id

/-- `_introduce_new_sink_place`, data_petri_net.py 484-491 -/
def newSink (n : Net) (old : List String) : Py Net := do
  let s := ",".intercalate old
  let n ← n.addPlace s "" 0
  old.foldlM (fun n p => do
    let t ← makeIdUnique n.transitions (n.transitions.length + 1) p
    let n ← n.addTransition t none false
    n.addConnection p t s) n

/-- `transform_to_workflow_net`, data_petri_net.py 359-370, applied to the copy -/
def toWorkflow (n : Net) : Py Net := do
  let ss := n.sourceSink
  let n ← if ss.1.length > 1 then newSource n ss.1 else .ok n
  if ss.2.length > 1 then newSink n ss.2 else .ok n

/-- `place_has_self_loop`, data_petri_net.py 455-459 -/
def hasSelfLoop (n : Net) (p : String) : Bool := (n.out p).any fun t => decide (p ∈ n.post t)

/-- `_can_transition_be_pruned`, data_petri_net.py 454-474 -/
def canPrune (n : Net) (sources sinks : List String) (t : String) : Bool :=
  !n.visible t &&
  match n.pre t, n.post t with
  | [s], [e] =>
    (!hasSelfLoop n s && decide (s ∉ sources) && decide ((n.out s).length = 1)) &&
    (decide (e ∉ sinks) || decide ((n.out s).length = 1)) &&
    (n.guard t).isAlways
  | _, _ => false

/-- set removal, raises a KeyError; used for data_petri_net.py 440-445 -/
def setRemove (s : List String) (a : String) : Py (List String) := if a ∈ s then .ok (s.erase a) else .error .key

/-- the body of the innermost loop of `_prune_transition`, data_petri_net.py 440-445 -/
def redirect (s e : String) (n : Net) (tr : String) : Py Net :=
  if s ∈ n.post tr then do
    let post := setAdd (n.post tr) e
    if n.out s = [] then do
      let post ← setRemove post s
      return { n with post := upd n.post tr post }
    else return { n with post := upd n.post tr post }
  else return n

/-- `_prune_transition`, data_petri_net.py 434-445 -/
def pruneTransition (n : Net) (t : String) : Py Net :=
  (n.pre t).foldlM (fun n s => do
    let pre ← setRemove (n.pre t) s
    let out ← setRemove (n.out s) t
    let n := { n with pre := upd n.pre t pre, out := upd n.out s out }
    (n.post t).foldlM (fun n e => do
      let post ← setRemove (n.post t) e
      n.transitions.foldlM (redirect s e) { n with post := upd n.post t post }) n) n

/-- the first loop of `prune`, data_petri_net.py 421-425, over the ids of the transitions -/
def pruneLoop (sources sinks : List String) : List String → Net → List String → Py (Net × List String)
  | [], n, rem => .ok (n, rem)
  | t :: ts, n, rem =>
    if canPrune n sources sinks t then do
      let n ← pruneTransition n t
      pruneLoop sources sinks ts n rem
    else pruneLoop sources sinks ts n (rem ++ [t])

/-- `prune`, data_petri_net.py 413-432 -/
def Net.prune (n : Net) : Py Net := do
  let ss := n.sourceSink
  let r ← pruneLoop ss.1 ss.2 n.transitions n []
  return { r.1 with
    transitions := r.2
    places := r.2.foldl (fun s t => (r.1.post t).foldl setAdd ((r.1.pre t).foldl setAdd s)) [] }

/-- `has_guards`, data_petri_net.py 447-452 -/
def Net.hasGuards (n : Net) : Bool := n.transitions.any fun t => !(n.guard t).isAlways

end Prolothar.Petri
