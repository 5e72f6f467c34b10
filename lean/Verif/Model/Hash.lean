import Verif.Model.EventLog
import Mathlib.Data.Multiset.MapFold
/-
Model of `__eq__` and `__hash__` of the classes of the models. Hashes of strings, tuples and dictionaries are arbitrary
functions of the hashes of the parts; the hash of a frozendict is a function of the collection of its items, as items have no
order. A value of an attribute that cannot be hashed has the hash `none`.
-/
namespace Prolothar.Hash
open Prolothar.EventLog

/-- the hash functions of Python and the equality of attribute values; used for event.pyx 37-38 -/
structure Hashes (V : Type) where
  str : String → Int
  none : Int
  tuple : List Int → Int
  items : Multiset Int → Int
  val : V → Option Int
  eqVal : V → V → Bool

variable {V : Type} (H : Hashes V)

/-- `hash` of a string or None; used for event.pyx 37-38 -/
def Hashes.optStr : Option String → Int
  | some s => H.str s
  | .none => H.none

/-- `==` on dictionaries; used for event.pyx 31-35 -/
def dictEq (d e : Dict String V) : Bool :=
  decide (d.length = e.length) && d.all fun kv => match e.get? kv.1 with | some w => H.eqVal kv.2 w | .none => false

/-- `hash(frozendict(d))`; TypeError if a value cannot be hashed; used for event.pyx 37-38 -/
def dictHash (d : Dict String V) : Py Int :=
  if d.all fun kv => (H.val kv.2).isSome then
    .ok (H.items (Multiset.ofList (d.map fun kv => H.tuple [H.str kv.1, (H.val kv.2).getD 0])))
  else .error .type

/-- an event whose activity may be None; used for event.pyx 31-35 -/
abbrev Ev (V : Type) := EventLog.Event (Option String) V

/-- `Event.__eq__`, event.pyx 31-35 -/
def eventEq (a b : Ev V) : Bool :=
  ((a.activity.isNone && b.activity.isNone) || decide (a.activity = b.activity)) && decide (a.transition = b.transition) &&
    dictEq H a.attributes b.attributes

/-- `Event.__hash__`, event.pyx 37-38 -/
def eventHash (a : Ev V) : Py Int := do
  let d ← dictHash H a.attributes
  return H.tuple [H.optStr a.activity, d]

/-- `==` on lists; used for trace.pyx 74-75 -/
def listEq {α : Type} (eq : α → α → Bool) : List α → List α → Bool
  | [], [] => true
  | a :: as, b :: bs => eq a b && listEq eq as bs
  | _, _ => false

/-- a trace; its id is only used for its hash; used for trace.pyx 74-75 -/
abbrev Tr (V : Type) := EventLog.Trace Int (Option String) V

/-- `Trace.__eq__`, trace.pyx 74-75 -/
def traceEq (a b : Tr V) : Bool := listEq (eventEq H) a.events b.events && dictEq H a.attributes b.attributes

/-- `Trace.__hash__`, trace.pyx 77-78, with the hash function of ids -/
def traceHash (hashId : Int → Int) (a : Tr V) : Int := hashId a.id

/-- `Event` or `ComplexEvent`, complex_event.pyx 20-28 -/
inductive AnyEvent (V : Type) where
  | simple (e : Ev V)
  | complex (activity : Option String) (attributes : Dict String V) (transition : Option String) (children : List (AnyEvent V))

/-- `ComplexEvent.__init__`, complex_event.pyx 23-28 -/
def newComplex (activity : Option String) (children : List (AnyEvent V)) (attributes : Dict String V) (transition : Option String) :
    Py (AnyEvent V) :=
  if children.isEmpty then .error .value else .ok (.complex activity attributes transition children)

mutual
/-- `==` on events, event.pyx 31-35 and complex_event.pyx 30-33. The method of the subclass is used if one of the two is a
ComplexEvent; the attribute `children` of an `Event` does not exist. -/
def anyEq : AnyEvent V → AnyEvent V → Py Bool
  | .simple a, .simple b => .ok (eventEq H a b)
  | .complex a _ _ _, .simple b => if a = b.activity then .error .attribute else .ok false
  | .simple a, .complex b _ _ _ => if a.activity = b then .error .attribute else .ok false
  | .complex a d _ cs, .complex b e _ es =>
    if a = b then do
      if ← anyListEq cs es then return dictEq H d e else return false
    else .ok false
/-- `==` on lists of events: lists of different lengths are different, otherwise the first difference decides; used for event.pyx 31-35 -/
def anyListEq : List (AnyEvent V) → List (AnyEvent V) → Py Bool
  | [], [] => .ok true
  | a :: as, b :: bs =>
    if as.length ≠ bs.length then .ok false
    else do
      if ← anyEq a b then anyListEq as bs else return false
  | _, _ => .ok false
end

/-- `__hash__` of events, event.pyx 37-38 and complex_event.pyx 35-36 -/
def anyHash : AnyEvent V → Py Int
  | .simple a => eventHash H a
  | .complex a _ _ _ => .ok (H.optStr a)

/-- the edge of a directly-follows graph with the activities of its nodes, dfg/edge.pyx 22-25 -/
structure DEdge where
  start : String
  stop : String
  count : Int
  deriving DecidableEq

/-- `Edge.__eq__`, dfg/edge.pyx 27-30 -/
def dedgeEq (a b : DEdge) : Bool := decide (a.start = b.start) && decide (a.stop = b.stop) && decide (a.count = b.count)

/-- `Edge.__hash__`, dfg/edge.pyx 32-33, with `Node.__hash__`, dfg/node.pyx 33-34 -/
def dedgeHash (a : DEdge) : Int := H.tuple [H.str a.start, H.str a.stop]

/-- `Edge.__lt__`, dfg/edge.pyx 35-40 -/
def dedgeLt (a b : DEdge) : Bool :=
  if a.start < b.start then true else if a.stop < b.stop then true else decide (a.count < b.count)

/-- a node of a directly-follows graph, dfg/node.pyx 21-26 -/
structure DNode where
  activity : String
  edges : List DEdge

/-- `Node.__eq__`, dfg/node.pyx 28-31 -/
def dnodeEq (a b : DNode) : Bool := decide (a.activity = b.activity) && listEq dedgeEq a.edges b.edges

/-- `Node.__hash__`, dfg/node.pyx 33-34 -/
def dnodeHash (a : DNode) : Int := H.str a.activity

/-- a node of a nested graph, nested_graph.py 22-28 -/
structure NNode (V : Type) where
  id : String
  label : String
  parent : Option String
  attributes : Dict String V

/-- `NestedGraph.Node.__eq__`, nested_graph.py 30-34 -/
def nnodeEq (a b : NNode V) : Bool := decide (a.id = b.id) && decide (a.parent = b.parent) && dictEq H a.attributes b.attributes

/-- `NestedGraph.Node.__hash__`, nested_graph.py 36-37 -/
def nnodeHash (a : NNode V) : Int := H.str a.id

/-- an edge of a nested graph, nested_graph.py 47-53 -/
structure NEdge (V : Type) where
  id : String
  source : String
  target : String
  attributes : Dict String V

/-- `NestedGraph.Edge.__eq__`, nested_graph.py 55-60 -/
def nedgeEq (a b : NEdge V) : Bool :=
  decide (a.id = b.id) && decide (a.source = b.source) && decide (a.target = b.target) && dictEq H a.attributes b.attributes

/-- `NestedGraph.Edge.__hash__`, nested_graph.py 62-63 -/
def nedgeHash (a : NEdge V) : Int := H.str a.id

/-- `x in set(l)`: the set keeps the first of equal elements with the same hash, and finds an element with the same hash that
is equal; used for event.pyx 31-38 -/
def pySet {α : Type} (eq : α → α → Bool) (hash : α → Int) (l : List α) : List α :=
  l.foldl (fun s x => if s.any fun y => decide (hash y = hash x) && eq y x then s else s ++ [x]) []

/-- membership in a set; used for event.pyx 31-38 -/
def inSet {α : Type} (eq : α → α → Bool) (hash : α → Int) (s : List α) (x : α) : Bool :=
  s.any fun y => decide (hash y = hash x) && eq y x

end Prolothar.Hash
