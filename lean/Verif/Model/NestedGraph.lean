import Verif.Model.Dict
/-
Model of prolothar_common/models/nested_graph.py. Identifiers, labels and attribute values are python
values of one type `V`; attribute names are strings.
-/
namespace Prolothar.Nested

/-- `NestedGraph.Node`, nested_graph.py 22-28 -/
structure Node (V : Type) where
  id : V
  label : V
  parent : Option V
  attrs : Dict String V
  deriving DecidableEq

/-- `NestedGraph.Edge`, nested_graph.py 47-53 -/
structure Edge (V : Type) where
  id : V
  source : V
  target : V
  attrs : Dict String V
  deriving DecidableEq

/-- `NestedGraph`, nested_graph.py 68-70; the set of edges is a list without equal edges, its order stands for the
arbitrary iteration order of the set -/
structure Graph (V : Type) where
  nodes : Dict V (Node V)
  edges : List (Edge V)
  deriving DecidableEq

section
variable {V : Type} [DecidableEq V]

/-- `==` of python dictionaries; used for nested_graph.py 30-34 -/
def dictEq (d d' : Dict String V) : Bool :=
  d.length == d'.length && d.all fun p => decide (d'.get? p.1 = some p.2)

/-- `Node.__eq__`, nested_graph.py 30-34; the label is not compared -/
def nodeEq (a b : Node V) : Bool := decide (a.id = b.id) && decide (a.parent = b.parent) && dictEq a.attrs b.attrs

/-- `Edge.__eq__`, nested_graph.py 55-60 -/
def edgeEq (a b : Edge V) : Bool :=
  decide (a.id = b.id) && decide (a.source = b.source) && decide (a.target = b.target) && dictEq a.attrs b.attrs

/-- `set.add` for edges (their hash is compatible with `==`); used for nested_graph.py 75-76 -/
def edgeAdd (l : List (Edge V)) (e : Edge V) : List (Edge V) := if l.any (edgeEq e) then l else l ++ [e]

/-- `set.remove` for edges; used for nested_graph.py 78-79 -/
def edgeRemove (l : List (Edge V)) (e : Edge V) : Py (List (Edge V)) :=
  if l.any (edgeEq e) then .ok (l.eraseP (edgeEq e)) else .error .key

/-- `__init__`, nested_graph.py 68-70 -/
def new : Graph V := ⟨[], []⟩

/-- `add_node`, nested_graph.py 72-73 -/
def addNode (g : Graph V) (n : Node V) : Graph V := { g with nodes := g.nodes.put n.id n }

/-- `add_edge`, nested_graph.py 75-76 -/
def addEdge (g : Graph V) (e : Edge V) : Graph V := { g with edges := edgeAdd g.edges e }

/-- `remove_edge`, nested_graph.py 78-79 -/
def removeEdge (g : Graph V) (e : Edge V) : Py (Graph V) := do
  let es ← edgeRemove g.edges e
  return { g with edges := es }

/-- `get_nodes_by_label`, nested_graph.py 90-91 -/
def nodesByLabel (g : Graph V) (l : V) : List (Node V) := g.nodes.values.filter fun n => n.label = l

/-- `get_edge_by_source_and_target`, nested_graph.py 93-98 -/
def edgeBetween (g : Graph V) (s t : V) : Py (Edge V) :=
  match g.edges.find? fun e => e.source = s ∧ e.target = t with
  | some e => .ok e
  | none => .error .value

/-- `has_children`, nested_graph.py 100-104 -/
def hasChildren (g : Graph V) (id : V) : Bool := g.nodes.values.any fun n => n.parent = some id

/-- `get_children`, nested_graph.py 144-149 -/
def children (g : Graph V) (id : V) : List (Node V) := g.nodes.values.filter fun n => n.parent = some id

/-- `get_outgoing_edges`, nested_graph.py 138-139 -/
def outgoing (g : Graph V) (id : V) : List (Edge V) := g.edges.filter fun e => e.source = id

/-- `get_ingoing_edges`, nested_graph.py 141-142 -/
def ingoing (g : Graph V) (id : V) : List (Edge V) := g.edges.filter fun e => e.target = id

/-- `get_subgraph`, nested_graph.py 130-136 -/
def subgraph (g : Graph V) (id : V) : Graph V :=
  (children g id).foldl (fun s n => (outgoing g n.id).foldl addEdge (addNode s n)) new

/-- `get_source_nodes`, nested_graph.py 151-156 -/
def sourceNodes (g : Graph V) : List (Node V) := g.nodes.values.filter fun n => (ingoing g n.id).length = 0

/-- `get_sink_nodes`, nested_graph.py 158-163 -/
def sinkNodes (g : Graph V) : List (Node V) := g.nodes.values.filter fun n => (outgoing g n.id).length = 0

/-- `get_low_level_sink_nodes`, nested_graph.py 106-116, with `ends = sinkNodes`, and `get_low_level_source_nodes`,
118-128, with `ends = sourceNodes`; the fuel bounds the recursion -/
def lowNodes (g : Graph V) (ends : Graph V → List (Node V)) : Nat → V → Py (List (Node V))
  | 0, _ => .error .diverge
  | fuel + 1, id =>
    if ¬ hasChildren g id then do
      let n ← g.nodes.getItem id
      return [n]
    else
      (ends (subgraph g id)).foldlM (fun acc s =>
        if ¬ hasChildren g s.id then .ok (acc ++ [s])
        else do
          let l ← lowNodes g ends fuel s.id
          return acc ++ l) []

/-- `_add_low_level_edges`, nested_graph.py 215-225; `fmt` is the formatting of the new id -/
def addLowLevelEdges (fmt : V → V → V) (fuel : Nat) (g : Graph V) (a b : V) (toAdd : List (Edge V)) :
    Py (List (Edge V)) := do
  let us ← lowNodes g sinkNodes fuel a
  let vs ← lowNodes g sourceNodes fuel b
  return us.foldl (fun acc u => vs.foldl (fun acc v => edgeAdd acc ⟨fmt u.id v.id, u.id, v.id, []⟩) acc) toAdd

/-- the loop of `replace_high_level_edges_by_low_level_edges`, nested_graph.py 171-177 -/
def collect (fmt : V → V → V) (fuel : Nat) (g : Graph V) (st : List (Edge V) × List (Edge V)) (e : Edge V) :
    Py (List (Edge V) × List (Edge V)) := do
  let a ← g.nodes.getItem e.source
  let b ← g.nodes.getItem e.target
  if hasChildren g a.id ∨ hasChildren g b.id then do
    let toAdd ← addLowLevelEdges fmt fuel g a.id b.id st.2
    return (edgeAdd st.1 e, toAdd)
  else return st

/-- `replace_high_level_edges_by_low_level_edges`, nested_graph.py 165-183 -/
def replaceHighLevel (fmt : V → V → V) (fuel : Nat) (g : Graph V) : Py (Graph V) := do
  let st ← g.edges.foldlM (collect fmt fuel g) ([], [])
  let g' ← st.1.foldlM removeEdge g
  return st.2.foldl addEdge g'

/-- the dictionary of a node, nested_graph.py 195-202 -/
def nodeToDict (n : Node V) : Dict String V :=
  let d : Dict String V := Dict.put [] "id" n.id
  let d := d.put "label" n.label
  let d := match n.parent with
    | some p => d.put "parent" p
    | none => d
  n.attrs.foldl (fun d p => d.put p.1 p.2) d

/-- the dictionary of an edge, nested_graph.py 205-211 -/
def edgeToDict (e : Edge V) : Dict String V :=
  let d : Dict String V := Dict.put [] "id" e.id
  let d := d.put "source" e.source
  let d := d.put "target" e.target
  e.attrs.foldl (fun d p => d.put p.1 p.2) d

/-- `to_dict`, nested_graph.py 185-213: the lists under `nodes` and `edges` -/
def toDict (g : Graph V) : List (Dict String V) × List (Dict String V) :=
  (g.nodes.values.map nodeToDict, g.edges.map edgeToDict)

/-- a node from its dictionary, nested_graph.py 248-252 -/
def nodeFromDict (d : Dict String V) : Py (Node V) := do
  let id ← d.getItem "id"
  let label ← d.getItem "label"
  return ⟨id, label, d.get? "parent", d.filter fun p => p.1 ∉ ["id", "label", "parent"]⟩

/-- an edge from its dictionary, nested_graph.py 254-258 -/
def edgeFromDict (d : Dict String V) : Py (Edge V) := do
  let id ← d.getItem "id"
  let source ← d.getItem "source"
  let target ← d.getItem "target"
  return ⟨id, source, target, d.filter fun p => p.1 ∉ ["id", "source", "target"]⟩

/-- `from_dict`, nested_graph.py 238-259 -/
def fromDict (d : List (Dict String V) × List (Dict String V)) : Py (Graph V) := do
  let g ← d.1.foldlM (fun g nd => do
    let n ← nodeFromDict nd
    return addNode g n) new
  d.2.foldlM (fun g ed => do
    let e ← edgeFromDict ed
    return addEdge g e) g

/-- `__eq__`, nested_graph.py 227-230: equal node dictionaries and equal edge sets -/
def graphEq (g g' : Graph V) : Bool :=
  (g.nodes.length == g'.nodes.length &&
    g.nodes.all fun p => match g'.nodes.get? p.1 with
      | some n => nodeEq p.2 n
      | none => false) &&
  (g.edges.length == g'.edges.length && g.edges.all fun e => g'.edges.any (edgeEq e))

end
end Prolothar.Nested
