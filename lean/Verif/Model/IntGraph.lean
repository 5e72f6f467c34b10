import Verif.Model.Py
/- Model of models/diintgraph/graph.cpp, graph.h and directed_int_graph.pyx: a graph is the array of
the adjacency lists of its vertices 0, ..., V-1.
Simplifications: vertex ids are natural numbers and an access outside the array (undefined behaviour
in C++) is an IndexError here; the recursion depth is bounded by fuel (never exhausted, see
Lemmas/IntGraph), the C++ call stack by nothing; memory management is in Model/IntGraphMem.lean. -/
namespace Prolothar.IntGraph

/-- the adjacency lists (`V` is the length), graph.h 28-29 -/
abbrev Graph := List (List Nat)

/-- constructor `Graph(int V)`, graph.cpp 23-27 -/
def new (V : Nat) : Graph := List.replicate V []

/-- copy constructor, graph.cpp 29-37, and `DirectedIntGraph.copy`, directed_int_graph.pyx 26-30 -/
def copy (g : Graph) : Graph :=
  (List.range g.length).foldl (fun c v => c.set v (g.getD v [])) (List.replicate g.length [])

/-- the adjacency list of `v`; `getAdjacencyList`, graph.cpp 44-47, and `get_ancestors`,
directed_int_graph.pyx 61-62 -/
def adjacency (g : Graph) (v : Nat) : Py (List Nat) :=
  match g[v]? with
  | some l => .ok l
  | none => .error .index

/-- `containsEdge`, graph.cpp 49-60 -/
def containsEdge (g : Graph) (v w : Nat) : Py Bool := do
  let l ← adjacency g v
  return l.any fun i => i == w

/-- `addEdge`, graph.cpp 91-94 -/
def addEdge (g : Graph) (v w : Nat) : Py Graph := do
  let l ← adjacency g v
  return g.set v (l ++ [w])

/-- `removeEdge`, graph.cpp 96-99: `std::list::remove` removes all equal elements -/
def removeEdge (g : Graph) (v w : Nat) : Py Graph := do
  let l ← adjacency g v
  return g.set v (l.filter fun i => i != w)

/-- inner loop of `getTranspose`, graph.cpp 83-86 -/
def transposeRow (v : Nat) : List Nat → Graph → Py Graph
  | [], g => .ok g
  | i :: is, g => do
    let g ← addEdge g i v
    transposeRow v is g

/-- `getTranspose`, graph.cpp 76-89 -/
def transpose (g : Graph) : Py Graph :=
  g.zipIdx.foldlM (fun gr p => transposeRow p.2 p.1 gr) (new g.length)

/-- state of a depth first search: visited vertices and output list; used for graph.cpp 107-110 -/
abbrev Search := List Nat × List Nat

/-- the loops over a list of vertices that visit the unvisited ones, graph.cpp 107-110, 70-73,
126-128 -/
def visitAll (visit : Nat → Search → Py Search) : List Nat → Search → Py Search
  | [], st => .ok st
  | i :: is, st => do
    let st ← if i ∈ st.1 then .ok st else visit i st
    visitAll visit is st

/-- `fillOrder`, graph.cpp 101-114; the head of the output list is the top of the stack. -/
def fillOrder (g : Graph) : Nat → Nat → Search → Py Search
  | 0, _, _ => .error .diverge
  | fuel + 1, v, st => do
    let st := (v :: st.1, st.2)
    let l ← adjacency g v
    let st ← visitAll (fillOrder g fuel) l st
    return (st.1, v :: st.2)

/-- `DFSUtil`, graph.cpp 63-74 -/
def dfs (g : Graph) : Nat → Nat → Search → Py Search
  | 0, _, _ => .error .diverge
  | fuel + 1, v, st => do
    let st := (v :: st.1, st.2 ++ [v])
    let l ← adjacency g v
    visitAll (dfs g fuel) l st

/-- the second loop of `findStronglyConnectedComponents`, graph.cpp 140-153; the state is the
visited set and the list of components -/
def popLoop (gr : Graph) (fuel : Nat) : List Nat → List Nat → List (List Nat) → Py (List (List Nat))
  | [], _, comps => .ok comps
  | v :: stack, visited, comps =>
    if v ∈ visited then popLoop gr fuel stack visited comps
    else do
      let st ← dfs gr fuel v (visited, [])
      popLoop gr fuel stack st.1 (comps ++ [st.2])

/-- `findStronglyConnectedComponents`, graph.cpp 118-158, and the conversion to python lists,
directed_int_graph.pyx 41-59 -/
def scc (g : Graph) : Py (List (List Nat)) := do
  let fuel := g.length + 1
  let st ← visitAll (fillOrder g fuel) (List.range g.length) ([], [])
  let gr ← transpose g
  popLoop gr fuel st.2 [] []

end Prolothar.IntGraph
