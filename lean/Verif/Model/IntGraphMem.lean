import Verif.Model.IntGraph
import Verif.Model.Dict
/-
Model of the memory management of models/diintgraph/graph.cpp, graph.h and directed_int_graph.pyx: what is allocated with `new` is a block of the
memory. Reading, writing or deleting a block that is not allocated, or one of another type, is undefined behaviour (`undefined`).
Simplifications: the nodes of a `std::list` are not blocks of their own, local variables on the stack are not modelled, and an allocation never fails.
The contents are those of Model/IntGraph.lean.
-/
namespace Prolothar.IntGraphMem
open Prolothar.IntGraph (Graph)

/-- what `new` allocates: a `Graph` with its number of nodes and the pointer `adj`, an array of lists, a list of nodes, a list of pointers;
graph.h 28-29, graph.cpp 23-37, 136, 149 -/
inductive Block
  | graph (V : Nat) (adj : Nat)
  | array (rows : Graph)
  | ints (l : List Nat)
  | ptrs (l : List Nat)
  deriving DecidableEq

/-- the allocated blocks and the next address; used for graph.cpp 23-158 -/
structure Mem where
  blocks : Dict Nat Block
  next : Nat

/-- `new`; used for graph.cpp 26, 32, 78, 136, 149 -/
def alloc (m : Mem) (b : Block) : Nat × Mem := (m.next, ⟨m.blocks.put m.next b, m.next + 1⟩)

/-- reading through a pointer; used for graph.cpp 46, 91-99 -/
def read (m : Mem) (a : Nat) : Py Block :=
  match m.blocks.get? a with
  | some b => .ok b
  | none => .error .undefined

/-- writing through a pointer; used for graph.cpp 91-99 -/
def write (m : Mem) (a : Nat) (b : Block) : Py Mem := do
  let _ ← read m a
  return { m with blocks := m.blocks.put a b }

/-- `delete`; used for graph.h 42, graph.cpp 155, directed_int_graph.pyx 28, 57, 58, 65 -/
def free (m : Mem) (a : Nat) : Py Mem := do
  let _ ← read m a
  return { m with blocks := m.blocks.del a }

/-- the field `adj` of a graph, graph.h 29 -/
def adjOf (m : Mem) (p : Nat) : Py Nat := do
  match ← read m p with
  | .graph _ q => .ok q
  | _ => .error .undefined

/-- the adjacency lists of a graph, graph.h 28-29 -/
def rowsAt (m : Mem) (p : Nat) : Py Graph := do
  let q ← adjOf m p
  match ← read m q with
  | .array rows => .ok rows
  | _ => .error .undefined

/-- a change of the adjacency lists of a graph, graph.cpp 91-99 -/
def setRows (m : Mem) (p : Nat) (rows : Graph) : Py Mem := do
  let q ← adjOf m p
  write m q (.array rows)

/-- `new Graph(..)`, both constructors, graph.cpp 23-37: the object, then its array; the lists are given -/
def newGraph (m : Mem) (rows : Graph) : Py (Nat × Mem) := do
  let (p, m) := alloc m (.graph rows.length 0)
  let (q, m) := alloc m (.array rows)
  let m ← write m p (.graph rows.length q)
  return (p, m)

/-- `delete graph` with the destructor, graph.h 42 -/
def deleteGraph (m : Mem) (p : Nat) : Py Mem := do
  let q ← adjOf m p
  let m ← free m q
  free m p

/-- `DirectedIntGraph.copy`, directed_int_graph.pyx 26-30: a graph without nodes is made and deleted -/
def copyObj (m : Mem) (p : Nat) : Py (Nat × Mem) := do
  let (p0, m) ← newGraph m (IntGraph.new 0)
  let m ← deleteGraph m p0
  let rows ← rowsAt m p
  newGraph m (IntGraph.copy rows)

/-- `getTranspose`, graph.cpp 76-89 -/
def transposeObj (m : Mem) (p : Nat) : Py (Nat × Mem) := do
  let rows ← rowsAt m p
  let (r, m) ← newGraph m (IntGraph.new rows.length)
  let gr ← IntGraph.transpose rows
  let m ← setRows m r gr
  return (r, m)

/-- `components->push_back(component)`, graph.cpp 151 -/
def pushPtr (m : Mem) (c a : Nat) : Py Mem := do
  match ← read m c with
  | .ptrs l => write m c (.ptrs (l ++ [a]))
  | _ => .error .undefined

/-- the loop over the stack, graph.cpp 140-153; `r` is the transposed graph, `c` the list of the components -/
def popLoop (r c fuel : Nat) : List Nat → List Nat → Mem → Py Mem
  | [], _, m => .ok m
  | v :: stack, visited, m =>
    if v ∈ visited then popLoop r c fuel stack visited m
    else do
      let (a, m) := alloc m (.ints [])
      let gr ← rowsAt m r
      let st ← IntGraph.dfs gr fuel v (visited, [])
      let m ← write m a (.ints st.2)
      let m ← pushPtr m c a
      popLoop r c fuel stack st.1 m

/-- `findStronglyConnectedComponents`, graph.cpp 118-158 -/
def findScc (m : Mem) (p : Nat) : Py (Nat × Mem) := do
  let rows ← rowsAt m p
  let fuel := rows.length + 1
  let st ← IntGraph.visitAll (IntGraph.fillOrder rows fuel) (List.range rows.length) ([], [])
  let (r, m) ← transposeObj m p
  let (c, m) := alloc m (.ptrs [])
  let m ← popLoop r c fuel st.2 [] m
  let m ← deleteGraph m r
  return (c, m)

/-- the loop of `find_strongly_connected_components`, directed_int_graph.pyx 48-57 -/
def convert : List Nat → List (List Nat) → Mem → Py (List (List Nat) × Mem)
  | [], acc, m => .ok (acc, m)
  | a :: as, acc, m => do
    match ← read m a with
    | .ints l =>
      let m ← free m a
      convert as (acc ++ [l]) m
    | _ => .error .undefined

/-- `find_strongly_connected_components`, directed_int_graph.pyx 41-59 -/
def sccObj (m : Mem) (p : Nat) : Py (List (List Nat) × Mem) := do
  let (c, m) ← findScc m p
  match ← read m c with
  | .ptrs ps =>
    let (comps, m) ← convert ps [] m
    let m ← free m c
    return (comps, m)
  | _ => .error .undefined

/-- the calls of a program, directed_int_graph.pyx 23-65; `drop` is the end of an object (`__dealloc__`) -/
inductive Op
  | new (V : Nat)
  | copy (h : Nat)
  | add (h v w : Nat)
  | remove (h v w : Nat)
  | contains (h v w : Nat)
  | ancestors (h v : Nat)
  | components (h : Nat)
  | drop (h : Nat)

/-- the result of a call; used for directed_int_graph.pyx 23-65 -/
inductive Res
  | none
  | obj (h : Nat)
  | bool (b : Bool)
  | nodes (l : List Nat)
  | comps (l : List (List Nat))
  deriving DecidableEq

/-- the memory and the python objects with their field `graph`; used for directed_int_graph.pyx 23-65 -/
structure Sys where
  mem : Mem
  objs : Dict Nat Nat
  nextObj : Nat

/-- one call, directed_int_graph.pyx 23-65 -/
def step (s : Sys) : Op → Py (Sys × Res)
  | .new V => do
    let (p, m) ← newGraph s.mem (IntGraph.new V)
    return (⟨m, s.objs.put s.nextObj p, s.nextObj + 1⟩, .obj s.nextObj)
  | .copy h => do
    let p ← s.objs.getItem h
    let (p', m) ← copyObj s.mem p
    return (⟨m, s.objs.put s.nextObj p', s.nextObj + 1⟩, .obj s.nextObj)
  | .add h v w => do
    let p ← s.objs.getItem h
    let rows ← rowsAt s.mem p
    let rows ← IntGraph.addEdge rows v w
    let m ← setRows s.mem p rows
    return ({ s with mem := m }, .none)
  | .remove h v w => do
    let p ← s.objs.getItem h
    let rows ← rowsAt s.mem p
    let rows ← IntGraph.removeEdge rows v w
    let m ← setRows s.mem p rows
    return ({ s with mem := m }, .none)
  | .contains h v w => do
    let p ← s.objs.getItem h
    let rows ← rowsAt s.mem p
    let b ← IntGraph.containsEdge rows v w
    return (s, .bool b)
  | .ancestors h v => do
    let p ← s.objs.getItem h
    let rows ← rowsAt s.mem p
    let l ← IntGraph.adjacency rows v
    return (s, .nodes l)
  | .components h => do
    let p ← s.objs.getItem h
    let (comps, m) ← sccObj s.mem p
    return ({ s with mem := m }, .comps comps)
  | .drop h => do
    let p ← s.objs.getItem h
    let m ← deleteGraph s.mem p
    return ({ s with mem := m, objs := s.objs.del h }, .none)

/-- a program: the results of its calls; used for directed_int_graph.pyx 23-65 -/
def run : List Op → Sys → Py (Sys × List Res)
  | [], s => .ok (s, [])
  | op :: ops, s => do
    let (s, r) ← step s op
    let (s, rs) ← run ops s
    return (s, r :: rs)

end Prolothar.IntGraphMem
