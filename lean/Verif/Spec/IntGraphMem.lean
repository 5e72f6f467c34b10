import Verif.Model.IntGraphMem
/-
Specification for C210: a program with graphs as values. Every object has its own graph; there is no memory.
-/
namespace Prolothar.Spec.IntGraphMem
open Prolothar.IntGraph (Graph)
open Prolothar.IntGraphMem (Op Res)

/-- the live objects with their graphs -/
structure Abs where
  objs : Dict Nat Graph
  nextObj : Nat

/-- what a call means -/
def step (a : Abs) : Op → Py (Abs × Res)
  | .new V => .ok (⟨a.objs.put a.nextObj (List.replicate V []), a.nextObj + 1⟩, .obj a.nextObj)
  | .copy h => do
    let g ← a.objs.getItem h
    return (⟨a.objs.put a.nextObj g, a.nextObj + 1⟩, .obj a.nextObj)
  | .add h v w => do
    let g ← a.objs.getItem h
    let g ← IntGraph.addEdge g v w
    return ({ a with objs := a.objs.put h g }, .none)
  | .remove h v w => do
    let g ← a.objs.getItem h
    let g ← IntGraph.removeEdge g v w
    return ({ a with objs := a.objs.put h g }, .none)
  | .contains h v w => do
    let g ← a.objs.getItem h
    let b ← IntGraph.containsEdge g v w
    return (a, .bool b)
  | .ancestors h v => do
    let g ← a.objs.getItem h
    let l ← IntGraph.adjacency g v
    return (a, .nodes l)
  | .components h => do
    let g ← a.objs.getItem h
    let comps ← IntGraph.scc g
    return (a, .comps comps)
  | .drop h => do
    let _ ← a.objs.getItem h
    return ({ a with objs := a.objs.del h }, .none)

/-- what a program means -/
def run : List Op → Abs → Py (Abs × List Res)
  | [], a => .ok (a, [])
  | op :: ops, a => do
    let (a, r) ← step a op
    let (a, rs) ← run ops a
    return (a, r :: rs)

/-- the call uses a live object and nodes that the graph has -/
def Allowed (a : Abs) : Op → Prop
  | .new _ => True
  | .copy h | .components h | .drop h => h ∈ a.objs.keys
  | .add h v w => ∃ g, a.objs.get? h = some g ∧ v < g.length ∧ w < g.length
  | .remove h v _ | .contains h v _ | .ancestors h v => ∃ g, a.objs.get? h = some g ∧ v < g.length

/-- every call of the program is allowed at its time -/
def AllAllowed : List Op → Abs → Prop
  | [], _ => True
  | op :: ops, a => Allowed a op ∧ ∀ a' r, step a op = .ok (a', r) → AllAllowed ops a'

end Prolothar.Spec.IntGraphMem
