import Verif.Model.DfgQueries
import Verif.Model.Statistics
import Mathlib.Data.Rat.Floor
/-
Model of `plot` of directly-follows graphs, /repo/prolothar_common/models/directly_follows_graph.pyx 112-254: the data that is
written into the graphviz source. Weights and averages are exact rationals. `random.choice` is an arbitrary pick. The parameters
`layout`, `filetype`, `filepath`, `view` and `concentrate_edges` only matter to graphviz.
-/
namespace Prolothar.Dfg
open Prolothar.Statistics

/-- python's `round` of a float: the closest integer, the even one if there are two; used for directly_follows_graph.pyx 166-183 -/
def pyRound (q : ℚ) : Int :=
  let f := ⌊q⌋
  if q - f < 1 / 2 then f
  else if 1 / 2 < q - f then f + 1
  else if f % 2 = 0 then f else f + 1

section
variable {A : Type} [LinearOrder A]

/-- one round of the loop directly_follows_graph.pyx 195-198: removes the edges into the end of an edge -/
def cutInto (g : Graph A) (e : Nat) : Py (Graph A) :=
  match g.heap[e]? with
  | none => .error .index
  | some o => do
    let n ← g.nodes.getItem o.stop
    removeEdges g (n.ing.filterMap (edgeKey g))

/-- the loop directly_follows_graph.pyx 195-198 -/
def cutAll (g : Graph A) : List Nat → Py (Graph A)
  | [] => .ok g
  | e :: es => do
    let g ← cutInto g e
    cutAll g es

/-- one round of the loop directly_follows_graph.pyx 193-199 -/
def takeSource (g : Graph A) (a : A) : Py (Graph A) := do
  let n ← g.nodes.getItem a
  let g ← cutAll g n.out
  removeNode g a

/-- the loop directly_follows_graph.pyx 193-199 -/
def takeSources (g : Graph A) : List A → Py (Graph A)
  | [] => .ok g
  | a :: as => do
    let g ← takeSource g a
    takeSources g as

/-- the loop directly_follows_graph.pyx 191-201; the result are the groups in the order of their numbers -/
def topoLoop : Nat → Graph A → Py (List (List A))
  | 0, _ => .error .diverge
  | fuel + 1, g =>
    if sources g = [] then .ok []
    else do
      let g' ← takeSources g (sources g)
      let r ← topoLoop fuel g'
      return sources g :: r

/-- `__compute_topological_order_node_groups`, directly_follows_graph.pyx 185-202 -/
def topoGroups (g : Graph A) : Py (List (List A)) :=
  let dfg := copy g
  topoLoop (dfg.nodes.length + 1) dfg

/-- the activities of `unvisited_choices`, directly_follows_graph.pyx 217-218 -/
def unvisited (g : Graph A) (n : NodeObj) (visited : List A) : List A :=
  ((outObjs g n).filter fun o => decide (o.stop ∉ visited)).map EdgeObj.stop

/-- the loop directly_follows_graph.pyx 216-224 -/
def walkLoop {G : Type} (g : Graph A) (choose : G → Nat → Nat × G) (stop : A) :
    Nat → G → A → List A → Nat → Dict A (Stats ℚ) → Py (Dict A (Stats ℚ) × G)
  | 0, _, _, _, _, _ => .error .diverge
  | fuel + 1, rng, current, visited, i, stats =>
    if current = stop then .ok (stats, rng)
    else do
      let n ← g.nodes.getItem current
      let choices := unvisited g n visited
      if choices.length = 0 then return (stats, rng)
      else
        let r := choose rng choices.length
        match choices[r.1 % choices.length]? with
        | none => .error .index
        | some next => do
          let s ← stats.getItem next
          walkLoop g choose stop fuel r.2 next (next :: visited) (i + 1) (stats.put next (push s (i : ℚ)))

/-- `__do_random_walk`, directly_follows_graph.pyx 209-224 -/
def doRandomWalk {G : Type} (g : Graph A) (choose : G → Nat → Nat × G) (start stop : A) (rng : G) (stats : Dict A (Stats ℚ)) :
    Py (Dict A (Stats ℚ) × G) := do
  let _ ← g.nodes.getItem start
  walkLoop g choose stop (g.nodes.length + 1) rng start [start] 1 stats

/-- the loop directly_follows_graph.pyx 172-175 -/
def randomWalks {G : Type} (g : Graph A) (choose : G → Nat → Nat × G) (start stop : A) :
    Nat → G → Dict A (Stats ℚ) → Py (Dict A (Stats ℚ))
  | 0, _, stats => .ok stats
  | n + 1, rng, stats => do
    let r ← doRandomWalk g choose start stop rng stats
    randomWalks g choose start stop n r.2 r.1

/-- the loop directly_follows_graph.pyx 182-183 -/
def fillGroups (rank : A → Int) (d : Dict Int (List A)) : List A → Py (Dict Int (List A))
  | [] => .ok d
  | a :: as => do
    let l ← d.getItem (rank a)
    fillGroups rank (d.put (rank a) (l ++ [a])) as

/-- `__compute_random_walk_based_node_groups`, directly_follows_graph.pyx 166-183 -/
def walkGroups {G : Type} (g : Graph A) (choose : G → Nat → Nat × G) (rng : G) (start stop : A) (n : Int) :
    Py (Dict Int (List A)) := do
  let stats ← randomWalks g choose start stop n.toNat rng (g.nodes.keys.map fun a => (a, new))
  let ranks : Dict A Int := stats.map fun p => (p.1, pyRound p.2.mean)
  let empty : Dict Int (List A) := (ranks.map Prod.snd).foldl (fun d i => d.put i []) []
  fillGroups (fun a => (ranks.get? a).getD 0) empty g.nodes.keys

/-- the node lines of a plot: as they are, or in groups of the same rank; used for directly_follows_graph.pyx 142-156 -/
inductive NodePart (A : Type) where
  | flat (l : List A)
  | ranks (l : List (List A))
deriving DecidableEq, Repr

/-- `__add_nodes_to_graph`, directly_follows_graph.pyx 204-207 -/
def sortActs (l : List A) : List A := l.insertionSort (· ≤ ·)

/-- `__add_node_groups_to_graph`, directly_follows_graph.pyx 158-165 -/
def groupLines (d : Dict Int (List A)) : List (List A) :=
  (d.insertionSort fun p q => p.1 ≤ q.1).map fun p => sortActs p.2

/-- `__plot_nodes`, directly_follows_graph.pyx 142-156 -/
def plotNodes {G : Type} (g : Graph A) (choose : G → Nat → Nat × G) (rng : G) (alignment : Option (A × A × Int)) (topo : Bool) :
    Py (NodePart A) :=
  match alignment with
  | some (s, t, n) =>
    if topo then .error .notImplemented
    else do
      let d ← walkGroups g choose rng s t n
      return .ranks (groupLines d)
  | none =>
    if topo then do
      let l ← topoGroups g
      return .ranks (l.map sortActs)
    else return .flat (nodeLines g)

/-- an edge line: the end points, the label and the width of the line; used for directly_follows_graph.pyx 226-239 -/
structure EdgeLine (A : Type) where
  start : A
  stop : A
  label : Option Int
  width : ℚ
deriving DecidableEq, Repr

/-- the parameters of `plot` that concern edges, directly_follows_graph.pyx 112-116 -/
structure EdgeOpts where
  showCounts : Bool
  countsAsWeight : Bool
  minWeight : ℚ
  maxWeight : ℚ

/-- `__compute_edge_weight`, directly_follows_graph.pyx 241-254; `lo` and `hi` are the extreme counts -/
def edgeWeight (o : EdgeOpts) (lo hi count : Int) : ℚ :=
  if o.countsAsWeight then
    if hi ≠ lo then ((count - lo : Int) : ℚ) / ((hi - lo : Int) : ℚ) * (o.maxWeight - o.minWeight) + o.minWeight
    else 1
  else 1

/-- `__plot_edges`, directly_follows_graph.pyx 226-239; without edges the extreme counts are not used -/
def plotEdges (g : Graph A) (o : EdgeOpts) : List (EdgeLine A) :=
  let counts := (g.edges.values.filterMap fun e => g.heap[e]?).map EdgeObj.count
  let lo := counts.min?.getD 0
  let hi := counts.max?.getD 0
  (edgeLines g).map fun e => ⟨e.start, e.stop, if o.showCounts then some e.count else none, edgeWeight o lo hi e.count⟩

/-- `plot`, directly_follows_graph.pyx 112-141 -/
def plot {G : Type} (g : Graph A) (choose : G → Nat → Nat × G) (rng : G) (alignment : Option (A × A × Int)) (topo : Bool)
    (o : EdgeOpts) : Py (NodePart A × List (EdgeLine A)) := do
  let nodes ← plotNodes g choose rng alignment topo
  return (nodes, plotEdges g o)

end
end Prolothar.Dfg
