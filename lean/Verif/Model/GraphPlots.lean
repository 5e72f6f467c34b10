import Verif.Model.Petri
import Verif.Model.PrefixTree
import Verif.Model.Lts
import Verif.Model.DfgPlot
import Mathlib.Data.String.Basic
/-
Model of the `plot` methods of Petri nets, prefix trees and transition systems: the statements that are added to the graphviz
`Digraph`, whose source is returned (gviz_utils.py 23-39). Rendering is left to graphviz. Attributes that are the same for all
nodes of a kind (shapes, fill style of a directly-follows graph) are omitted.
-/
namespace Prolothar.GraphPlots

/-- a call of `graph.node(name, ...)` or `graph.edge(tail, head, ...)`; used for data_petri_net.py 398-400 -/
inductive Stmt (N L : Type) where
  | node (name : String) (attrs : N)
  | edge (tail head : String) (attrs : L)
deriving DecidableEq, Repr

/-- attributes of the nodes of a net, data_petri_net.py 399-405: `xlabel` and `label` of a place; `label`,
`style = 'filled'` and `fillcolor = 'black'` of a transition -/
inductive NetAttrs where
  | place (xlabel label : String)
  | transition (label : String) (filled black : Bool)
deriving DecidableEq, Repr

open Prolothar.Petri in
/-- the body of the loop data_petri_net.py 398-400 -/
def placeStmt (n : Net) (p : String) : Stmt NetAttrs Unit :=
  .node ("place_" ++ p) (.place (n.placeLabel p) (if n.tokens p = 0 then "" else toString (n.tokens p)))

open Prolothar.Petri in
/-- the body of the loop data_petri_net.py 401-409 -/
def transitionStmts (n : Net) (showLabels : Bool) (t : String) : List (Stmt NetAttrs Unit) :=
  .node ("transition_" ++ t) (.transition (n.transLabel t) (!n.visible t) (!n.visible t && !showLabels)) ::
    ((n.pre t).map (fun p => .edge ("place_" ++ p) ("transition_" ++ t) ()) ++
      (n.post t).map fun p => .edge ("transition_" ++ t) ("place_" ++ p) ())

open Prolothar.Petri in
/-- `DataPetriNet.plot`, data_petri_net.py 392-411 -/
def netPlot (n : Net) (showLabels : Bool) : List (Stmt NetAttrs Unit) :=
  n.places.map (placeStmt n) ++ n.transitions.flatMap (transitionStmts n showLabels)

open Prolothar.PrefixTree in
/-- the statements of one round of the loop of `PrefixTree.plot`, prefix_tree.py 118-123; the attributes are the symbol and the
number of sequences in the label of the node, and the label of the edge -/
def treeStmts {A : Type} (c : A × PrefixTree.Tree A) : List (Stmt (A × Nat) Nat) :=
  .node c.2.id (c.1, c.2.count) :: c.2.children.map fun d => .edge c.2.id d.2.id d.2.count

open Prolothar.PrefixTree in
/-- the loop of `PrefixTree.plot`, prefix_tree.py 117-124: `pop` takes the last node -/
def treeLoop {A : Type} : Nat → List (A × PrefixTree.Tree A) → Py (List (Stmt (A × Nat) Nat))
  | 0, _ => .error .diverge
  | fuel + 1, remaining =>
    match remaining.getLast? with
    | none => .ok []
    | some c => do
      let rest ← treeLoop fuel (remaining.dropLast ++ c.2.children)
      return treeStmts c ++ rest

open Prolothar.PrefixTree in
/-- `PrefixTree.plot`, prefix_tree.py 105-127 -/
def treePlot {A : Type} (fuel : Nat) (t : PrefixTree.Tree A) : Py (List (Stmt (A × Nat) Nat)) := treeLoop fuel t.children

/-- attributes of the nodes of a transition system, labeled_transition_system.py 144-158: the label and the number of border lines -/
structure StateAttrs where
  label : String
  peripheries : Nat
deriving DecidableEq, Repr

/-- `node_id`, labeled_transition_system.py 142 -/
def stateName (i : Nat) : String := "s" ++ toString i

open Prolothar.Lts in
/-- the body of the loop labeled_transition_system.py 139-158; `str` is the text of a state, used if `use_state_representation_for_labels` -/
def stateStmt {S E : Type} [DecidableEq S] (t : System S E) (str : S → String) (useStr : Bool) (s : S) (i : Nat) : Stmt StateAttrs String :=
  .node (stateName i) ⟨if useStr then str s else stateName i, if s ∈ t.ends then 2 else 1⟩

/-- `state_node_id_dict`, labeled_transition_system.py 138-143 -/
def stateNames {S : Type} [DecidableEq S] (order : List S) : Dict S String :=
  (order.zipIdx).foldl (fun d si => d.put si.1 (stateName si.2)) []

open Prolothar.Lts in
/-- the body of the loop labeled_transition_system.py 160-164 -/
def transitionStmt {S E : Type} [DecidableEq S] (names : Dict S String) (lab : E → String) (x : S × E × S) : Py (Stmt StateAttrs String) := do
  let a ← names.getItem x.1
  let b ← names.getItem x.2.2
  return .edge a b (lab x.2.1)

open Prolothar.Lts in
/-- `LabeledTransitionSystem.plot`, labeled_transition_system.py 126-167; `sort` is the call of `sorted`, which raises for states
that cannot be compared -/
def ltsPlot {S E : Type} [DecidableEq S] [DecidableEq E] (sort : List S → Py (List S)) (str : S → String) (lab : E → String) (useStr : Bool)
    (t : System S E) : Py (List (Stmt StateAttrs String)) := do
  let order ← sort t.states
  let edges ← (transitions t).mapM (transitionStmt (stateNames order) lab)
  return order.zipIdx.map (fun si => stateStmt t str useStr si.1 si.2) ++ edges

open Prolothar.Dfg in
/-- the statements of `plot` of a directly-follows graph without ranks, directly_follows_graph.pyx 204-207 and 226-239 -/
def dfgPlot (g : Graph String) (o : EdgeOpts) : List (Stmt Unit (Option Int)) :=
  (nodeLines g).map (fun a => .node a ()) ++ (plotEdges g o).map fun e => .edge e.start e.stop e.label

end Prolothar.GraphPlots
