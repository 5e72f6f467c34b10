import Verif.Model.Dfg
/-
Model of the size queries and of the equality of directly-follows graphs,
/repo/prolothar_common/models/directly_follows_graph.pyx. Two graphs are compared by their graphviz
source; the source is modelled by the data that is written into it (the node lines and the edge lines
in the order in which they are written). Nodes have the default colors; the text around the data is
constant, and the rendering of a line determines its data.
-/
namespace Prolothar.Dfg

/-- `get_nr_of_nodes`, directly_follows_graph.pyx 93-94 -/
def nrNodes {A : Type} (g : Graph A) : Nat := g.nodes.length

/-- `get_nr_of_edges`, directly_follows_graph.pyx 99-100 -/
def nrEdges {A : Type} (g : Graph A) : Nat := g.edges.length

section
variable {A : Type} [LinearOrder A]

/-- `__add_nodes_to_graph`, directly_follows_graph.pyx 204-207: the activities of the node lines -/
def nodeLines (g : Graph A) : List A := (g.nodes.map Prod.fst).insertionSort (· ≤ ·)

/-- the key of `sorted(self.edges.values(), key=...)`, directly_follows_graph.pyx 233-234; tuples are compared lexicographically -/
def edgeKeyLe (o p : EdgeObj A) : Prop := o.start < p.start ∨ (o.start = p.start ∧ o.stop ≤ p.stop)

instance : DecidableRel (edgeKeyLe (A := A)) := fun o p => by unfold edgeKeyLe; infer_instance

/-- `__plot_edges`, directly_follows_graph.pyx 225-239, with counts and without edge weights: the edge lines -/
def edgeLines (g : Graph A) : List (EdgeObj A) :=
  (g.edges.values.filterMap fun e => g.heap[e]?).insertionSort edgeKeyLe

/-- `plot(view=False)`, directly_follows_graph.pyx 112-141 -/
def source (g : Graph A) : List A × List (EdgeObj A) := (nodeLines g, edgeLines g)

/-- `__eq__`, directly_follows_graph.pyx 105-107, for two graphs -/
def graphEq (g h : Graph A) : Bool := decide (source g = source h)

end
end Prolothar.Dfg
