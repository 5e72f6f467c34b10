import Verif.Model.NestedGraph
/-
Model of `replace_high_level_edges_by_low_level_edges` (prolothar_common/models/nested_graph.py) with what is left of the graph if the call raises.
The fuel is the recursion limit: `diverge` stands for RecursionError.
-/
namespace Prolothar.Nested
variable {V : Type} [DecidableEq V]

/-- the loop over `edges_to_remove`, nested_graph.py 179-180: the result and the graph afterwards -/
def removeLoop : List (Edge V) → Graph V → Py Unit × Graph V
  | [], g => (.ok (), g)
  | e :: es, g =>
    match removeEdge g e with
    | .error err => (.error err, g)
    | .ok g' => removeLoop es g'

/-- `replace_high_level_edges_by_low_level_edges`, nested_graph.py 165-183: the result and the graph afterwards. The first loop only reads the
graph. -/
def replaceX (fmt : V → V → V) (fuel : Nat) (g : Graph V) : Py Unit × Graph V :=
  match g.edges.foldlM (collect fmt fuel g) ([], []) with
  | .error e => (.error e, g)
  | .ok st =>
    match removeLoop st.1 g with
    | (.error e, g') => (.error e, g')
    | (.ok _, g') => (.ok (), st.2.foldl addEdge g')

end Prolothar.Nested
