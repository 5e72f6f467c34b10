import Verif.Model.GraphPlots
/-
What graphviz draws for a list of statements: `node` statements declare nodes; the end points of `edge` statements have the form
`name`, `name:port` or `name:port:compass`, so that the part behind the first colon does not belong to the name of the node. (This is
how the python package graphviz quotes the arguments of `edge`; it does not split the argument of `node`.)
-/
namespace Prolothar.Spec.GraphPlots
open Prolothar.GraphPlots

/-- the node that an end point of an edge statement addresses -/
def addressed (s : String) : String := String.ofList (s.toList.takeWhile (· ≠ ':'))

variable {N L : Type}

/-- a node with this name and these attributes is declared -/
def Declares (src : List (Stmt N L)) (name : String) (attrs : N) : Prop := Stmt.node name attrs ∈ src

/-- the name that a statement declares -/
def nodeOf : Stmt N L → Option String
  | .node a _ => some a
  | .edge _ _ _ => none

/-- the names of the declared nodes, in the order of the statements -/
def declared (src : List (Stmt N L)) : List String := src.filterMap nodeOf

/-- an arrow is drawn from `a` to `b` -/
def Arrow (src : List (Stmt N L)) (a b : String) (attrs : L) : Prop :=
  ∃ x y, Stmt.edge x y attrs ∈ src ∧ addressed x = a ∧ addressed y = b

/-- the arrow that a statement draws -/
def arrowOf : Stmt N L → Option (String × String × L)
  | .node _ _ => none
  | .edge a b l => some (addressed a, addressed b, l)

/-- the arrows, in the order of the statements -/
def arrows (src : List (Stmt N L)) : List (String × String × L) := src.filterMap arrowOf

/-- the picture has only the declared nodes: no arrow makes graphviz invent one -/
def Closed (src : List (Stmt N L)) : Prop :=
  ∀ a b l, Arrow src a b l → a ∈ declared src ∧ b ∈ declared src

end Prolothar.Spec.GraphPlots
