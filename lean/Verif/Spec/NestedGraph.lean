import Verif.Model.NestedGraph
/-
Low-level ends of a node: the nodes one arrives at by descending to children until there are none.
-/
namespace Prolothar.Spec.Nested
open Prolothar.Nested

variable {V : Type}

/-- `c` is a node of the graph whose parent is `id` -/
def ChildOf (g : Graph V) (id : V) (c : Node V) : Prop := (c.id, c) ∈ g.nodes ∧ c.parent = some id

/-- a node without children -/
def Leaf (g : Graph V) (id : V) : Prop := ∀ c, ¬ ChildOf g id c

/-- descend from `id` through children chosen by `take id` until a leaf is reached -/
inductive Low (g : Graph V) (take : V → V → Prop) : V → V → Prop
  | leaf {id} (h : Leaf g id) : Low g take id id
  | down {id c m} (hc : ChildOf g id c) (ht : take id c.id) (h : Low g take c.id m) : Low g take id m

/-- no edge leaves `c` -/
def NoOut (g : Graph V) (_ c : V) : Prop := ∀ e ∈ g.edges, e.source ≠ c

/-- no edge enters `c` from a child of `id` -/
def NoInFromSiblings (g : Graph V) (id c : V) : Prop :=
  ∀ e ∈ g.edges, e.target = c → ∀ s, ChildOf g id s → e.source ≠ s.id

/-- the parent relation has no cycles: a child ranks below its parent -/
def Ranked (g : Graph V) (rank : V → Nat) : Prop := ∀ id c, ChildOf g id c → rank c.id < rank id

/-- an edge with a compound end -/
def High (g : Graph V) (e : Edge V) : Prop := ¬ Leaf g e.source ∨ ¬ Leaf g e.target

/-- `e` is one of the low-level edges for `h` -/
def LowFor (g : Graph V) (fmt : V → V → V) (h e : Edge V) : Prop :=
  Low g (NoOut g) h.source e.source ∧ Low g (NoInFromSiblings g) h.target e.target ∧
    e.id = fmt e.source e.target ∧ ∀ k, e.attrs.get? k = none

end Prolothar.Spec.Nested
