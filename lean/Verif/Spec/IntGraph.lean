/- Specification: histories of edge operations on a directed multigraph. -/
namespace Prolothar.Spec.IntGraph

inductive Op where
  | add (u v : Nat)
  | remove (u v : Nat)
deriving DecidableEq, Repr

/-- the vertex whose edge list the operation changes -/
def Op.src : Op → Nat
  | .add u _ => u
  | .remove u _ => u

/-- the target vertex -/
def Op.dst : Op → Nat
  | .add _ v => v
  | .remove _ v => v

/-- `(u, v)` was added after its last removal -/
def Present (ops : List Op) (u v : Nat) : Prop :=
  ∃ before after, ops = before ++ .add u v :: after ∧ .remove u v ∉ after

/-- how often `(u, v)` was added since its last removal -/
def multiplicity (ops : List Op) (u v : Nat) : Nat :=
  ((ops.reverse.takeWhile (· ≠ .remove u v)).filter (· = .add u v)).length

end Prolothar.Spec.IntGraph
