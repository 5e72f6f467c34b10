import Mathlib.Data.Finset.Card
import Mathlib.Data.List.Lex
import Verif.Spec.Graph
/- Specification of directly-follows graphs; independent of the model. -/
namespace Prolothar.Spec.Dfg
variable {A : Type} [DecidableEq A]

/-- number of positions at which `a` is immediately followed by `b` -/
def adjacentCount (a b : A) (acts : List A) : Nat :=
  ((Finset.range acts.length).filter fun i => acts[i]? = some a ∧ acts[i + 1]? = some b).card

/-- some `a` stands before the first `b`, and `a` is not `b` -/
def FirstBefore (a b : A) (acts : List A) : Prop :=
  ∃ i j : Nat, i < j ∧ acts[i]? = some a ∧ acts[j]? = some b ∧ ∀ k < j, acts[k]? ≠ some b

/-- a directed graph with edge counts: its nodes and the count of every edge, `none` for no edge -/
structure Digraph (A : Type) where
  node : A → Prop
  count : A → A → Option Int

/-- there is an edge from `a` to `b` -/
def Digraph.Edge (G : Digraph A) (a b : A) : Prop := ∃ c, G.count a b = some c

/-- a node must go: it is not allowed, and whatever else leads into it must go -/
inductive MustGo (into : A → A → Prop) (allowed : A → Prop) : A → Prop
  | intro (a : A) (h : ¬ allowed a) (hp : ∀ b, into b a → b ≠ a → MustGo into allowed b) :
      MustGo into allowed a

/-- the walks from `a` to `b` along edges, none of which is forbidden -/
def AllowedWalk (G : Digraph A) (forbidden : List (A × A)) (a b : A) (path : List A) : Prop :=
  Graph.IsWalk (fun x y => G.Edge x y ∧ (x, y) ∉ forbidden) a b path

end Prolothar.Spec.Dfg
