import Verif.Spec.Graph
import Mathlib.Data.Rat.Floor
/- Specification of node ranks in plots of directly-follows graphs; independent of the model. -/
namespace Prolothar.Spec.DfgPlot
variable {A : Type}

/-- there is a walk with `i` edges from a node in `S` to a node -/
inductive ReachIn (edge : A → A → Prop) (S : A → Prop) : Nat → A → Prop
  | zero {a} (h : S a) : ReachIn edge S 0 a
  | succ {i a b} (h : ReachIn edge S i a) (he : edge a b) : ReachIn edge S (i + 1) b

/-- the fewest number of edges on a walk from a node in `S` to a node is `i` -/
def Level (edge : A → A → Prop) (S : A → Prop) (i : Nat) (a : A) : Prop :=
  ReachIn edge S i a ∧ ∀ j < i, ¬ ReachIn edge S j a

/-- `w` is a walk that starts in `s`, visits no node twice, and ends where it meets `t` for the first time, or where every
follower has been visited already -/
def SimpleWalk (edge : A → A → Prop) (s t : A) (w : List A) : Prop :=
  ∃ last, Graph.IsWalk edge s last w ∧ w.Nodup ∧ (t ∈ w → last = t) ∧ (last ≠ t → ∀ b, edge last b → b ∈ w)

/-- the positions after the start at which the walks visit `a` -/
def positions [DecidableEq A] (ws : List (List A)) (a : A) : List Nat :=
  ws.filterMap fun w => let i := w.idxOf a; if 0 < i ∧ i < w.length then some i else none

/-- the average of the positions, 0 without positions -/
def average (l : List Nat) : ℚ := ((l.sum : Nat) : ℚ) / (l.length : ℚ)

/-- `n` is a closest integer to `q`, the even one if there are two -/
def Rounded (q : ℚ) (n : Int) : Prop := |q - n| ≤ 1 / 2 ∧ (|q - n| = 1 / 2 → Even n)

end Prolothar.Spec.DfgPlot
