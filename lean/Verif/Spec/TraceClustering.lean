import Verif.Model.EventLog
import Mathlib.Logic.Relation
import Mathlib.Algebra.Order.Field.Rat
/-
Specification for clustering of traces (C140): what DBSCAN returns, and when two traces have the same activities.
-/
namespace Prolothar.Clustering
open Prolothar.EventLog

/-- squared euclidean distance of two rows -/
def sqDist (x y : List Nat) : Int := ((x.zip y).map fun e => ((e.1 : Int) - e.2) ^ 2).sum

/-- rows `i` and `j` of the matrix are at most `eps` apart -/
def Near (eps : Rat) (rows : List (List Nat)) (i j : Nat) : Prop :=
  ∃ x y, rows[i]? = some x ∧ rows[j]? = some y ∧ (sqDist x y : Rat) ≤ eps ^ 2

/-- row `i` has at least `minPts` rows (including itself) in distance `eps` -/
def Core (eps : Rat) (minPts : Nat) (rows : List (List Nat)) (i : Nat) : Prop :=
  ∃ js : List Nat, js.Nodup ∧ minPts ≤ js.length ∧ ∀ j ∈ js, Near eps rows i j

/-- The labels are a result of DBSCAN: one label per row; core rows have labels from 0; core rows have the same label if and only if they
are connected by a chain of near core rows; every labelled row is near a core row with its label; a row without a core row in
distance `eps` is noise; labels are used without gaps. -/
structure Dbscan (eps : Rat) (minPts : Nat) (rows : List (List Nat)) (labels : List Int) : Prop where
  length : labels.length = rows.length
  core : ∀ (i : Nat) (a : Int), labels[i]? = some a → Core eps minPts rows i → 0 ≤ a
  connected : ∀ (i j : Nat) (a b : Int), labels[i]? = some a → labels[j]? = some b → Core eps minPts rows i → Core eps minPts rows j →
    (a = b ↔ Relation.ReflTransGen (fun i j => Core eps minPts rows i ∧ Core eps minPts rows j ∧ Near eps rows i j) i j)
  labelled : ∀ (i : Nat) (a : Int), labels[i]? = some a → 0 ≤ a → ∃ j : Nat, Core eps minPts rows j ∧ Near eps rows i j ∧ labels[j]? = some a
  gapless : ∀ (a k : Int), a ∈ labels → 0 ≤ k → k ≤ a → k ∈ labels

/-- two traces have the same activities -/
def SameActivities {I A V : Type} (t u : Trace I A V) : Prop := ∀ a, a ∈ t.activities ↔ a ∈ u.activities

end Prolothar.Clustering
