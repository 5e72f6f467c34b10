import Verif.Model.Clustering
import Verif.Model.Dfg
import Verif.Model.KMedoid
import Verif.Model.FuzzyKMedoid
import Mathlib.Analysis.SpecialFunctions.Exp
/-
Model of prolothar_common/clustering/activities/activity_k_medoid.py. The random generator is replaced by the shuffled list of
indices; the iteration order of the activity set is an input.
-/
namespace Prolothar.ActivityKMedoid
open Prolothar.EventLog (Log)
open Prolothar.Dfg (Graph createFromLog getCount)
open Prolothar.Clustering (pyMaxInt)

variable {I A V : Type} [DecidableEq A]

/-- activity_k_medoid.py 30-33, without the flag -/
structure State (A : Type) where
  activities : List A
  dfg : Graph A
  maxCount : Int

/-- `[edge.count for edge in self.__dfg.get_edges()]`, activity_k_medoid.py 32 -/
def edgeCounts (g : Graph A) : List Int := g.edges.values.filterMap fun e => (g.heap[e]?).map Dfg.EdgeObj.count

/-- `__init__`, activity_k_medoid.py 27-33; `acts` is the list of the activity set in its iteration order -/
def init (acts : List A) (log : Log I A V) : Py (State A) := do
  let m ← pyMaxInt (edgeCounts (createFromLog log))
  pure ⟨acts, createFromLog log, m⟩

/-- `__compute_activity_similiarity`, activity_k_medoid.py 78-82. The divisor is not zero, as the maximal count is positive. -/
def similarity (s : State A) (a b : A) : Rat :=
  if a = b then 1 else ((getCount s.dfg a b + getCount s.dfg b a + 1 : Int) : Rat) / ((1 + 2 * s.maxCount : Int) : Rat)

/-- `__compute_activity_dissimilarity`, activity_k_medoid.py 75-76 -/
def dissimilarity (s : State A) (a b : A) : Rat := 1 - similarity s a b

/-- `{activity: membership[i] for i, activity in enumerate(self.__activities)}`, activity_k_medoid.py 54-57 and 68-71 -/
def memberDict {β : Type} (acts : List A) (membership : List β) : Py (Dict A β) :=
  acts.zipIdx.foldlM (fun d e => do let x ← pyGet membership e.2; pure (d.put e.1 x)) []

/-- `cluster_activities` with `fuzzy=False`, activity_k_medoid.py 35-45 and 61-73 -/
def clusterHard (s : State A) (k : Option Int) (shuffled : List Nat) (fuel : Nat) : Py (Dict A Nat × List A) := do
  let r ← KMedoid.cluster List.sum (dissimilarity s) true s.activities k shuffled fuel
  let d ← memberDict s.activities r.1
  let medoids ← r.2.mapM fun i : Nat => pyGet s.activities i
  pure (d, medoids)

/-- `cluster_activities` with `fuzzy=True`, activity_k_medoid.py 35-45 and 47-59; the coefficient has its default, fuzzy_k_medoid.py 31 -/
noncomputable def clusterFuzzy (s : State A) (k : Option Int) (shuffled : List Nat) (fuel : Nat) : Py (Dict A (List ℝ) × List A) := do
  let r ← FuzzyKMedoid.cluster Real.exp (1 / 10) (fun a b => ((dissimilarity s a b : Rat) : ℝ)) s.activities k shuffled fuel
  let d ← memberDict s.activities r.1
  let medoids ← r.2.mapM fun i : Nat => pyGet s.activities i
  pure (d, medoids)

end Prolothar.ActivityKMedoid
