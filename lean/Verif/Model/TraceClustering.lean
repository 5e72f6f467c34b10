import Verif.Model.Clustering
/-
Model of prolothar_common/clustering/traces/vector_based_clustering.py, one_hot_activity_clustering.py and of the column selection in
encoder/activity_sgt.py. The clustering algorithm (scikit-learn) and the sequence graph transform are parameters.
-/
namespace Prolothar.Clustering
open Prolothar.EventLog
variable {I A V R : Type}

/-- `VectorBasedClustering.cluster`, vector_based_clustering.py 17-20 -/
def vectorCluster (encode : Log I A V → Py (List R)) (algorithm : List R → Py (List Int)) (log : Log I A V) :
    Py (List (List (Trace I A V)) × List (Trace I A V)) := do
  let matrix ← encode log
  let labels ← algorithm matrix
  decodeLabels log labels

/-- `dbscan` and `optics`, one_hot_activity_clustering.py 11-22; `acts` is the iteration order of the activity set -/
def oneHotCluster [DecidableEq A] (acts : List A) (algorithm : List (List Nat) → Py (List Int)) (log : Log I A V) :
    Py (List (List (Trace I A V)) × List (Trace I A V)) := vectorCluster (encodeLog acts) algorithm log

/-- the columns with a value that is not 0, activity_sgt.py 26 -/
def nonZeroColumns [DecidableEq R] [Zero R] (width : Nat) (rows : List (List R)) : List Nat :=
  (List.range width).filter fun j => rows.any fun r => decide (r.getD j 0 ≠ 0)

/-- `encode_log`, activity_sgt.py 18-27; `sgt` returns the column count and one row of values for every id and sequence -/
def sgtEncode [DecidableEq R] [Zero R] (dropZero : Bool) (sgt : List (Nat × List A) → Py (Nat × List (List R))) (log : Log I A V) : Py (List (List R)) := do
  let (width, rows) ← sgt ((log.map Trace.activities).zipIdx.map fun e => (e.2, e.1))
  if dropZero then return rows.map fun r => (nonZeroColumns width rows).map fun j => r.getD j 0
  else return rows

end Prolothar.Clustering
