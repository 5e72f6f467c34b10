import Verif.Model.EventLog
/-
Model of prolothar_common/clustering/traces: decoding of label vectors and the one-hot encoding of traces. The
clustering itself is done by scikit-learn and not modelled: the label vector is an arbitrary input.
-/
namespace Prolothar.Clustering
open Prolothar.EventLog

variable {α : Type}

/-- `max(values)`; used for vector_based.py 32-60 -/
def pyMaxInt : List Int → Py Int
  | [] => .error .value
  | x :: l => .ok (l.foldl (fun m v => if m < v then v else m) x)

/-- the loop body, vector_based.py 54-58 -/
def decodeStep (s : List (List α) × List α) (e : α × Int) : Py (List (List α) × List α) :=
  if e.2 < 0 then .ok (s.1, s.2 ++ [e.1])
  else if e.2.toNat < s.1.length then .ok (s.1.modify e.2.toNat (· ++ [e.1]), s.2)
  else .error .index

/-- `decode_label_vector`, vector_based.py 32-60 -/
def decodeLabels (instances : List α) (labels : List Int) : Py (List (List α) × List α) := do
  let m ← pyMaxInt labels
  (instances.zip labels).foldlM decodeStep (List.replicate (m + 1).toNat [], [])

variable {I A V : Type}

/-- `encoder_dict`, activity_one_hot_encoding.py 18; `acts` are the activities in the iteration order of the set -/
def encoderDict [DecidableEq A] (acts : List A) : Dict A Nat := acts.zipIdx.foldl (fun m e => m.put e.1 e.2) []

/-- `_encode_trace`, activity_one_hot_encoding.py 22-26 -/
def encodeTrace [DecidableEq A] (m : Dict A Nat) (trace : List A) : Py (List Nat) :=
  trace.foldlM (fun row a => do let i ← m.getItem a; pySet row i 1) (List.replicate m.length 0)

/-- `encode_log`, activity_one_hot_encoding.py 17-20 -/
def encodeLog [DecidableEq A] (acts : List A) (log : Log I A V) : Py (List (List Nat)) :=
  (log.map Trace.activities).mapM (encodeTrace (encoderDict acts))

end Prolothar.Clustering
