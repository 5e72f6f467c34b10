import Verif.Model.Transformer
import Verif.Spec.QBins
/-
Model of /repo/prolothar_common/models/dataset/transformer/trainable_q_based_discretization.py. A `pandas.IntervalIndex` is its
list of intervals (pandas' qcut returns left-open ones); `fmt` is python's `str` on intervals and `qcut` is the function
`pd.qcut(values, nr_of_bins, duplicates='drop').categories`: both are parameters.
-/
namespace Prolothar.Data
open Prolothar.Spec.QBins

variable {τ : Type}

/-- `bins.contains(value).tolist()`, trainable_q_based_discretization.py 48-49 -/
def containsList (bins : List Ival) (q : Rat) : List Bool := bins.map fun b => decide (b.lo < q) && decide (q ≤ b.hi)

/-- `list.index(True)`: none for the ValueError; used for trainable_q_based_discretization.py 47-53 -/
def indexTrue : List Bool → Option Nat
  | [] => none
  | true :: _ => some 0
  | false :: l => (indexTrue l).map (· + 1)

/-- the label of one value, trainable_q_based_discretization.py 47-53 -/
def binLabel (fmt : Ival → String) (bins : List Ival) (v : Val) : Py Val := do
  let q ← v.toNum
  let labels := bins.map fmt
  match indexTrue (containsList bins q) with
  | some i => do
    let s ← pyGet labels i
    return .str s
  | none =>
    match labels.getLast? with
    | some s => return .str s
    | none => .error .index

/-- `__transform_attribute`, trainable_q_based_discretization.py 42-55 -/
def qbinsAttr (fmt : Ival → String) (dict : Dict String (List Ival)) (s : Heap τ × Dataset) (e : String × Attr) : Py (Heap τ × Dataset) := do
  let bins ← dict.getItem e.1
  let col ← s.2.column s.1 e.1
  let labels ← col.mapM (binLabel fmt bins)
  let s ← s.2.removeAttribute s.1 e.1
  s.2.addCategorical s.1 e.1 labels

/-- `inplace_transform`, trainable_q_based_discretization.py 37-40 -/
def qbinsTransform (fmt : Ival → String) (dict : Dict String (List Ival)) (h : Heap τ) (d : Dataset) : Py (Heap τ × Dataset) :=
  (d.attrs.filter fun e => !e.2.categorical).foldlM (qbinsAttr fmt dict) (h, d)

/-- one step of the loop of `train`, trainable_q_based_discretization.py 60-63 -/
def trainAttr (qcut : List Rat → Int → Py (List Ival)) (bins : Int) (h : Heap τ) (d : Dataset) (dict : Dict String (List Ival))
    (e : String × Attr) : Py (Dict String (List Ival)) := do
  let col ← d.column h e.1
  let nums ← col.mapM Val.toNum
  let b ← qcut nums bins
  return dict.put e.1 b

/-- `train`, trainable_q_based_discretization.py 57-64 -/
def trainQbins (qcut : List Rat → Int → Py (List Ival)) (bins : Int) (h : Heap τ) (d : Dataset) : Py (Dict String (List Ival)) :=
  (d.attrs.filter fun e => !e.2.categorical).foldlM (trainAttr qcut bins h d) []

end Prolothar.Data
