import Verif.Model.Dict
import Mathlib.Data.Rat.Defs
import Mathlib.Data.Nat.Sqrt
import Mathlib.Order.Basic
import Mathlib.Algebra.Order.Ring.Rat
/-
Model of /repo/prolothar_common/experiments/plots: what is handed to matplotlib. Axes are opaque objects; numbers are exact.
`PlotContext` is modelled in Model/PlotContext.lean; `plot_density` and the appearance of plots are not modelled.
-/
namespace Prolothar.Plots

/-! ### histogram.py -/

section
variable {α : Type} [LinearOrder α]

/-- `counter[v] += 1`, histogram.py 50-51 -/
def countStep (c : Dict α Nat) (v : α) : Dict α Nat := c.put v ((c.get? v).getD 0 + 1)

/-- histogram.py 49-51 -/
def counter (values : List α) : Dict α Nat := values.foldl countStep []

/-- python's `<=` on pairs; used for histogram.py 26-61 -/
def pairLe (a b : α × Nat) : Bool := decide (a.1 < b.1) || (decide (a.1 = b.1) && decide (a.2 ≤ b.2))

/-- `x, y = zip(*items)`: unpacking fails if there are no items; used for histogram.py 26-61 -/
def unzipPy (items : List (α × Nat)) : Py (List α × List Nat) :=
  match items with
  | [] => .error .value
  | _ => .ok (items.map Prod.fst, items.map Prod.snd)

/-- `plot_counts`, histogram.py 26-61: the positions and heights of the bars. `sorted` is a stable sort. -/
def plotCounts (values : List α) (orderBy : String) : Py (List α × List Nat) :=
  if orderBy = "value" then unzipPy ((counter values).mergeSort pairLe)
  else if orderBy = "frequency_asc" then unzipPy ((counter values).mergeSort fun a b => decide (a.2 ≤ b.2))
  else if orderBy = "frequency_desc" then unzipPy ((counter values).mergeSort fun a b => decide (-(a.2 : Int) ≤ -(b.2 : Int)))
  else .error .value

end

/-- the number of bins that `plot_histogram` hands to matplotlib, histogram.py 88-91; None and 0 mean the default -/
def histogramBins (n : Nat) (bins : Option Int) : Int :=
  match bins with
  | none => (Nat.sqrt n : Int)
  | some b => if b = 0 then (Nat.sqrt n : Int) else b

/-! ### plot_context.py -/

/-- what `plt.subplots` returns besides the figure: dimensions of size 1 are dropped; used for plot_context.py 206-216 -/
inductive Arr (A : Type) where
  | scalar (a : A)
  | vec (l : List A)
  | mat (rows : List (List A))

/-- `plt.subplots(nrows, ncols)` with `squeeze=True`; `ax i j` is the subplot in row `i` and column `j`; used for plot_context.py 206-216 -/
def subplots {A : Type} (ax : Nat → Nat → A) (nrows ncols : Nat) : Py (Arr A) :=
  if nrows = 0 ∨ ncols = 0 then .error .value
  else if nrows = 1 ∧ ncols = 1 then .ok (.scalar (ax 0 0))
  else if nrows = 1 then .ok (.vec ((List.range ncols).map fun j => ax 0 j))
  else if ncols = 1 then .ok (.vec ((List.range nrows).map fun i => ax i 0))
  else .ok (.mat ((List.range nrows).map fun i => (List.range ncols).map fun j => ax i j))

/-- `np.array([[x]])` for an object; used for plot_context.py 206-216 -/
def wrap2 {A : Type} : Arr A → List (List A)
  | .scalar a => [[a]]
  | .vec l => [l]
  | .mat rows => rows

/-- `np.array([x])` for a one-dimensional array; used for plot_context.py 206-216 -/
def wrap1 {A : Type} : Arr A → List (List A)
  | .scalar a => [[a]]
  | .vec l => [l]
  | .mat rows => rows

/-- `.transpose()` of a matrix with one row; used for plot_context.py 206-216 -/
def transposeRow {A : Type} (m : List (List A)) : List (List A) :=
  match m with
  | [l] => l.map fun a => [a]
  | m => m

/-- `GridPlotContext._on_enter`, plot_context.py 206-216 -/
def gridAxes {A : Type} (ax : Nat → Nat → A) (nrows ncols : Nat) : Py (List (List A)) := do
  let a ← subplots ax nrows ncols
  if nrows = 1 ∧ ncols = 1 then return wrap2 a
  else if nrows = 1 then return wrap1 a
  else if ncols = 1 then return transposeRow (wrap1 a)
  else
    match a with
    | .mat rows => return rows
    | a => return wrap2 a

/-- `get_axes`, plot_context.py 224-228 -/
def getAxes {A : Type} (axes : List (List A)) (row col : Int) : Py A := do
  let r ← pyGet axes row
  pyGet r col

/-- `get_list_of_axes`, plot_context.py 230-231 -/
def listOfAxes {A : Type} (axes : List (List A)) : List A := axes.flatten

/-! ### heatmap.py -/

/-- an n-dimensional array, as far as `plot_heatmap` looks at it; used for heatmap.py 69-76 -/
structure NdArray where
  shape : List Nat

/-- `plot_heatmap`, heatmap.py 69-76 and 92-96: the tick positions with their labels, for columns and rows -/
def heatmapTicks (data : NdArray) (rowLabels colLabels : List String) : Py (List (Nat × String) × List (Nat × String)) :=
  match data.shape with
  | [n, m] =>
    if n ≠ rowLabels.length then .error .value
    else if m ≠ colLabels.length then .error .value
    else .ok ((List.range m).zip colLabels, (List.range n).zip rowLabels)
  | _ => .error .value

/-- the argument `data` of `annotate_heatmap`; used for heatmap.py 146-147 -/
inductive HeatData where
  | missing
  | array (rows : List (List Rat))
  | list

/-- `data.max()`: a ValueError for an empty array; used for heatmap.py 150-153 -/
def maxOf (rows : List (List Rat)) : Py Rat :=
  match rows.flatten with
  | [] => .error .value
  | x :: l => .ok (l.foldl max x)

/-- the array that is used, heatmap.py 146-147; a python list stays a list -/
def chosen (image : List (List Rat)) : HeatData → Option (List (List Rat))
  | .missing => some image
  | .array rows => some rows
  | .list => none

/-- heatmap.py 150-153; a list has no attribute `max` -/
def normThreshold (norm : Rat → Rat) (data : Option (List (List Rat))) (threshold : Option Rat) : Py Rat :=
  match threshold with
  | some t => .ok (norm t)
  | none =>
    match data with
    | some rows => do
      let m ← maxOf rows
      return norm m / 2
    | none => .error .attribute

/-- one text, heatmap.py 170-171: x, y, the value, and the index of its color -/
def textOf (norm : Rat → Rat) (t : Rat) (i j : Nat) (x : Rat) : Nat × Nat × Rat × Nat := (j, i, x, if t < norm x then 1 else 0)

/-- `annotate_heatmap`, heatmap.py 117-173; a list has no attribute `shape` -/
def annotate (norm : Rat → Rat) (image : List (List Rat)) (data : HeatData) (threshold : Option Rat) : Py (List (Nat × Nat × Rat × Nat)) := do
  let rows := chosen image data
  let t ← normThreshold norm rows threshold
  match rows with
  | none => .error .attribute
  | some rows => return (rows.zipIdx.map fun r => r.1.zipIdx.map fun c => textOf norm t r.2 c.2 c.1).flatten

end Prolothar.Plots
