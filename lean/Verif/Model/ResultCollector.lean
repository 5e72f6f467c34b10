import Verif.Model.Dict
import Mathlib.Data.List.Sort
/-
Model of prolothar_common/experiments/result_collector.py: collecting results and assembling the data of a plot.
Drawing, colours as such and the text files are not modelled. The x labels are a `TwoWayDict` in the code; as a
fresh position gets a fresh label, its inverse is modelled as the keys with this label (see C11). Values are
rationals.
-/
namespace Prolothar.ResultCollector

/-- an x value: a string label or a number; used for result_collector.py 342-347 -/
inductive X
  | str (s : String)
  | num (q : Rat)
  deriving DecidableEq

/-- result types → miners → positions → collected values; used for result_collector.py 326-332 -/
structure State (C : Type) where
  results : Dict String (Dict String (Dict Rat C))
  labels : Dict Nat String

/-- `ResultCollector.__init__`, result_collector.py 326-332 -/
def new {C : Type} : State C := ⟨[], []⟩

/-- `if k not in d: d[k] = default; d[k]`, as `d` afterwards and the value; used for result_collector.py 334-350 -/
def ensure {κ ν : Type} [DecidableEq κ] (d : Dict κ ν) (k : κ) (dflt : ν) : Dict κ ν × ν :=
  match d.get? k with
  | some v => (d, v)
  | none => (d.put k dflt, dflt)

/-- `inverse(label)`: the positions with this label; a KeyError if there is none; used for result_collector.py 342-347 -/
def position (labels : Dict Nat String) (s : String) : Option Nat :=
  (labels.find? fun e => e.2 = s).map Prod.fst

/-- the position of an x value and the labels afterwards, result_collector.py 342-347 -/
def resolve (labels : Dict Nat String) : X → Dict Nat String × Rat
  | .num q => (labels, q)
  | .str s =>
    match position labels s with
    | some i => (labels, i)
    | none => (labels.put labels.length s, (labels.put labels.length s).length - 1)

/-- `add_result`, result_collector.py 334-350; `create` and `push` are those of the plot mode -/
def addResult {C : Type} (create : C) (push : C → Rat → C) (miner type : String) (x : X) (value : Rat) (s : State C) : State C :=
  let minerDict := (ensure s.results type []).2
  let xDict := (ensure minerDict miner []).2
  let r := resolve s.labels x
  let c := (ensure xDict r.2 create).2
  { results := s.results.put type (minerDict.put miner (xDict.put r.2 (push c value))), labels := r.1 }

/-- `get_x_y` of scatter plots, result_collector.py 281-287 -/
def scatterXY (d : Dict Rat (List Rat)) : List Rat × List Rat :=
  d.foldl (fun acc e => (acc.1 ++ List.replicate e.2.length e.1, acc.2 ++ e.2)) ([], [])

/-- `get_x_y` of line plots, result_collector.py 228-232: pairs are compared lexicographically -/
def lineXY {C : Type} (mean : C → Rat) (d : Dict Rat C) : List Rat × List Rat :=
  let l := (d.map fun e => (e.1, mean e.2)).insertionSort fun a b => a.1 < b.1 ∨ a.1 = b.1 ∧ a.2 ≤ b.2
  (l.map Prod.fst, l.map Prod.snd)

/-- `__get_plot_data`, result_collector.py 363-390: the columns of the data frame, its index and the list of colours (the
markers are treated in the same way). `xy` is `get_x_y` of all miners in order. Building the data frame
raises a ValueError if the columns have different lengths. -/
def plotData (color : String → String) (xy : List (String × (List Rat × List Rat))) : List (String × List Rat) × List Rat × List String :=
  let columns := xy.map fun e => (e.1, e.2.2)
  let colors := xy.map fun e => color e.1
  let index := xy.foldl (fun best e => if best.length < e.2.1.length then e.2.1 else best) []
  if columns.all fun e => columns.all fun f => e.2.length == f.2.length then (columns, index, colors)
  else
    let m := (columns.map fun e => e.2.length).foldl max 0
    (columns.filter fun e => e.2.length = m, index,
      match xy.getLast? with
      | some e => colors.erase (color e.1)
      | none => colors)

end Prolothar.ResultCollector
