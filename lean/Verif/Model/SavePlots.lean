import Verif.Model.ResultCollector
/-
Model of `save_plots` of prolothar_common/experiments/result_collector.py: which files are written and what is handed to seaborn and
matplotlib. The directory is a dictionary from file names to contents; a text file is the list of its lines, a pdf file is represented by
what is plotted. Statistics of collected values appear as formatted text (`'%.2f' % value`), so formatting and square roots are
parameters of the mode. TypeErrors of seaborn (caught for line plots) are not modelled.
-/
namespace Prolothar.ResultCollector

/-- a plot mode: line (`isLine`) or scatter; `len` is the number of collected values; used for result_collector.py 190-218 -/
structure Mode (C : Type) where
  isLine : Bool
  getXY : Dict Rat C → List Rat × List Rat
  len : C → Nat
  stddev : C → String
  stderr : C → String
  minimum : C → String
  maximum : C → String
  count : C → String
  /-- `'%.nf' % value` -/
  value : Rat → String
  /-- `'%r' % x_list` -/
  xs : List Rat → String

/-- a vertical bar: colour, shift in bar distances, position; used for result_collector.py 132-138 -/
structure Bar where
  color : String
  dodge : Int
  x : Rat
deriving DecidableEq

/-- what is plotted; used for result_collector.py 249-257 -/
structure Plot where
  data : List (String × List Rat) × List Rat × List String
  legend : Bool
  bars : List Bar
  /-- positions and labels of the x axis; `none`: chosen by matplotlib -/
  ticks : Option (List (Nat × String))
  /-- the y axis is fixed to 0 to 1 -/
  unit : Bool
deriving DecidableEq

/-- a file that is written, result_collector.py 190-218 -/
inductive File where
  | text (lines : List String)
  | pdf (p : Plot)
deriving DecidableEq

/-- the files of the output directory, result_collector.py 190-218 -/
abbrev Dir := Dict String File

variable {C : Type}

/-- `dodge_index` in `__get_x_of_bar`, result_collector.py 180-188 -/
def dodge (index nrOfMiners : Nat) : Int :=
  let d : Int := index - (nrOfMiners / 2 : Nat)
  if 0 ≤ d ∧ nrOfMiners % 2 = 0 then d + 1 else d

/-- `sorted(x_dict.items())`; the positions are different; used for result_collector.py 190-218 -/
def sortedItems (d : Dict Rat C) : List (Rat × C) := d.insertionSort fun a b => a.1 ≤ b.1

/-- `', '.join(...)`; used for result_collector.py 199-202 -/
def joinComma (l : List String) : String := ", ".intercalate l

/-- an optional line, e.g. result_collector.py 199-202 -/
def optLine (head miner : String) (l : List String) : List String := if l = [] then [] else [head ++ " for " ++ miner ++ ": " ++ joinComma l]

/-- `__save_values_to_text_file`, result_collector.py 190-218, with the lists collected in 127-147 -/
def block (m : Mode C) (xName miner : String) (d : Dict Rat C) : List String :=
  let several := (sortedItems d).filter fun e => decide (1 < m.len e.2)
  let xy := m.getXY d
  [xName ++ ": " ++ m.xs xy.1, "values for " ++ miner ++ ": " ++ joinComma (xy.2.map m.value)] ++
    (if m.isLine then
      optLine "stddevs" miner (several.map fun e => m.stddev e.2) ++ optLine "stderrs" miner (several.map fun e => m.stderr e.2) ++
      optLine "min" miner ((sortedItems d).map fun e => m.minimum e.2) ++ optLine "max" miner ((sortedItems d).map fun e => m.maximum e.2) ++
      optLine "nr of values" miner ((sortedItems d).map fun e => m.count e.2)
    else [])

/-- `open(..., 'a')` and writing lines, result_collector.py 194; a file of another kind does not occur under a name that ends with .txt -/
def appendText (dir : Dir) (name : String) (lines : List String) : Dir :=
  match dir.get? name with
  | some (.text old) => dir.put name (.text (old ++ lines))
  | _ => dir.put name (.text lines)

/-- the bars of one miner, result_collector.py 132-138 -/
def minerBars (m : Mode C) (show_ : Bool) (colors : List String) (nrOfMiners : Nat) (e : Nat × Dict Rat C) : List Bar :=
  if show_ then ((sortedItems e.2).filter fun x => decide (1 < m.len x.2)).map fun x => ⟨colors.getD e.1 "", dodge e.1 nrOfMiners, x.1⟩ else []

/-- `min_value >= 0 and max_value <= 1`, result_collector.py 104-108 with 123-124 and 148-149 -/
def unitAxis (l : List (List Rat)) : Bool := l.all fun ys => ys.all fun y => decide (0 ≤ y ∧ y ≤ 1)

/-- `sorted(x_labels.keys())` with the labels, result_collector.py 110-114 -/
def ticksOf (labels : Dict Nat String) : Option (List (Nat × String)) :=
  if labels = [] then none else some (labels.insertionSort fun a b => a.1 ≤ b.1)

/-- the collected values of the plotted miners, in the order of the columns, result_collector.py 125-126 -/
def plotted (miners : Dict String (Dict Rat C)) (data : List (String × List Rat) × List Rat × List String) : List (String × Dict Rat C) :=
  data.1.map fun c => (c.1, (miners.get? c.1).getD [])

/-- the data frame, index and colours of a result type, result_collector.py 363-390 -/
def dataOf (m : Mode C) (color : String → String) (miners : Dict String (Dict Rat C)) : List (String × List Rat) × List Rat × List String :=
  plotData color (miners.map fun e => (e.1, m.getXY e.2))

/-- the plot written for one combination of options, result_collector.py 249-257, 296-303 and 116-159 -/
def plotOf (m : Mode C) (color : String → String) (labels : Dict Nat String) (miners : Dict String (Dict Rat C)) (legend bars : Bool) : Plot :=
  let data := dataOf m color miners
  let ps := plotted miners data
  { data := data, legend := legend, ticks := ticksOf labels, unit := unitAxis (ps.map fun p => (m.getXY p.2).2),
    bars := (ps.zipIdx.map fun p => (p.2, p.1.2)).flatMap (minerBars m bars data.2.2 miners.length) }

/-- `__determine_plot_filepath`, result_collector.py 262-272 and 305-311 -/
def plotName (type : String) (legend stddev stderr : Bool) : String :=
  type ++ (if legend then "_with_legend" else "") ++ (if stddev then "_with_stddev" else "") ++ (if stderr then "_with_stderr" else "") ++ ".pdf"

/-- some miner has more than one value at a position, result_collector.py 241-243 -/
def anySeveral (m : Mode C) (miners : Dict String (Dict Rat C)) : Bool :=
  miners.any fun e => e.2.any fun x => decide (1 < m.len x.2)

/-- the text file is written if there are neither bars nor a legend, result_collector.py 150-154 -/
def writeTexts (m : Mode C) (color : String → String) (xName type : String) (miners : Dict String (Dict Rat C)) (dir : Dir) : Dir :=
  (plotted miners (dataOf m color miners)).foldl (fun dir p => appendText dir (type ++ ".txt") (block m xName p.1 p.2)) dir

/-- one round of the loop, result_collector.py 239-257; the pdf is written when the plot context is left -/
def saveOne (m : Mode C) (color : String → String) (xName : String) (labels : Dict Nat String) (type : String) (miners : Dict String (Dict Rat C))
    (legend : Bool) (dir : Dir) (o : Bool × Bool) : Dir :=
  if (o.1 || o.2) && !anySeveral m miners then dir
  else
    let dir := if o.1 || o.2 || legend then dir else writeTexts m color xName type miners dir
    dir.put (plotName type legend o.1 o.2) (.pdf (plotOf m color labels miners legend (o.1 || o.2)))

/-- `save_plots_for_result_type`, result_collector.py 234-257 and 289-303 -/
def saveType (m : Mode C) (color : String → String) (xName : String) (labels : Dict Nat String) (type : String) (miners : Dict String (Dict Rat C))
    (dir : Dir) (legend : Bool) : Dir :=
  (if m.isLine then [(true, false), (false, true), (false, false)] else [(false, false)]).foldl (saveOne m color xName labels type miners legend) dir

/-- `save_plots`, result_collector.py 352-359 -/
def savePlots (m : Mode C) (color : String → String) (xName : String) (s : State C) (dir : Dir) : Dir :=
  s.results.foldl (fun dir e => [true, false].foldl (saveType m color xName s.labels e.1 e.2) dir) dir

end Prolothar.ResultCollector
