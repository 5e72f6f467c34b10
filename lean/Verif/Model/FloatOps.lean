import Verif.Model.Float
import Verif.Model.SetSimilarity
import Verif.Model.Transformer
import Verif.Model.EventLog
/-
The arithmetic of `MinMaxScaling`, `train_test_split`, the set similarities, the widths of edges in plots and
`QuantileBasedDiscretization` with rounded numbers. `r` is the rounding of the machine; `Prolothar.Float.rnd 53` for python
floats, the identity for exact numbers.
-/
namespace Prolothar.FloatOps
open Prolothar.Data (pyMin pyMax)
open Prolothar.EventLog (Log)

/-- min_max_scaling.py 53-55 and directly_follows_graph.pyx 247-250: every operation rounds its result. `s` is the rounding of the
differences of values: `r` if the values are floats, the identity if they are integers. The quotient of two integers
is the rounded exact quotient in python. -/
def scaleValue (s r : ℚ → ℚ) (lo hi mn mx v : ℚ) : Py ℚ :=
  if s (mx - mn) = 0 then .error .zeroDivision
  else .ok (r (r (r (s (v - mn) / s (mx - mn)) * r (hi - lo)) + lo))

/-- the new values of an attribute, min_max_scaling.py 49-56 -/
def scaleColumn (s r : ℚ → ℚ) (lo hi : ℚ) (values : List ℚ) : Py (List ℚ) := do
  let mn ← pyMin values
  let mx ← pyMax values
  values.mapM (scaleValue s r lo hi mn mx)

/-- `__compute_edge_weight`, directly_follows_graph.pyx 241-254, for different extreme counts `lo` and `hi` and `counts_as_edge_weight`: the
counts are integers -/
def edgeWidth (r : ℚ → ℚ) (minWeight maxWeight : ℚ) (lo hi count : Int) : Py ℚ :=
  scaleValue id r minWeight maxWeight lo hi count

/-- `split_index`, eventlog.py 364: the product of an integer and a float converts the integer to a float; `int` truncates, the
product is not negative -/
def splitIndex (r : ℚ → ℚ) (n : Nat) (p : ℚ) : Nat := ⌊r (r (n : ℚ) * r (1 - p))⌋.toNat

/-- `train_test_split`, eventlog.py 329-368 -/
def trainTestSplit {I A V : Type} (r : ℚ → ℚ) (shuffle : Log I A V → Log I A V) (log : Log I A V) (p : ℚ) :
    Py (Log I A V × Log I A V) :=
  if 0 ≤ p ∧ p ≤ 1 then
    let traces := shuffle log
    let k := splitIndex r traces.length p
    .ok (traces.take k, traces.drop k)
  else .error .value

/-- python `/` on integers: the exact quotient is rounded once; used for set_similarity.py 20-25 -/
def pyDiv (r : ℚ → ℚ) (a b : Int) : Py ℚ := if b = 0 then .error .zeroDivision else .ok (r ((a : ℚ) / (b : ℚ)))

variable {α : Type} [DecidableEq α]

/-- `sorensen_dice_coefficient`, set_similarity.py 20-25. -/
def dice (r : ℚ → ℚ) (a b : Finset α) : Py ℚ :=
  if a.card = 0 ∧ b.card = 0 then .ok 1
  else pyDiv r (2 * (a ∩ b).card) (a.card + b.card)

/-- `jaccard_index`, set_similarity.py 27-35. -/
def jaccard (r : ℚ → ℚ) (a b : Finset α) : Py ℚ :=
  if a.card = 0 ∧ b.card = 0 then .ok 1
  else pyDiv r (a ∩ b).card ((a.card : Int) + b.card - (a ∩ b).card)

/-- `overlap_coefficient`, set_similarity.py 37-45. -/
def overlap (r : ℚ → ℚ) (a b : Finset α) : Py ℚ :=
  if a.card = 0 ∧ b.card = 0 then .ok 1
  else pyDiv r (a ∩ b).card (min (a.card : Int) b.card)

/-- one cut point of `statistics.quantiles(values, n=n, method='inclusive')` (standard library):
`(data[j] * (n - delta) + data[j + 1] * delta) / n` for floats `data[j]`, `data[j + 1]`; used for quantile_based_discretization.py 41-49 -/
def cutPoint (r : ℚ → ℚ) (n delta : Nat) (x y : ℚ) : ℚ := r (r (r (x * ((n : ℚ) - delta)) + r (y * delta)) / n)

/-- `statistics.quantiles(values, n=n, method='inclusive')` (standard library); used for quantile_based_discretization.py 41-49 -/
def quantiles (r : ℚ → ℚ) (values : List ℚ) (n : Nat) : Py (List ℚ) :=
  if n < 1 then .error .value
  else if values.length < 2 then .error .value
  else do
    let data := values.insertionSort fun a b => decide (a ≤ b) = true
    let m := values.length - 1
    (List.range (n - 1)).mapM fun i => do
      let j := (i + 1) * m / n
      let delta := (i + 1) * m % n
      let x ← pyGet data j
      let y ← pyGet data (j + 1)
      return cutPoint r n delta x y

end Prolothar.FloatOps
