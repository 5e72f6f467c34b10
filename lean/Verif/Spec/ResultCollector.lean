import Verif.Model.ResultCollector
/-
What has been collected after a history of calls of `add_result`.
-/
namespace Prolothar.Spec.ResultCollector
open Prolothar.ResultCollector

/-- one call of `add_result` -/
structure Added where
  miner : String
  type : String
  x : X
  value : Rat

/-- the labels in the order of their first use -/
def labelsOf : List Added → List String
  | [] => []
  | a :: h => match a.x with
    | .str s => s :: (labelsOf h).filter (· ≠ s)
    | .num _ => labelsOf h

/-- where an x value is shown: numbers at their value, the label used as n-th new label at n -/
def shownAt (h : List Added) : X → Rat
  | .num q => q
  | .str s => ((labelsOf h).idxOf s : Nat)

/-- the values added for a result type and miner at a position, in order -/
def valuesAt (h : List Added) (type miner : String) (p : Rat) : List Rat :=
  (h.filter fun a => a.type = type ∧ a.miner = miner ∧ shownAt h a.x = p).map (·.value)

end Prolothar.Spec.ResultCollector
