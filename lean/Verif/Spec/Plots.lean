import Mathlib.Data.List.Count
import Mathlib.Order.Defs.LinearOrder
/-
Specification of bar plots of counts.
-/
namespace Prolothar.Spec.Plots

/-- the order of the bars -/
inductive Order where
  | value
  | frequencyAsc
  | frequencyDesc

/-- `bars` are the bars of a plot of the frequencies of `values`: one bar per different value, whose height is the number of
occurrences, in the given order; among bars of equal height, the value that occurs first comes first -/
structure Bars {α : Type} [LinearOrder α] (values : List α) (o : Order) (bars : List (α × Nat)) : Prop where
  once : (bars.map Prod.fst).Nodup
  all : ∀ v, v ∈ bars.map Prod.fst ↔ v ∈ values
  height : ∀ b ∈ bars, b.2 = values.count b.1
  order : bars.Pairwise fun a b => match o with
    | .value => a.1 < b.1
    | .frequencyAsc => a.2 < b.2 ∨ (a.2 = b.2 ∧ values.idxOf a.1 < values.idxOf b.1)
    | .frequencyDesc => b.2 < a.2 ∨ (a.2 = b.2 ∧ values.idxOf a.1 < values.idxOf b.1)

end Prolothar.Spec.Plots
