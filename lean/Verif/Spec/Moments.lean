import Mathlib.Algebra.Order.Field.Basic
import Mathlib.Algebra.BigOperators.Group.List.Basic
/-
Textbook definitions of batch statistics of a list of values, independent of the code.
-/
namespace Prolothar.Moments
variable {K : Type} [Field K] [LinearOrder K]

/-- arithmetic mean -/
def mean (xs : List K) : K := xs.sum / xs.length

/-- `Σ (x - mean)^k` -/
def centralSum (k : Nat) (xs : List K) : K := (xs.map fun x => (x - mean xs) ^ k).sum

/-- `m` is the minimum of `xs` -/
def IsMinOf (m : K) (xs : List K) : Prop := m ∈ xs ∧ ∀ x ∈ xs, m ≤ x

/-- `m` is the maximum of `xs` -/
def IsMaxOf (m : K) (xs : List K) : Prop := m ∈ xs ∧ ∀ x ∈ xs, x ≤ m

end Prolothar.Moments
