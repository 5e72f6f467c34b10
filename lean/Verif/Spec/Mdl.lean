import Mathlib.Analysis.SpecialFunctions.Log.Base
/-
Specifications for the description-length functions, independent of the code.
-/
namespace Prolothar.Mdl

/-- `IterLogSum x s`: `s` is the sum `x + log2 x + log2 log2 x + ...` of the positive terms only
(`0` if `x ≤ 0`). -/
inductive IterLogSum : ℝ → ℝ → Prop
  | stop {x : ℝ} : x ≤ 0 → IterLogSum x 0
  | step {x s : ℝ} : 0 < x → IterLogSum (Real.logb 2 x) s → IterLogSum x (x + s)

/-- `v` is the length of the universal code for the positive integer `n`: `log2(2.8565064)` plus the
positive iterated logarithms of `n` -/
def UniversalLength (n : Int) (v : ℝ) : Prop :=
  ∃ s, IterLogSum (Real.logb 2 n) s ∧ v = Real.logb 2 2.8565064 + s

/-- probability that the prequential (sequential, additive smoothing `ε`, `m` symbols) predictor
assigns to the next symbol `x` after having seen `seen` -/
noncomputable def predictive {σ : Type} [DecidableEq σ] (ε : ℝ) (m : Nat) (seen : List σ) (x : σ) : ℝ :=
  ((seen.count x : ℝ) + ε) / (seen.length + ε * m)

/-- number of bits needed to encode `rest`, symbol by symbol, after `seen` -/
noncomputable def sequentialBits {σ : Type} [DecidableEq σ] (ε : ℝ) (m : Nat) :
    List σ → List σ → ℝ
  | _, [] => 0
  | seen, x :: rest => - Real.logb 2 (predictive ε m seen x) + sequentialBits ε m (seen ++ [x]) rest

/-- `l` is an ordered way to write `m` as a sum of `n` positive integers -/
def IsComposition (m n : Nat) (l : List Nat) : Prop := l.length = n ∧ (∀ x ∈ l, 0 < x) ∧ l.sum = m

end Prolothar.Mdl
