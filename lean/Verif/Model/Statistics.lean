import Verif.Model.Py
import Mathlib.Algebra.Order.Field.Basic
import Mathlib.Analysis.Real.Sqrt
/-
Model of /repo/prolothar_common/experiments/statistics.pyx (fields: statistics.pxd). C doubles are
elements of an arbitrary linearly ordered field `K` (exact arithmetic, no rounding); NaN is `none`.
The `unsigned long` counter is a natural number; `Model/StatisticsCounter.lean` has the counter modulo 2^64 and
`Model/StatisticsFloat.lean` has rounding.
-/
namespace Prolothar.Statistics
variable {K : Type} [Field K] [LinearOrder K]

/-- the fields `_count, _mean, _rho, _tau, _phi, _min, _max`, statistics.pxd 20-21 -/
structure Stats (K : Type) where
  count : Nat
  mean : K
  rho : K
  tau : K
  phi : K
  min : Option K
  max : Option K
deriving DecidableEq

/-- `__init__` without values, statistics.pyx 30-33. -/
def new : Stats K := ⟨0, 0, 0, 0, 0, none, none⟩

/-- C comparison `a < b`; false if one side is NaN; used for statistics.pyx 42-68 -/
def ltNaN (a b : Option K) : Prop := ∃ x y, a = some x ∧ b = some y ∧ x < y

instance (a b : Option K) : Decidable (ltNaN a b) :=
  match a, b with
  | some x, some y => if h : x < y then isTrue ⟨x, y, rfl, rfl, h⟩
      else isFalse (by rintro ⟨_, _, h1, h2, h3⟩; cases h1; cases h2; exact h h3)
  | none, _ => isFalse (by rintro ⟨_, _, h1, _⟩; cases h1)
  | some _, none => isFalse (by rintro ⟨_, _, _, h1, _⟩; cases h1)

/-- `push`, statistics.pyx 42-68. -/
def push (s : Stats K) (value : K) : Stats K :=
  let min := if s.count = 0 then some value else
    if ltNaN (some value) s.min then some value else s.min
  let max := if s.count = 0 then some value else
    if ltNaN s.max (some value) then some value else s.max
  let delta := value - s.mean
  let delta_n := delta / ((s.count : K) + 1)
  let delta_n2 := delta_n * delta_n
  let term := delta * delta_n * s.count
  let count := s.count + 1
  let mean := s.mean + delta_n
  let phi := s.phi + (term * delta_n2 * ((count : K) ^ 2 - 3 * count + 3)
    + 6 * delta_n2 * s.rho - 4 * delta_n * s.tau)
  let tau := s.tau + (term * delta_n * ((count : K) - 2) - 3 * delta_n * s.rho)
  let rho := s.rho + term
  ⟨count, mean, rho, tau, phi, min, max⟩

/-- `Statistics(iterable)`, statistics.pyx 34-35 -/
def pushAll (s : Stats K) (values : List K) : Stats K := values.foldl push s

/-- C/Cython `min(a, b)` on doubles: `b if b < a else a`; used for statistics.pyx 70-138 -/
def minNaN (a b : Option K) : Option K := if ltNaN b a then b else a
/-- `max(a, b)` on doubles; used for statistics.pyx 70-138 -/
def maxNaN (a b : Option K) : Option K := if ltNaN a b then b else a

/-- `merge`, statistics.pyx 70-138; the new state of `self`. -/
def merge (self other : Stats K) : Stats K :=
  if other.count > 0 then
    if self.count = 0 then other
    else
      let sum_count : K := ((self.count + other.count : Nat) : K)
      let delta := other.mean - self.mean
      let delta2 := delta ^ 2
      let delta3 := delta ^ 3
      let delta4 := delta ^ 4
      let sum_mean := (self.count * self.mean + other.count * other.mean) / sum_count
      let sum_rho := self.rho + other.rho + delta2 * self.count * other.count / sum_count
      let sum_tau := self.tau + other.tau
        + delta3 * self.count * other.count * ((self.count : K) - other.count) / sum_count ^ 2
        + 3 * delta * (self.count * other.rho - other.count * self.rho) / sum_count
      let sum_phi := self.phi + other.phi
        + delta4 * self.count * other.count
          * ((self.count : K) ^ 2 - self.count * other.count + (other.count : K) ^ 2) / sum_count ^ 3
        + 6 * delta2 * (self.count * self.count * other.rho + other.count * other.count * self.rho)
          / sum_count ^ 2
        + 4 * delta * (self.count * other.tau - other.count * self.tau) / sum_count
      ⟨self.count + other.count, sum_mean, sum_rho, sum_tau, sum_phi,
        minNaN self.min other.min, maxNaN self.max other.max⟩
  else self

/-- `__len__`, `minimum`, `maximum`, `mean`: statistics.pyx 37-39, 141-151; they return the field.

`variance`, statistics.pyx 153-158; NaN is `none`. `degrees_of_freedom >= self._count` compares a C
`int` with an `unsigned long`, so a negative argument is converted to a huge number; only
non-negative arguments are modelled. -/
def variance (s : Stats K) (ddof : Nat) : Option K :=
  if ddof ≥ s.count then none else some (s.rho / ((s.count : K) - ddof))

/-- `stddev`, statistics.pyx 160-165, over the reals. -/
noncomputable def stddev (s : Stats ℝ) (ddof : Nat) : Option ℝ :=
  if ddof ≥ s.count then none else some (Real.sqrt (s.rho / ((s.count : ℝ) - ddof)))

end Prolothar.Statistics
