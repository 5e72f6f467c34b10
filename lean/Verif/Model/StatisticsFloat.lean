import Verif.Model.Statistics
import Verif.Model.Float
/-
Model of /repo/prolothar_common/experiments/statistics.pyx with C doubles: the result of every operation is rounded by `r`. Values are
finite; overflow to infinity is not modelled. The counter is a natural number (see `StatisticsCounter.lean`). The compiler is assumed not to
fuse operations.
-/
namespace Prolothar.StatisticsFloat
open Prolothar.Statistics (Stats ltNaN minNaN maxNaN)

/-- `push`, statistics.pyx 42-68 -/
def push (r : ℚ → ℚ) (s : Stats ℚ) (value : ℚ) : Stats ℚ :=
  let min := if s.count = 0 then some value else if ltNaN (some value) s.min then some value else s.min
  let max := if s.count = 0 then some value else if ltNaN s.max (some value) then some value else s.max
  let delta := r (value - s.mean)
  let delta_n := r (delta / r ((s.count + 1 : Nat) : ℚ))
  let delta_n2 := r (delta_n * delta_n)
  let term := r (r (delta * delta_n) * r (s.count : ℚ))
  let count := s.count + 1
  let mean := r (s.mean + delta_n)
  let phi := r (s.phi + r (r (r (r (term * delta_n2) * r (((count : Int) ^ 2 - 3 * count + 3 : Int) : ℚ))
    + r (r (6 * delta_n2) * s.rho)) - r (r (4 * delta_n) * s.tau)))
  let tau := r (s.tau + r (r (r (term * delta_n) * r (((count : Int) - 2 : Int) : ℚ)) - r (r (3 * delta_n) * s.rho)))
  let rho := r (s.rho + term)
  ⟨count, mean, rho, tau, phi, min, max⟩

/-- `Statistics(iterable)`, statistics.pyx 30-35 -/
def pushAll (r : ℚ → ℚ) (s : Stats ℚ) (values : List ℚ) : Stats ℚ := values.foldl (push r) s

/-- the fields `_count`, `_mean`, `_rho`, `_min` and `_max` after `merge`, statistics.pyx 70-138. The two remaining fields cannot be
observed; they are left as they are in the model. -/
def merge (r : ℚ → ℚ) (self other : Stats ℚ) : Stats ℚ :=
  if other.count > 0 then
    if self.count = 0 then other
    else
      let sum_count := r ((self.count + other.count : Nat) : ℚ)
      let delta := r (other.mean - self.mean)
      let delta2 := r (delta ^ 2)
      let sum_mean := r (r (r (r self.count * self.mean) + r (r other.count * other.mean)) / sum_count)
      let sum_rho := r (r (self.rho + other.rho) + r (r (r (delta2 * r self.count) * r other.count) / sum_count))
      { self with
        count := self.count + other.count, mean := sum_mean, rho := sum_rho
        min := minNaN self.min other.min, max := maxNaN self.max other.max }
  else self

/-- `variance`, statistics.pyx 153-158, for non-negative degrees of freedom -/
def variance (r : ℚ → ℚ) (s : Stats ℚ) (ddof : Nat) : Option ℚ :=
  if ddof ≥ s.count then none else some (r (s.rho / r ((s.count - ddof : Nat) : ℚ)))

end Prolothar.StatisticsFloat
