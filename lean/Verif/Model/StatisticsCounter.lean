import Verif.Model.Statistics
import Verif.Model.CInt
/-
Model of /repo/prolothar_common/experiments/statistics.pyx with the counter of statistics.pxd, an `unsigned long`: arithmetic on
counters alone is done modulo 2^64, and becomes a number of the field `K` as soon as a double takes part. The doubles are exact.
-/
namespace Prolothar.StatisticsCounter
open Prolothar.Statistics (Stats ltNaN minNaN maxNaN)
open Prolothar.CInt (toInt)
variable {K : Type} [Field K] [LinearOrder K]

/-- conversion to `unsigned long`; used for statistics.pyx 42-68 -/
def ulong (x : Int) : Int := x % 18446744073709551616

/-- `push`, statistics.pyx 42-68 -/
def push (s : Stats K) (value : K) : Stats K :=
  let min := if s.count = 0 then some value else if ltNaN (some value) s.min then some value else s.min
  let max := if s.count = 0 then some value else if ltNaN s.max (some value) then some value else s.max
  let delta := value - s.mean
  let delta_n := delta / ((ulong (s.count + 1) : Int) : K)
  let delta_n2 := delta_n * delta_n
  let term := delta * delta_n * s.count
  let count := ulong (s.count + 1)
  let mean := s.mean + delta_n
  let phi := s.phi + (term * delta_n2 * ((ulong (count ^ 2 - 3 * count + 3) : Int) : K) + 6 * delta_n2 * s.rho - 4 * delta_n * s.tau)
  let tau := s.tau + (term * delta_n * ((ulong (count - 2) : Int) : K) - 3 * delta_n * s.rho)
  let rho := s.rho + term
  ⟨count.toNat, mean, rho, tau, phi, min, max⟩

/-- `merge`, statistics.pyx 70-138; the new state of `self`. The variable `sum_count` is a Python integer. -/
def merge (self other : Stats K) : Stats K :=
  if other.count > 0 then
    if self.count = 0 then other
    else
      let sum_count : K := ((ulong (self.count + other.count) : Int) : K)
      let delta := other.mean - self.mean
      let delta2 := delta ^ 2
      let delta3 := delta ^ 3
      let delta4 := delta ^ 4
      let sum_mean := (self.count * self.mean + other.count * other.mean) / sum_count
      let sum_rho := self.rho + other.rho + delta2 * self.count * other.count / sum_count
      let sum_tau := self.tau + other.tau
        + delta3 * self.count * other.count * ((ulong ((self.count : Int) - other.count) : Int) : K) / sum_count ^ 2
        + 3 * delta * (self.count * other.rho - other.count * self.rho) / sum_count
      let sum_phi := self.phi + other.phi
        + delta4 * self.count * other.count
          * ((ulong ((self.count : Int) ^ 2 - self.count * other.count + (other.count : Int) ^ 2) : Int) : K) / sum_count ^ 3
        + 6 * delta2 * (((ulong ((self.count : Int) * self.count) : Int) : K) * other.rho
          + ((ulong ((other.count : Int) * other.count) : Int) : K) * self.rho) / sum_count ^ 2
        + 4 * delta * (self.count * other.tau - other.count * self.tau) / sum_count
      ⟨(ulong (self.count + other.count)).toNat, sum_mean, sum_rho, sum_tau, sum_phi,
        minNaN self.min other.min, maxNaN self.max other.max⟩
  else self

/-- `variance`, statistics.pyx 153-158, for any Python integer: it is converted to a C `int` first. The comparison of an `int` with an
`unsigned long` converts the `int` to `unsigned long`, and so does the subtraction. -/
def variance (s : Stats K) (ddof : Int) : Py (Option K) := do
  let ddof ← toInt ddof
  if ulong ddof ≥ s.count then .ok none else .ok (some (s.rho / ((ulong (s.count - ulong ddof) : Int) : K)))

end Prolothar.StatisticsCounter
