import Verif.Spec.Noise
import Verif.Model.EventLog
import Mathlib.Data.Rat.Floor
import Mathlib.Data.Fintype.Pi
import Mathlib.Algebra.BigOperators.Group.Finset.Basic
/-
Specification of the random numbers behind the noise on event logs. `random.uniform(0, 1)` returns one of the numbers k/N, 0 ≤ k < N
(N = 2^53 in CPython), all with the same probability and independent of the numbers before. So m draws have N^m outcomes that are
equally likely, and the probability of a claim is the number of outcomes for which it holds, divided by N^m.
-/
namespace Prolothar.Spec.NoiseLaw
open Prolothar.EventLog

/-- m numbers, each one of 0/N, 1/N, ..., (N-1)/N: the sample space -/
abbrev Outcome (m N : Nat) := Fin m → Fin N

/-- the numbers that are drawn -/
def numbers {m N : Nat} (w : Outcome m N) : List ℚ := List.ofFn fun i => ((w i : Nat) : ℚ) / N

/-- a source of random numbers that returns given numbers one after the other -/
def source (l : List ℚ) : ℚ × List ℚ := (l.headD 0, l.tail)

/-- the number of events of a log -/
def total {I A V : Type} (log : Log I A V) : Nat := (log.map fun t => t.events.length).sum

/-- the number of events of a log without the first one of each trace: the pairs of neighbours -/
def pairs {I A V : Type} (log : Log I A V) : Nat := (log.map fun t => t.events.length - 1).sum

/-- the noise `f` on every trace of a log; a trace with n events takes the next `need n` of the marks `bs` -/
def spread {I A V : Type} (need : Nat → Nat) (f : List (Event A V) → List Bool → List (Event A V)) : Log I A V → List Bool → Log I A V
  | [], _ => []
  | t :: ts, bs => { t with events := f t.events (bs.take (need t.events.length)) } :: spread need f ts (bs.drop (need t.events.length))

/-- how many of the N numbers are smaller than p: ⌈p N⌉ for 0 ≤ p ≤ 1, see `below_eq` -/
def below (N : Nat) (p : ℚ) : Nat := (Finset.univ.filter fun k : Fin N => ((k : Nat) : ℚ) / N < p).card

/-- the number of outcomes with exactly the given positions below p -/
def weight {m : Nat} (N : Nat) (p : ℚ) (bits : Fin m → Bool) : Nat := ∏ i, if bits i then below N p else N - below N p

end Prolothar.Spec.NoiseLaw
