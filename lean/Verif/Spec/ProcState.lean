import Verif.Spec.ParallelState
import Verif.Model.ProcState
/-
What a user of the process engine can rely on if the functions have side effects (see also Spec/ParallelState.lean).
-/
namespace Prolothar.Spec.ProcState
open Prolothar.Parallel
variable {α O σ : Type}

/-- no function raises StopIteration, what is raised is an exception, and the map and the reduce function do not return an exception object -/
def Plain (B : Builtins O) : Call α O → Except O O → Prop
  | _, .error e => B.isExc e = true ∧ B.isStop e = false
  | .filter _, .ok _ => True
  | .map _, .ok v => B.isExc v = false
  | .reduce _ _, .ok v => B.isExc v = false

/-- what a call gives back or raises -/
def object : Except O O → O
  | .ok v => v
  | .error e => e

/-- the call has raised the object, or it is a call of the map or reduce function that has returned it -/
def Gave (o : O) : Call α O → Except O O → Prop
  | _, .error e => o = e
  | .filter _, .ok _ => False
  | .map _, .ok v => o = v
  | .reduce _ _, .ok v => o = v

/-- every worker has ended, by itself or by a signal -/
def AllEnded (progs : Nat) (s : XS σ α O) : Prop := ∀ k < progs, s.ws k = .finished ∨ s.ws k = .killed

end Prolothar.Spec.ProcState
