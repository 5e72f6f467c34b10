import Verif.Model.Parallel
/- Specification vocabulary for `Verif/Props/ParallelCrash.lean` (C155). -/
namespace Prolothar.Parallel
variable {α O : Type}

/-- the results of a function on a list, in order, without the results that cannot be pickled -/
def arrivedResults (f : α → Except O O) (lost : O → Bool) (l : List α) : List O :=
  l.filterMap fun x => match f x with
    | .ok y => if lost y then none else some y
    | .error _ => none

/-- among the elements that do not leave the worker and the objects that can be pickled, raised objects are exceptions
other than StopIteration and results are no exceptions -/
def CrashClean (B : Builtins O) (f : α → Except O O) (exits : α → Bool) (lost : O → Bool) (l : List α) : Prop :=
  ∀ x ∈ l, exits x = false →
    (∀ e, f x = .error e → lost e = false → B.isExc e = true ∧ B.isStop e = false) ∧
    ∀ y, f x = .ok y → lost y = false → B.isExc y = false

end Prolothar.Parallel
