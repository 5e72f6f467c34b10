import Verif.Model.EventLog
/-
What a user can rely on if joining successive events raises an exception.
-/
namespace Prolothar.Spec.JoinExc
open Prolothar Prolothar.EventLog
variable {I A V : Type}

/-- `e'` is `e`, apart from the attributes for the end date and the duration -/
def OnlyTimes (args : JoinArgs A V) (e e' : Event A V) : Prop :=
  e' = { e with attributes := e'.attributes } ∧
  ∀ k, some k ≠ args.enddate → some k ≠ args.duration → e'.attributes.get? k = e.attributes.get? k

/-- the durations are not summed up: they are left alone or computed from start and end date -/
def NoSums (args : JoinArgs A V) : Prop := args.duration = none ∨ (args.startdate ≠ none ∧ args.enddate ≠ none)

/-- different attributes for start date, end date and duration -/
def DistinctNames (args : JoinArgs A V) : Prop :=
  (∀ k, args.startdate = some k → args.enddate ≠ some k ∧ args.duration ≠ some k) ∧ ∀ k, args.enddate = some k → args.duration ≠ some k

end Prolothar.Spec.JoinExc
