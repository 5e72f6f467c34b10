import Verif.Model.EventLog
/- Specification of joining successive events: uses only the data types `Event` and `JoinArgs` (the
arguments of the call) of the model, none of its functions but the dict lookup. -/
namespace Prolothar.EventLog
variable {A V : Type}

/-- the key is none of the configured time attributes -/
def Plain (args : JoinArgs A V) (k : String) : Prop :=
  some k ≠ args.startdate ∧ some k ≠ args.enddate ∧ some k ≠ args.duration

/-- Specification of one joined event: `r` stands for the run `g` of original events. -/
structure Joined (args : JoinArgs A V) (g : List (Event A V)) (r : Event A V) : Prop where
  nonempty : g ≠ []
  /-- all joined events have the activity of the result -/
  activity : ∀ e ∈ g, e.activity = r.activity
  /-- events of blacklisted activities are never joined -/
  blacklisted : args.blacklist r.activity = true → g.length = 1
  /-- an event that is not joined is unchanged -/
  single : ∀ e, g = [e] → r = e
  transition : ∀ e, g.head? = some e → r.transition = e.transition
  /-- the end date is the one of the last event of the run -/
  enddate : ∀ k, args.enddate = some k → args.duration ≠ some k →
    ∀ e, g.getLast? = some e → r.attributes.get? k = e.attributes.get? k
  /-- all other attributes (in particular the start date) are those of the first event of the run -/
  other : ∀ k, args.enddate ≠ some k → args.duration ≠ some k →
    ∀ e, g.head? = some e → r.attributes.get? k = e.attributes.get? k
  /-- the duration is end date minus start date -/
  durationOfDates : ∀ d s e, args.duration = some d → args.startdate = some s →
    args.enddate = some e → d ≠ s → d ≠ e → 2 ≤ g.length →
    ∃ x y, r.attributes.get? e = some x ∧ r.attributes.get? s = some y ∧
      r.attributes.get? d = some (args.sub x y)
  /-- the duration is the sum of the durations -/
  durationSum : ∀ d, args.duration = some d → (args.startdate = none ∨ args.enddate = none) →
    args.enddate ≠ some d → 2 ≤ g.length →
    ∃ v vs, g.map (fun e => e.attributes.get? d) = some v :: List.map some vs ∧
      r.attributes.get? d = some (vs.foldl args.add v)
  /-- events that disagree on another attribute are never joined silently -/
  agree : args.raiseError = true → ∀ e ∈ g, ∀ k, Plain args k →
    e.attributes.get? k = r.attributes.get? k

/-- every configured time attribute that joining reads is present -/
def Present (args : JoinArgs A V) (e : Event A V) : Prop :=
  (∀ k, args.enddate = some k → (e.attributes.get? k).isSome) ∧
  (∀ k, args.duration = some k → (e.attributes.get? k).isSome) ∧
  (args.duration ≠ none → ∀ k, args.startdate = some k → (e.attributes.get? k).isSome)

/-- two events that may be joined -/
def Compatible (args : JoinArgs A V) (a b : Event A V) : Prop :=
  args.raiseError = true → ∀ k, Plain args k → a.attributes.get? k = b.attributes.get? k

end Prolothar.EventLog
