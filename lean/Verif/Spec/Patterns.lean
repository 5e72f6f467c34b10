import Verif.Spec.Sublist
/-
Repetitions of words.
-/
namespace Prolothar.Spec

/-- the word `u` written `k` times -/
def power {α : Type} (u : List α) (k : Nat) : List α := (List.replicate k u).flatten

/-- not a power of a shorter word -/
def Primitive {α : Type} (w : List α) : Prop := ¬ ∃ u k, 2 ≤ k ∧ w = power u k

/-- `s` is a contiguous part of `l` -/
def Occurs {α : Type} (s l : List α) : Prop := ∃ i, OccursAt s l i

/-- no two different occurrences of `w` in any word overlap: `w` has no proper non-empty border -/
def Unbordered {α : Type} (w : List α) : Prop :=
  ∀ b, b ≠ [] → b.length < w.length → ¬ (b <+: w ∧ b <:+ w)

/-- `w` occurs at two places which are followed by different symbols (the end counts as a symbol) -/
def RightMaximal {α : Type} (w l : List α) : Prop :=
  ∃ i j, OccursAt w l i ∧ OccursAt w l j ∧ l[i + w.length]? ≠ l[j + w.length]?

/-- `w` occurs at least twice -/
def Repeated {α : Type} (w l : List α) : Prop := ∃ i j, i ≠ j ∧ OccursAt w l i ∧ OccursAt w l j

/-- `w` occurs at least twice in a log: at two different places in the same trace or in different traces -/
def RepeatedInLog {α : Type} (w : List α) (log : List (List α)) : Prop :=
  ∃ (t t' i i' : Nat) (tr tr' : List α), (t, i) ≠ (t', i') ∧ log[t]? = some tr ∧ log[t']? = some tr' ∧
    OccursAt w tr i ∧ OccursAt w tr' i'

end Prolothar.Spec
