import Mathlib.Data.List.Basic
/-
Petri nets: firing rule and runs.
-/
namespace Prolothar.Spec.Petri

variable {P T : Type} [DecidableEq P]

/-- every input place carries a token -/
def Enabled (pre : List P) (m : P → Int) : Prop := ∀ p ∈ pre, 1 ≤ m p

/-- the marking after firing: one token is taken from each input place, one is put on each output place -/
def after (pre post : List P) (m : P → Int) : P → Int :=
  fun p => m p - (if p ∈ pre then 1 else 0) + (if p ∈ post then 1 else 0)

/-- `Run pre post ok m ts m'`: the transitions `ts`, all of which satisfy `ok`, can be fired one after the other
from the marking `m` and lead to `m'` -/
inductive Run (pre post : T → List P) (ok : T → Prop) (m : P → Int) : List T → (P → Int) → Prop
  | nil : Run pre post ok m [] m
  | snoc {ts : List T} {m' : P → Int} {t : T} : Run pre post ok m ts m' → ok t → Enabled (pre t) m' →
      Run pre post ok m (ts ++ [t]) (after (pre t) (post t) m')

/-- `σ` is the visible part of a sequence that can be fired from `m` -/
def Trace (pre post : T → List P) (ok : T → Prop) (visible : T → Bool) (m : P → Int) (σ : List T) : Prop :=
  ∃ ts m', Run pre post ok m ts m' ∧ ts.filter visible = σ

/-- no place ever carries more than one token -/
def Safe (pre post : T → List P) (ok : T → Prop) (m : P → Int) : Prop :=
  ∀ ts m', Run pre post ok m ts m' → ∀ p, m' p ≤ 1

/-- places without incoming arcs, but with an outgoing arc -/
def IsSource (transitions : List T) (pre post : T → List P) (p : P) : Prop :=
  (∃ t ∈ transitions, p ∈ pre t) ∧ ¬ ∃ t ∈ transitions, p ∈ post t

/-- places without outgoing arcs, but with an incoming arc -/
def IsSink (transitions : List T) (pre post : T → List P) (p : P) : Prop :=
  (∃ t ∈ transitions, p ∈ post t) ∧ ¬ ∃ t ∈ transitions, p ∈ pre t

end Prolothar.Spec.Petri
