import Verif.Spec.Petri
/-
Workflow nets as language acceptors.
-/
namespace Prolothar.Spec.Petri

variable {P T α : Type} [DecidableEq P]

/-- one token on `p`, no other tokens -/
def single (p : P) : P → Int := fun q => if q = p then 1 else 0

/-- a net with a source place, a sink place and what can be seen if a transition is fired -/
structure Sys (P T α : Type) where
  pre : T → List P
  post : T → List P
  ok : T → Prop
  obs : T → Option α
  src : P
  snk : P

/-- `w` is accepted: it is what can be seen of a sequence of transitions that leads from one token on the source to one token on the
sink, with no other tokens left -/
def Sys.Lang (S : Sys P T α) (w : List α) : Prop :=
  ∃ ts, Run S.pre S.post S.ok (single S.src) ts (single S.snk) ∧ ts.filterMap S.obs = w

/-- proper completion: if a token reaches the sink, there are no other tokens left -/
def Sys.Proper (S : Sys P T α) : Prop :=
  ∀ ts m, Run S.pre S.post S.ok (single S.src) ts m → 1 ≤ m S.snk → m = single S.snk

/-- `Shuffle u v w`: `w` consists of `u` and `v`, interleaved in some way -/
inductive Shuffle : List α → List α → List α → Prop
  | nil : Shuffle [] [] []
  | left {a : α} {u v w : List α} : Shuffle u v w → Shuffle (a :: u) v (a :: w)
  | right {a : α} {u v w : List α} : Shuffle u v w → Shuffle u (a :: v) (a :: w)

end Prolothar.Spec.Petri
