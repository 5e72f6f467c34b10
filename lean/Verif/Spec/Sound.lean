import Verif.Spec.Workflow
/-
Soundness of workflow nets (van der Aalst): every execution can be completed, nothing is left behind, and nothing is superfluous.
-/
namespace Prolothar.Spec.Petri

variable {P T α : Type} [DecidableEq P]

/-- a marking that can be reached from one token on the source -/
def Sys.Reaches (S : Sys P T α) (m : P → Int) : Prop := ∃ ts, Run S.pre S.post S.ok (single S.src) ts m

/-- option to complete: whatever has been fired so far, the final marking can still be reached -/
def Sys.Completes (S : Sys P T α) : Prop := ∀ m, S.Reaches m → ∃ us, Run S.pre S.post S.ok m us (single S.snk)

/-- no dead transitions: every transition is enabled in some reachable marking -/
def Sys.NoDead (S : Sys P T α) : Prop := ∀ t, S.ok t → ∃ m, S.Reaches m ∧ Enabled (S.pre t) m

/-- soundness: option to complete, proper completion and no dead transitions -/
def Sys.Sound (S : Sys P T α) : Prop := S.Completes ∧ S.Proper ∧ S.NoDead

/-- no place ever carries more than one token -/
def Sys.OneSafe (S : Sys P T α) : Prop := ∀ m, S.Reaches m → ∀ p, m p ≤ 1

/-- what can be seen of an execution that is possibly not complete -/
def Sys.Partial (S : Sys P T α) (w : List α) : Prop :=
  ∃ ts m, Run S.pre S.post S.ok (single S.src) ts m ∧ ts.filterMap S.obs = w

end Prolothar.Spec.Petri
