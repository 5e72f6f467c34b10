import Verif.Model.PrefixTree
/-
What the prefix tree properties mean. Only the public accessors of the nodes are used.
-/
namespace Prolothar.Spec.PrefixTree
open Prolothar.PrefixTree

/-- `n` is the node addressed by the word `w`, starting at `t` -/
inductive At {A : Type} : Tree A → List A → Tree A → Prop
  | root (t) : At t [] t
  | child {t a c w n} (hc : (a, c) ∈ t.children) (h : At c w n) : At t (a :: w) n

/-- number of sequences that start with `w` -/
def prefixCount {A : Type} [DecidableEq A] (seqs : List (List A)) (w : List A) : Nat :=
  (seqs.filter fun s => decide (w <+: s)).length

end Prolothar.Spec.PrefixTree
