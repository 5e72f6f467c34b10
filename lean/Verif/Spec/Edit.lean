import Verif.Model.Levenshtein
/-
Specification of edit distance: chains of single edits anywhere in the list, with costs; and
the meaning of an `EditOperation` of the library.
-/
namespace Prolothar.Spec
open Prolothar.Levenshtein
variable {α : Type}

/-- one edit at an arbitrary place of a list, with its cost -/
inductive Step (insC delC subC : Nat) : List α → List α → Nat → Prop
  | insert (a b : List α) (x : α) : Step insC delC subC (a ++ b) (a ++ x :: b) insC
  | delete (a b : List α) (x : α) : Step insC delC subC (a ++ x :: b) (a ++ b) delC
  | substitute (a b : List α) (x y : α) : Step insC delC subC (a ++ x :: b) (a ++ y :: b) subC

/-- a finite chain of edits with its total cost -/
inductive Script (insC delC subC : Nat) : List α → List α → Nat → Prop
  | nil (s : List α) : Script insC delC subC s s 0
  | snoc {s t u : List α} {c d : Nat} : Script insC delC subC s t c → Step insC delC subC t u d →
      Script insC delC subC s u (c + d)

/-- `d` is the minimal cost of a script from `s` to `t` -/
def IsDistance (insC delC subC : Nat) (s t : List α) (d : Nat) : Prop :=
  Script insC delC subC s t d ∧ ∀ c, Script insC delC subC s t c → d ≤ c

/-- ways to align two lists from left to right, with the cost that the library really assigns to them: an insertion before the first
symbol of the source is consumed and a deletion before the first symbol of the target is produced cost 1, whatever the given costs -/
inductive BorderAlign (insC delC subC : Int) : List α → List α → Int → Prop
  | nil : BorderAlign insC delC subC [] [] 0
  | keep {s t c} (x : α) : BorderAlign insC delC subC s t c → BorderAlign insC delC subC (s ++ [x]) (t ++ [x]) c
  | substitute {s t c} (x y : α) : x ≠ y → BorderAlign insC delC subC s t c →
      BorderAlign insC delC subC (s ++ [x]) (t ++ [y]) (c + subC)
  | insert {s t c} (y : α) : s ≠ [] → BorderAlign insC delC subC s t c → BorderAlign insC delC subC s (t ++ [y]) (c + insC)
  | delete {s t c} (x : α) : t ≠ [] → BorderAlign insC delC subC s t c → BorderAlign insC delC subC (s ++ [x]) t (c + delC)
  | insertFront {t c} (y : α) : BorderAlign insC delC subC [] t c → BorderAlign insC delC subC [] (t ++ [y]) (c + 1)
  | deleteFront {s c} (x : α) : BorderAlign insC delC subC s [] c → BorderAlign insC delC subC (s ++ [x]) [] (c + 1)

/-- executing one edit operation `(i, j, type)` on the current list, with `target` the second
list: insert `target[j]` at `i`, delete the element at `i`, or replace it by `target[j]`;
`none` if a position does not exist -/
def execOp (target : List α) (cur : Option (List α)) (op : EditOperation) : Option (List α) :=
  cur.bind (fun l => match op.type with
    | .insert => if op.i ≤ l.length then (target[op.j]?).map (fun v => l.take op.i ++ v :: l.drop op.i)
        else none
    | .delete => if op.i < l.length then some (l.take op.i ++ l.drop (op.i + 1)) else none
    | .substitute => if op.i < l.length then
        (target[op.j]?).map (fun v => l.take op.i ++ v :: l.drop (op.i + 1)) else none)

/-- execution of a list of operations from the rightmost to the leftmost position -/
def execAll (target : List α) (ops : List EditOperation) (source : List α) : Option (List α) :=
  ops.foldl (execOp target) (some source)

end Prolothar.Spec
