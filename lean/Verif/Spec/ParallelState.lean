import Verif.Model.ParallelState
/-
What a user of the thread engine can rely on if the functions have side effects.
-/
namespace Prolothar.Spec.ParallelState
open Prolothar.Parallel
variable {α O σ : Type}

/-- the calls with these answers are made one after the other: starting with the memory `m`, each call gives its answer, and the memory is `m'` at the end -/
def Serial (fn : Call α O → σ → Except O O × σ) : σ → List (Call α O × Except O O) → σ → Prop
  | m, [], m' => m' = m
  | m, (c, r) :: calls, m' => (fn c m).1 = r ∧ Serial fn (fn c m).2 calls m'

/-- the calls of worker `k`, in their order -/
def of (k : Nat) (calls : List (Nat × Call α O × Except O O)) : List (Call α O × Except O O) :=
  (calls.filter fun c => c.1 == k).map Prod.snd

/-- the map function is called for the elements `xs` in this order and returns the values `vs` -/
inductive Maps : List α → List (Call α O × Except O O) → List O → Prop
  | nil : Maps [] [] []
  | cons {x xs v h vs} : Maps xs h vs → Maps (x :: xs) ((.map x, .ok v) :: h) (v :: vs)

/-- for every element in this order, the map function is called and then the filter function for its value; the values with a true answer are kept -/
inductive Filters (truthy : O → Bool) : List α → List (Call α O × Except O O) → List O → Prop
  | nil : Filters truthy [] [] []
  | keep {x xs v b h vs} : truthy b = true → Filters truthy xs h vs →
      Filters truthy (x :: xs) ((.map x, .ok v) :: (.filter v, .ok b) :: h) (v :: vs)
  | drop {x xs v b h vs} : truthy b = false → Filters truthy xs h vs →
      Filters truthy (x :: xs) ((.map x, .ok v) :: (.filter v, .ok b) :: h) vs

/-- from the value `acc` on: for every element in this order, the map function is called and then the reduce function for the value so far and the new
value; `out` is the value at the end -/
inductive Folds : O → List α → List (Call α O × Except O O) → O → Prop
  | nil {acc} : Folds acc [] [] acc
  | cons {acc x xs v acc' h out} : Folds acc' xs h out → Folds acc (x :: xs) ((.map x, .ok v) :: (.reduce acc v, .ok acc') :: h) out

/-- the whole reduction of a non-empty block -/
inductive Reduces : List α → List (Call α O × Except O O) → O → Prop
  | mk {x xs v h out} : Folds v xs h out → Reduces (x :: xs) ((.map x, .ok v) :: h) out

/-- no call is being made and none will be made: every worker has ended -/
def Quiet (progs : Nat) (s : SS σ α O) : Prop := ∀ k < progs, s.ws k = .finished ∨ ∃ e, s.ws k = .failed e

end Prolothar.Spec.ParallelState
