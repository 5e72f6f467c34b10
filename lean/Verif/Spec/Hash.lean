import Mathlib.Data.List.Basic
/-
The contract between equality and hashing that sets, dictionaries and counters of Python rely on.
-/
namespace Prolothar.Spec.Hash

/-- equal objects have the same hash (or both cannot be hashed) -/
def Contract {α H : Type} (eq : α → α → Prop) (hash : α → H) : Prop := ∀ x y, eq x y → hash x = hash y

/-- the objects that a hash table finds for `x`: an element with the same hash that is equal -/
def Found {α H : Type} (eq : α → α → Prop) (hash : α → H) (l : List α) (x : α) : Prop :=
  ∃ y ∈ l, hash y = hash x ∧ eq y x

end Prolothar.Spec.Hash
