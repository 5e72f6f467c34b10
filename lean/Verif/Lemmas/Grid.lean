import Verif.Model.Grid
import Mathlib.Data.List.Range
/- Correctness of the fill loops relative to a specification of the cells. -/
namespace Prolothar.Grid

/-- cells that are final before cell `(i+1, j+1)` is written -/
def Final (i j x y : Nat) : Prop := x = 0 ∨ y = 0 ∨ x ≤ i ∨ (x = i + 1 ∧ y ≤ j)

theorem fillRow_spec (body : Nat → Nat → Matrix → Int) (n m : Nat) (S : Nat → Nat → Int) (i : Nat)
    (hi : i < n)
    (hbody : ∀ i j M, i < n → j < m →
      (∀ x y, x ≤ n → y ≤ m → Final i j x y → M x y = S x y) → body i j M = S (i + 1) (j + 1))
    (M : Matrix) (hM : ∀ x y, x ≤ n → y ≤ m → Final i 0 x y → M x y = S x y) :
    ∀ k, k ≤ m → ∀ x y, x ≤ n → y ≤ m → Final i k x y → fillRow body i k M x y = S x y
  | 0, _ => by simpa [fillRow] using hM
  | k + 1, hk => by
    have ih := fillRow_spec body n m S i hi hbody M hM k (by omega)
    have e : fillRow body i (k + 1) M =
        setCell (fillRow body i k M) (i + 1) (k + 1) (body i k (fillRow body i k M)) := by
      unfold fillRow; rw [List.range_succ, List.foldl_append]; rfl
    intro x y hx hy hf
    rw [e]
    unfold setCell
    split
    · rename_i h
      rw [h.1, h.2]
      exact hbody i k _ hi (by omega) ih
    · rename_i h
      apply ih x y hx hy
      unfold Final at *; omega

theorem fill_spec (body : Nat → Nat → Matrix → Int) (n m : Nat) (S : Nat → Nat → Int)
    (hbody : ∀ i j M, i < n → j < m →
      (∀ x y, x ≤ n → y ≤ m → Final i j x y → M x y = S x y) → body i j M = S (i + 1) (j + 1))
    (M : Matrix) (hM : ∀ x y, x ≤ n → y ≤ m → (x = 0 ∨ y = 0) → M x y = S x y) :
    ∀ x y, x ≤ n → y ≤ m → fill body n m M x y = S x y := by
  have key : ∀ k, k ≤ n → ∀ x y, x ≤ n → y ≤ m → Final k 0 x y → fill body k m M x y = S x y := by
    intro k
    induction k with
    | zero =>
      intro _ x y hx hy hf
      exact hM x y hx hy (by unfold Final at hf; omega)
    | succ k ih =>
      intro hk x y hx hy hf
      have e : fill body (k + 1) m M = fillRow body k m (fill body k m M) := by
        unfold fill; rw [List.range_succ, List.foldl_append]; rfl
      rw [e]
      apply fillRow_spec body n m S k (by omega) hbody _ (ih (by omega)) m le_rfl x y hx hy
      unfold Final at *; omega
  intro x y hx hy
  exact key n le_rfl x y hx hy (by unfold Final; omega)

end Prolothar.Grid
