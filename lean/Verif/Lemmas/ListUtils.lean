import Verif.Model.ListUtils
import Verif.Lemmas.BoyerMoore
import Mathlib.Data.List.Basic
import Mathlib.Data.List.Range
import Mathlib.Tactic.Ring
import Mathlib.Tactic.Linarith
/- Helper lemmas for the list utility properties (not property statements). -/
set_option linter.unusedSectionVars false
set_option linter.unusedSimpArgs false
namespace Prolothar.ListUtils
open Prolothar.Spec
variable {α : Type}

/-! ### partitions -/

theorem slices_flatten (l : List α) (a t : Nat) : ∀ m,
    ((List.range m).map (fun k => pySlice l (a + t * k) (a + t * k + t))).flatten
      = pySlice l a (a + t * m)
  | 0 => by simp [pySlice]
  | m + 1 => by
    rw [List.range_succ, List.map_append, List.flatten_append, slices_flatten l a t m]
    simp only [List.map_cons, List.map_nil, List.flatten_cons, List.flatten_nil, List.append_nil,
      pySlice]
    have e : a + t * (m + 1) = a + t * m + t := by ring
    rw [e]
    apply List.ext_getElem?
    intro i
    by_cases h : i < ((l.take (a + t * m)).drop a).length
    · rw [List.getElem?_append_left h]
      simp at h
      simp only [List.getElem?_drop, List.getElem?_take]
      rw [if_pos (by omega), if_pos (by omega)]
    · rw [List.getElem?_append_right (by omega)]
      simp only [List.length_drop, List.length_take] at h ⊢
      simp only [List.getElem?_drop, List.getElem?_take]
      by_cases h2 : a + t * m ≤ l.length
      · have e1 : min (a + t * m) l.length = a + t * m := by omega
        rw [e1]
        have e2 : a + t * m + (i - (a + t * m - a)) = a + i := by omega
        rw [e2]
      · have e1 : l[a + i]? = none := List.getElem?_eq_none (by omega)
        rw [List.getElem?_eq_none (l := l) (by omega), e1]
        simp

/-! ### longest common sublists -/
variable [DecidableEq α]

/-- length of the longest common suffix of `a[:i+1]` and `b[:j+1]` -/
def csl (a b : List α) : Nat → Nat → Nat
  | 0, j => if a[0]? = b[j]? then 1 else 0
  | i + 1, 0 => if a[i + 1]? = b[0]? then 1 else 0
  | i + 1, j + 1 => if a[i + 1]? = b[j + 1]? then csl a b i j + 1 else 0

theorem csl_eq (a b : List α) (i j : Nat) :
    csl a b i j = if a[i]? = b[j]? then
      (if i = 0 ∨ j = 0 then 1 else csl a b (i - 1) (j - 1) + 1) else 0 := by
  cases i with
  | zero => simp [csl]
  | succ i => cases j with
    | zero => simp [csl]
    | succ j => simp [csl]

/-- `m ≤ csl i j` iff the `m` elements ending at `i` and `j` agree -/
theorem le_csl_iff (a b : List α) : ∀ (m i j : Nat),
    m ≤ csl a b i j ↔ m ≤ i + 1 ∧ m ≤ j + 1 ∧ ∀ t, t < m → a[i - t]? = b[j - t]?
  | 0, i, j => by simp
  | m + 1, i, j => by
    rw [csl_eq]
    split
    · rename_i hab
      split
      · rename_i h0
        constructor
        · intro h
          have : m = 0 := by omega
          subst this
          refine ⟨by omega, by omega, fun t ht => ?_⟩
          have : t = 0 := by omega
          subst this; simpa using hab
        · rintro ⟨h1, h2, _⟩; omega
      · rename_i h0
        have ih := le_csl_iff a b m (i - 1) (j - 1)
        rw [Nat.add_le_add_iff_right, ih]
        constructor
        · rintro ⟨h1, h2, h3⟩
          refine ⟨by omega, by omega, fun t ht => ?_⟩
          cases t with
          | zero => simpa using hab
          | succ t =>
            have := h3 t (by omega)
            have e1 : i - (t + 1) = i - 1 - t := by omega
            have e2 : j - (t + 1) = j - 1 - t := by omega
            rw [e1, e2]; exact this
        · rintro ⟨h1, h2, h3⟩
          refine ⟨by omega, by omega, fun t ht => ?_⟩
          have := h3 (t + 1) (by omega)
          have e1 : i - (t + 1) = i - 1 - t := by omega
          have e2 : j - (t + 1) = j - 1 - t := by omega
          rw [e1, e2] at this; exact this
    · rename_i hab
      constructor
      · intro h; omega
      · rintro ⟨_, _, h⟩
        exact absurd (by simpa using h 0 (by omega)) hab

/-- cells processed before cell `(i, j)` in the nested loops over `nb` columns -/
def Done (nb i j : Nat) (x y : Nat) : Prop := y < nb ∧ (x < i ∨ (x = i ∧ y < j))

/-- loop invariant -/
structure Inv (a b : List α) (i j : Nat) (st : LcsState) : Prop where
  mat : ∀ x y, Done b.length i j x y → st.matrix x y = csl a b x y
  zero : ∀ x y, ¬ Done b.length i j x y → st.matrix x y = 0
  nonneg : 0 ≤ st.length
  le : ∀ x y, Done b.length i j x y → (csl a b x y : Int) ≤ st.length
  mem : ∀ p : Int × Int, p ∈ st.indices ↔ ∃ x y : Nat, p = ((x : Int), (y : Int)) ∧
    Done b.length i j x y ∧ (csl a b x y : Int) = st.length ∧ 0 < st.length
  nodup : st.indices.Nodup
  wit : st.length = 0 ∨ ∃ x y, Done b.length i j x y ∧ (csl a b x y : Int) = st.length

theorem done_succ {nb i j x y : Nat} (hj : j < nb) :
    Done nb i (j + 1) x y ↔ Done nb i j x y ∨ (x = i ∧ y = j) := by
  unfold Done; omega

theorem inv_body {a b : List α} {i j : Nat} {st : LcsState}
    (hj : j < b.length) (h : Inv a b i j st) : Inv a b i (j + 1) (lcsBody a b i j st) := by
  have hnd : ¬ Done b.length i j i j := by unfold Done; omega
  unfold lcsBody
  by_cases hab : a[i]? = b[j]?
  · have hv : (if i = 0 ∨ j = 0 then (1 : Int) else st.matrix (i - 1) (j - 1) + 1)
        = csl a b i j := by
      rw [csl_eq, if_pos hab]
      split
      · rfl
      · rename_i h0
        rw [h.mat (i - 1) (j - 1) (by unfold Done; omega)]
        push_cast; rfl
    have hpos : (0 : Int) < csl a b i j := by
      rw [csl_eq, if_pos hab]; split <;> omega
    simp only [if_pos hab, hv, and_self, if_true]
    have hmat : ∀ x y, Done b.length i (j + 1) x y →
        (if x = i ∧ y = j then (csl a b i j : Int) else st.matrix x y) = csl a b x y := by
      intro x y hd
      split
      · rename_i h1; rw [h1.1, h1.2]
      · rename_i h1
        rcases (done_succ hj).1 hd with h2 | h2
        · exact h.mat x y h2
        · exact absurd h2 h1
    have hzero : ∀ x y, ¬ Done b.length i (j + 1) x y →
        (if x = i ∧ y = j then (csl a b i j : Int) else st.matrix x y) = 0 := by
      intro x y hd
      split
      · rename_i h1
        exact absurd ((done_succ hj).2 (.inr h1)) hd
      · exact h.zero x y (fun h2 => hd ((done_succ hj).2 (.inl h2)))
    by_cases h1 : (csl a b i j : Int) > st.length
    · simp only [if_pos h1]
      refine ⟨hmat, hzero, by simp only; omega, ?_, ?_, by simp, ?_⟩
      · intro x y hd
        rcases (done_succ hj).1 hd with h2 | h2
        · have := h.le x y h2; simp only; omega
        · simp only [h2.1, h2.2]; omega
      · intro p
        simp only [List.mem_singleton]
        constructor
        · rintro rfl
          exact ⟨i, j, rfl, (done_succ hj).2 (.inr ⟨rfl, rfl⟩), rfl, hpos⟩
        · rintro ⟨x, y, rfl, hd, he, _⟩
          rcases (done_succ hj).1 hd with h2 | h2
          · have := h.le x y h2; omega
          · rw [h2.1, h2.2]
      · right; exact ⟨i, j, (done_succ hj).2 (.inr ⟨rfl, rfl⟩), rfl⟩
    · simp only [if_neg h1]
      by_cases h2 : (csl a b i j : Int) = st.length
      · simp only [if_pos h2]
        have hnot : ((i : Int), (j : Int)) ∉ st.indices := by
          intro hm
          obtain ⟨x, y, he, hd, _⟩ := (h.mem _).1 hm
          simp only [Prod.mk.injEq, Int.natCast_inj] at he
          rw [← he.1, ← he.2] at hd; exact hnd hd
        refine ⟨hmat, hzero, h.nonneg, ?_, ?_, ?_, ?_⟩
        · intro x y hd
          rcases (done_succ hj).1 hd with h3 | h3
          · exact h.le x y h3
          · simp only [h3.1, h3.2]; omega
        · intro p
          simp only [List.mem_append, List.mem_singleton, h.mem p]
          constructor
          · rintro (⟨x, y, h3, h4, h5, h6⟩ | rfl)
            · exact ⟨x, y, h3, (done_succ hj).2 (.inl h4), by omega, by omega⟩
            · exact ⟨i, j, rfl, (done_succ hj).2 (.inr ⟨rfl, rfl⟩), by omega, by omega⟩
          · rintro ⟨x, y, h3, h4, h5, h6⟩
            rcases (done_succ hj).1 h4 with h7 | h7
            · left; exact ⟨x, y, h3, h7, by omega, by omega⟩
            · right; rw [h3, h7.1, h7.2]
        · rw [List.nodup_append]
          refine ⟨h.nodup, by simp, ?_⟩
          intro x hx y hy
          simp only [List.mem_singleton] at hy
          subst hy; intro he; subst he; exact hnot hx
        · right; exact ⟨i, j, (done_succ hj).2 (.inr ⟨rfl, rfl⟩), by omega⟩
      · simp only [if_neg h2]
        refine ⟨hmat, hzero, h.nonneg, ?_, ?_, h.nodup, ?_⟩
        · intro x y hd
          rcases (done_succ hj).1 hd with h3 | h3
          · exact h.le x y h3
          · simp only [h3.1, h3.2]; omega
        · intro p
          simp only [h.mem p]
          constructor
          · rintro ⟨x, y, h3, h4, h5, h6⟩
            exact ⟨x, y, h3, (done_succ hj).2 (.inl h4), h5, h6⟩
          · rintro ⟨x, y, h3, h4, h5, h6⟩
            rcases (done_succ hj).1 h4 with h7 | h7
            · exact ⟨x, y, h3, h7, h5, h6⟩
            · rw [h7.1, h7.2] at h5; exact absurd h5 h2
        · rcases h.wit with h3 | ⟨x, y, h3, h4⟩
          · left; exact h3
          · right; exact ⟨x, y, (done_succ hj).2 (.inl h3), h4⟩
  · have hz : csl a b i j = 0 := by rw [csl_eq, if_neg hab]
    rw [if_neg hab]
    refine ⟨?_, ?_, h.nonneg, ?_, ?_, h.nodup, ?_⟩
    · intro x y hd
      rcases (done_succ hj).1 hd with h2 | h2
      · exact h.mat x y h2
      · rw [h2.1, h2.2, hz, h.zero i j hnd]; rfl
    · intro x y hd
      exact h.zero x y (fun h2 => hd ((done_succ hj).2 (.inl h2)))
    · intro x y hd
      rcases (done_succ hj).1 hd with h2 | h2
      · exact h.le x y h2
      · rw [h2.1, h2.2, hz]; exact h.nonneg
    · intro p
      rw [h.mem p]
      constructor
      · rintro ⟨x, y, h3, h4, h5, h6⟩
        exact ⟨x, y, h3, (done_succ hj).2 (.inl h4), h5, h6⟩
      · rintro ⟨x, y, h3, h4, h5, h6⟩
        rcases (done_succ hj).1 h4 with h7 | h7
        · exact ⟨x, y, h3, h7, h5, h6⟩
        · rw [h7.1, h7.2, hz] at h5; omega
    · rcases h.wit with h3 | ⟨x, y, h3, h4⟩
      · left; exact h3
      · right; exact ⟨x, y, (done_succ hj).2 (.inl h3), h4⟩

theorem inv_inner {a b : List α} {i : Nat} {st : LcsState}
    (h : Inv a b i 0 st) : ∀ j, j ≤ b.length →
    Inv a b i j ((List.range j).foldl (fun st j => lcsBody a b i j st) st)
  | 0, _ => by simpa using h
  | j + 1, hj => by
    rw [List.range_succ, List.foldl_append]
    exact inv_body (by omega) (inv_inner h j (by omega))

theorem inv_outer (a b : List α) : ∀ i, i ≤ a.length →
    Inv a b i 0 ((List.range i).foldl
      (fun st i => (List.range b.length).foldl (fun st j => lcsBody a b i j st) st)
      { matrix := fun _ _ => 0, length := 0, indices := [] })
  | 0, _ => by
    refine ⟨?_, ?_, by simp, ?_, ?_, by simp, by simp⟩
    · intro x y h; unfold Done at h; omega
    · intro x y _; rfl
    · intro x y h; unfold Done at h; omega
    · intro p
      simp
  | i + 1, hi => by
    rw [List.range_succ, List.foldl_append]
    have h := inv_inner (inv_outer a b i (by omega)) b.length le_rfl
    have hd : ∀ x y, Done b.length (i + 1) 0 x y ↔ Done b.length i b.length x y := by
      intro x y; unfold Done; omega
    simp only [List.foldl_cons, List.foldl_nil]
    refine ⟨?_, ?_, h.nonneg, ?_, ?_, h.nodup, ?_⟩
    · intro x y hx; exact h.mat x y ((hd x y).1 hx)
    · intro x y hx; exact h.zero x y (fun h2 => hx ((hd x y).2 h2))
    · intro x y hx; exact h.le x y ((hd x y).1 hx)
    · intro p; rw [h.mem p]; simp only [hd]
    · simpa only [hd] using h.wit

/-- common blocks and `csl` -/
theorem common_block_iff (a b : List α) (m p q : Nat) (hm : 0 < m) :
    (∃ c : List α, c.length = m ∧ OccursAt c a p ∧ OccursAt c b q) ↔
      p + m ≤ a.length ∧ q + m ≤ b.length ∧ m ≤ csl a b (p + m - 1) (q + m - 1) := by
  constructor
  · rintro ⟨c, hc, h1, h2⟩
    obtain ⟨l1, e1⟩ := BoyerMoore.occursAt_iff.1 h1
    obtain ⟨l2, e2⟩ := BoyerMoore.occursAt_iff.1 h2
    refine ⟨by omega, by omega, ?_⟩
    rw [le_csl_iff]
    refine ⟨by omega, by omega, fun t ht => ?_⟩
    have h1 := e1 (m - 1 - t) (by omega)
    have h2 := e2 (m - 1 - t) (by omega)
    have f1 : p + m - 1 - t = p + (m - 1 - t) := by omega
    have f2 : q + m - 1 - t = q + (m - 1 - t) := by omega
    rw [f1, f2, h1, h2]
  · rintro ⟨h1, h2, h3⟩
    rw [le_csl_iff] at h3
    obtain ⟨_, _, h3⟩ := h3
    refine ⟨(a.drop p).take m, by simp; omega, ?_, ?_⟩
    · rw [BoyerMoore.occursAt_iff]
      refine ⟨by simp; omega, fun k hk => ?_⟩
      simp at hk
      simp [List.getElem?_take, hk.1]
    · rw [BoyerMoore.occursAt_iff]
      refine ⟨by simp; omega, fun k hk => ?_⟩
      simp at hk
      simp only [List.getElem?_take, hk.1, if_true, List.getElem?_drop]
      have := h3 (m - 1 - k) (by omega)
      have f1 : p + m - 1 - (m - 1 - k) = p + k := by omega
      have f2 : q + m - 1 - (m - 1 - k) = q + k := by omega
      rw [f1, f2] at this
      exact this.symm

end Prolothar.ListUtils
