import Verif.Model.CInt
import Verif.Props.Levenshtein
import Verif.Props.LCS
import Verif.Props.ListUtils
/-
C146: 32 bit integers in the compiled dynamic programs.
-/
namespace Prolothar.CInt
open Prolothar.Grid Prolothar.Spec
variable {α : Type} [DecidableEq α]

theorem cint_eq {ov : Int → Int} {x : Int} (h : -2147483648 ≤ x) (h' : x ≤ 2147483647) : cint ov x = x := by
  unfold cint isInt
  rw [if_pos (by simp [h, h'])]

theorem toInt_ok {x : Int} (h : -2147483648 ≤ x) (h' : x ≤ 2147483647) : toInt x = .ok x := by
  unfold toInt isInt
  rw [if_pos (by simp [h, h'])]

theorem toInt_error {x : Int} (h : x < -2147483648 ∨ 2147483647 < x) : toInt x = .error .overflow := by
  unfold toInt isInt
  rw [if_neg (by simp; omega)]

theorem ok_bind {β γ : Type} (a : β) (f : β → Py γ) : ((Except.ok a : Py β) >>= f) = f a := by
  cases h : f a <;> simp [bind, Except.bind, h]

theorem fill_outside (body : Nat → Nat → Matrix → Int) (n m : Nat) (M : Matrix) (x y : Nat) (h : n < x ∨ m < y) :
    fill body n m M x y = M x y := by
  have row : ∀ i, (i + 1 < x ∨ m < y) → ∀ k, k ≤ m → ∀ M : Matrix, fillRow body i k M x y = M x y := by
    intro i hi k
    induction k with
    | zero => intro _ M; rfl
    | succ k ih =>
      intro hk M
      unfold fillRow
      rw [List.range_succ, List.foldl_append]
      show setCell (fillRow body i k M) _ _ _ x y = _
      unfold setCell
      rw [if_neg (by omega)]
      exact ih (by omega) M
  have outer : ∀ k, k ≤ n → ∀ M : Matrix, fill body k m M x y = M x y := by
    intro k
    induction k with
    | zero => intro _ M; rfl
    | succ k ih =>
      intro hk M
      unfold fill
      rw [List.range_succ, List.foldl_append]
      show fillRow body k m (fill body k m M) x y = _
      rw [row k (by omega) m le_rfl, ih (by omega)]
  exact outer n le_rfl M

/-- two fills with the same cells are the same matrix -/
theorem fill_ext {body body' : Nat → Nat → Matrix → Int} {n m : Nat} {M : Matrix}
    (h : ∀ x y, x ≤ n → y ≤ m → fill body n m M x y = fill body' n m M x y) : fill body n m M = fill body' n m M := by
  funext x y
  by_cases hx : x ≤ n ∧ y ≤ m
  · exact h x y hx.1 hx.2
  · rw [fill_outside body n m M x y (by omega), fill_outside body' n m M x y (by omega)]

theorem DC_bound (s1 s2 : List α) {ci cd cs K : Int} (hK : 1 ≤ K) (h1 : |ci| ≤ K) (h2 : |cd| ≤ K) (h3 : |cs| ≤ K) :
    ∀ i j, |Levenshtein.DC s1 s2 ci cd cs i j| ≤ (i + j) * K
  | 0, j => by
    rw [Levenshtein.DC_zero_left]
    have : |(j : Int)| = j := abs_of_nonneg (by omega)
    rw [this]; push_cast; nlinarith
  | i + 1, 0 => by
    rw [Levenshtein.DC_zero_right]
    have : |((i + 1 : Nat) : Int)| = i + 1 := by rw [abs_of_nonneg (by omega)]; push_cast; rfl
    rw [this]; push_cast; nlinarith
  | i + 1, j + 1 => by
    have e1 := DC_bound s1 s2 hK h1 h2 h3 (i + 1) j
    have e2 := DC_bound s1 s2 hK h1 h2 h3 i (j + 1)
    have e3 := DC_bound s1 s2 hK h1 h2 h3 i j
    have e4 : |(if s1[i]? ≠ s2[j]? then cs else 0)| ≤ K := by
      split
      · exact h3
      · simp; omega
    rw [Levenshtein.DC]
    rw [abs_le] at *
    push_cast at *
    constructor
    · refine le_min (le_min ?_ ?_) ?_ <;> nlinarith
    · refine le_trans (min_le_left _ _) (le_trans (min_le_left _ _) ?_)
      nlinarith
termination_by i j => i + j

theorem levMatrix_eq (ov : Int → Int) (s1 s2 : List α) {ci cd cs K : Int} (hK : 1 ≤ K) (h1 : |ci| ≤ K) (h2 : |cd| ≤ K) (h3 : |cs| ≤ K)
    (hb : ((s1.length + s2.length : Nat) : Int) * K ≤ 2147483647) :
    levMatrix ov s1 s2 ci cd cs = Levenshtein.costMatrix s1 s2 ci cd cs := by
  apply fill_ext
  intro x y hx hy
  rw [show fill (Levenshtein.body s1 s2 ci cd cs) s1.length s2.length Levenshtein.borders x y = _ from
    Levenshtein.matrix_eq_all s1 s2 ci cd cs x y hx hy]
  refine fill_spec _ s1.length s2.length (fun i j => Levenshtein.DC s1 s2 ci cd cs i j) ?_ _ ?_ x y hx hy
  · intro i j M hi hj h
    have g1 := h i j (by omega) (by omega) (by unfold Final; omega)
    have g2 := h (i + 1) j (by omega) (by omega) (by unfold Final; omega)
    have g3 := h i (j + 1) (by omega) (by omega) (by unfold Final; omega)
    have b1 := DC_bound s1 s2 hK h1 h2 h3 i j
    have b2 := DC_bound s1 s2 hK h1 h2 h3 (i + 1) j
    have b3 := DC_bound s1 s2 hK h1 h2 h3 i (j + 1)
    have b4 : |(if s1[i]? ≠ s2[j]? then cs else 0)| ≤ K := by
      split
      · exact h3
      · simp; omega
    have hsum : ((i : Int) + j + 2) * K ≤ 2147483647 := by
      refine le_trans ?_ hb
      apply mul_le_mul_of_nonneg_right _ (by omega)
      push_cast
      omega
    rw [abs_le] at *
    push_cast at b1 b2 b3
    simp only [levBody, g1, g2, g3]
    rw [cint_eq (by nlinarith) (by nlinarith), cint_eq (by nlinarith) (by nlinarith), cint_eq (by nlinarith) (by nlinarith),
      Levenshtein.DC]
  · intro a b _ _ h
    rcases h with rfl | rfl
    · simp only [Levenshtein.borders, Levenshtein.DC_zero_left]; split
      · rename_i h; simp [h]
      · simp
    · simp [Levenshtein.borders, Levenshtein.DC_zero_right]

theorem small (ov : Int → Int) (s1 s2 : List α) {ci cd cs K : Int} (hK : 1 ≤ K) (h1 : |ci| ≤ K) (h2 : |cd| ≤ K) (h3 : |cs| ≤ K)
    (hb : ((s1.length + s2.length + 1 : Nat) : Int) * K ≤ 2147483647) :
    (s1.length : Int) + 1 ≤ 2147483647 ∧ (s2.length : Int) + 1 ≤ 2147483647 ∧ K ≤ 2147483647 ∧
      levMatrix ov s1 s2 ci cd cs = Levenshtein.costMatrix s1 s2 ci cd cs := by
  push_cast at hb
  refine ⟨by nlinarith, by nlinarith, by nlinarith, levMatrix_eq ov s1 s2 hK h1 h2 h3 (by push_cast; nlinarith)⟩

theorem zeros_ok {ov : Int → Int} {a b : Int} (ha : 0 ≤ a) (ha' : a + 1 ≤ 2147483647) (hb : 0 ≤ b) (hb' : b + 1 ≤ 2147483647) :
    zeros (cint ov (a + 1)) (cint ov (b + 1)) = .ok () := by
  rw [cint_eq (by omega) (by omega), cint_eq (by omega) (by omega)]
  unfold zeros
  rw [if_neg (by omega)]

/-- C146: `levenshtein_with_backtrace` computes what the same program computes with unbounded integers (C14, C15 and C16 say
what that is), whatever the machine does in case of an overflow, as long as one more than the sum of the lengths times the
largest absolute cost fits into an `int`. -/
theorem C146_levenshtein (ov : Int → Int) (fuel : Nat) (s1 s2 : List α) (insC delC subC K : Int) (hK : 1 ≤ K)
    (h1 : |insC| ≤ K) (h2 : |delC| ≤ K) (h3 : |subC| ≤ K)
    (hb : ((s1.length + s2.length + 1 : Nat) : Int) * K ≤ 2147483647) :
    levenshtein ov fuel s1 s2 insC delC subC = Levenshtein.levenshteinWithBacktrace fuel s1 s2 insC delC subC := by
  obtain ⟨hl1, hl2, hK', hM⟩ := small ov s1 s2 hK h1 h2 h3 hb
  rw [abs_le] at h1 h2 h3
  have e1 := toInt_ok (x := insC) (by omega) (by omega)
  have e2 := toInt_ok (x := delC) (by omega) (by omega)
  have e3 := toInt_ok (x := subC) (by omega) (by omega)
  have e4 := toInt_ok (x := (s1.length : Int)) (by omega) (by omega)
  have e5 := toInt_ok (x := (s2.length : Int)) (by omega) (by omega)
  have e6 := zeros_ok (ov := ov) (a := (s1.length : Int)) (b := (s2.length : Int)) (by omega) hl1 (by omega) hl2
  unfold levenshtein Levenshtein.levenshteinWithBacktrace
  simp only [e1, e2, e3, e4, e5, e6, ok_bind, hM]

/-- C146: with the default costs, lists with together less than 2147483647 - 1 elements are safe: the first component is the edit distance. -/
theorem C146_levenshtein_default (ov : Int → Int) (fuel : Nat) (s1 s2 : List α) (d : Int) (edits : List Levenshtein.EditOperation)
    (hb : s1.length + s2.length + 1 ≤ 2147483647) (h : levenshtein ov fuel s1 s2 1 1 1 = .ok (d, edits)) :
    ∃ k : Nat, d = k ∧ IsDistance 1 1 1 s1 s2 k := by
  rw [C146_levenshtein ov fuel s1 s2 1 1 1 1 le_rfl (by decide) (by decide) (by decide) (by omega)] at h
  have := Levenshtein.C15_edits_optimal_script s1 s2 fuel d edits h
  exact ⟨_, this.2.1, this.1⟩

private theorem pyOkBind {β γ : Type} (a : β) (f : β → Py γ) : ((.ok a : Py β) >>= f) = f a := rfl

private theorem pyErrBind {β γ : Type} (e : PyErr) (f : β → Py γ) : ((.error e : Py β) >>= f) = .error e := rfl

/-- C146: with costs that are `int`s, a sequence with more than 2147483647 elements is rejected. -/
theorem C146_levenshtein_long (ov : Int → Int) (fuel : Nat) (s1 s2 : List α) (insC delC subC : Int)
    (hc : ∀ c ∈ [insC, delC, subC], -2147483648 ≤ c ∧ c ≤ 2147483647)
    (h : (2147483647 : Int) < s1.length ∨ (2147483647 : Int) < s2.length) :
    levenshtein ov fuel s1 s2 insC delC subC = .error .overflow := by
  have i1 := hc insC (by simp)
  have i2 := hc delC (by simp)
  have i3 := hc subC (by simp)
  have p1 : -2147483648 ≤ (s1.length : Int) := Int.le_trans (by decide) (Int.natCast_nonneg _)
  have p2 : -2147483648 ≤ (s2.length : Int) := Int.le_trans (by decide) (Int.natCast_nonneg _)
  unfold levenshtein
  generalize (s1.length : Int) = l1 at *
  generalize (s2.length : Int) = l2 at *
  rw [toInt_ok i1.1 i1.2, toInt_ok i2.1 i2.2, toInt_ok i3.1 i3.2]
  simp only [pyOkBind]
  rcases Int.lt_or_le 2147483647 l1 with h1 | h1
  · rw [toInt_error (.inr h1)]; rfl
  · rw [toInt_ok p1 h1, toInt_error (.inr (h.resolve_left (Int.not_lt.mpr h1)))]; rfl

private theorem cint_max : cint wrap (2147483647 + 1) < 0 := by decide +kernel

private theorem zeros_max {l1 l2 : Int} (h : l1 = 2147483647 ∨ l2 = 2147483647) :
    zeros (cint wrap (l1 + 1)) (cint wrap (l2 + 1)) = .error .value := by
  unfold zeros
  rw [if_pos]
  rcases h with rfl | rfl
  · exact .inl cint_max
  · exact .inr cint_max

/-- C146: with two's complement arithmetic, a sequence with exactly 2147483647 elements is rejected with a ValueError, because the
number of rows or columns of the matrix becomes negative. -/
theorem C146_levenshtein_longest (fuel : Nat) (s1 s2 : List α) (insC delC subC : Int)
    (hc : ∀ c ∈ [insC, delC, subC], -2147483648 ≤ c ∧ c ≤ 2147483647)
    (h1 : (s1.length : Int) ≤ 2147483647) (h2 : (s2.length : Int) ≤ 2147483647)
    (h : (s1.length : Int) = 2147483647 ∨ (s2.length : Int) = 2147483647) :
    levenshtein wrap fuel s1 s2 insC delC subC = .error .value := by
  have i1 := hc insC (by simp)
  have i2 := hc delC (by simp)
  have i3 := hc subC (by simp)
  have p1 : -2147483648 ≤ (s1.length : Int) := Int.le_trans (by decide) (Int.natCast_nonneg _)
  have p2 : -2147483648 ≤ (s2.length : Int) := Int.le_trans (by decide) (Int.natCast_nonneg _)
  unfold levenshtein
  generalize (s1.length : Int) = l1 at *
  generalize (s2.length : Int) = l2 at *
  rw [toInt_ok i1.1 i1.2, pyOkBind, toInt_ok i2.1 i2.2, pyOkBind, toInt_ok i3.1 i3.2, pyOkBind, toInt_ok p1 h1, pyOkBind,
    toInt_ok p2 h2, pyOkBind, zeros_max h, pyErrBind]

/- there are sequences of every length -/
example (n : Nat) : ∃ s : List Nat, s.length = n := ⟨List.replicate n 0, List.length_replicate⟩

/-- C146: costs that are no `int` are rejected. -/
theorem C146_levenshtein_overflow (ov : Int → Int) (fuel : Nat) (s1 s2 : List α) (insC delC subC : Int)
    (h : ∃ c ∈ [insC, delC, subC], c < -2147483648 ∨ 2147483647 < c) :
    levenshtein ov fuel s1 s2 insC delC subC = .error .overflow := by
  have key : ∀ c, toInt c = .ok c ∨ toInt c = .error .overflow := fun c => by
    unfold toInt; split
    · exact .inl rfl
    · exact .inr rfl
  unfold levenshtein
  rcases key insC with e1 | e1
  · rw [e1]
    show (toInt delC >>= _) = _
    rcases key delC with e2 | e2
    · rw [e2]
      show (toInt subC >>= _) = _
      rcases key subC with e3 | e3
      · obtain ⟨c, hc, hr⟩ := h
        have := toInt_error hr
        simp only [List.mem_cons, List.not_mem_nil, or_false] at hc
        rcases hc with rfl | rfl | rfl
        · rw [e1] at this; cases this
        · rw [e2] at this; cases this
        · rw [e3] at this; cases this
      · rw [e3]; rfl
    · rw [e2]; rfl
  · rw [e1]; rfl

/-- C146: costs that are accepted can still overflow: with two's complement arithmetic, the distance of two different symbols is
-2147483648 if all costs are 2147483647. -/
theorem C146_levenshtein_wrong :
    levenshtein wrap 3 [0] [1] 2147483647 2147483647 2147483647 = .ok (-2147483648, [⟨0, 0, .substitute⟩]) ∧
    Levenshtein.levenshteinWithBacktrace 3 [0] [1] 2147483647 2147483647 2147483647 = .ok (2147483647, [⟨0, 0, .substitute⟩]) := by
  decide +kernel

/-- the hypotheses of `C146_levenshtein` are met by large costs -/
example : ((([1, 2, 3] : List Nat).length + ([4, 5] : List Nat).length + 1 : Nat) : Int) * 300000000 ≤ 2147483647 ∧ |(-300000000 : Int)| ≤ 300000000 := by decide

/-! ### longest common subsequence -/

theorem L_le (x y : List α) : ∀ i j, LCS.L x y i j ≤ i
  | 0, _ => by simp [LCS.L]
  | i + 1, 0 => by simp [LCS.L]
  | i + 1, j + 1 => by
    have e1 := L_le x y i j
    have e2 := L_le x y (i + 1) j
    have e3 := L_le x y i (j + 1)
    rw [LCS.L]
    split <;> omega
termination_by i j => i + j

theorem lcsMatrix_eq (ov : Int → Int) (x y : List α) (hx : x.length ≤ 2147483647) : lcsMatrix ov x y = LCS.lcsMatrix x y := by
  apply fill_ext
  intro a b ha hb
  rw [show fill (LCS.body x y) x.length y.length (fun _ _ => 0) a b = _ from LCS.matrix_eq x y a b ha hb]
  refine fill_spec _ x.length y.length (fun i j => (LCS.L x y i j : Int)) ?_ _ ?_ a b ha hb
  · intro i j M hi hj h
    have h1 := h i j (by omega) (by omega) (by unfold Final; omega)
    have h2 := h (i + 1) j (by omega) (by omega) (by unfold Final; omega)
    have h3 := h i (j + 1) (by omega) (by omega) (by unfold Final; omega)
    have := L_le x y i j
    simp only [lcsBody, h1, h2, h3]
    rw [cint_eq (by omega) (by omega), LCS.L]
    split <;> push_cast <;> rfl
  · intro a b _ _ h
    rcases h with rfl | rfl
    · simp [LCS.L]
    · cases a <;> simp [LCS.L]

/-- C146: the longest common subsequence is computed without overflow for all lists whose lengths are `int`s: C12 and C13 hold for the
compiled program. -/
theorem C146_lcs (ov : Int → Int) (x y : List α) (hx : x.length ≤ 2147483647) (hy : y.length ≤ 2147483647) :
    lengthOfCommonSubsequence ov x y = LCS.lengthOfCommonSubsequence x y ∧ lcsWithBacktrace ov x y = LCS.lcsWithBacktrace x y := by
  constructor
  · unfold lengthOfCommonSubsequence LCS.lengthOfCommonSubsequence
    rw [lcsMatrix_eq ov x y hx]
  · unfold lcsWithBacktrace LCS.lcsWithBacktrace
    rw [lcsMatrix_eq ov x y hx, toInt_ok (by omega) (by omega), toInt_ok (by omega) (by omega)]
    rfl

example : lcsWithBacktrace wrap [1, 2, 3, 4] [2, 9, 4] = .ok (2, [(1, 0), (3, 2)]) := by decide +kernel

/-! ### longest common sublists -/

theorem csl_le (a b : List α) (i j : Nat) : ListUtils.csl a b i j ≤ i + 1 := ((ListUtils.le_csl_iff a b _ i j).1 le_rfl).1

theorem sublistBody_eq (ov : Int → Int) {a b : List α} {i j : Nat} {st : ListUtils.LcsState} (ha : a.length ≤ 2147483647) (hi : i < a.length)
    (hj : j < b.length) (h : ListUtils.Inv a b i j st) : sublistBody ov a b i j st = ListUtils.lcsBody a b i j st := by
  unfold sublistBody ListUtils.lcsBody
  by_cases h0 : i = 0 ∨ j = 0
  · simp only [h0, if_true]
  · have e := h.mat (i - 1) (j - 1) (by unfold ListUtils.Done; omega)
    have := csl_le a b (i - 1) (j - 1)
    rw [cint_eq (by rw [e]; omega) (by rw [e]; omega)]

theorem sublist_inner (ov : Int → Int) {a b : List α} {i : Nat} {st : ListUtils.LcsState} (ha : a.length ≤ 2147483647) (hi : i < a.length)
    (h : ListUtils.Inv a b i 0 st) : ∀ j, j ≤ b.length →
    (List.range j).foldl (fun st j => sublistBody ov a b i j st) st = (List.range j).foldl (fun st j => ListUtils.lcsBody a b i j st) st
  | 0, _ => rfl
  | j + 1, hj => by
    rw [List.range_succ, List.foldl_append, List.foldl_append, sublist_inner ov ha hi h j (by omega)]
    exact sublistBody_eq ov ha hi (by omega) (ListUtils.inv_inner h j (by omega))

theorem sublist_outer (ov : Int → Int) (a b : List α) (ha : a.length ≤ 2147483647) : ∀ i, i ≤ a.length →
    (List.range i).foldl (fun st i => (List.range b.length).foldl (fun st j => sublistBody ov a b i j st) st)
      { matrix := fun _ _ => 0, length := 0, indices := [] } =
    (List.range i).foldl (fun st i => (List.range b.length).foldl (fun st j => ListUtils.lcsBody a b i j st) st)
      { matrix := fun _ _ => 0, length := 0, indices := [] }
  | 0, _ => rfl
  | i + 1, hi => by
    rw [List.range_succ, List.foldl_append, List.foldl_append, sublist_outer ov a b ha i (by omega)]
    exact sublist_inner ov ha (by omega) (ListUtils.inv_outer a b i (by omega)) b.length le_rfl

/-- C146: the longest common sublists are computed without overflow for all lists whose lengths are `int`s, longer lists raise
OverflowError. -/
theorem C146_sublists (ov : Int → Int) (a b : List α) :
    longestCommonSublists ov a b =
      if a.length ≤ 2147483647 ∧ b.length ≤ 2147483647 then .ok (ListUtils.longestCommonSublists a b) else .error .overflow := by
  unfold longestCommonSublists
  by_cases ha : a.length ≤ 2147483647
  · rw [toInt_ok (by omega) (by omega)]
    show (toInt b.length >>= _) = _
    by_cases hb : b.length ≤ 2147483647
    · rw [toInt_ok (by omega) (by omega), if_pos ⟨ha, hb⟩, sublist_outer ov a b ha a.length le_rfl]
      rfl
    · rw [toInt_error (by omega), if_neg fun hc => hb hc.2]; rfl
  · rw [toInt_error (by omega), if_neg fun hc => ha hc.1]; rfl

example : longestCommonSublists wrap [1, 2, 3, 4] [9, 2, 3] = .ok (2, [(1, 1)]) := by decide +kernel

end Prolothar.CInt
