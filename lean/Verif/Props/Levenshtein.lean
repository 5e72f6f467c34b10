import Verif.Lemmas.Levenshtein
import Mathlib.Tactic.Ring
/-
Properties C14-C16 of /repo/prolothar_common/levenshtein.pyx.
Specification (Verif/Spec/Edit.lean): `Script` is a chain of single edits at arbitrary places;
`IsDistance` is the minimal total cost; `execAll` executes edit operations.
-/
namespace Prolothar.Levenshtein
open Prolothar.Spec
variable {α : Type} [DecidableEq α]

/-- C14: with the default costs the distance is the least number of single edits that turn
`s1` into `s2`. -/
theorem C14_distance_optimal (s1 s2 : List α) :
    ∃ d : Nat, distance s1 s2 1 1 1 = d ∧ IsDistance 1 1 1 s1 s2 d :=
  ⟨_, distance_eq s1 s2 1, isDistance_D s1 s2 1⟩

example : distance [1, 2, 3] [3, 1] 1 1 1 = 3 := by decide

/-- C15: with the default costs, whenever the call returns, it returns the minimal number of edits together with operations that are, up to
their order, a script that transforms `s1` into `s2` when executed from right to left; there are exactly distance many of them. The script
order `E` is determined by the returned operations: strictly decreasing position `i + j`. -/
theorem C15_edits_optimal_script (s1 s2 : List α) (fuel : Nat) (d : Int) (edits : List EditOperation)
    (h : levenshteinWithBacktrace fuel s1 s2 1 1 1 = .ok (d, edits)) :
    IsDistance 1 1 1 s1 s2 edits.length ∧ d = edits.length ∧
    ∃ E : List EditOperation, edits.Perm E ∧ E.Pairwise (fun p q => q.i + q.j < p.i + p.j) ∧ execAll s2 E s1 = some s2 := by
  have hd := distance_eq s1 s2 1
  simp only [Nat.cast_one] at hd
  unfold levenshteinWithBacktrace backtrace at h
  cases hb : btLoop (costMatrix s1 s2 1 1 1) fuel s1.length s2.length [] with
  | error e => simp only [hb] at h; cases h
  | ok r =>
    simp only [hb] at h
    have h' : ((costMatrix s1 s2 1 1 1) s1.length s2.length, r) = (d, edits) := by simpa [pure, Except.pure, bind, Except.bind] using h
    obtain ⟨h1, rfl⟩ := Prod.mk.inj h'
    obtain ⟨E, h2, h3, h4⟩ := btLoop_returned s1 s2 fuel s1.length s2.length [] [] r le_rfl le_rfl (List.Perm.refl _)
      ⟨by simp, by simp, by simp [execAll]⟩ hb
    have hlen : r.length = D s1 s2 1 s1.length s2.length := by
      rw [h2.length_eq, h4]; simp
    refine ⟨by rw [hlen]; exact isDistance_D s1 s2 1, ?_, E, h2, h3.dec, by simpa using h3.run⟩
    rw [← h1, hlen]
    exact hd

/-- C15: with the default costs and a distance of at most MAX_COST = 100000 the call returns. (At 100001 it depends on the lists, above
it never returns, see `C15_backtrace_diverges`.) -/
theorem C15_terminates (s1 s2 : List α) (fuel : Nat)
    (hfuel : s1.length + s2.length < fuel) (hmax : distance s1 s2 1 1 1 ≤ 100000) :
    ∃ edits E : List EditOperation,
      levenshteinWithBacktrace fuel s1 s2 1 1 1 = .ok ((edits.length : Int), edits) ∧
      distance s1 s2 1 1 1 = edits.length ∧
      edits.Perm E ∧ E.Pairwise (fun p q => q.i + q.j < p.i + p.j) ∧
      execAll s2 E s1 = some s2 := by
  have hd := distance_eq s1 s2 1
  simp only [Nat.cast_one] at hd
  obtain ⟨r, E, h1, h2, h3, h4⟩ := btLoop_spec s1 s2 fuel s1.length s2.length [] [] le_rfl le_rfl
    hfuel (by omega) (List.Perm.refl _) ⟨by simp, by simp, by simp [execAll]⟩
  have hlen : r.length = D s1 s2 1 s1.length s2.length := by
    rw [h2.length_eq, h4]; simp
  refine ⟨r, E, ?_, by rw [hd, hlen], h2, h3.dec, by simpa using h3.run⟩
  unfold levenshteinWithBacktrace backtrace
  simp only [h1, bind, Except.bind, pure, Except.pure]
  have := matrix_eq s1 s2 1 s1.length s2.length le_rfl le_rfl
  simp only [Nat.cast_one] at this
  rw [this, hlen]

example : levenshteinWithBacktrace 9 [1, 2, 3] [3, 1] 1 1 1 =
    .ok (3, [⟨0, 0, .delete⟩, ⟨2, 1, .substitute⟩, ⟨1, 0, .substitute⟩]) := by decide
example : execAll [3, 1] [⟨2, 1, .substitute⟩, ⟨1, 0, .substitute⟩, ⟨0, 0, .delete⟩] [1, 2, 3]
    = some [3, 1] := by decide

/-- C15, disagreement: the returned order is neither the script order nor its reverse, because
`edits.reverse()` is executed in every iteration; executing the operations in the returned order
or in its reverse does not produce the target. -/
theorem C15_order_is_scrambled :
    ∃ edits, levenshteinWithBacktrace 4 [1, 2, 3] ([] : List Nat) 1 1 1 = .ok (3, edits) ∧
      edits.map (·.i) = [0, 2, 1] ∧ execAll [] edits [1, 2, 3] = none ∧
      execAll [] edits.reverse [1, 2, 3] = none :=
  ⟨[⟨0, 0, .delete⟩, ⟨2, 0, .delete⟩, ⟨1, 0, .delete⟩], by decide⟩

/-- C15, disagreement: for a distance above MAX_COST + 1 the backtrace never terminates. -/
theorem C15_backtrace_diverges (s1 s2 : List α) (h : 100001 < distance s1 s2 1 1 1) (fuel : Nat) :
    levenshteinWithBacktrace fuel s1 s2 1 1 1 = .error .diverge := by
  have hd := distance_eq s1 s2 1
  simp only [Nat.cast_one] at hd
  have hb := btLoop_stuck s1 s2 (by omega) fuel
  unfold levenshteinWithBacktrace backtrace
  simp only [hb, bind, Except.bind]

/-- such inputs exist -/
theorem C15_backtrace_diverges_witness : 100001 < distance ([] : List Nat) (List.replicate 100002 0) 1 1 1 := by
  have := distance_eq ([] : List Nat) (List.replicate 100002 0) 1
  simp only [Nat.cast_one] at this
  rw [this, List.length_nil, D_zero_left, List.length_replicate]
  decide

/-- C16: for insertion and deletion cost 1 and every substitution cost the distance is
the minimal script cost. For other insertion and deletion costs this is
false, see `C16_border_costs_wrong`; `C16_exact` says what is computed then. -/
theorem C16_weighted_distance (s1 s2 : List α) (subC : Nat) :
    ∃ d : Nat, distance s1 s2 1 1 subC = d ∧ IsDistance 1 1 subC s1 s2 d :=
  ⟨_, distance_eq s1 s2 subC, isDistance_D s1 s2 subC⟩

/-- C16: for all costs the distance is the minimal cost of an alignment, where insertions before the first symbol of the source and deletions
before the first symbol of the target count 1. -/
theorem C16_exact (s1 s2 : List α) (insC delC subC : Int) :
    BorderAlign insC delC subC s1 s2 (distance s1 s2 insC delC subC) ∧
    ∀ c, BorderAlign insC delC subC s1 s2 c → distance s1 s2 insC delC subC ≤ c := by
  have e : distance s1 s2 insC delC subC = DC s1 s2 insC delC subC s1.length s2.length := matrix_eq_all s1 s2 insC delC subC _ _ le_rfl le_rfl
  constructor
  · have := DC_align s1 s2 insC delC subC s1.length s2.length le_rfl le_rfl
    rw [e]
    simpa using this
  · intro c h
    rw [e]
    exact DC_lower s1 s2 insC delC subC h s1.length s2.length le_rfl le_rfl (by simp) (by simp)

example : distance [1, 2] [3, 1] 5 7 2 = 4 ∧ distance [1, 2] [1, 2, 4] 5 7 2 = 5 ∧ distance [1, 2] [4, 1, 2] 5 7 2 = 1 := by decide

/-- C16, disagreement: for every insertion cost (deletion cost) other than 1 the result is wrong
for some input, because the borders of the matrix are filled with `i` and `j`. -/
theorem C16_border_costs_wrong (insC delC subC : Nat) (h : insC ≠ 1 ∨ delC ≠ 1) :
    ∃ s1 s2 : List Nat, ∀ d : Nat, distance s1 s2 insC delC subC = d →
      ¬ IsDistance insC delC subC s1 s2 d := by
  have key : ∀ {s t : List Nat} {c : Nat}, Script insC delC subC s t c →
      ∃ a b, t.length + b = s.length + a ∧ a * insC + b * delC ≤ c := by
    intro s t c h
    induction h with
    | nil => exact ⟨0, 0, by omega, by simp⟩
    | snoc _ h2 ih =>
      obtain ⟨a, b, h4, h5⟩ := ih
      cases h2 with
      | insert u v x =>
        have e : (a + 1) * insC = a * insC + insC := by ring
        exact ⟨a + 1, b, by simp at h4 ⊢; omega, by omega⟩
      | delete u v x =>
        have e : (b + 1) * delC = b * delC + delC := by ring
        exact ⟨a, b + 1, by simp at h4 ⊢; omega, by omega⟩
      | substitute u v x y =>
        exact ⟨a, b, by simp at h4 ⊢; omega, by omega⟩
  rcases h with h | h
  · refine ⟨[], [0], fun d hd hdist => ?_⟩
    have hd1 : d = 1 := by
      have : distance ([] : List Nat) [0] insC delC subC = 1 := by
        simp [distance, costMatrix, Grid.fill, borders]
      omega
    subst hd1
    have s1 : Script insC delC subC ([] : List Nat) [0] (0 + insC) :=
      .snoc (.nil _) (Step.insert [] [] 0)
    have hle := hdist.2 _ s1
    obtain ⟨a, b, h2, h3⟩ := key hdist.1
    simp at h2
    have : 1 * insC ≤ a * insC := Nat.mul_le_mul_right _ (by omega)
    omega
  · refine ⟨[0], [], fun d hd hdist => ?_⟩
    have hd1 : d = 1 := by
      have : distance [0] ([] : List Nat) insC delC subC = 1 := by
        simp [distance, costMatrix, Grid.fill, Grid.fillRow, borders]
      omega
    subst hd1
    have s1 : Script insC delC subC [0] ([] : List Nat) (0 + delC) :=
      .snoc (.nil _) (Step.delete [] [] 0)
    have hle := hdist.2 _ s1
    obtain ⟨a, b, h2, h3⟩ := key hdist.1
    simp at h2
    have : 1 * delC ≤ b * delC := Nat.mul_le_mul_right _ (by omega)
    omega

/-- C16, disagreement: with substitution cost 3 the distance is 2 but the returned operation is
one substitution, which costs 3. -/
theorem C16_edits_not_optimal_for_substitution_cost_3 :
    levenshteinWithBacktrace 9 [0] [1] 1 1 3 = .ok (2, [⟨0, 0, .substitute⟩]) := by decide

example : distance [1, 2, 3] [3, 1] 1 1 2 = 3 := by decide

end Prolothar.Levenshtein

