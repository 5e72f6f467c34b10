import Mathlib.Data.Fintype.BigOperators
import Mathlib.Data.Fin.Tuple.Basic
import Mathlib.Logic.Equiv.Fin.Basic
import Mathlib.Algebra.Order.Archimedean.Basic
import Mathlib.Algebra.Order.Field.Rat
import Mathlib.Data.Fintype.Pi
import Mathlib.SetTheory.Cardinal.Finite
import Mathlib.Data.Finset.Lattice.Fold
import Mathlib.Data.Set.Finite.Basic
import Mathlib.Algebra.Order.BigOperators.Group.Finset
import Mathlib.Tactic.Ring
import Mathlib.Tactic.Linarith
import Mathlib.Tactic.FieldSimp
/-
Repeated random experiments: if a goal is absorbing and can be reached within a fixed number of steps from wherever one is, then it is
reached almost surely.
-/
namespace Prolothar.AlmostSure

variable {S Ω : Type} [Fintype Ω] (step : S → Ω → S)

/-- how many of the sequences of `m` outcomes do not lead from `s` into `G` -/
noncomputable def misses (G : S → Prop) (s : S) (m : Nat) : Nat := by
  classical
  exact (Finset.univ.filter fun w : Fin m → Ω => ¬ G ((List.ofFn w).foldl step s)).card

variable {step} {G R : S → Prop}

theorem misses_eq (s : S) (m : Nat) :
    misses step G s m = Nat.card {w : Fin m → Ω // ¬ G ((List.ofFn w).foldl step s)} := by
  classical
  unfold misses
  rw [Nat.card_eq_fintype_card, Fintype.card_subtype]

theorem misses_zero (s : S) (hG : G s) : misses step G s 0 = 0 := by
  classical
  unfold misses
  rw [Finset.card_eq_zero, Finset.filter_eq_empty_iff]
  intro w _
  simpa using hG

theorem misses_succ (s : S) (m : Nat) : misses step G s (m + 1) = ∑ a : Ω, misses step G (step s a) m := by
  classical
  unfold misses
  rw [← Finset.card_sigma]
  refine Finset.card_bij' (fun w _ => ⟨w 0, fun i => w i.succ⟩) (fun x _ => Fin.cons x.1 x.2) ?_ ?_ ?_ ?_
  · intro w hw
    rw [Finset.mem_filter] at hw
    rw [Finset.mem_sigma, Finset.mem_filter]
    refine ⟨Finset.mem_univ _, Finset.mem_univ _, ?_⟩
    have := hw.2
    rw [List.ofFn_succ, List.foldl_cons] at this
    exact this
  · rintro ⟨a, w⟩ hw
    rw [Finset.mem_sigma, Finset.mem_filter] at hw
    rw [Finset.mem_filter]
    refine ⟨Finset.mem_univ _, ?_⟩
    rw [List.ofFn_succ, List.foldl_cons]
    simpa using hw.2.2
  · intro w _
    exact Fin.cons_self_tail w
  · rintro ⟨a, w⟩ _
    simp

theorem misses_le (s : S) (m : Nat) : misses step G s m ≤ Fintype.card Ω ^ m := by
  classical
  unfold misses
  refine (Finset.card_filter_le _ _).trans ?_
  simp

theorem misses_goal (habs : ∀ s a, G s → G (step s a)) : ∀ (m : Nat) (s : S), G s → misses step G s m = 0
  | 0, s, hG => misses_zero s hG
  | m + 1, s, hG => by
    rw [misses_succ]
    exact Finset.sum_eq_zero fun a _ => misses_goal habs m _ (habs s a hG)

theorem misses_block (hR : ∀ s a, R s → R (step s a)) (m : Nat) {B : Nat} (hB : ∀ s, R s → misses step G s m ≤ B) :
    ∀ (k : Nat) (s : S), R s → misses step G s (m + k) ≤ Fintype.card Ω ^ k * B
  | 0, s, hs => by simpa using hB s hs
  | k + 1, s, hs => by
    rw [← Nat.add_assoc, misses_succ]
    refine (Finset.sum_le_sum fun a _ => misses_block hR m hB k (step s a) (hR s a hs)).trans ?_
    rw [Finset.sum_const, Finset.card_univ, nsmul_eq_mul, Nat.cast_id, pow_succ]
    apply le_of_eq; ring

theorem misses_word (hR : ∀ s a, R s → R (step s a)) (habs : ∀ s a, G s → G (step s a)) (m : Nat) {B : Nat}
    (hB : ∀ s, R s → misses step G s m ≤ B) :
    ∀ (w : List Ω) (s : S), R s → G (w.foldl step s) → misses step G s (m + w.length) ≤ (Fintype.card Ω ^ w.length - 1) * B
  | [], s, _, hG => by
    rw [List.length_nil, Nat.add_zero, misses_goal habs m s hG]
    exact Nat.zero_le _
  | a :: w, s, hs, hG => by
    classical
    rw [List.length_cons, ← Nat.add_assoc, misses_succ, ← Finset.add_sum_erase _ _ (Finset.mem_univ a)]
    have h1 := misses_word hR habs m hB w (step s a) (hR s a hs) hG
    have h2 : ∑ b ∈ Finset.univ.erase a, misses step G (step s b) (m + w.length) ≤
        (Fintype.card Ω - 1) * (Fintype.card Ω ^ w.length * B) := by
      refine (Finset.sum_le_card_nsmul _ _ (Fintype.card Ω ^ w.length * B) fun b _ =>
        misses_block hR m hB w.length (step s b) (hR s b hs)).trans ?_
      rw [Finset.card_erase_of_mem (Finset.mem_univ a), Finset.card_univ, nsmul_eq_mul, Nat.cast_id]
    refine (Nat.add_le_add h1 h2).trans ?_
    have hpos : 0 < Fintype.card Ω := Fintype.card_pos_iff.2 ⟨a⟩
    obtain ⟨c, hc⟩ : ∃ c, Fintype.card Ω = c + 1 := ⟨Fintype.card Ω - 1, by omega⟩
    rw [hc]
    obtain ⟨d, hd⟩ : ∃ d, (c + 1) ^ w.length = d + 1 :=
      ⟨(c + 1) ^ w.length - 1, by have : 0 < (c + 1) ^ w.length := Nat.pow_pos (Nat.succ_pos c); omega⟩
    rw [pow_succ, hd]
    have e1 : d + 1 - 1 = d := rfl
    have e2 : c + 1 - 1 = c := rfl
    have e3 : (d + 1) * (c + 1) - 1 = d * c + d + c := by
      have : (d + 1) * (c + 1) = d * c + d + c + 1 := by ring
      omega
    rw [e1, e2, e3]
    apply le_of_eq; ring

omit [Fintype Ω] in
/-- pad a word that reaches the goal to any larger length -/
theorem pad [Nonempty Ω] (habs : ∀ s a, G s → G (step s a)) {s : S} {w : List Ω} (hG : G (w.foldl step s)) {k : Nat} (hk : w.length ≤ k) :
    ∃ w' : List Ω, w'.length = k ∧ G (w'.foldl step s) := by
  obtain ⟨a⟩ := ‹Nonempty Ω›
  have key : ∀ (j : Nat) (s : S), G s → G ((List.replicate j a).foldl step s) := by
    intro j
    induction j with
    | zero => exact fun s h => h
    | succ j ih => exact fun s h => by rw [List.replicate_succ, List.foldl_cons]; exact ih _ (habs s a h)
  exact ⟨w ++ List.replicate (k - w.length) a, by simp; omega, by rw [List.foldl_append]; exact key _ _ hG⟩

theorem misses_rounds [Nonempty Ω] (hR : ∀ s a, R s → R (step s a)) (habs : ∀ s a, G s → G (step s a)) {k : Nat}
    (hk : ∀ s, R s → ∃ w : List Ω, w.length ≤ k ∧ G (w.foldl step s)) :
    ∀ (j : Nat) (s : S), R s → misses step G s (j * k) ≤ (Fintype.card Ω ^ k - 1) ^ j
  | 0, s, _ => by
    have := misses_le (step := step) (G := G) s 0
    simpa using this
  | j + 1, s, hs => by
    obtain ⟨w, hw, hG⟩ := hk s hs
    obtain ⟨w', hw', hG'⟩ := pad habs hG hw
    have := misses_word hR habs (j * k) (B := (Fintype.card Ω ^ k - 1) ^ j) (fun s hs => misses_rounds hR habs hk j s hs) w' s hs hG'
    rw [hw'] at this
    rw [Nat.succ_mul, pow_succ, Nat.mul_comm ((Fintype.card Ω ^ k - 1) ^ j)]
    exact this

/-- the share of the sequences of `m` outcomes that do not lead into the goal becomes arbitrarily small -/
theorem misses_vanish [Nonempty Ω] (hR : ∀ s a, R s → R (step s a)) (habs : ∀ s a, G s → G (step s a)) {k : Nat}
    (hk : ∀ s, R s → ∃ w : List Ω, w.length ≤ k ∧ G (w.foldl step s)) {ε : ℚ} (hε : 0 < ε) :
    ∃ N, ∀ s, R s → ∀ m, N ≤ m → (misses step G s m : ℚ) ≤ ε * (Fintype.card Ω : ℚ) ^ m := by
  have hpos : 0 < Fintype.card Ω := Fintype.card_pos
  have hposq : (0 : ℚ) < (Fintype.card Ω : ℚ) := by exact_mod_cast hpos
  have hkpos : 0 < Fintype.card Ω ^ k := Nat.pow_pos hpos
  have hq : (0 : ℚ) < (Fintype.card Ω : ℚ) ^ k := pow_pos hposq k
  obtain ⟨j, hj⟩ := exists_pow_lt_of_lt_one hε (y := ((Fintype.card Ω ^ k - 1 : ℕ) : ℚ) / (Fintype.card Ω : ℚ) ^ k) (by
    rw [div_lt_one hq]
    have : Fintype.card Ω ^ k - 1 < Fintype.card Ω ^ k := by omega
    exact_mod_cast this)
  refine ⟨j * k, fun s hs m hm => ?_⟩
  obtain ⟨r, rfl⟩ := Nat.exists_eq_add_of_le hm
  have h1 := misses_block (G := G) hR (j * k) (B := (Fintype.card Ω ^ k - 1) ^ j) (fun s hs => misses_rounds hR habs hk j s hs) r s hs
  have h2 : (misses step G s (j * k + r) : ℚ) ≤ (Fintype.card Ω : ℚ) ^ r * ((Fintype.card Ω ^ k - 1 : ℕ) : ℚ) ^ j := by
    exact_mod_cast h1
  refine h2.trans ?_
  rw [div_pow, div_lt_iff₀ (pow_pos hq j)] at hj
  rw [pow_add, Nat.mul_comm j k, pow_mul, ← mul_assoc, mul_comm _ ((Fintype.card Ω : ℚ) ^ r)]
  exact mul_le_mul_of_nonneg_left hj.le (pow_pos hposq r).le

/-- the same if there are only finitely many states and the goal can be reached from all of them -/
theorem misses_vanish_finite [Nonempty Ω] (hR : ∀ s a, R s → R (step s a)) (habs : ∀ s a, G s → G (step s a)) (hfin : {s | R s}.Finite)
    (hword : ∀ s, R s → ∃ w : List Ω, G (w.foldl step s)) {ε : ℚ} (hε : 0 < ε) :
    ∃ N, ∀ s, R s → ∀ m, N ≤ m → (misses step G s m : ℚ) ≤ ε * (Fintype.card Ω : ℚ) ^ m := by
  classical
  have hj : ∀ s, ∃ j : Nat, R s → ∃ w : List Ω, w.length ≤ j ∧ G (w.foldl step s) := by
    intro s
    by_cases hs : R s
    · obtain ⟨w, hw'⟩ := hword s hs
      exact ⟨w.length, fun _ => ⟨w, Nat.le_refl _, hw'⟩⟩
    · exact ⟨0, fun h => absurd h hs⟩
  choose j hj using hj
  refine misses_vanish hR habs (k := hfin.toFinset.sup j) (fun s hs => ?_) hε
  obtain ⟨w, hl, hw'⟩ := hj s hs
  exact ⟨w, hl.trans (Finset.le_sup (f := j) (hfin.mem_toFinset.2 hs)), hw'⟩

end Prolothar.AlmostSure
