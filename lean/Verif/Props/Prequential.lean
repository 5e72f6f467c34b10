import Verif.Props.Mdl
import Mathlib.Data.Fintype.BigOperators
import Mathlib.Data.Fin.Tuple.Basic
import Mathlib.Algebra.BigOperators.Fin
/-
Property C164 of /repo/prolothar_common/mdl_utils.pyx: the code lengths of sequences
(`prequential_coding_length`, `log2multinom`) are those of a probability distribution over the
sequences.
-/
namespace Prolothar.Mdl
open Finset

variable {σ : Type} [Fintype σ] [DecidableEq σ]

/-- the counts of the symbols in `xs`, in the order of `alphabet`: the values of the dictionary
passed to `prequential_coding_length` -/
def symbolCounts (alphabet xs : List σ) : List Nat := alphabet.map fun a => xs.count a

omit [DecidableEq σ] in
/-- a sum over all sequences of length `n + 1`, by their first symbol -/
theorem sum_seq_succ (n : Nat) (f : List σ → ℝ) :
    ∑ v : Fin (n + 1) → σ, f (List.ofFn v) = ∑ x : σ, ∑ w : Fin n → σ, f (x :: List.ofFn w) := by
  rw [← (Fin.consEquiv fun _ => σ).sum_comp, Fintype.sum_prod_type]
  refine sum_congr rfl fun x _ => sum_congr rfl fun w _ => ?_
  simp [Fin.consEquiv, List.ofFn_succ]

theorem predictive_sum [Nonempty σ] (ε : ℝ) (hε : 0 < ε) (seen : List σ) :
    ∑ x : σ, predictive ε (Fintype.card σ) seen x = 1 := by
  have hc : (0 : ℝ) < Fintype.card σ := by exact_mod_cast Fintype.card_pos
  have h : ∑ x : σ, (seen.count x : ℝ) = seen.length := by
    have := List.sum_toFinset_count_eq_length seen
    have h2 : ∑ x : σ, seen.count x = seen.length := by
      rw [← this]
      symm
      apply sum_subset (subset_univ _)
      intro x _ hx
      exact List.count_eq_zero.2 fun h => hx (List.mem_toFinset.2 h)
    exact_mod_cast h2
  unfold predictive
  rw [← sum_div, sum_add_distrib, h, sum_const, card_univ, nsmul_eq_mul, mul_comm ε]
  exact div_self (by positivity)

/-- the sequential predictor is a probability distribution over the continuations -/
theorem sequential_distribution [Nonempty σ] (ε : ℝ) (hε : 0 < ε) (n : Nat) (seen : List σ) :
    ∑ v : Fin n → σ, (2 : ℝ) ^ (-(sequentialBits ε (Fintype.card σ) seen (List.ofFn v))) = 1 := by
  induction n generalizing seen with
  | zero => simp [sequentialBits]
  | succ n ih =>
    rw [sum_seq_succ n fun l => (2 : ℝ) ^ (-(sequentialBits ε (Fintype.card σ) seen l))]
    have hc : (0 : ℝ) < Fintype.card σ := by exact_mod_cast Fintype.card_pos
    have e : ∀ x : σ, ∑ w : Fin n → σ,
        (2 : ℝ) ^ (-(sequentialBits ε (Fintype.card σ) seen (x :: List.ofFn w))) =
          predictive ε (Fintype.card σ) seen x := by
      intro x
      have hp : 0 < predictive ε (Fintype.card σ) seen x := by unfold predictive; positivity
      have e2 : ∀ w : Fin n → σ,
          (2 : ℝ) ^ (-(sequentialBits ε (Fintype.card σ) seen (x :: List.ofFn w))) =
            predictive ε (Fintype.card σ) seen x *
              (2 : ℝ) ^ (-(sequentialBits ε (Fintype.card σ) (seen ++ [x]) (List.ofFn w))) := by
        intro w
        rw [sequentialBits, neg_add, neg_neg, Real.rpow_add (by norm_num),
          Real.rpow_logb (by norm_num) (by norm_num) hp]
      rw [sum_congr rfl fun w _ => e2 w, ← mul_sum, ih, mul_one]
    rw [sum_congr rfl fun x _ => e x, predictive_sum ε hε]

/-- C164: over all sequences of length `n` of symbols of a finite alphabet, the probabilities
`2 ^ -prequential_coding_length(counts of the sequence)` add up to exactly 1: the function is the
length function of an optimal code for the sequences of length `n`. -/
theorem C164_prequential_distribution [Nonempty σ] (ε : ℝ) (hε : 0 < ε) (alphabet : List σ)
    (hn : alphabet.Nodup) (ha : ∀ a, a ∈ alphabet) (n : Nat) :
    ∑ v : Fin n → σ,
      (2 : ℝ) ^ (-(prequentialCodingLength (symbolCounts alphabet (List.ofFn v)) ε)) = 1 := by
  have hcard : alphabet.length = Fintype.card σ := by
    rw [← List.toFinset_card_of_nodup hn, ← card_univ]
    congr 1
    ext a
    simp [ha a]
  rw [← sequential_distribution ε hε n ([] : List σ), ← hcard]
  refine sum_congr rfl fun v _ => ?_
  rw [symbolCounts, C20_prequential ε hε alphabet hn _ fun x _ => ha x]

/-- the sequences of length `n` in which every symbol `a` occurs `c a` times -/
def withCounts (n : Nat) (c : σ → Nat) : Finset (Fin n → σ) :=
  univ.filter fun v => ∀ a, (List.ofFn v).count a = c a

theorem card_withCounts (n : Nat) (c : σ → Nat) (hc : ∑ a, c a = n) :
    (withCounts n c).card * ∏ a, (c a).factorial = n.factorial := by
  induction n generalizing c with
  | zero =>
    have h0 : ∀ a, c a = 0 := fun a => (sum_eq_zero_iff.1 hc) a (mem_univ a)
    have : withCounts 0 c = univ := by
      ext v; simp [withCounts, h0]
    rw [this]; simp [h0]
  | succ n ih =>
    -- split by the first symbol
    have hsplit : (withCounts (n + 1) c).card =
        ∑ x : σ, if c x = 0 then 0 else (withCounts n (Function.update c x (c x - 1))).card := by
      have h1 : ∀ (m : Nat) (d : σ → Nat), ((withCounts m d).card : ℝ) =
          ∑ v : Fin m → σ, if ∀ a, (List.ofFn v).count a = d a then (1 : ℝ) else 0 := by
        intro m d
        rw [withCounts, card_filter]; push_cast; rfl
      have : ((withCounts (n + 1) c).card : ℝ) = ((∑ x : σ, if c x = 0 then 0 else
          (withCounts n (Function.update c x (c x - 1))).card : Nat) : ℝ) := by
        rw [h1, sum_seq_succ n fun l => if ∀ a, l.count a = c a then (1 : ℝ) else 0]
        push_cast
        refine sum_congr rfl fun x _ => ?_
        by_cases hx : c x = 0
        · rw [if_pos hx]
          refine sum_eq_zero fun w _ => if_neg fun h => ?_
          have := h x
          rw [List.count_cons_self, hx] at this
          omega
        · rw [if_neg hx, h1]
          refine sum_congr rfl fun w _ => ?_
          have : (∀ a, (x :: List.ofFn w).count a = c a) ↔
              ∀ a, (List.ofFn w).count a = Function.update c x (c x - 1) a := by
            refine forall_congr' fun a => ?_
            by_cases hax : a = x
            · subst hax
              rw [List.count_cons_self, Function.update_self]; omega
            · rw [List.count_cons_of_ne (Ne.symm hax), Function.update_of_ne hax]
          by_cases hh : ∀ a, (x :: List.ofFn w).count a = c a
          · rw [if_pos hh, if_pos (this.1 hh)]
          · rw [if_neg hh, if_neg fun h => hh (this.2 h)]
      exact_mod_cast this
    rw [hsplit, sum_mul]
    have hterm : ∀ x : σ, (if c x = 0 then 0 else
        (withCounts n (Function.update c x (c x - 1))).card) * ∏ a, (c a).factorial =
        c x * n.factorial := by
      intro x
      by_cases hx : c x = 0
      · simp [hx]
      · rw [if_neg hx]
        have hsum : ∑ a, Function.update c x (c x - 1) a = n := by
          have h1 := Finset.add_sum_erase univ c (mem_univ x)
          have h2 := Finset.add_sum_erase univ (Function.update c x (c x - 1)) (mem_univ x)
          rw [Function.update_self, sum_congr rfl fun a ha =>
            Function.update_of_ne (ne_of_mem_erase ha) _ _] at h2
          omega
        have hprod : ∏ a, (c a).factorial =
            c x * ∏ a, (Function.update c x (c x - 1) a).factorial := by
          have h1 := Finset.mul_prod_erase univ (fun a => (c a).factorial) (mem_univ x)
          have h2 := Finset.mul_prod_erase univ
            (fun a => (Function.update c x (c x - 1) a).factorial) (mem_univ x)
          simp only [Function.update_self] at h2
          have h3 : ∏ a ∈ univ.erase x, (Function.update c x (c x - 1) a).factorial =
              ∏ a ∈ univ.erase x, (c a).factorial :=
            prod_congr rfl fun a ha => by rw [Function.update_of_ne (ne_of_mem_erase ha)]
          rw [← h1, ← h2, h3, ← mul_assoc, Nat.mul_factorial_pred hx]
        rw [hprod, ← ih _ hsum]; ring
    rw [sum_congr rfl fun x _ => hterm x, ← sum_mul, hc, Nat.factorial_succ]

/-- C164: `log2multinom` of the symbol counts of a sequence is the logarithm of the number of
sequences with the same counts: given the counts, it is the cost of naming the sequence. -/
theorem C164_log2multinom_counts (alphabet : List σ) (hn : alphabet.Nodup) (ha : ∀ a, a ∈ alphabet)
    (xs : List σ) :
    log2multinom xs.length ((symbolCounts alphabet xs).map Nat.cast) =
      .ok (Real.logb 2 (withCounts xs.length fun a => xs.count a).card) := by
  have hs : ∑ a : σ, xs.count a = xs.length := by
    rw [← List.sum_toFinset_count_eq_length xs]
    symm
    apply sum_subset (subset_univ _)
    intro x _ hx
    exact List.count_eq_zero.2 fun h => hx (List.mem_toFinset.2 h)
  have hu : alphabet.toFinset = univ := by ext a; simp [ha a]
  have h1 : (symbolCounts alphabet xs).sum = xs.length := by
    rw [symbolCounts, ← List.sum_toFinset _ hn, hu, hs]
  obtain ⟨c, hc0, hc1, hc2, _⟩ := (C18_log2multinom xs.length (symbolCounts alphabet xs)).2 h1.symm
  rw [hc2]
  have h2 : ((symbolCounts alphabet xs).map Nat.factorial).prod = ∏ a, (xs.count a).factorial := by
    rw [symbolCounts, List.map_map, ← hu, List.prod_toFinset _ hn]; rfl
  have h3 := card_withCounts xs.length (fun a => xs.count a) hs
  rw [h2, ← h3] at hc1
  have hpos : 0 < ∏ a, (xs.count a).factorial := prod_pos fun a _ => Nat.factorial_pos _
  rw [Nat.eq_of_mul_eq_mul_right hpos hc1]

/-- C164: the prequential code, which does not know the counts beforehand, is never shorter than
the code that does. -/
theorem C164_prequential_ge_multinom [Nonempty σ] (ε : ℝ) (hε : 0 < ε) (alphabet : List σ)
    (hn : alphabet.Nodup) (ha : ∀ a, a ∈ alphabet) (xs : List σ) :
    ∃ v, log2multinom xs.length ((symbolCounts alphabet xs).map Nat.cast) = .ok v ∧
      v ≤ prequentialCodingLength (symbolCounts alphabet xs) ε := by
  refine ⟨_, C164_log2multinom_counts alphabet hn ha xs, ?_⟩
  set S := withCounts xs.length fun a => xs.count a with hS
  set p := prequentialCodingLength (symbolCounts alphabet xs) ε with hp
  have hmem : ∀ v ∈ S, prequentialCodingLength (symbolCounts alphabet (List.ofFn v)) ε = p := by
    intro v hv
    have h1 := (mem_filter.1 hv).2
    rw [hp, symbolCounts, symbolCounts]
    congr 1
    exact List.map_congr_left fun a _ => h1 a
  have h1 := C164_prequential_distribution ε hε alphabet hn ha xs.length
  have h2 : ∑ v ∈ S, (2 : ℝ) ^ (-(prequentialCodingLength (symbolCounts alphabet (List.ofFn v)) ε)) ≤ 1 := by
    rw [← h1]
    exact sum_le_sum_of_subset_of_nonneg (subset_univ _)
      fun v _ _ => (Real.rpow_pos_of_pos (by norm_num) _).le
  rw [sum_congr rfl fun v hv => by rw [hmem v hv], sum_const, nsmul_eq_mul, Real.rpow_neg (by norm_num),
    ← div_eq_mul_inv, div_le_one (Real.rpow_pos_of_pos (by norm_num) _)] at h2
  have h3 : 0 < S.card := by
    apply card_pos.2
    refine ⟨fun i => xs[i], mem_filter.2 ⟨mem_univ _, fun a => ?_⟩⟩
    simp
  rw [Real.logb_le_iff_le_rpow (by norm_num) (by exact_mod_cast h3)]
  exact h2

/-- non-vacuity: a binary alphabet; the four sequences of length 2 -/
example : ∑ v : Fin 2 → Bool,
    (2 : ℝ) ^ (-(prequentialCodingLength (symbolCounts [true, false] (List.ofFn v)) (1 / 2))) = 1 :=
  C164_prequential_distribution (1 / 2) (by norm_num) [true, false] (by decide) (by decide) 2

/-- non-vacuity: 3 sequences have two `true` and one `false` -/
example : (withCounts 3 fun b : Bool => [true, true, false].count b).card = 3 := by decide

end Prolothar.Mdl
