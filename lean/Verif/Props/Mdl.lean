import Verif.Lemmas.Mdl
/-
Properties C17, C18, C20, C76, C77, C78 of /repo/prolothar_common/mdl_utils.pyx.
The specification is `Verif/Spec/Mdl.lean`.
-/
namespace Prolothar.Mdl

/-- C17: for `n ≥ 1`, `L_N(n)` terminates (for every sufficiently large number of loop iterations
`fuel`) with `log2(2.8565064)` plus the sum of the positive iterated logarithms of `n`. -/
theorem C17_value (n : Int) (hn : 1 ≤ n) :
    ∃ s, IterLogSum (Real.logb 2 n) s ∧
      ∃ F, ∀ fuel, F ≤ fuel → LN fuel n = .ok (Real.logb 2 2.8565064 + s) := by
  obtain ⟨F, s, h1, h2⟩ := LN_spec n hn
  exact ⟨s, h1, F, fun fuel hf => (h2 fuel hf).1⟩

/-- C17: the sum of iterated logarithms always exists and is unique, so `C17_value` determines the
result. -/
theorem C17_value_unique (x : ℝ) : ∃! s, IterLogSum x s := by
  obtain ⟨s, hs⟩ := IterLogSum.total x
  exact ⟨s, hs, fun t ht => ht.unique hs⟩

/-- C17: the precomputed table is transparent: with and without it the same value results. -/
theorem C17_table_transparent (n : Int) (hn : 1 ≤ n) :
    ∃ F, ∀ fuel, F ≤ fuel → LN fuel n = LNWith [] fuel n := by
  obtain ⟨F, s, _, h2⟩ := LN_spec n hn
  exact ⟨F, fun fuel hf => by rw [(h2 fuel hf).1, (h2 fuel hf).2]⟩

/-- C17: ValueError for `n < 1`. -/
theorem C17_error (n : Int) (hn : n < 1) : ∃ F, ∀ fuel, F ≤ fuel → LN fuel n = .error .value := by
  obtain ⟨F, s, _, h2⟩ := LN_spec 1 le_rfl
  refine ⟨F, fun fuel hf => ?_⟩
  have h := (h2 fuel hf).1
  unfold LN at h ⊢
  cases ht : LNTable fuel with
  | error e => rw [ht] at h; simp [bind, Except.bind] at h
  | ok t => simp [bind, Except.bind, LNWith, hn]

/-- C17: the code length is positive (so it never collides with Cython's error value 0.0) and
non-decreasing. -/
theorem C17_positive_monotone (m n : Int) (hm : 1 ≤ m) (hmn : m ≤ n) :
    ∃ a b F, (∀ fuel, F ≤ fuel → LN fuel m = .ok a ∧ LN fuel n = .ok b) ∧ 0 < a ∧ a ≤ b := by
  obtain ⟨F1, s, h1, h2⟩ := LN_spec m hm
  obtain ⟨F2, t, h3, h4⟩ := LN_spec n (by omega)
  refine ⟨_, _, max F1 F2, fun fuel hf => ⟨(h2 fuel ((le_max_left _ _).trans hf)).1,
    (h4 fuel ((le_max_right _ _).trans hf)).1⟩, ?_, ?_⟩
  · have := h1.nonneg
    have : 0 < Real.logb 2 2.8565064 := Real.logb_pos (by norm_num) (by norm_num)
    linarith
  · have hm' : (0 : ℝ) < m := by exact_mod_cast hm
    have hn' : (0 : ℝ) < n := by exact_mod_cast (by omega : 0 < n)
    have := h1.mono h3 ((Real.logb_le_logb (by norm_num) hm' hn').2 (by exact_mod_cast hmn))
    linarith

/-- a concrete value: `L_N(2) = log2 c + 1`, since `log2 2 = 1` and `log2 1 = 0` -/
example : IterLogSum (Real.logb 2 ((2 : Int) : ℝ)) (1 + 0) := by
  have : Real.logb 2 ((2 : Int) : ℝ) = 1 := by norm_num
  rw [this]
  exact .step one_pos (.stop (by simp))

/-- C18: `log2binom(n, k)` is the logarithm of the binomial coefficient for all `0 ≤ k ≤ n`. -/
theorem C18_log2binom (n k : Nat) (hk : k ≤ n) : log2binom n k = Real.logb 2 (n.choose k) :=
  log2binom_nat n k hk

/-- C18: it is non-negative and symmetric. -/
theorem C18_log2binom_nonneg_symm (n k : Nat) (hk : k ≤ n) :
    0 ≤ log2binom n k ∧ log2binom n k = log2binom n ((n - k : Nat) : Int) := by
  rw [C18_log2binom n k hk, C18_log2binom n (n - k) (Nat.sub_le _ _), Nat.choose_symm hk]
  refine ⟨Real.logb_nonneg (by norm_num) ?_, rfl⟩
  exact_mod_cast Nat.choose_pos hk

/-- C18: `log2multinom(n, ks)` raises ValueError iff `n` is not the sum of the `ks`; otherwise it
is the logarithm of the multinomial coefficient `c = n! / (k1! ... kr!)`, and it is non-negative. -/
theorem C18_log2multinom (n : Nat) (ks : List Nat) :
    (n ≠ ks.sum → log2multinom n (ks.map Nat.cast) = .error .value) ∧
    (n = ks.sum → ∃ c : Nat, 0 < c ∧ c * (ks.map Nat.factorial).prod = n.factorial ∧
      log2multinom n (ks.map Nat.cast) = .ok (Real.logb 2 c) ∧ 0 ≤ Real.logb 2 c) := by
  have hsum : (ks.map (Nat.cast : Nat → Int)).sum = ((ks.sum : Nat) : Int) := by
    induction ks with
    | nil => rfl
    | cons k ks ih => rw [List.map_cons, List.sum_cons, ih, List.sum_cons, Nat.cast_add]
  refine ⟨fun h => ?_, fun h => ?_⟩
  · rw [log2multinom, if_pos]
    rw [hsum]; exact_mod_cast h
  · obtain ⟨c, hc, he⟩ := exists_multinomial ks
    subst h
    refine ⟨c, hc, he, ?_, Real.logb_nonneg (by norm_num) (by exact_mod_cast hc)⟩
    rw [log2multinom, if_neg (by rw [hsum]; simp), foldl_sub, List.map_map]
    have e1 : (ks.map ((fun k : Int => lgamma ((k : ℝ) + 1)) ∘ Nat.cast))
        = ks.map fun k : Nat => lgamma ((k : ℝ) + 1) := by
      apply List.map_congr_left; intro k _; simp
    rw [e1, log_prod_factorial]
    have e2 : (((ks.sum : Nat) : Int) : ℝ) = ((ks.sum : Nat) : ℝ) := Int.cast_natCast _
    rw [e2, lgamma_nat, ← he, Nat.cast_mul, Real.log_mul]
    · unfold Real.logb; congr 2; ring
    · exact_mod_cast hc.ne'
    · have : (ks.map Nat.factorial).prod ≠ 0 := by
        intro h0; rw [h0, mul_zero] at he; exact (Nat.factorial_ne_zero _) he.symm
      exact_mod_cast this

example : (6 : Nat).choose 2 = 15 := by decide
/-- a non-trivial instance of `C18_log2multinom`: 4!/(2!·1!·1!) = 12 -/
example : 12 * ([2, 1, 1].map Nat.factorial).prod = (4 : Nat).factorial ∧ 4 = [2, 1, 1].sum := by decide

/-- C20: for every smoothing `ε > 0`, every alphabet (list of distinct symbols) and every sequence
`xs` over it, the prequential code length of the symbol counts is the number of bits needed to
encode `xs` symbol by symbol with the sequential predictor. Only the counts matter, so the value is
the same for all orders of observation. -/
theorem C20_prequential {σ : Type} [DecidableEq σ] (ε : ℝ) (hε : 0 < ε) (alphabet : List σ)
    (hn : alphabet.Nodup) (xs : List σ) (hx : ∀ x ∈ xs, x ∈ alphabet) :
    prequentialCodingLength (alphabet.map fun a => xs.count a) ε
      = sequentialBits ε alphabet.length [] xs := by
  rw [sequentialBits_eq ε hε alphabet hn xs hx []]
  have hfold : ∀ (l : List Nat) (a : Nat), l.foldl (· + ·) a = a + l.sum := by
    intro l; induction l with
    | nil => simp
    | cons b l ih => intro a; simp [ih]; omega
  unfold prequentialCodingLength
  simp only [List.length_map, hfold, zero_add, sum_counts alphabet hn xs hx, List.nil_append]
  by_cases h : alphabet.length ≤ 1 ∨ xs.length = 0
  · rw [if_pos h]
    rcases h with h | h
    · match alphabet, h with
      | [], _ =>
        have : xs = [] := List.eq_nil_iff_forall_not_mem.2 fun x hx' => by simpa using hx x hx'
        subst this; simp
      | [a], _ =>
        have hc : xs.count a = xs.length := by
          rw [List.count_eq_length]; intro b hb
          have := hx b hb
          simp at this; exact this.symm
        simp [pot, hc]
    · have : xs = [] := List.length_eq_zero_iff.1 h
      subst this; simp
  · rw [if_neg h, foldl_sub, List.map_map]
    congr 1
    unfold pot
    simp only [List.length_nil, Nat.cast_zero, add_zero, List.count_nil]
    have e : (alphabet.map ((fun u : Nat => lgamma (ε + (u : ℝ)) - lgamma ε) ∘ fun a => xs.count a)).sum
        = (alphabet.map fun a => lgamma (ε + (xs.count a : ℝ))).sum
          - (alphabet.map fun _ => lgamma ε).sum := by
      generalize alphabet = B
      induction B with
      | nil => simp
      | cons b B ih =>
        rw [List.map_cons, List.sum_cons, ih]; simp only [List.map_cons, List.sum_cons, Function.comp]; ring
    rw [e]; ring

/-- C20: hence any two sequences with the same symbol counts have the same code length. -/
theorem C20_order_irrelevant {σ : Type} [DecidableEq σ] (ε : ℝ) (hε : 0 < ε) (alphabet : List σ)
    (hn : alphabet.Nodup) (xs ys : List σ) (hx : ∀ x ∈ xs, x ∈ alphabet) (hp : xs.Perm ys) :
    sequentialBits ε alphabet.length [] xs = sequentialBits ε alphabet.length [] ys := by
  rw [← C20_prequential ε hε alphabet hn xs hx,
    ← C20_prequential ε hε alphabet hn ys (fun y hy => hx y (hp.mem_iff.2 hy))]
  congr 1
  apply List.map_congr_left
  intro a _; exact hp.count_eq a

/-- C20: the code length is non-negative. -/
theorem C20_nonneg {σ : Type} [DecidableEq σ] (ε : ℝ) (hε : 0 < ε) (alphabet : List σ)
    (hn : alphabet.Nodup) (xs : List σ) (hx : ∀ x ∈ xs, x ∈ alphabet) :
    0 ≤ prequentialCodingLength (alphabet.map fun a => xs.count a) ε := by
  rw [C20_prequential ε hε alphabet hn xs hx]
  have key : ∀ rest seen : List σ, (∀ x ∈ rest, x ∈ alphabet) →
      0 ≤ sequentialBits ε alphabet.length seen rest := by
    intro rest
    induction rest with
    | nil => intro seen _; simp [sequentialBits]
    | cons x rest ih =>
      intro seen h
      have hm : 1 ≤ alphabet.length := List.length_pos_iff.2 (List.ne_nil_of_mem (h x (by simp)))
      obtain ⟨h1, h2⟩ := predictive_le_one ε hε alphabet.length hm seen x
      have h3 : Real.logb 2 (predictive ε alphabet.length seen x) ≤ 0 :=
        Real.logb_nonpos (by norm_num) h1.le h2
      have := ih (seen ++ [x]) (fun y hy => h y (by simp [hy]))
      rw [sequentialBits]; linarith
  exact key xs [] hx

/-- non-trivial instance of the hypotheses of C20 -/
example : ([0, 1, 2] : List Nat).Nodup ∧ (∀ x ∈ [0, 1, 1, 0, 1], x ∈ [0, 1, 2]) ∧
    [0, 1, 2].map (fun a => [0, 1, 1, 0, 1].count a) = [2, 3, 0] := by decide

/-- C76: for `1 ≤ n ≤ m`, `L_U(m, n)` is the logarithm of the number of ordered ways to write `m`
as a sum of `n` positive integers. `L_U(0, 0) = 0`. -/
theorem C76_LU (m n : Nat) (h1 : 1 ≤ n) (h2 : n ≤ m) :
    ∃ S : Finset (List Nat), (∀ l, l ∈ S ↔ IsComposition m n l) ∧ LU m n = Real.logb 2 S.card := by
  obtain ⟨S, h3, h4⟩ := compositions n m h1 h2
  refine ⟨S, h3, ?_⟩
  have e1 : (m : Int) - 1 = ((m - 1 : Nat) : Int) := by omega
  have e2 : (n : Int) - 1 = ((n - 1 : Nat) : Int) := by omega
  rw [LU, if_neg (by omega), e1, e2, C18_log2binom _ _ (by omega), h4]

theorem C76_LU_zero : LU 0 0 = 0 := by simp [LU]

example : IsComposition 4 2 [1, 3] ∧ IsComposition 4 2 [3, 1] ∧ IsComposition 4 2 [2, 2] := by
  simp [IsComposition]

/-- C77: `L_R(x, precision)` never raises: it terminates with a positive value for every real
number and every integer precision, and it ignores the sign of `x`. -/
theorem C77_LR (x : ℝ) (precision : Int) :
    ∃ v F, (∀ fuel, F ≤ fuel → LR fuel x precision = .ok v ∧ LR fuel (-x) precision = .ok v) ∧ 0 < v := by
  have h3 : 0 < Real.logb 2 3 := Real.logb_pos (by norm_num) (by norm_num)
  by_cases h0 : x = 0
  · subst h0
    exact ⟨Real.logb 2 3, 0, fun fuel _ => by simp [LR], h3⟩
  have hpos : 0 < |x| := abs_pos.2 h0
  have habs : ∀ y : ℝ, y ≠ 0 → (if y < 0 then -y else y) = |y| := by
    intro y _
    by_cases h : y < 0
    · rw [if_pos h, abs_of_neg h]
    · rw [if_neg h, abs_of_nonneg (not_lt.1 h)]
  have LNok : ∀ k : Int, 1 ≤ k → ∃ v F, (∀ fuel, F ≤ fuel → LN fuel k = .ok v) ∧ 0 < v := by
    intro k hk
    obtain ⟨a, b, F, h, ha, _⟩ := C17_positive_monotone k k hk le_rfl
    exact ⟨a, F, fun fuel hf => (h fuel hf).1, ha⟩
  unfold LR
  simp only [h0, neg_eq_zero, if_false, habs x h0, habs (-x) (neg_ne_zero.2 h0), abs_neg]
  generalize hshift : ⌈(precision : ℝ) - Real.logb 10 |x|⌉ = shift
  by_cases hs : shift > 0
  · obtain ⟨a, F1, h1, ha⟩ := LNok shift (by omega)
    obtain ⟨b, F2, h2, hb⟩ := LNok (max ⌈|x| * (10 : ℝ) ^ shift⌉ 1) (le_max_right _ _)
    refine ⟨Real.logb 2 3 * 2 + (a + b), max F1 F2, fun fuel hf => ?_, ?_⟩
    · simp only [if_pos hs, h1 fuel ((le_max_left _ _).trans hf), h2 fuel ((le_max_right _ _).trans hf),
        bind, Except.bind]
      exact ⟨trivial, trivial⟩
    · linarith
  · by_cases hs2 : shift < 0
    · obtain ⟨a, F1, h1, ha⟩ := LNok (-shift) (by omega)
      obtain ⟨b, F2, h2, hb⟩ := LNok (max 1 ⌈|x|⌉) (le_max_left _ _)
      refine ⟨Real.logb 2 3 * 2 + (a + b), max F1 F2, fun fuel hf => ?_, ?_⟩
      · simp only [if_neg hs, if_pos hs2, h1 fuel ((le_max_left _ _).trans hf),
          h2 fuel ((le_max_right _ _).trans hf), bind, Except.bind]
        exact ⟨trivial, trivial⟩
      · linarith
    · obtain ⟨a, F1, h1, ha⟩ := LNok ⌈|x|⌉ (by
        have := Int.ceil_pos.2 hpos
        omega)
      refine ⟨Real.logb 2 3 * 2 + a, F1, fun fuel hf => ?_, ?_⟩
      · simp only [if_neg hs, if_neg hs2, h1 fuel hf, bind, Except.bind]
        exact ⟨trivial, trivial⟩
      · linarith

/-- the number of digits by which `|x|` is shifted, in terms of powers of ten -/
theorem shift_eq_iff (x : ℝ) (h0 : x ≠ 0) (precision s : Int) :
    ⌈(precision : ℝ) - Real.logb 10 |x|⌉ = s ↔
      (10 : ℝ) ^ precision ≤ |x| * 10 ^ s ∧ |x| * (10 : ℝ) ^ s < 10 ^ (precision + 1) := by
  have hpos : 0 < |x| := abs_pos.2 h0
  have h10 : (0 : ℝ) < 10 := by norm_num
  have hp : ∀ k : Int, Real.logb 10 ((10 : ℝ) ^ k) = k := by
    intro k
    rw [← Real.rpow_intCast, Real.logb_rpow (by norm_num) (by norm_num)]
  have hlog : Real.logb 10 (|x| * (10 : ℝ) ^ s) = Real.logb 10 |x| + s := by
    rw [Real.logb_mul hpos.ne' (zpow_pos h10 s).ne', hp]
  rw [Int.ceil_eq_iff,
    ← Real.logb_le_logb (b := 10) (by norm_num) (zpow_pos h10 _) (mul_pos hpos (zpow_pos h10 _)),
    ← Real.logb_lt_logb_iff (b := 10) (by norm_num) (mul_pos hpos (zpow_pos h10 _)) (zpow_pos h10 _),
    hlog, hp, hp]
  push_cast
  constructor
  · rintro ⟨a, b⟩
    exact ⟨by linarith, by linarith⟩
  · rintro ⟨a, b⟩
    exact ⟨by linarith, by linarith⟩

/-- C77: the exact value of `L_R(x, precision)`. Zero costs `log2 3`. Any other `x` is shifted by the
one number `s` of decimal digits for which `10^precision ≤ |x| * 10^s < 10^(precision+1)`; the result
is `2 * log2 3` plus the universal code lengths of `s` and of the shifted number rounded up if `s`
is positive, of `-s` and of `|x|` itself rounded up if `s` is negative, and of `|x|` rounded up alone
if `s` is zero. -/
theorem C77_value (x : ℝ) (precision : Int) :
    (x = 0 → ∀ fuel, LR fuel x precision = .ok (Real.logb 2 3)) ∧
    (x ≠ 0 → ∃ s : Int, ((10 : ℝ) ^ precision ≤ |x| * 10 ^ s ∧ |x| * (10 : ℝ) ^ s < 10 ^ (precision + 1)) ∧
      (∀ t : Int, ((10 : ℝ) ^ precision ≤ |x| * 10 ^ t ∧ |x| * (10 : ℝ) ^ t < 10 ^ (precision + 1)) → t = s) ∧
      ∃ a b F, (∀ fuel, F ≤ fuel → LR fuel x precision = .ok (2 * Real.logb 2 3 + a + b)) ∧
        (0 < s → UniversalLength s a ∧ UniversalLength ⌈|x| * (10 : ℝ) ^ s⌉ b) ∧
        (s < 0 → UniversalLength (-s) a ∧ UniversalLength ⌈|x|⌉ b) ∧
        (s = 0 → a = 0 ∧ UniversalLength ⌈|x|⌉ b)) := by
  refine ⟨fun h0 fuel => by simp [LR, h0], fun h0 => ?_⟩
  have hpos : 0 < |x| := abs_pos.2 h0
  have habs : (if x < 0 then -x else x) = |x| := by
    by_cases h : x < 0
    · rw [if_pos h, abs_of_neg h]
    · rw [if_neg h, abs_of_nonneg (not_lt.1 h)]
  have LNok : ∀ k : Int, 1 ≤ k → ∃ v F, (∀ fuel, F ≤ fuel → LN fuel k = .ok v) ∧ UniversalLength k v := by
    intro k hk
    obtain ⟨s, hs, F, hF⟩ := C17_value k hk
    exact ⟨_, F, hF, s, hs, rfl⟩
  have hc1 : 1 ≤ ⌈|x|⌉ := Int.ceil_pos.2 hpos
  obtain ⟨s, hs⟩ : ∃ s, ⌈(precision : ℝ) - Real.logb 10 |x|⌉ = s := ⟨_, rfl⟩
  refine ⟨s, (shift_eq_iff x h0 precision s).1 hs, fun t ht =>
    ((shift_eq_iff x h0 precision t).2 ht).symm.trans hs, ?_⟩
  have hc2 : 1 ≤ ⌈|x| * (10 : ℝ) ^ s⌉ := Int.ceil_pos.2 (mul_pos hpos (zpow_pos (by norm_num) _))
  unfold LR
  simp only [h0, if_false, habs, hs, max_eq_left hc2, max_eq_right hc1]
  rcases lt_trichotomy s 0 with h | h | h
  · obtain ⟨a, F1, h1, ha⟩ := LNok (-s) (by omega)
    obtain ⟨b, F2, h2, hb⟩ := LNok ⌈|x|⌉ hc1
    refine ⟨a, b, max F1 F2, fun fuel hf => ?_, by omega, fun _ => ⟨ha, hb⟩, by omega⟩
    simp only [if_neg (show ¬ s > 0 by omega), if_pos h, h1 fuel ((le_max_left _ _).trans hf),
      h2 fuel ((le_max_right _ _).trans hf), bind, Except.bind]
    exact congrArg _ (by ring)
  · obtain ⟨b, F2, h2, hb⟩ := LNok ⌈|x|⌉ hc1
    refine ⟨0, b, F2, fun fuel hf => ?_, by omega, by omega, fun _ => ⟨rfl, hb⟩⟩
    simp only [if_neg (show ¬ s > 0 by omega), if_neg (show ¬ s < 0 by omega), h2 fuel hf, bind, Except.bind]
    exact congrArg _ (by ring)
  · obtain ⟨a, F1, h1, ha⟩ := LNok s (by omega)
    obtain ⟨b, F2, h2, hb⟩ := LNok ⌈|x| * (10 : ℝ) ^ s⌉ hc2
    refine ⟨a, b, max F1 F2, fun fuel hf => ?_, fun _ => ⟨ha, hb⟩, by omega, by omega⟩
    simp only [if_pos (show s > 0 from h), h1 fuel ((le_max_left _ _).trans hf),
      h2 fuel ((le_max_right _ _).trans hf), bind, Except.bind]
    exact congrArg _ (by ring)

/-- C77: with precision 1, the number 0.5 is shifted by two digits -/
example : (10 : ℝ) ^ (1 : Int) ≤ |(0.5 : ℝ)| * 10 ^ (2 : Int) ∧
    |(0.5 : ℝ)| * (10 : ℝ) ^ (2 : Int) < 10 ^ ((1 : Int) + 1) := by
  norm_num

/-- C78: `sum_log_i_from_1_to_n(n)` is `log2 1 + log2 2 + ... + log2 n` for `n ≥ 1`, whether served
from the table or computed, and raises ValueError for `n < 1`. -/
theorem C78_sumLog (n : Int) :
    (n < 1 → sumLog n = .error .value) ∧
    (1 ≤ n → sumLog n = .ok ((List.range n.toNat).map fun i : Nat => Real.logb 2 ((i : ℝ) + 1)).sum) := by
  have hval : ∀ m : Nat, lgamma ((m : ℝ) + 1) / Real.log 2
      = ((List.range m).map fun i : Nat => Real.logb 2 ((i : ℝ) + 1)).sum := by
    intro m
    induction m with
    | zero => simp [lgamma]
    | succ m ih =>
      rw [List.range_succ, List.map_append, List.sum_append, ← ih, Nat.cast_succ,
        lgamma_succ (by positivity)]
      simp [Real.logb]; ring
  have hW : ∀ n : Int, 1 ≤ n → sumLogWith [] n
      = .ok ((List.range n.toNat).map fun i : Nat => Real.logb 2 ((i : ℝ) + 1)).sum := by
    intro n hn
    rw [sumLogWith, if_neg (by omega), ← hval]
    have : ((n.toNat : ℝ)) = (n : ℝ) := by
      have h : ((n.toNat : Int) : ℝ) = (n : ℝ) := by rw [Int.toNat_of_nonneg (by omega)]
      rw [← h, Int.cast_natCast]
    simp [this]
  have htab : sumLogTable = .ok ((List.range 100).map fun m =>
      ((List.range (m + 1)).map fun i : Nat => Real.logb 2 ((i : ℝ) + 1)).sum) := by
    unfold sumLogTable
    refine mapM_ok _ _ _ fun m _ => ?_
    rw [hW _ (by omega)]
    have : ((m : Int) + 1).toNat = m + 1 := by omega
    rw [this]
  unfold sumLog
  simp only [htab, bind, Except.bind]
  refine ⟨fun h => by rw [sumLogWith, if_pos h], fun h => ?_⟩
  rw [sumLogWith, if_neg (by omega), List.getElem?_map]
  by_cases h100 : (n - 1).toNat < 100
  · rw [List.getElem?_range h100]
    have : (n - 1).toNat + 1 = n.toNat := by omega
    simp only [Option.map_some, this]
  · rw [List.getElem?_eq_none (by simpa using h100)]
    have := hW n h
    rw [sumLogWith, if_neg (by omega)] at this
    simpa using this

end Prolothar.Mdl
