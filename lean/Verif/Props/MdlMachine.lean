import Verif.Model.MdlMachine
import Verif.Props.Mdl
import Verif.Props.CInt
/-
C152: code lengths with C integers.
-/
namespace Prolothar.MdlMachine
open Prolothar.CInt Prolothar.Mdl

/-- C152: `L_N` accepts exactly the numbers that fit into a C `int`. -/
theorem C152_LN (fuel : Nat) (n : Int) :
    (-2147483648 ≤ n → n ≤ 2147483647 → LN fuel n = Mdl.LN fuel n) ∧ (2147483647 < n → LN fuel n = .error .overflow) := by
  constructor
  · intro h h'
    unfold LN
    rw [toInt_ok h h', ok_bind]
  · intro h
    unfold LN
    rw [toInt_error (Or.inr h)]
    rfl

/-- C152: `log2binom(n, k)` is the logarithm of the binomial coefficient for every `n` below the largest C `int` and every integer `k`
(within the range of a C `int`, and so is the difference): minus infinity where the binomial coefficient is 0, that is unless
`0 ≤ k ≤ n`. -/
theorem C152_log2binom (ov : Int → Int) (n : Nat) (k : Int) (hn : n < 2147483647) (hk : -2147483648 ≤ k) (hk' : k < 2147483647)
    (hd : (n : Int) + 1 - k ≤ 2147483647) :
    log2binom ov n k =
      .ok (if 0 ≤ k ∧ k ≤ n then .fin (Real.logb 2 (n.choose k.toNat)) else .negInf) := by
  unfold log2binom
  rw [toInt_ok (by omega) (by omega), ok_bind, toInt_ok (by omega) (by omega), ok_bind]
  show Except.ok _ = _
  congr 1
  unfold log2binomC
  by_cases h0 : k = 0
  · subst h0
    rw [if_pos rfl, if_pos (by omega)]
    simp
  rw [if_neg h0]
  by_cases h1 : k = 1
  · subst h1
    rw [if_pos rfl]
    unfold clog2
    rw [if_neg (by omega)]
    by_cases hn0 : n = 0
    · rw [if_pos (by omega), if_neg (by omega)]
    · rw [if_neg (by omega), if_pos (by omega)]
      simp
  rw [if_neg h1, cint_eq (x := (n : Int) + 1) (by omega) (by omega), cint_eq (x := 1 + (n : Int)) (by omega) (by omega),
    cint_eq (x := 1 + (n : Int) - k) (by omega) (by omega), cint_eq (x := 1 + k) (by omega) (by omega)]
  unfold cln
  rw [if_neg (by omega), if_neg (by omega)]
  unfold betalnC betalnPole
  by_cases hr : 0 ≤ k ∧ k ≤ n
  · obtain ⟨j, rfl⟩ := Int.eq_ofNat_of_zero_le hr.1
    rw [if_pos hr, if_neg (by omega), if_neg (by omega), Int.toNat_natCast, ← C18_log2binom n j (by omega)]
    unfold Mdl.log2binom
    rw [if_neg h0, if_neg h1]
    show Dbl.fin _ = _
    push_cast
    rfl
  · rw [if_neg hr]
    by_cases hlt : k < 0
    · rw [if_neg (by omega), if_pos (by omega), if_neg (by omega)]
      rfl
    · rw [if_pos (by omega), if_neg (by omega)]
      rfl

/-- C152: `L_U(m, n)` is the logarithm of the number of ways to write the positive number `m` as a sum of `n` positive numbers, minus
infinity if there is none, for all integers in the range of a C `int` (and their difference). -/
theorem C152_LU (ov : Int → Int) (m : Nat) (n : Int) (hm : 1 ≤ m) (h : m ≤ 2147483647) (hn : -2147483647 ≤ n) (hn' : n ≤ 2147483647)
    (hd : (m : Int) + 1 - n ≤ 2147483647) :
    LU ov m n = .ok (if 1 ≤ n ∧ n ≤ m then .fin (Real.logb 2 ((m - 1).choose (n - 1).toNat)) else .negInf) := by
  have e := C152_log2binom ov (m - 1) (n - 1) (by omega) (by omega) (by omega) (by omega)
  unfold log2binom at e
  rw [toInt_ok (by omega) (by omega), ok_bind, toInt_ok (by omega) (by omega), ok_bind] at e
  unfold LU
  rw [toInt_ok (by omega) (by omega), ok_bind, toInt_ok (by omega) (by omega), ok_bind, if_neg (by omega),
    cint_eq (by omega) (by omega), cint_eq (by omega) (by omega)]
  have e1 : (m : Int) - 1 = ((m - 1 : Nat) : Int) := by omega
  rw [e1]
  refine e.trans ?_
  by_cases hr : 1 ≤ n ∧ n ≤ m
  · rw [if_pos hr, if_pos (by omega)]
  · rw [if_neg hr, if_neg (by omega)]

/-- C152: at the border: `L_U(0, 0)` is 0. There is no way to write 0 as a sum of one or more positive numbers, but the result is not minus
infinity: it is 0 for one term (disagreement) and NaN for more terms. -/
theorem C152_LU_zero (ov : Int → Int) :
    LU ov 0 0 = .ok (.fin 0) ∧ LU ov 0 1 = .ok (.fin 0) ∧ ∀ n : Int, 2 ≤ n → n < 2147483647 → LU ov 0 n = .ok .nan := by
  refine ⟨?_, ?_, fun n hn hn' => ?_⟩
  · unfold LU
    rw [toInt_ok (by omega) (by omega), ok_bind, ok_bind, if_pos ⟨rfl, rfl⟩]
    rfl
  · unfold LU
    rw [toInt_ok (by omega) (by omega), ok_bind, toInt_ok (by omega) (by omega), ok_bind, if_neg (by omega),
      cint_eq (by omega) (by omega), cint_eq (by omega) (by omega)]
    unfold log2binomC
    rw [if_pos (by omega)]
    rfl
  · unfold LU
    rw [toInt_ok (by omega) (by omega), ok_bind, toInt_ok (by omega) (by omega), ok_bind, if_neg (by omega),
      cint_eq (x := (0 : Int) - 1) (by omega) (by omega), cint_eq (x := n - 1) (by omega) (by omega)]
    show Except.ok _ = _
    congr 1
    unfold log2binomC
    rw [if_neg (by omega)]
    by_cases h1 : n - 1 = 1
    · rw [if_pos h1]
      unfold clog2
      rw [if_pos (by omega)]
    · rw [if_neg h1, cint_eq (x := (0 : Int) - 1 + 1) (by omega) (by omega), cint_eq (x := 1 + ((0 : Int) - 1)) (by omega) (by omega),
        cint_eq (x := 1 + ((0 : Int) - 1) - (n - 1)) (by omega) (by omega), cint_eq (x := 1 + (n - 1)) (by omega) (by omega)]
      have eb : betalnC (1 + ((0 : Int) - 1) - (n - 1)) (1 + (n - 1)) = .posInf := by
        unfold betalnC betalnPole
        rw [if_pos (by omega), if_neg (by omega)]
      have ec : cln ((0 : Int) - 1 + 1) = .negInf := by
        unfold cln
        rw [if_neg (by omega), if_pos (by omega)]
      rw [eb, ec]
      rfl

/-- C152 (disagreement): for the largest C `int` the result is NaN if overflow wraps around, for every `k ≥ 2`. -/
theorem C152_log2binom_wrong (k : Int) (hk : 2 ≤ k) (hk' : k ≤ 2147483647) : log2binom wrap 2147483647 k = .ok .nan := by
  unfold log2binom
  rw [toInt_ok (by omega) (by omega), ok_bind, toInt_ok (by omega) (by omega), ok_bind]
  show Except.ok _ = _
  unfold log2binomC
  rw [if_neg (by omega), if_neg (by omega)]
  have : cint wrap (2147483647 + 1) = -2147483648 := by decide
  rw [this]
  have e : cln (-2147483648) = .nan := by unfold cln; rw [if_pos (by omega)]
  rw [e]
  generalize (betalnC _ _).neg = x
  cases x <;> rfl

theorem sumCounts_eq (ov : Int → Int) (counts : List Nat) (total : Int) (h0 : 0 ≤ total) (h : total + (counts.sum : Nat) ≤ 2147483647) :
    sumCounts ov counts total = .ok (total + (counts.sum : Nat)) := by
  induction counts generalizing total with
  | nil => simp [sumCounts]
  | cons i rest ih =>
    rw [List.sum_cons] at h ⊢
    unfold sumCounts
    rw [toInt_ok (by omega) (by omega), ok_bind, cint_eq (by omega) (by omega), ih _ (by omega) (by push_cast at h ⊢; omega)]
    push_cast
    rw [add_assoc]

theorem foldl_add_sum (l : List Nat) (a : Nat) : l.foldl (· + ·) a = a + l.sum := by
  induction l generalizing a with
  | nil => simp
  | cons x xs ih => simp only [List.foldl_cons, ih, List.sum_cons]; omega

/-- C152: the prequential code length is right for all sequences whose length fits into a C `int`. -/
theorem C152_prequential (ov : Int → Int) (counts : List Nat) (epsilon : ℝ) (h : counts.sum ≤ 2147483647) :
    prequentialCodingLength ov counts epsilon = .ok (Mdl.prequentialCodingLength counts epsilon) := by
  unfold prequentialCodingLength Mdl.prequentialCodingLength
  rw [sumCounts_eq ov counts 0 (le_refl _) (by omega), ok_bind]
  dsimp only
  rw [foldl_add_sum, zero_add, zero_add]
  by_cases hc : counts.length ≤ 1 ∨ counts.sum = 0
  · rw [if_pos hc, if_pos (by rcases hc with hc | hc; exacts [Or.inl hc, Or.inr (by omega)])]
    rfl
  · rw [if_neg hc, if_neg (by push Not at hc ⊢; exact ⟨hc.1, by omega⟩)]
    rw [Int.cast_natCast]
    rfl

/-- C152 (disagreement): a sequence of 2^32 symbols has code length 0 if overflow wraps around. -/
theorem C152_prequential_wrong (epsilon : ℝ) : prequentialCodingLength wrap [2147483647, 2147483647, 2] epsilon = .ok 0 := by
  have : sumCounts wrap [2147483647, 2147483647, 2] 0 = .ok 0 := by decide
  unfold prequentialCodingLength
  rw [this, ok_bind, if_pos (Or.inr rfl)]
  rfl

/-- C152: a count that does not fit is an error. -/
theorem C152_prequential_error (ov : Int → Int) (counts : List Nat) (epsilon : ℝ) (h : ∃ c ∈ counts, 2147483647 < c) :
    prequentialCodingLength ov counts epsilon = .error .overflow := by
  have key : ∀ (counts : List Nat) (total : Int), (∃ c ∈ counts, 2147483647 < c) → sumCounts ov counts total = .error .overflow := by
    intro counts
    induction counts with
    | nil => rintro _ ⟨c, hc, _⟩; exact absurd hc (by simp)
    | cons i rest ih =>
      rintro total ⟨c, hc, hc'⟩
      unfold sumCounts
      by_cases hi : 2147483647 < i
      · rw [toInt_error (Or.inr (by omega))]; rfl
      · rw [toInt_ok (by omega) (by omega), ok_bind]
        rcases List.mem_cons.1 hc with rfl | hc
        · omega
        · exact ih _ ⟨c, hc, hc'⟩
  unfold prequentialCodingLength
  rw [key counts 0 h]
  rfl

theorem shift_mul {x : ℝ} (hx : 0 < x) (p : Int) :
    (10 : ℝ) ^ p ≤ x * 10 ^ ⌈(p : ℝ) - Real.logb 10 x⌉ ∧ x * 10 ^ ⌈(p : ℝ) - Real.logb 10 x⌉ < (10 : ℝ) ^ (p + 1) := by
  have hlog : x = (10 : ℝ) ^ (Real.logb 10 x) := (Real.rpow_logb (by norm_num) (by norm_num) hx).symm
  have h1 := Int.le_ceil ((p : ℝ) - Real.logb 10 x)
  have h2 := Int.ceil_lt_add_one ((p : ℝ) - Real.logb 10 x)
  generalize ⌈(p : ℝ) - Real.logb 10 x⌉ = s at *
  have e : x * (10 : ℝ) ^ s = (10 : ℝ) ^ (Real.logb 10 x + s) := by
    rw [Real.rpow_add (by norm_num), ← hlog, Real.rpow_intCast]
  rw [e, ← Real.rpow_intCast, ← Real.rpow_intCast]
  constructor
  · exact Real.rpow_le_rpow_of_exponent_le (by norm_num) (by linarith)
  · apply Real.rpow_lt_rpow_of_exponent_lt (by norm_num)
    push_cast
    linarith

/-- the magnitude of the number -/
theorem abs_if (x : ℝ) : (if x < 0 then -x else x) = |x| := by
  split
  · rw [abs_of_neg (by assumption)]
  · rw [abs_of_nonneg (by linarith)]

theorem logb_bounds {x : ℝ} (h1 : (10 : ℝ) ^ (-400 : Int) ≤ x) (h2 : x ≤ (10 : ℝ) ^ (400 : Int)) : -400 ≤ Real.logb 10 x ∧ Real.logb 10 x ≤ 400 := by
  have hx : 0 < x := lt_of_lt_of_le (by positivity) h1
  constructor
  · rw [Real.le_logb_iff_rpow_le (by norm_num) hx]
    have : (10 : ℝ) ^ (-400 : ℝ) = (10 : ℝ) ^ (-400 : Int) := by rw [← Real.rpow_intCast]; norm_num
    rw [this]
    exact h1
  · rw [Real.logb_le_iff_le_rpow (by norm_num) hx]
    have : (10 : ℝ) ^ (400 : ℝ) = (10 : ℝ) ^ (400 : Int) := by rw [← Real.rpow_intCast]; norm_num
    rw [this]
    exact h2

/-- the number of decimal places fits into a C `int` for all doubles -/
theorem shift_fits {x : ℝ} (h1 : (10 : ℝ) ^ (-400 : Int) ≤ x) (h2 : x ≤ (10 : ℝ) ^ (400 : Int)) {p : Int} (hp : -1000 ≤ p) (hp' : p ≤ 1000) :
    -2000 ≤ ⌈(p : ℝ) - Real.logb 10 x⌉ ∧ ⌈(p : ℝ) - Real.logb 10 x⌉ ≤ 2000 := by
  obtain ⟨b1, b2⟩ := logb_bounds h1 h2
  have q1 : (-1000 : ℝ) ≤ p := by exact_mod_cast hp
  have q2 : (p : ℝ) ≤ 1000 := by exact_mod_cast hp'
  constructor
  · have := Int.le_ceil ((p : ℝ) - Real.logb 10 x)
    have : ((-2000 : Int) : ℝ) ≤ ⌈(p : ℝ) - Real.logb 10 x⌉ := by push_cast; linarith
    exact_mod_cast this
  · exact Int.ceil_le.2 (by push_cast; linarith)

/-- C152: `L_R` is the function over unbounded integers for all doubles up to the largest C `int` and up to eight digits of precision. With
cython before version 3, where `10**shift` is a C `long`, the number must not be too small for the precision either. -/
theorem C152_LR (cpow : Bool) (ov : Int → Int) (fuel : Nat) (x : ℝ) (precision : Int) (hp : -1000 ≤ precision) (hp' : precision ≤ 8)
    (hx : x = 0 ∨ (10 : ℝ) ^ (-400 : Int) ≤ |x|) (hx' : |x| ≤ 2147483647)
    (hpow : cpow = true → x = 0 ∨ (10 : ℝ) ^ (precision - 18) ≤ |x|) :
    LR cpow ov fuel x precision = Mdl.LR fuel x precision := by
  unfold LR Mdl.LR
  rw [toInt_ok (by omega) (by omega), ok_bind]
  by_cases h0 : x = 0
  · simp only [if_pos h0]
  simp only [if_neg h0, abs_if]
  replace hx : (10 : ℝ) ^ (-400 : Int) ≤ |x| := hx.resolve_left h0
  replace hpow : cpow = true → (10 : ℝ) ^ (precision - 18) ≤ |x| := fun h => (hpow h).resolve_left h0
  have hpos : 0 < |x| := abs_pos.2 h0
  have hbig : |x| ≤ (10 : ℝ) ^ (400 : Int) := le_trans hx' (by rw [show (400 : Int) = ((400 : Nat) : Int) from rfl, zpow_natCast]; exact le_trans (by norm_num : (2147483647 : ℝ) ≤ 10 ^ 10) (pow_le_pow_right₀ (by norm_num) (by norm_num)))
  generalize |x| = y at *
  obtain ⟨s1, s2⟩ := shift_fits hx hbig hp (by omega)
  obtain ⟨m1, m2⟩ := shift_mul hpos precision
  have hceil : ⌈y⌉ ≤ 2147483647 := Int.ceil_le.2 (by exact_mod_cast hx')
  have hceil0 : 0 ≤ ⌈y⌉ := Int.ceil_nonneg hpos.le
  have hshift : cpow = true → ⌈(precision : ℝ) - Real.logb 10 y⌉ ≤ 18 := by
    intro h
    rw [Int.ceil_le]
    have := Real.logb_le_logb_of_le (b := 10) (by norm_num) (by positivity) (hpow h)
    rw [← Real.rpow_intCast, Real.logb_rpow (by norm_num) (by norm_num)] at this
    push_cast at this ⊢
    linarith
  generalize ⌈(precision : ℝ) - Real.logb 10 y⌉ = s at *
  rw [toInt_ok (by omega) (by omega), ok_bind]
  have hten : s > 0 → tenPow cpow ov s = (10 : ℝ) ^ s := by
    intro hs
    unfold tenPow
    cases cpow with
    | false => simp
    | true =>
      have h18 := hshift rfl
      have hle : (10 : Int) ^ s.toNat ≤ 9223372036854775807 := by
        calc (10 : Int) ^ s.toNat ≤ 10 ^ 18 := pow_le_pow_right₀ (by norm_num) (by omega)
          _ ≤ _ := by norm_num
      simp only [if_true, if_pos hle]
      push_cast
      rw [← zpow_natCast, Int.toNat_of_nonneg hs.le]
  by_cases hs : s > 0
  · rw [if_pos hs, if_pos hs, hten hs]
    have c1 : ⌈y * (10 : ℝ) ^ s⌉ ≤ 1000000000 := by
      rw [Int.ceil_le]
      have : (10 : ℝ) ^ (precision + 1) ≤ (10 : ℝ) ^ (9 : Int) := zpow_le_zpow_right₀ (by norm_num) (by omega)
      norm_num at this ⊢
      linarith
    have c0 : 0 ≤ ⌈y * (10 : ℝ) ^ s⌉ := Int.ceil_nonneg (by positivity)
    rw [cint_eq (by omega) (by omega)]
  · rw [if_neg hs, if_neg hs]
    rw [cint_eq (x := -s) (by omega) (by omega), cint_eq (x := ⌈y⌉) (by omega) (by omega)]

/-- the value of a double that does not fit into an `int`, as computed by x86 processors (`cvttsd2si`) -/
def x86 (_ : Int) : Int := -2147483648

/-- C152 (disagreement): on x86, from a precision of ten digits on the code length of a number below `10 ^ precision` is that of a number whose
digits are all zero: the digits do not count at all. -/
theorem C152_LR_precision_wrong (fuel : Nat) (x : ℝ) (precision : Int) (hp : 10 ≤ precision) (hp' : precision ≤ 1000)
    (hx : (10 : ℝ) ^ (-400 : Int) ≤ x) (hx' : x ≤ (10 : ℝ) ^ (400 : Int)) (hs : 0 < ⌈(precision : ℝ) - Real.logb 10 x⌉) :
    LR false x86 fuel x precision = (do
      let a ← Mdl.LN fuel ⌈(precision : ℝ) - Real.logb 10 x⌉
      let b ← Mdl.LN fuel 1
      .ok (Real.logb 2 3 * 2 + (a + b))) := by
  have hpos : 0 < x := lt_of_lt_of_le (by positivity) hx
  obtain ⟨s1, s2⟩ := shift_fits hx hx' (p := precision) (by omega) hp'
  obtain ⟨m1, m2⟩ := shift_mul hpos precision
  unfold LR
  rw [toInt_ok (by omega) (by omega), ok_bind]
  simp only [if_neg hpos.ne', abs_if, abs_of_pos hpos]
  generalize ⌈(precision : ℝ) - Real.logb 10 x⌉ = s at *
  rw [toInt_ok (by omega) (by omega), ok_bind, if_pos hs]
  have ht : tenPow false x86 s = (10 : ℝ) ^ s := by simp [tenPow]
  rw [ht]
  have hbig : 2147483647 < ⌈x * (10 : ℝ) ^ s⌉ := by
    rw [Int.lt_ceil]
    have : (10 : ℝ) ^ (10 : Int) ≤ (10 : ℝ) ^ precision := zpow_le_zpow_right₀ (by norm_num) hp
    norm_num at this ⊢
    linarith
  have hc : cint x86 ⌈x * (10 : ℝ) ^ s⌉ = -2147483648 := by
    unfold cint isInt
    rw [if_neg (by simp; omega)]
    rfl
  rw [hc]
  rfl

theorem logb_decade {x : ℝ} (h1 : (10 : ℝ) ^ 9 < x) (h2 : x < (10 : ℝ) ^ 10) : ⌈((5 : Int) : ℝ) - Real.logb 10 x⌉ = -4 := by
  have hx : 0 < x := lt_trans (by positivity) h1
  have b1 : 9 < Real.logb 10 x := by
    rw [Real.lt_logb_iff_rpow_lt (by norm_num) hx]
    norm_num at h1 ⊢
    exact h1
  have b2 : Real.logb 10 x < 10 := by
    rw [Real.logb_lt_iff_lt_rpow (by norm_num) hx]
    norm_num at h2 ⊢
    exact h2
  rw [Int.ceil_eq_iff]
  push_cast
  constructor <;> linarith

/-- C152 (disagreement): on x86, with the default precision, the code of 3000000000 is shorter than that of 2000000000. -/
theorem C152_LR_large_wrong :
    ∃ a b F, (∀ fuel, F ≤ fuel → LR false x86 fuel 2000000000 5 = .ok a ∧ LR false x86 fuel 3000000000 5 = .ok b) ∧ b < a := by
  obtain ⟨s1, i1, F1, h1⟩ := C17_value 1 (by norm_num)
  obtain ⟨s2, i2, F2, h2⟩ := C17_value 2000000000 (by norm_num)
  obtain ⟨s4, _, F4, h4⟩ := C17_value 4 (by norm_num)
  refine ⟨Real.logb 2 3 * 2 + ((Real.logb 2 2.8565064 + s4) + (Real.logb 2 2.8565064 + s2)),
    Real.logb 2 3 * 2 + ((Real.logb 2 2.8565064 + s4) + (Real.logb 2 2.8565064 + s1)), max F1 (max F2 F4), fun fuel hf => ?_, ?_⟩
  · replace h1 := h1 fuel (by omega)
    replace h2 := h2 fuel (by omega)
    replace h4 := h4 fuel (by omega)
    have d2 := logb_decade (x := 2000000000) (by norm_num) (by norm_num)
    have d3 := logb_decade (x := 3000000000) (by norm_num) (by norm_num)
    have c2 : ⌈(2000000000 : ℝ)⌉ = 2000000000 := by norm_num
    have c3 : ⌈(3000000000 : ℝ)⌉ = 3000000000 := by norm_num
    constructor
    · unfold LR
      rw [toInt_ok (by norm_num) (by norm_num), ok_bind, if_neg (by norm_num)]
      dsimp only
      rw [if_neg (by norm_num), d2, toInt_ok (by norm_num) (by norm_num), ok_bind, if_neg (by norm_num), if_pos (by norm_num), c2,
        show cint x86 (-(-4)) = 4 by decide, show max 1 (cint x86 2000000000) = 2000000000 by decide, h4, ok_bind, h2, ok_bind]
    · unfold LR
      rw [toInt_ok (by norm_num) (by norm_num), ok_bind, if_neg (by norm_num)]
      dsimp only
      rw [if_neg (by norm_num), d3, toInt_ok (by norm_num) (by norm_num), ok_bind, if_neg (by norm_num), if_pos (by norm_num), c3,
        show cint x86 (-(-4)) = 4 by decide, show max 1 (cint x86 3000000000) = 1 by decide, h4, ok_bind, h1, ok_bind]
  · have e1 : s1 = 0 := i1.unique (.stop (by simp))
    have e2 : 0 < s2 := by
      cases i2 with
      | stop h =>
        exfalso
        have : 0 < Real.logb 2 ((2000000000 : Int) : ℝ) := Real.logb_pos (by norm_num) (by norm_num)
        linarith
      | step hx hs => have := hs.nonneg; linarith
    rw [e1]
    linarith

/-- two's complement with 64 bits -/
def wrap64 (x : Int) : Int := (x + 9223372036854775808) % 18446744073709551616 - 9223372036854775808

/-- C152 (disagreement): with cython before version 3 the digits of small numbers do not count, because `10**shift` overflows: `10 ^ -14` is
encoded with 19 decimal places and a single unit, instead of 100000 units. -/
theorem C152_LR_small_wrong (fuel : Nat) :
    LR true wrap64 fuel ((10 : ℝ) ^ (-14 : Int)) 5 = (do
      let a ← Mdl.LN fuel 19
      let b ← Mdl.LN fuel 1
      .ok (Real.logb 2 3 * 2 + (a + b))) ∧
    Mdl.LR fuel ((10 : ℝ) ^ (-14 : Int)) 5 = (do
      let a ← Mdl.LN fuel 19
      let b ← Mdl.LN fuel 100000
      .ok (Real.logb 2 3 * 2 + (a + b))) := by
  have hl : ⌈((5 : Int) : ℝ) - Real.logb 10 ((10 : ℝ) ^ (-14 : Int))⌉ = 19 := by
    rw [← Real.rpow_intCast, Real.logb_rpow (by norm_num) (by norm_num)]
    norm_num
  have h0 : ¬ (10 : ℝ) ^ (-14 : Int) = 0 := by positivity
  have hn : ¬ (10 : ℝ) ^ (-14 : Int) < 0 := not_lt.2 (by positivity)
  constructor
  · unfold LR
    rw [toInt_ok (by norm_num) (by norm_num), ok_bind, if_neg h0]
    dsimp only
    rw [if_neg hn, hl, toInt_ok (by norm_num) (by norm_num), ok_bind, if_pos (by norm_num)]
    have ht : tenPow true wrap64 19 = -8446744073709551616 := by
      unfold tenPow
      rw [if_pos rfl, if_neg (by decide), show wrap64 (10 ^ Int.toNat 19) = -8446744073709551616 by decide]
      norm_num
    have hc : ⌈(10 : ℝ) ^ (-14 : Int) * -8446744073709551616⌉ = -84467 := by
      rw [Int.ceil_eq_iff]
      norm_num
    rw [ht, hc, show max (cint wrap64 (-84467)) 1 = 1 by decide]
  · unfold Mdl.LR
    simp only [if_neg h0, if_neg hn]
    rw [hl, if_pos (by norm_num)]
    have hc : ⌈(10 : ℝ) ^ (-14 : Int) * (10 : ℝ) ^ (19 : Int)⌉ = 100000 := by
      rw [← zpow_add₀ (by norm_num)]
      norm_num
    rw [hc]
    rfl

-- the hypotheses can be met: 0.25 with the default precision, for both versions of cython
example (cpow : Bool) (ov : Int → Int) (fuel : Nat) : LR cpow ov fuel (1 / 4) 5 = Mdl.LR fuel (1 / 4) 5 := by
  refine C152_LR cpow ov fuel (1 / 4) 5 (by norm_num) (by norm_num) (Or.inr ?_) ?_ (fun _ => Or.inr ?_)
  · rw [abs_of_pos (by norm_num)]
    calc (10 : ℝ) ^ (-400 : Int) ≤ (10 : ℝ) ^ (-1 : Int) := zpow_le_zpow_right₀ (by norm_num) (by norm_num)
      _ ≤ _ := by norm_num
  · rw [abs_of_pos (by norm_num)]; norm_num
  · rw [abs_of_pos (by norm_num)]; norm_num
example (ov : Int → Int) : log2binom ov (5 : Nat) 7 = .ok .negInf := by
  rw [C152_log2binom ov 5 7 (by norm_num) (by norm_num) (by norm_num) (by norm_num), if_neg (by norm_num)]
example : (0 : Int) < ⌈((12 : Int) : ℝ) - Real.logb 10 1⌉ := by simp
example : ∃ c ∈ [3, 2147483648], 2147483647 < c := ⟨2147483648, by simp, by norm_num⟩

end Prolothar.MdlMachine
