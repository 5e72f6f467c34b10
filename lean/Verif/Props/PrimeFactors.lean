import Verif.Lemmas.Float
import Verif.Lemmas.PrimeFactors
/-
Property C21 of /repo/prolothar_common/math_utils.py.
-/
namespace Prolothar.PrimeFactors

/-- C21: let the float format represent the proper divisors of `n` exactly. For every such `n ≥ 1`
`prime_factors(n)` terminates (each loop within `n` iterations) and returns a non-decreasing list
of primes with product `n`. -/
theorem C21_prime_factorisation (rnd : Int → Int) (n : Nat) (hn : 1 ≤ n) (hr : ∀ k : Nat, k ∣ n → k < n → rnd k = k)
    (fuel : Nat) (hfuel : n < fuel) :
    ∃ fs : List Nat, primeFactors rnd fuel n = .ok (fs.map Nat.cast) ∧ fs.prod = n ∧
      (∀ p ∈ fs, p.Prime) ∧ fs.Pairwise (· ≤ ·) :=
  primeFactors_core rnd n hn hr fuel hfuel

/-- C21: for doubles (all integers up to 2^53 are exact) this covers every `1 ≤ n ≤ 2^54`. Above this it is false in general, see
`C21_large_input_wrong`. -/
theorem C21_doubles (rnd : Int → Int) (hr : ∀ k : Nat, k ≤ 2 ^ 53 → rnd k = k)
    (n : Nat) (hn : 1 ≤ n) (hmax : n ≤ 2 ^ 54) (fuel : Nat) (hfuel : n < fuel) :
    ∃ fs : List Nat, primeFactors rnd fuel n = .ok (fs.map Nat.cast) ∧ fs.prod = n ∧
      (∀ p ∈ fs, p.Prime) ∧ fs.Pairwise (· ≤ ·) := by
  refine C21_prime_factorisation rnd n hn ?_ fuel hfuel
  rintro k ⟨c, rfl⟩ hk
  apply hr
  have : 2 ≤ c := by
    by_contra hc
    have : c = 0 ∨ c = 1 := by omega
    rcases this with rfl | rfl <;> simp at hk
  have := Nat.mul_le_mul_left k this
  omega

/-- C21: a prime of any size is its own factorisation. -/
theorem C21_prime (rnd : Int → Int) (h1 : rnd 1 = 1) (p : Nat) (hp : p.Prime) (fuel : Nat) (hfuel : p < fuel) :
    primeFactors rnd fuel p = .ok [(p : Int)] := by
  obtain ⟨fs, e, h2, h3, h4⟩ := C21_prime_factorisation rnd p hp.one_lt.le (fun k hk hlt => by
    rcases (Nat.dvd_prime hp).mp hk with rfl | rfl
    · exact h1
    · omega) fuel hfuel
  rw [e, eq_primeFactorsList h2 h3 h4, Nat.primeFactorsList_prime hp]
  rfl

/-- C21: the result is therefore the prime factorisation (as defined in Mathlib). -/
theorem C21_equals_primeFactorsList (rnd : Int → Int) (hr : ∀ k : Nat, k ≤ 2 ^ 53 → rnd k = k)
    (n : Nat) (hn : 1 ≤ n) (hmax : n ≤ 2 ^ 54) (fuel : Nat) (hfuel : n < fuel) :
    primeFactors rnd fuel n = .ok (n.primeFactorsList.map Nat.cast) := by
  obtain ⟨fs, h1, h2, h3, h4⟩ := C21_doubles rnd hr n hn hmax fuel hfuel
  rw [h1, ← eq_primeFactorsList h2 h3 h4]

/-- with exact arithmetic (`rnd = id`) there is no upper bound -/
theorem C21_exact_arithmetic (n : Nat) (hn : 1 ≤ n) (fuel : Nat) (hfuel : n < fuel) :
    primeFactors id fuel n = .ok (n.primeFactorsList.map Nat.cast) := by
  obtain ⟨fs, h1, h2, h3, h4⟩ := primeFactors_core id n hn (fun _ _ _ => rfl) fuel hfuel
  rw [h1, ← eq_primeFactorsList h2 h3 h4]

/-- C21, n = 0: the loop does not terminate, whatever number of iterations is allowed. -/
theorem C21_zero_diverges (rnd : Int → Int) (h0 : rnd 0 = 0) (fuel : Nat) :
    primeFactors rnd fuel 0 = .error .diverge := by
  unfold primeFactors
  simp only [divideOut_two_zero rnd h0, bind, Except.bind]

/-- C21, negative numbers: only the factors 2 are extracted (division by powers of two is exact in floats, for all odd parts that are) -/
theorem C21_negative (rnd : Int → Int) (c : Int) (hc : c < 0) (hodd : c % 2 = 1) (k : Nat) (hr : ∀ j ≤ k, rnd (2 ^ j * c) = 2 ^ j * c)
    (fuel : Nat) (hfuel : k < fuel) : primeFactors rnd fuel (2 ^ k * c) = .ok (List.replicate k 2) := by
  have aux : ∀ k (fuel : Nat) (fs : List Int), k < fuel → (∀ j ≤ k, rnd (2 ^ j * c) = 2 ^ j * c) →
      divideOut rnd 2 fuel (2 ^ k * c) fs = .ok (c, fs ++ List.replicate k 2) := by
    intro k
    induction k with
    | zero =>
      intro fuel fs h _
      obtain ⟨fuel, rfl⟩ := Nat.exists_eq_succ_of_ne_zero (by omega : fuel ≠ 0)
      rw [divideOut, if_neg (by simp; omega)]
      simp
    | succ k ih =>
      intro fuel fs h hr
      obtain ⟨fuel, rfl⟩ := Nat.exists_eq_succ_of_ne_zero (by omega : fuel ≠ 0)
      have e0 : (2 : Int) ^ (k + 1) * c = 2 * (2 ^ k * c) := by rw [pow_succ]; ring
      have e1 : (2 : Int) ^ (k + 1) * c % 2 = 0 := by rw [e0]; simp
      have e2 : (2 : Int) ^ (k + 1) * c / 2 = 2 ^ k * c := by rw [e0]; simp
      rw [divideOut, if_pos e1, e2, hr k (by omega), ih _ _ (by omega) (fun j hj => hr j (by omega))]
      simp [List.replicate_succ]
  unfold primeFactors
  rw [aux k fuel [] hfuel hr]
  obtain ⟨fuel, rfl⟩ := Nat.exists_eq_succ_of_ne_zero (by omega : fuel ≠ 0)
  show (trialLoop rnd _ (fuel + 1) 3 c ([] ++ List.replicate k 2) >>= _) = _
  rw [trialLoop, if_neg (by omega)]
  show (if c > 1 then _ else _) = _
  rw [if_neg (by omega)]
  simp

/-- C21, limit of the float division: whenever the float format rounds 2^54+1 to 2^54 and keeps
powers of two, `prime_factors(2^55 + 2)` returns only twos, whose product is not the input. -/
theorem C21_large_input_wrong (rnd : Int → Int) (h1 : rnd (2 ^ 54 + 1) = 2 ^ 54)
    (hp : ∀ k : Nat, rnd (2 ^ k) = 2 ^ k) :
    primeFactors rnd 60 (2 ^ 55 + 2) = .ok (List.replicate 55 2) := by
  have aux : ∀ k (fuel : Nat) (fs : List Int), k < fuel →
      divideOut rnd 2 fuel (2 ^ k) fs = .ok (1, fs ++ List.replicate k 2) := by
    intro k
    induction k with
    | zero => 
      intro fuel fs h
      obtain ⟨fuel, rfl⟩ := Nat.exists_eq_succ_of_ne_zero (by omega : fuel ≠ 0)
      simp [divideOut]
    | succ k ih =>
      intro fuel fs h
      obtain ⟨fuel, rfl⟩ := Nat.exists_eq_succ_of_ne_zero (by omega : fuel ≠ 0)
      have e1 : (2 : Int) ^ (k + 1) % 2 = 0 := by rw [pow_succ]; simp
      have e2 : (2 : Int) ^ (k + 1) / 2 = 2 ^ k := by rw [pow_succ]; simp
      rw [divideOut, if_pos e1, e2, hp, ih _ _ (by omega)]
      simp [List.replicate_succ]
  have h2 : divideOut rnd 2 60 (2 ^ 55 + 2) [] = .ok (1, List.replicate 55 2) := by
    rw [divideOut, if_pos (by decide)]
    rw [show ((2 : Int) ^ 55 + 2) / 2 = 2 ^ 54 + 1 by decide, h1, aux 54 59 _ (by decide)]
    rfl
  unfold primeFactors
  simp only [h2, bind, Except.bind]
  rfl

example : primeFactors id 31 30 = .ok [2, 3, 5] := by decide
example : primeFactors id 400 360 = .ok [2, 2, 2, 3, 3, 5] := by decide +kernel
/-- negative numbers: only the factors 2 are extracted -/
example : primeFactors id 31 (-30) = .ok [2] := by decide

/-- the double next to an integer; it is an integer (`double_isInt`) -/
def double (k : Int) : Int := ⌊Float.rnd 53 (k : ℚ)⌋

open Spec.Float in
theorem double_exact {k : Int} (h : Representable 53 (k : ℚ)) : double k = k := by
  unfold double
  rw [Float.rnd_representable 53 (by norm_num) h, Int.floor_intCast]

/-- the double next to an integer is an integer, so nothing is lost by `⌊ ⌋` -/
theorem double_isInt (k : Int) : ((double k : Int) : ℚ) = Float.rnd 53 (k : ℚ) := by
  suffices h : ∃ n : Int, Float.rnd 53 (k : ℚ) = n by
    obtain ⟨n, hn⟩ := h
    unfold double
    rw [hn, Int.floor_intCast]
  by_cases hk : |k| < 2 ^ 53
  · exact ⟨k, Float.rnd_representable 53 (by norm_num) ⟨k, 0, hk, by simp⟩⟩
  · have h0 : (k : ℚ) ≠ 0 := by
      rintro h
      have : k = 0 := by exact_mod_cast h
      subst this
      simp at hk
    unfold Float.rnd
    rw [if_neg h0]
    have hlog : 53 ≤ Int.log 2 |(k : ℚ)| := by
      have := (Int.zpow_le_iff_le_log (R := ℚ) (b := 2) (by norm_num) (abs_pos.2 h0) (x := 53)).1 (by
        push Not at hk
        have : (2 : ℚ) ^ 53 ≤ |(k : ℚ)| := by exact_mod_cast hk
        simpa using this)
      exact this
    obtain ⟨n, hn⟩ := Float.zpow_int (a := Int.log 2 |(k : ℚ)| - ((53 : Nat) : Int) + 1) (b := 0) (by push_cast; omega)
    unfold Float.ulp
    rw [hn]
    exact ⟨Float.roundEven ((k : ℚ) / (((2 ^ n : Nat) : ℚ) * 2 ^ (0 : Int))) * (2 ^ n : Nat), by push_cast; simp⟩

/-- C21: the statements above with the rounding of IEEE 754 doubles: the prime factorisation for all `1 ≤ n ≤ 2 ^ 54` and for all primes,
and a wrong result for `2 ^ 55 + 2`. -/
theorem C21_ieee :
    (∀ n : Nat, 1 ≤ n → n ≤ 2 ^ 54 → ∀ fuel, n < fuel → primeFactors double fuel n = .ok (n.primeFactorsList.map Nat.cast)) ∧
    (∀ p : Nat, p.Prime → ∀ fuel, p < fuel → primeFactors double fuel p = .ok [(p : Int)]) ∧
    (∀ fuel, primeFactors double fuel 0 = .error .diverge) ∧
    primeFactors double 60 (2 ^ 55 + 2) = .ok (List.replicate 55 2) := by
  have hpow : ∀ k : Nat, double (2 ^ k) = 2 ^ k := fun k =>
    double_exact ⟨1, k, by norm_num, by push_cast; rw [one_mul, zpow_natCast]⟩
  have hsmall : ∀ k : Nat, k ≤ 2 ^ 53 → double k = k := by
    intro k hk
    rcases Nat.lt_or_eq_of_le hk with h | rfl
    · refine double_exact ⟨k, 0, ?_, by simp⟩
      rw [Nat.abs_cast]
      exact_mod_cast h
    · exact_mod_cast hpow 53
  refine ⟨fun n h1 h2 fuel hf => C21_equals_primeFactorsList double hsmall n h1 h2 fuel hf, fun p hp fuel hf => ?_, fun fuel => ?_, ?_⟩
  · exact C21_prime double (by exact_mod_cast hsmall 1 (by norm_num)) p hp fuel hf
  · exact C21_zero_diverges double (by exact_mod_cast hsmall 0 (by norm_num)) fuel
  · exact C21_large_input_wrong double (by decide +kernel) hpow

end Prolothar.PrimeFactors
