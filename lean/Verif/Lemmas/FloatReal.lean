import Mathlib.Data.Int.Log
import Mathlib.Algebra.Order.Archimedean.Real.Basic
import Mathlib.Tactic.Linarith
import Mathlib.Tactic.Ring
import Mathlib.Tactic.FieldSimp
import Mathlib.Tactic.NormNum
import Mathlib.Tactic.Positivity
/-
Rounding of real numbers to `p` significant bits: the same definitions and lemmas as in `Model/Float.lean`, `Spec/Float.lean` and
`Lemmas/Float.lean`, for real instead of rational numbers. Nothing in this file models repository code. Simplification: the exponent
is not bounded, so there are no subnormal numbers, no overflow, no infinities and no nan.
-/
namespace Prolothar.FloatReal

/-- `y` is an integer of at most `p` bits times a power of two -/
def Representable (p : Nat) (y : ℝ) : Prop := ∃ k m : Int, |k| < 2 ^ p ∧ y = (k : ℝ) * (2 : ℝ) ^ m

/-- `y` is a float with `p` significant bits and no other one is nearer to `x` -/
def IsNearest (p : Nat) (x y : ℝ) : Prop := Representable p y ∧ ∀ z, Representable p z → |y - x| ≤ |z - x|

/-- the integer nearest to `x`; of two nearest ones the even one -/
noncomputable def roundEven (x : ℝ) : Int :=
  if x - ⌊x⌋ < 1 / 2 then ⌊x⌋
  else if 1 / 2 < x - ⌊x⌋ then ⌊x⌋ + 1
  else if ⌊x⌋ % 2 = 0 then ⌊x⌋ else ⌊x⌋ + 1

/-- the distance of the numbers with `p` significant bits in the binade of `x` -/
noncomputable def ulp (p : Nat) (x : ℝ) : ℝ := (2 : ℝ) ^ (Int.log 2 |x| - (p : Int) + 1)

/-- the value of the float with `p` significant bits that represents `x`: 53 for the type `float` of python and `double` of C, 24 for
the type `float` of C -/
noncomputable def rnd (p : Nat) (x : ℝ) : ℝ := if x = 0 then 0 else roundEven (x / ulp p x) * ulp p x

theorem roundEven_near (x : ℝ) : |(roundEven x : ℝ) - x| ≤ 1 / 2 := by
  have h1 := Int.floor_le x
  have h2 := Int.lt_floor_add_one x
  unfold roundEven
  rw [abs_le]
  split
  · constructor <;> linarith
  · split
    · push_cast; constructor <;> linarith
    · split
      · constructor <;> linarith
      · push_cast; constructor <;> linarith

theorem roundEven_best (x : ℝ) (n : Int) : |(roundEven x : ℝ) - x| ≤ |(n : ℝ) - x| := by
  have h := roundEven_near x
  by_cases hn : n = roundEven x
  · rw [hn]
  · have h2 : (1 : ℝ) ≤ |(n : ℝ) - roundEven x| := by
      have : (1 : Int) ≤ |n - roundEven x| := Int.one_le_abs (sub_ne_zero.2 hn)
      have := (Int.cast_le (R := ℝ)).2 this
      push_cast at this
      exact this
    have h3 : |(n : ℝ) - roundEven x| ≤ |(n : ℝ) - x| + |(roundEven x : ℝ) - x| := by
      have := abs_sub_le (n : ℝ) x (roundEven x)
      rw [abs_sub_comm x] at this
      exact this
    linarith

theorem roundEven_int (n : Int) : roundEven (n : ℝ) = n := by
  unfold roundEven
  simp

theorem ulp_pos (p : Nat) (x : ℝ) : 0 < ulp p x := by unfold ulp; exact zpow_pos (by norm_num) _

theorem log_le {x : ℝ} (hx : x ≠ 0) : (2 : ℝ) ^ Int.log 2 |x| ≤ |x| := by
  have := Int.zpow_log_le_self (R := ℝ) (b := 2) (by norm_num) (abs_pos.2 hx)
  simpa using this

theorem lt_log (x : ℝ) : |x| < (2 : ℝ) ^ (Int.log 2 |x| + 1) := by
  have := Int.lt_zpow_succ_log_self (R := ℝ) (b := 2) (by norm_num) |x|
  simpa using this

theorem ulp_le (p : Nat) {x : ℝ} (hx : x ≠ 0) : ulp p x / 2 * 2 ^ p ≤ |x| := by
  refine le_trans (le_of_eq ?_) (log_le hx)
  unfold ulp
  rw [zpow_add₀ (by norm_num), zpow_sub₀ (by norm_num), zpow_natCast]
  field_simp

/-- the relative error is at most half a unit in the last place -/
theorem rnd_err (p : Nat) (x : ℝ) : |rnd p x - x| * 2 ^ p ≤ |x| := by
  unfold rnd
  split
  · next h => simp [h]
  · next h =>
    have hu := ulp_pos p x
    have h1 := roundEven_near (x / ulp p x)
    have h2 : |(roundEven (x / ulp p x) : ℝ) * ulp p x - x| ≤ ulp p x / 2 := by
      have e : (roundEven (x / ulp p x) : ℝ) * ulp p x - x = ((roundEven (x / ulp p x) : ℝ) - x / ulp p x) * ulp p x := by
        field_simp
      rw [e, abs_mul, abs_of_pos hu]
      nlinarith
    exact le_trans (by gcongr) (ulp_le p h)

theorem zpow_int {a b : Int} (h : b ≤ a) : ∃ n : Nat, (2 : ℝ) ^ a = ((2 ^ n : Nat) : ℝ) * 2 ^ b := by
  refine ⟨(a - b).toNat, ?_⟩
  push_cast
  rw [← zpow_natCast, ← zpow_add₀ (by norm_num)]
  congr 1
  omega

/-- multiples of the unit in the last place are not nearer than the rounded number -/
theorem rnd_best_multiple (p : Nat) {x : ℝ} (hx : x ≠ 0) (n : Int) : |rnd p x - x| ≤ |(n : ℝ) * ulp p x - x| := by
  unfold rnd
  rw [if_neg hx]
  have hu := ulp_pos p x
  have e : ∀ r : ℝ, r * ulp p x - x = (r - x / ulp p x) * ulp p x := fun r => by field_simp
  rw [e, e, abs_mul, abs_mul]
  exact mul_le_mul_of_nonneg_right (roundEven_best _ _) (abs_nonneg _)

theorem rnd_nearest (p : Nat) (hp : 1 ≤ p) (x : ℝ) : IsNearest p x (rnd p x) := by
  by_cases hx : x = 0
  · subst hx
    unfold rnd
    rw [if_pos rfl]
    exact ⟨⟨0, 0, by positivity, by simp⟩, fun z _ => by simp⟩
  have hu := ulp_pos p x
  constructor
  · -- the significand has at most p bits
    have hlt : |x / ulp p x| < 2 ^ p := by
      rw [abs_div, abs_of_pos hu, div_lt_iff₀ hu]
      refine lt_of_lt_of_le (lt_log x) (le_of_eq ?_)
      unfold ulp
      rw [← zpow_natCast, ← zpow_add₀ (by norm_num)]
      congr 1
      ring
    have hK := roundEven_near (x / ulp p x)
    have hle : |roundEven (x / ulp p x)| ≤ 2 ^ p := by
      have h1 : |(roundEven (x / ulp p x) : ℝ)| < 2 ^ p + 1 := by
        have := abs_sub_abs_le_abs_sub (roundEven (x / ulp p x) : ℝ) (x / ulp p x)
        linarith
      have h2 : ((|roundEven (x / ulp p x)| : Int) : ℝ) < ((2 ^ p + 1 : Int) : ℝ) := by push_cast; exact h1
      have := (Int.cast_lt (R := ℝ)).1 h2
      omega
    unfold rnd
    rw [if_neg hx]
    generalize roundEven (x / ulp p x) = K at hle
    rcases lt_or_eq_of_le hle with hlt | heq
    · exact ⟨K, _, hlt, rfl⟩
    · rcases abs_eq (by positivity) |>.1 heq with h | h
      · refine ⟨1, p + (Int.log 2 |x| - (p : Int) + 1), by rw [show |(1 : Int)| = 1 from rfl]; exact one_lt_pow₀ (by norm_num) (by omega), ?_⟩
        rw [h]
        push_cast
        rw [zpow_add₀ (by norm_num), zpow_natCast, one_mul]
        rfl
      · refine ⟨-1, p + (Int.log 2 |x| - (p : Int) + 1), by rw [show |(-1 : Int)| = 1 from rfl]; exact one_lt_pow₀ (by norm_num) (by omega), ?_⟩
        rw [h]
        push_cast
        rw [zpow_add₀ (by norm_num), zpow_natCast]
        show -2 ^ p * ulp p x = -1 * (2 ^ p * ulp p x)
        ring
  · rintro z ⟨k, m, hk, rfl⟩
    by_cases hm : Int.log 2 |x| - (p : Int) + 1 ≤ m
    · obtain ⟨n, hn⟩ := zpow_int hm
      have := rnd_best_multiple p hx (k * (2 ^ n : Nat))
      have e : ((k * (2 ^ n : Nat) : Int) : ℝ) * ulp p x = (k : ℝ) * 2 ^ m := by
        rw [hn]; push_cast; unfold ulp; ring
      rwa [e] at this
    · -- z is below the binade of x
      have hz : |(k : ℝ) * (2 : ℝ) ^ m| < 2 ^ Int.log 2 |x| := by
        rw [abs_mul, abs_of_pos (show (0 : ℝ) < 2 ^ m from zpow_pos (by norm_num) _)]
        have hk' : |(k : ℝ)| < 2 ^ p := by
          have := (Int.cast_lt (R := ℝ)).2 hk
          push_cast at this
          exact this
        have h1 : |(k : ℝ)| * 2 ^ m < 2 ^ p * 2 ^ m := mul_lt_mul_of_pos_right hk' (zpow_pos (by norm_num) _)
        refine lt_of_lt_of_le h1 ?_
        rw [← zpow_natCast, ← zpow_add₀ (by norm_num)]
        exact zpow_le_zpow_right₀ (by norm_num) (by omega)
      have hb := log_le hx
      obtain ⟨n, hn⟩ := zpow_int (a := Int.log 2 |x|) (b := Int.log 2 |x| - (p : Int) + 1) (by omega)
      have hdist : |x| - (2 : ℝ) ^ Int.log 2 |x| ≤ |(k : ℝ) * (2 : ℝ) ^ m - x| := by
        have := abs_sub_abs_le_abs_sub x ((k : ℝ) * (2 : ℝ) ^ m)
        rw [abs_sub_comm] at this
        linarith
      refine le_trans ?_ hdist
      rcases lt_or_gt_of_ne hx with hneg | hpos
      · have := rnd_best_multiple p hx (-(2 ^ n : Nat))
        refine le_trans this (le_of_eq ?_)
        have e : ((-(2 ^ n : Nat) : Int) : ℝ) * ulp p x = -(2 : ℝ) ^ Int.log 2 |x| := by
          rw [hn]; push_cast; unfold ulp; ring
        rw [e]
        rw [abs_of_neg hneg] at hb ⊢
        rw [abs_of_nonneg (by linarith)]
        ring
      · have := rnd_best_multiple p hx (2 ^ n : Nat)
        refine le_trans this (le_of_eq ?_)
        have e : (((2 ^ n : Nat) : Int) : ℝ) * ulp p x = (2 : ℝ) ^ Int.log 2 |x| := by
          rw [hn]; push_cast; unfold ulp; ring
        rw [e]
        rw [abs_of_pos hpos] at hb ⊢
        rw [abs_of_nonpos (by linarith)]
        ring

/-- representable numbers are not changed -/
theorem rnd_representable (p : Nat) (hp : 1 ≤ p) {x : ℝ} (h : Representable p x) : rnd p x = x := by
  have := (rnd_nearest p hp x).2 x h
  simp only [sub_self, abs_zero] at this
  exact sub_eq_zero.1 (abs_eq_zero.1 (le_antisymm this (abs_nonneg _)))

/-- rounding respects the order -/
theorem rnd_mono (p : Nat) (hp : 1 ≤ p) {x y : ℝ} (h : x ≤ y) : rnd p x ≤ rnd p y := by
  rcases eq_or_lt_of_le h with rfl | h
  · exact le_refl _
  by_contra hc
  push Not at hc
  have h1 := (rnd_nearest p hp x).2 _ (rnd_nearest p hp y).1
  have h2 := (rnd_nearest p hp y).2 _ (rnd_nearest p hp x).1
  generalize rnd p x = b at *
  generalize rnd p y = a at *
  rcases abs_cases (b - x) with ⟨e1, _⟩ | ⟨e1, _⟩ <;> rcases abs_cases (a - x) with ⟨e2, _⟩ | ⟨e2, _⟩ <;>
    rcases abs_cases (a - y) with ⟨e3, _⟩ | ⟨e3, _⟩ <;> rcases abs_cases (b - y) with ⟨e4, _⟩ | ⟨e4, _⟩ <;>
    rw [e1, e2] at h1 <;> rw [e3, e4] at h2 <;> linarith

theorem rnd_zero (p : Nat) : rnd p 0 = 0 := by unfold rnd; rw [if_pos rfl]

theorem rnd_idem (p : Nat) (hp : 1 ≤ p) (x : ℝ) : rnd p (rnd p x) = rnd p x := rnd_representable p hp (rnd_nearest p hp x).1

/-- natural numbers of at most `p` bits are exact -/
theorem rnd_nat (p : Nat) (hp : 1 ≤ p) {n : Nat} (h : n ≤ 2 ^ p) : rnd p (n : ℝ) = n := by
  rcases Nat.lt_or_eq_of_le h with h | rfl
  · refine rnd_representable p hp ⟨n, 0, ?_, by simp⟩
    rw [Nat.abs_cast]
    exact_mod_cast h
  · refine rnd_representable p hp ⟨1, p, ?_, by push_cast; simp⟩
    have : (2 : Int) ^ 1 ≤ 2 ^ p := pow_le_pow_right₀ (by norm_num) hp
    simp only [abs_one]
    omega

end Prolothar.FloatReal
