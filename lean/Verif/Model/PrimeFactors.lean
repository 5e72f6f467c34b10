import Verif.Model.Py
/-
Model of /repo/prolothar_common/math_utils.py.
-/
namespace Prolothar.PrimeFactors

/-
Python's `n /= k` is true division and produces a float. Here it is only executed when `k` divides
`n`, so the exact quotient is an integer, and the float result is `rnd (n / k)` for the rounding
function `rnd` of the float format (a double with more than 53 bits is an integer as well). `rnd`
is a parameter of the model. Overflow to infinity is not modelled.
-/

/-- `while n % 2 == 0: fs.append(2); n /= 2`, math_utils.py 23-25, resp. the inner loop
`while n % f == 0: fs.append(int(f)); n /= f`, math_utils.py 27-29. -/
def divideOut (rnd : Int → Int) (f : Int) : Nat → Int → List Int → Py (Int × List Int)
  | 0, _, _ => .error .diverge
  | fuel + 1, n, fs =>
    if n % f = 0 then divideOut rnd f fuel (rnd (n / f)) (fs ++ [f]) else .ok (n, fs)

/-- `while f * f <= n: ...; f += 2`, math_utils.py 26-30. -/
def trialLoop (rnd : Int → Int) (inner : Nat) : Nat → Int → Int → List Int → Py (Int × List Int)
  | 0, _, _, _ => .error .diverge
  | fuel + 1, f, n, fs =>
    if f * f ≤ n then do
      let r ← divideOut rnd f inner n fs
      trialLoop rnd inner fuel (f + 2) r.1 r.2
    else .ok (n, fs)

/-- `prime_factors`, math_utils.py 18-32. `fuel` bounds the number of iterations of every loop. -/
def primeFactors (rnd : Int → Int) (fuel : Nat) (n : Int) : Py (List Int) := do
  let r ← divideOut rnd 2 fuel n []
  let r ← trialLoop rnd fuel fuel 3 r.1 r.2
  if r.1 > 1 then .ok (r.2 ++ [r.1]) else .ok r.2

end Prolothar.PrimeFactors
