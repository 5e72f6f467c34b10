import Verif.Model.Py
import Mathlib.Data.Rat.Floor
import Mathlib.Analysis.Real.Sqrt
/-
Model of /repo/prolothar_common/random_utils.py, func_tools.py, color_utils.py, experiments/stopwatch.py and of
`print_progress_bar` in console_utils.py. Floats are exact; times are integers.
-/
namespace Prolothar.Utils

/-! ### random_utils.py -/

/-- the fields of `BufferingChoice`, random_utils.py 50-54: the options, the buffer size, the generator and what is left of the
buffer. The probabilities are part of `choice`, see `nextSample`. -/
structure Choice (α G : Type) where
  options : List α
  size : Int
  rng : G
  buffer : List α

/-- `BufferingChoice.__init__`, random_utils.py 25-54; `nProbs` is the number of probabilities -/
def newChoice {α G : Type} (options : List α) (nProbs : Nat) (size : Int) (rng : G) : Py (Choice α G) :=
  if options.length ≠ nProbs then .error .value
  else if size < 1 then .error .value
  else .ok ⟨options, size, rng, []⟩

/-- `next_sample`, random_utils.py 56-65. `choice` is numpy's `Generator.choice(options, p=probabilities, size=size)`: it raises
an exception, or returns an array of samples and changes the generator. The second component is the object after the call. -/
def nextSample {α G : Type} (choice : List α → Int → G → Py (List α × G)) (c : Choice α G) : Py α × Choice α G :=
  match c.buffer with
  | x :: rest => (.ok x, { c with buffer := rest })
  | [] =>
    match choice c.options c.size c.rng with
    | .error e => (.error e, c)
    | .ok (batch, rng) =>
      match batch with
      | x :: rest => (.ok x, { c with rng := rng, buffer := rest })
      | [] => (.error .diverge, { c with rng := rng }) -- StopIteration; an array of at least one sample is not empty

/-- `n` calls of `next_sample` by a caller who stops at the first exception; used for random_utils.py 56-65 -/
def samples {α G : Type} (choice : List α → Int → G → Py (List α × G)) : Nat → Choice α G → Py (List α) × Choice α G
  | 0, c => (.ok [], c)
  | n + 1, c =>
    match nextSample choice c with
    | (.error e, c') => (.error e, c')
    | (.ok x, c') =>
      match samples choice n c' with
      | (.error e, c'') => (.error e, c'')
      | (.ok xs, c'') => (.ok (x :: xs), c'')

/-! ### func_tools.py -/

/-- what can be compared with `Min`: `Min` itself, or a value of a type whose comparisons with `Min` return NotImplemented, so
that python asks `Min` instead (numbers, strings, tuples, None, ...); used for func_tools.py 42-43 -/
inductive WithMin (α : Type) where
  | min
  | val (x : α)
deriving DecidableEq, Repr

section
variable {α : Type} [LinearOrder α]

/-- `_MinType.__eq__`, func_tools.py 42-43: `Min` is only equal to itself; other values have their own equality -/
def eqMin (a b : WithMin α) : Bool :=
  match a, b with
  | .min, .min => true
  | .val x, .val y => decide (x = y)
  | _, _ => false

/-- `_MinType.__le__`, func_tools.py 39-40 -/
def minLe (_ : WithMin α) : Bool := true

/-- `__lt__` as generated by functools.total_ordering from `__le__`: `op_result and self != other`; used for func_tools.py 34-43 -/
def minLt (b : WithMin α) : Bool := minLe b && !eqMin .min b

/-- `__gt__` as generated by functools.total_ordering from `__le__`: `not op_result`; used for func_tools.py 34-43 -/
def minGt (b : WithMin α) : Bool := !minLe b

/-- `__ge__` as generated by functools.total_ordering from `__le__`: `not op_result or self == other`; used for func_tools.py 34-43 -/
def minGe (b : WithMin α) : Bool := !minLe b || eqMin .min b

/-- the expression `a < b`: the method of the left operand, or else the reflected method of the right one; used for func_tools.py 34-43 -/
def ltM (a b : WithMin α) : Bool :=
  match a, b with
  | .min, b => minLt b
  | .val x, .min => minGt (.val x)
  | .val x, .val y => decide (x < y)

/-- the expression `a <= b`; used for func_tools.py 34-43 -/
def leM (a b : WithMin α) : Bool :=
  match a, b with
  | .min, b => minLe b
  | .val x, .min => minGe (.val x)
  | .val x, .val y => decide (x ≤ y)

/-- the expression `a > b`; used for func_tools.py 34-43 -/
def gtM (a b : WithMin α) : Bool :=
  match a, b with
  | .min, b => minGt b
  | .val x, .min => minLt (.val x)
  | .val x, .val y => decide (y < x)

/-- the expression `a >= b`; used for func_tools.py 34-43 -/
def geM (a b : WithMin α) : Bool :=
  match a, b with
  | .min, b => minGe b
  | .val x, .min => minLe (.val x)
  | .val x, .val y => decide (y ≤ x)

/-- `hash(Min)`: a class that defines `__eq__` but not `__hash__` has no hash; used for func_tools.py 34-43 -/
def hashM (hash : α → Int) : WithMin α → Py Int
  | .min => .error .type
  | .val x => .ok (hash x)

end

/-! ### color_utils.py -/

/-- the perceived brightness, color_utils.py 36-37 -/
noncomputable def hsp (r g b : ℝ) : ℝ := Real.sqrt (0.299 * (r * r) + 0.587 * (g * g) + 0.114 * (b * b))

open Classical in
/-- `is_light_or_dark_rgb`, color_utils.py 21-41; the argument is a sequence that must have three elements -/
noncomputable def lightOrDark (rgb : List ℝ) : Py String :=
  match rgb with
  | [r, g, b] => if 127.5 < hsp r g b then .ok "light" else .ok "dark"
  | _ => .error .value

/-! ### console_utils.py -/

/-- python's `c * n` for a string and an integer; used for console_utils.py 23-44 -/
def rep (c : Char) (n : Int) : List Char := List.replicate n.toNat c

/-- what `print_progress_bar` writes, console_utils.py 23-44: the percentage before it is formatted, the bar, and whether a new
line follows. `float(total)` is 0 iff `total` is. -/
def progressBar (iteration total length : Int) (fill : Char) : Py (ℚ × List Char × Bool) :=
  if total = 0 then .error .zeroDivision
  else
    let percent := 100 * ((iteration : ℚ) / (total : ℚ))
    let filled := ⌊((length * iteration : Int) : ℚ) / (total : ℚ)⌋
    .ok (percent, rep fill filled ++ rep '-' (length - filled), decide (iteration = total))

/-! ### experiments/stopwatch.py -/

/-- `Stopwatch`, stopwatch.py 20-28: the start time, once there is one -/
abbrev Stopwatch := Option Int

/-- `Stopwatch()`; used for stopwatch.py 21-22 -/
def newWatch : Stopwatch := none

/-- `start`, stopwatch.py 24-25; `now` is what the clock shows -/
def startWatch (_ : Stopwatch) (now : Int) : Stopwatch := some now

/-- `get_elapsed_time`, stopwatch.py 27-28 -/
def elapsed (w : Stopwatch) (now : Int) : Py Int :=
  match w with
  | some t => .ok (now - t)
  | none => .error .attribute

end Prolothar.Utils
