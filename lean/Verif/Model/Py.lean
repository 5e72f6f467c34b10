/-
Small prelude for the python semantics used by the models: exceptions as values,
python indexing (negative indices wrap around) and item assignment.
Nothing in this file models repository code; it models the language.
-/
namespace Prolothar

/-- Exceptions a modelled function can raise. `diverge` is not a python exception: it is
the result of a `while` loop whose fuel is exhausted; the theorems show where it cannot
be the result. `undefined` is not an exception either: compiled code goes on in a way the C language does not define.
`user n` is an exception raised by caller supplied code. -/
inductive PyErr where
  | zeroDivision
  | value
  | key
  | index
  | type
  | attribute
  | notImplemented
  | overflow
  | diverge
  | undefined
  | user (n : Nat)
  deriving DecidableEq, Repr

/-- Result of a modelled python function: a value or an exception. -/
abbrev Py (α : Type) := Except PyErr α

instance instDecEqPy {α : Type} [DecidableEq α] : DecidableEq (Py α) := fun a b =>
  match a, b with
  | .ok x, .ok y => if h : x = y then isTrue (h ▸ rfl) else isFalse (fun e => h (by injection e))
  | .error x, .error y =>
      if h : x = y then isTrue (h ▸ rfl) else isFalse (fun e => h (by injection e))
  | .ok _, .error _ => isFalse (fun e => by injection e)
  | .error _, .ok _ => isFalse (fun e => by injection e)

/-- python `l[i]` for a list `l` and an integer `i`: negative indices count from the end,
out of range raises IndexError. -/
def pyGet {α : Type} (l : List α) (i : Int) : Py α :=
  let k : Int := if i < 0 then i + l.length else i
  if k < 0 then .error .index
  else match l[k.toNat]? with
    | some x => .ok x
    | none => .error .index

/-- python `l[i] = v` for a non-negative index: out of range raises IndexError. -/
def pySet {α : Type} (l : List α) (i : Nat) (v : α) : Py (List α) :=
  if i < l.length then .ok (l.set i v) else .error .index

/-- python slice `l[a:b]` for non-negative `a`, `b`. -/
def pySlice {α : Type} (l : List α) (a b : Nat) : List α := (l.take b).drop a

theorem pyGet_ofNat {α : Type} {l : List α} {i : Nat} {x : α} (h : l[i]? = some x) :
    pyGet l (i : Int) = .ok x := by
  have h0 : ¬ ((i : Int) < 0) := by omega
  simp [pyGet, h0, h]

end Prolothar
