import Verif.Model.Petri
/-
Specification of guards: the condition a guard stands for, when it is violated, and when it cannot be evaluated.
-/
namespace Prolothar.Spec.Petri
open Prolothar.Petri

/-- the condition of a guard holds for the values `h` of the variables -/
inductive Holds (h : Heap) : Guard → Prop
  | always : Holds h .always
  | lambda {a f} : f (h a) = .ok true → Holds h (.lambda a f)
  | equal {a v} : h a = v → Holds h (.equal a v)
  | smaller {a x y} : h a = some x → x < y → Holds h (.smaller a (some y))
  | smallerEq {a x y} : h a = some x → x < y ∨ x = y → Holds h (.smallerEq a (some y))
  | greater {a x y} : h a = some x → y < x → Holds h (.greater a (some y))
  | greaterEq {a x y} : h a = some x → y < x ∨ x = y → Holds h (.greaterEq a (some y))
  | isTrue {a x} : h a = some x → x ≠ 0 → Holds h (.isTrue a)
  | isFalseUnset {a} : h a = none → Holds h (.isFalse a)
  | isFalse {a} : h a = some 0 → Holds h (.isFalse a)
  | allOf {gs} : (∀ g ∈ gs, Holds h g) → Holds h (.allOf gs)

/-- the condition of a guard is violated -/
inductive Violated (h : Heap) : Guard → Prop
  | lambda {a f} : f (h a) = .ok false → Violated h (.lambda a f)
  | equal {a v} : h a ≠ v → Violated h (.equal a v)
  | smaller {a x y} : h a = some x → y < x ∨ x = y → Violated h (.smaller a (some y))
  | smallerEq {a x y} : h a = some x → y < x → Violated h (.smallerEq a (some y))
  | greater {a x y} : h a = some x → x < y ∨ x = y → Violated h (.greater a (some y))
  | greaterEq {a x y} : h a = some x → x < y → Violated h (.greaterEq a (some y))
  | isTrueUnset {a} : h a = none → Violated h (.isTrue a)
  | isTrue {a} : h a = some 0 → Violated h (.isTrue a)
  | isFalse {a x} : h a = some x → x ≠ 0 → Violated h (.isFalse a)
  | allOf {pre g post} : (∀ g' ∈ pre, Holds h g') → Violated h g → Violated h (.allOf (pre ++ g :: post))

/-- a guard that compares the variable `a` with the constant `c` -/
def compares (a : Nat) (c : Val) : Guard → Prop
  | .smaller b d | .smallerEq b d | .greater b d | .greaterEq b d => a = b ∧ c = d
  | _ => False

/-- the guard cannot be evaluated -/
inductive Undefined (h : Heap) : Guard → PyErr → Prop
  | lambda {a f e} : f (h a) = .error e → Undefined h (.lambda a f) e
  | unset {g a c} : compares a c g → h a = none ∨ c = none → Undefined h g .type
  | allOf {pre g post e} : (∀ g' ∈ pre, Holds h g') → Undefined h g e → Undefined h (.allOf (pre ++ g :: post)) e

/-- the variables a guard reads -/
inductive Reads : Guard → Nat → Prop
  | lambda {a f} : Reads (.lambda a f) a
  | equal {a v} : Reads (.equal a v) a
  | smaller {a v} : Reads (.smaller a v) a
  | smallerEq {a v} : Reads (.smallerEq a v) a
  | greater {a v} : Reads (.greater a v) a
  | greaterEq {a v} : Reads (.greaterEq a v) a
  | isTrue {a} : Reads (.isTrue a) a
  | isFalse {a} : Reads (.isFalse a) a
  | allOf {gs g a} : g ∈ gs → Reads g a → Reads (.allOf gs) a

end Prolothar.Spec.Petri
