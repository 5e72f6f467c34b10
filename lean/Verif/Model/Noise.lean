import Verif.Model.EventLog
import Mathlib.Algebra.Order.Ring.Rat
/- Model of prolothar_common/lognoise/*.py. A random generator is an arbitrary state machine `rng`;
`rng g` is the number returned by `random.uniform(0, 1)` and the next state. Numbers are exact
rationals. Every noise object has its own generator (its seed only determines the start state).
Simplification: the traces of a log are distinct objects, and so are the noise objects of a
combination; see `Model/NoiseHeap.lean` for logs and noise objects that share objects. -/
namespace Prolothar.LogNoise
open Prolothar.EventLog
variable {I A V G : Type}

/-- `n` successive draws `[random.uniform(0, 1) for _ in range(n)]`; used for add_activity.py 51-59 -/
def draws (rng : G → ℚ × G) : Nat → G → List ℚ × G
  | 0, g => ([], g)
  | n + 1, g =>
    let r := rng g
    let rest := draws rng n r.2
    (r.1 :: rest.1, rest.2)

/-- `AddActivity.__apply_on_trace`, add_activity.py 51-59 -/
def addOnTrace (rng : G → ℚ × G) (a : A) (p : ℚ) (g : G) (es : List (Event A V)) :
    List (Event A V) × G :=
  let d := draws rng es.length g
  ((es.zip d.1).foldl (fun acc x =>
      let acc := acc ++ [x.1]
      if x.2 < p then acc ++ [Event.new a] else acc) [], d.2)

/-- `RemoveEvents.__apply_on_trace`, remove_events.py 48-51 -/
def removeOnTrace (rng : G → ℚ × G) (p : ℚ) : G → List (Event A V) → List (Event A V) × G
  | g, [] => ([], g)
  | g, e :: es =>
    let r := rng g
    let rest := removeOnTrace rng p r.2 es
    (if r.1 ≥ p then e :: rest.1 else rest.1, rest.2)

/-- `events[i], events[i+1] = events[i+1], events[i]`, swap_events.py 50 -/
def swapAt (es : List (Event A V)) (i : Nat) : Py (List (Event A V)) := do
  let x ← pyGet es ((i + 1 : Nat) : Int)
  let y ← pyGet es (i : Int)
  let es ← pySet es i x
  pySet es (i + 1) y

/-- loop body of `SwapEvents.__apply_on_trace`, swap_events.py 48-50 -/
def swapStep (rng : G → ℚ × G) (p : ℚ) (st : List (Event A V) × G) (i : Nat) :
    Py (List (Event A V) × G) :=
  let r := rng st.2
  if r.1 < p then do
    let es ← swapAt st.1 i
    return (es, r.2)
  else .ok (st.1, r.2)

/-- `SwapEvents.__apply_on_trace`, swap_events.py 47-50 -/
def swapOnTrace (rng : G → ℚ × G) (p : ℚ) (g : G) (es : List (Event A V)) :
    Py (List (Event A V) × G) :=
  (List.range (es.length - 1)).foldlM (swapStep rng p) (es, g)

/-- `for trace in log.traces: self.__apply_on_trace(trace)`, add_activity.py 48-49,
remove_events.py 44-45, swap_events.py 44-45 -/
def onTraces (f : G → List (Event A V) → Py (List (Event A V) × G)) :
    G → Log I A V → Py (Log I A V × G)
  | g, [] => .ok ([], g)
  | g, t :: ts => do
    let r ← f g t.events
    let rest ← onTraces f r.2 ts
    return ({ t with events := r.1 } :: rest.1, rest.2)

/-- the noise objects with the state of their generators; used for add_activity.py 27-44 -/
inductive Noise (A G : Type) where
  | add (a : A) (p : ℚ) (g : G)
  | remove (p : ℚ) (g : G)
  | swap (p : ℚ) (g : G)
  | combined (l : List (Noise A G))

/-- `AddActivity.__init__`, add_activity.py 27-44 -/
def Noise.mkAdd (a : A) (p : ℚ) (g : G) : Py (Noise A G) :=
  if p < 0 ∨ p ≥ 1 then .error .value else .ok (.add a p g)
/-- `RemoveEvents.__init__`, remove_events.py 27-40 -/
def Noise.mkRemove (p : ℚ) (g : G) : Py (Noise A G) :=
  if p < 0 ∨ p ≥ 1 then .error .value else .ok (.remove p g)
/-- `SwapEvents.__init__`, swap_events.py 27-40 -/
def Noise.mkSwap (p : ℚ) (g : G) : Py (Noise A G) :=
  if p < 0 ∨ p ≥ 1 then .error .value else .ok (.swap p g)
/-- `CombinedNoise.__init__`, combined_noise.py 27-38 -/
def Noise.mkCombined (l : List (Noise A G)) : Py (Noise A G) :=
  if l.isEmpty then .error .value else .ok (.combined l)

mutual
/-- `apply` of the noise objects: add_activity.py 46-49, remove_events.py 42-46, swap_events.py
42-45, combined_noise.py 40-42. Returns the object with its new generator state and the log. -/
def Noise.apply (rng : G → ℚ × G) : Noise A G → Log I A V → Py (Noise A G × Log I A V)
  | .add a p g, log =>
    if p > 0 then do
      let r ← onTraces (fun g es => .ok (addOnTrace rng a p g es)) g log
      return (.add a p r.2, r.1)
    else .ok (.add a p g, log)
  | .remove p g, log =>
    if p > 0 then do
      let r ← onTraces (fun g es => .ok (removeOnTrace rng p g es)) g log
      return (.remove p r.2, r.1.filter fun t => decide (t.events.length > 0))
    else .ok (.remove p g, log)
  | .swap p g, log =>
    if p > 0 then do
      let r ← onTraces (swapOnTrace rng p) g log
      return (.swap p r.2, r.1)
    else .ok (.swap p g, log)
  | .combined l, log => do
    let r ← Noise.applyAll rng l log
    return (.combined r.1, r.2)
/-- the loop of `CombinedNoise.apply`, combined_noise.py 41-42 -/
def Noise.applyAll (rng : G → ℚ × G) : List (Noise A G) → Log I A V →
    Py (List (Noise A G) × Log I A V)
  | [], log => .ok ([], log)
  | n :: ns, log => do
    let r ← Noise.apply rng n log
    let rest ← Noise.applyAll rng ns r.2
    return (r.1 :: rest.1, rest.2)
end

end Prolothar.LogNoise
