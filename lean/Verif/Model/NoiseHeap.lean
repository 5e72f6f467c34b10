import Verif.Model.EventLogHeap
import Verif.Model.Noise
/-
Model of prolothar_common/lognoise/*.py on event logs with object identities (`Model/EventLogHeap.lean`): which objects the noise
models replace and which they change. `Model/Noise.lean` is the same code on logs that are values.

A noise object is known by the address of its random generator, which it does not share with another noise object; a noise object that
occurs twice in a combination occurs with the same address. A combination does not contain itself.
-/
namespace Prolothar.NoiseHeap
open Prolothar.EventLog Prolothar.EventLogHeap Prolothar.LogNoise
variable {I A V G : Type}

/-- noise objects: the parameters and the address of the generator, add_activity.py 27-44, remove_events.py 27-40, swap_events.py 27-40,
combined_noise.py 27-38 -/
inductive NoiseObj (A : Type) where
  | add (a : A) (p : ℚ) (g : Nat)
  | remove (p : ℚ) (g : Nat)
  | swap (p : ℚ) (g : Nat)
  | combined (l : List (NoiseObj A))

/-- loop body of `AddActivity.__apply_on_trace`, add_activity.py 56-58: the event objects of the trace are kept, `Event(activity)` is a
new object -/
def addStep (a : A) (p : ℚ) (st : Heap I A V × List Nat) (x : Nat × ℚ) : Heap I A V × List Nat :=
  let es := st.2 ++ [x.1]
  if x.2 < p then
    let r := newEvent st.1 (Event.new a)
    (r.1, es ++ [r.2])
  else (st.1, es)

/-- `AddActivity.__apply_on_trace`, add_activity.py 51-59: `trace.events` is a new list object afterwards -/
def addOn (rng : G → ℚ × G) (a : A) (p : ℚ) (g : G) (h : Heap I A V) (t : Nat) : Py (Heap I A V × G) :=
  let d := draws rng (h.list (h.traceEvents t)).length g
  let r := ((h.list (h.traceEvents t)).zip d.1).foldl (addStep a p) (h, [])
  .ok (setEvents r.1 t r.2, d.2)

/-- the list comprehension of `RemoveEvents.__apply_on_trace`, remove_events.py 49-51 -/
def keep (rng : G → ℚ × G) (p : ℚ) : G → List Nat → List Nat × G
  | g, [] => ([], g)
  | g, e :: es =>
    let r := rng g
    let rest := keep rng p r.2 es
    (if r.1 ≥ p then e :: rest.1 else rest.1, rest.2)

/-- `RemoveEvents.__apply_on_trace`, remove_events.py 48-51: `trace.events` is a new list object afterwards -/
def removeOn (rng : G → ℚ × G) (p : ℚ) (g : G) (h : Heap I A V) (t : Nat) : Py (Heap I A V × G) :=
  let r := keep rng p g (h.list (h.traceEvents t))
  .ok (setEvents h t r.1, r.2)

/-- `trace.events[i], trace.events[i+1] = trace.events[i+1], trace.events[i]`, swap_events.py 50: changes the list object -/
def swapIn (h : Heap I A V) (t i : Nat) : Py (Heap I A V) := do
  let x ← pyGet (h.list (h.traceEvents t)) ((i + 1 : Nat) : Int)
  let y ← pyGet (h.list (h.traceEvents t)) (i : Int)
  let es ← pySet (h.list (h.traceEvents t)) i x
  let es ← pySet es (i + 1) y
  return { h with list := upd h.list (h.traceEvents t) es }

/-- loop body of `SwapEvents.__apply_on_trace`, swap_events.py 48-50 -/
def swapStepOn (rng : G → ℚ × G) (p : ℚ) (t : Nat) (st : Heap I A V × G) (i : Nat) : Py (Heap I A V × G) :=
  let r := rng st.2
  if r.1 < p then do
    let h ← swapIn st.1 t i
    return (h, r.2)
  else .ok (st.1, r.2)

/-- `SwapEvents.__apply_on_trace`, swap_events.py 47-50 -/
def swapOn (rng : G → ℚ × G) (p : ℚ) (g : G) (h : Heap I A V) (t : Nat) : Py (Heap I A V × G) :=
  (List.range ((h.list (h.traceEvents t)).length - 1)).foldlM (swapStepOn rng p t) (h, g)

/-- `for trace in log.traces: self.__apply_on_trace(trace)`, add_activity.py 48-49, remove_events.py 44-45, swap_events.py 44-45 -/
def eachTrace (f : G → Heap I A V → Nat → Py (Heap I A V × G)) : G → Heap I A V → List Nat → Py (Heap I A V × G)
  | g, h, [] => .ok (h, g)
  | g, h, t :: ts => do
    let r ← f g h t
    eachTrace f r.2 r.1 ts

mutual
/-- `noise.apply(log)`: add_activity.py 46-49, remove_events.py 42-46, swap_events.py 42-45, combined_noise.py 40-42. `gens` are the
states of the generators. -/
def NoiseObj.apply (rng : G → ℚ × G) (l : Nat) : NoiseObj A → (Nat → G) → Heap I A V → Py ((Nat → G) × Heap I A V)
  | .add a p g, gens, h =>
    if p > 0 then do
      let r ← eachTrace (addOn rng a p) (gens g) h (h.traces l)
      return (upd gens g r.2, r.1)
    else .ok (gens, h)
  | .remove p g, gens, h =>
    if p > 0 then do
      let r ← eachTrace (removeOn rng p) (gens g) h (h.traces l)
      return (upd gens g r.2, dropEmpty r.1 l)
    else .ok (gens, h)
  | .swap p g, gens, h =>
    if p > 0 then do
      let r ← eachTrace (swapOn rng p) (gens g) h (h.traces l)
      return (upd gens g r.2, r.1)
    else .ok (gens, h)
  | .combined ns, gens, h => NoiseObj.applyAll rng l ns gens h
/-- the loop of `CombinedNoise.apply`, combined_noise.py 41-42 -/
def NoiseObj.applyAll (rng : G → ℚ × G) (l : Nat) : List (NoiseObj A) → (Nat → G) → Heap I A V → Py ((Nat → G) × Heap I A V)
  | [], gens, h => .ok (gens, h)
  | n :: ns, gens, h => do
    let r ← NoiseObj.apply rng l n gens h
    NoiseObj.applyAll rng l ns r.1 r.2
end

/-- programs that work with logs and noise objects; used for lognoise.py 22-28 -/
inductive Act (I A V : Type) where
  | cmd (c : Cmd I A V)
  /-- `n.apply(l)` -/
  | noise (n : NoiseObj A) (l : Nat)

/-- one statement of a program; used for lognoise.py 22-28 -/
def stepAct [DecidableEq A] (rng : G → ℚ × G) (st : (Nat → G) × Heap I A V) : Act I A V → Py ((Nat → G) × Heap I A V)
  | .cmd c => do
    let h ← step st.2 c
    return (st.1, h)
  | .noise n l => n.apply rng l st.1 st.2

/-- a program; used for lognoise.py 22-28 -/
def runActs [DecidableEq A] (rng : G → ℚ × G) : (Nat → G) × Heap I A V → List (Act I A V) → Py ((Nat → G) × Heap I A V)
  | st, [] => .ok st
  | st, a :: as => do
    let st ← stepAct rng st a
    runActs rng st as

end Prolothar.NoiseHeap
