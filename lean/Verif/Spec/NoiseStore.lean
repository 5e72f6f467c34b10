import Verif.Model.NoiseHeap
import Verif.Spec.LogStore
/-
Value semantics of programs on event logs and noise objects: every variable holds its own log (`Spec/LogStore.lean`), a noise object
changes the log it is applied to and its own generator, and nothing else.
-/
namespace Prolothar.NoiseStore
open Prolothar.EventLog Prolothar.EventLogHeap Prolothar.LogNoise Prolothar.NoiseHeap
variable {I A V G : Type}

mutual
/-- the noise with the current states of its generators -/
def inst (gens : Nat → G) : NoiseObj A → Noise A G
  | .add a p g => .add a p (gens g)
  | .remove p g => .remove p (gens g)
  | .swap p g => .swap p (gens g)
  | .combined l => .combined (instAll gens l)
/-- the list of noises with the current states of their generators -/
def instAll (gens : Nat → G) : List (NoiseObj A) → List (Noise A G)
  | [] => []
  | n :: ns => inst gens n :: instAll gens ns
end

mutual
/-- the addresses of the generators of a noise object -/
def addrs : NoiseObj A → List Nat
  | .add _ _ g => [g]
  | .remove _ g => [g]
  | .swap _ g => [g]
  | .combined l => addrsAll l
/-- the addresses of the generators of a list of noise objects -/
def addrsAll : List (NoiseObj A) → List Nat
  | [] => []
  | n :: ns => addrs n ++ addrsAll ns
end

/-- the generator state of a noise object that is not a combination -/
def gen : Noise A G → Option G
  | .add _ _ g => some g
  | .remove _ g => some g
  | .swap _ g => some g
  | .combined _ => none

mutual
/-- the effect of a noise object on the value of a log and on the generators: a combination applies its parts one after the other, and a
part that occurs twice continues with the generator it has -/
def execNoise (rng : G → ℚ × G) : NoiseObj A → (Nat → G) → Log I A V → Py ((Nat → G) × Log I A V)
  | .add a p g, gens, log => do
    let r ← Noise.apply rng (.add a p (gens g)) log
    return (upd gens g ((gen r.1).getD (gens g)), r.2)
  | .remove p g, gens, log => do
    let r ← Noise.apply rng (.remove p (gens g)) log
    return (upd gens g ((gen r.1).getD (gens g)), r.2)
  | .swap p g, gens, log => do
    let r ← Noise.apply rng (.swap p (gens g)) log
    return (upd gens g ((gen r.1).getD (gens g)), r.2)
  | .combined ns, gens, log => execNoises rng ns gens log
/-- the parts of a combination -/
def execNoises (rng : G → ℚ × G) : List (NoiseObj A) → (Nat → G) → Log I A V → Py ((Nat → G) × Log I A V)
  | [], gens, log => .ok (gens, log)
  | n :: ns, gens, log => do
    let r ← execNoise rng n gens log
    execNoises rng ns r.1 r.2
end

/-- one statement of a program on values -/
def execAct [DecidableEq A] (rng : G → ℚ × G) (st : (Nat → G) × (Nat → Log I A V)) : Act I A V → Py ((Nat → G) × (Nat → Log I A V))
  | .cmd c => do
    let s ← LogStore.exec st.2 c
    return (st.1, s)
  | .noise n l => do
    let r ← execNoise rng n st.1 (st.2 l)
    return (r.1, upd st.2 l r.2)

/-- a program on values -/
def execActs [DecidableEq A] (rng : G → ℚ × G) : (Nat → G) × (Nat → Log I A V) → List (Act I A V) → Py ((Nat → G) × (Nat → Log I A V))
  | st, [] => .ok st
  | st, a :: as => do
    let st ← execAct rng st a
    execActs rng st as

end Prolothar.NoiseStore
