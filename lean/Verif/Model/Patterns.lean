import Verif.Model.BoyerMoore
import Verif.Model.PrimeFactors
import Mathlib.Data.List.Dedup
import Mathlib.Data.List.Sort
/-
Model of prolothar_common/models/patterns.py (the part that does not use the suffix tree). Indices and
lengths are natural numbers.
-/
namespace Prolothar.Patterns
open Prolothar.BoyerMoore Prolothar.PrimeFactors

variable {α : Type} [DecidableEq α]

/-- the loop of `is_tandem_array`, patterns.py 50-54; the first argument bounds the iterations -/
def tandemLoop (trace r : List α) (maxK : Option Nat) : Nat → Nat → Nat → Py Nat
  | 0, _, _ => .error .diverge
  | fuel + 1, start, k =>
    if start + r.length ≤ trace.length ∧ pySlice trace start (start + r.length) = r ∧ (maxK = none ∨ ∃ m ∈ maxK, k < m) then
      tandemLoop trace r maxK fuel (start + r.length) (k + 1)
    else .ok k

/-- `is_tandem_array(..., return_k=True)`, patterns.py 32-59 -/
def isTandemArray (fuel : Nat) (trace : List α) (start : Nat) (r : List α) (maxK : Option Nat) : Py (Bool × Nat) := do
  let k ← tandemLoop trace r maxK fuel start 0
  return (decide (k ≥ 2), k)

/-- the loop of `is_primitive_tandem_repeat_type`, patterns.py 240-250; `k == L / subsequence_L` is exact division -/
def primitiveLoop (fuel : Nat) (w : List α) : List Int → List Int → Py Bool
  | [], _ => .ok true
  | p :: ps, checked =>
    if p ∉ checked then do
      let sub := w.length / p.toNat
      let bk ← isTandemArray fuel w 0 (pySlice w 0 sub) none
      if bk.1 ∧ bk.2 * sub = w.length then .ok false
      else primitiveLoop fuel w ps (checked ++ [p])
    else primitiveLoop fuel w ps checked

/-- `is_primitive_tandem_repeat_type`, patterns.py 222-250; `rnd` is the float rounding inside `prime_factors` -/
def isPrimitive (rnd : Int → Int) (fuel : Nat) (w : List α) : Py Bool := do
  let fs ← primeFactors rnd fuel w.length
  primitiveLoop fuel w (1 :: fs) []

/-- `extract_words`, patterns.py 252-259; the set is a list without duplicates, its order is not specified -/
def extractWords (sequence : List α) (size : Nat) : List (List α) :=
  ((List.range (sequence.length + 1 - size)).map fun i => pySlice sequence i (i + size)).dedup

/-- `_add_word_as_tandem_repeat_if_it_repeats`, patterns.py 214-220 -/
def addIfRepeats (sequence word : List α) (acc : List (List α)) : Py (List (List α)) := do
  let occ ← searchAll sequence word
  if (occ.zip occ.tail).any fun p => decide (((p.1 : Int) - p.2).natAbs = word.length) then return acc ++ [word]
  else return acc

/-- the body of the inner loop of `find_primitive_tandem_repeats`, patterns.py 209-211 -/
def findStep (rnd : Int → Int) (fuel : Nat) (sequence : List α) (acc : List (List α)) (word : List α) : Py (List (List α)) := do
  let b ← isPrimitive rnd fuel word
  if b then addIfRepeats sequence word acc else return acc

/-- `find_primitive_tandem_repeats`, patterns.py 195-212 -/
def findPrimitive (rnd : Int → Int) (fuel : Nat) (sequence : List α) (minLen : Nat) (maxLen : Option Nat) : Py (List (List α)) :=
  let m := maxLen.getD (sequence.length / 2)
  (List.range' minLen (m + 1 - minLen)).foldlM (fun acc len =>
    (extractWords sequence len).foldlM (findStep rnd fuel sequence) acc) []

/-- a triple (start index, repeat type, number of repeats); used for patterns.py 313-319 -/
abbrev Triple (α : Type) := Nat × List α × Nat

/-- one step of the loop of `create_tandem_arrays_from_repeat_type`, patterns.py 313-319: the finished arrays, the
current array (start, count), the last processed occurrence -/
def arrayStep (r : List α) (st : List (Triple α) × (Nat × Nat) × Nat) (o : Nat) : List (Triple α) × (Nat × Nat) × Nat :=
  if ((st.2.2 : Int) - o).natAbs = r.length then (st.1, (st.2.1.1, st.2.1.2 + 1), o)
  else (st.1 ++ [(st.2.1.1, r, st.2.1.2)], (o, 1), o)

/-- `create_tandem_arrays_from_repeat_type`, patterns.py 288-322 -/
def createFromType (r sequence : List α) : Py (List (Triple α)) := do
  let occ ← searchAll sequence r
  match occ with
  | [] => return []
  | o :: os =>
    let st := os.foldl (arrayStep r) ([], (o, 1), o)
    return st.1 ++ [(st.2.1.1, r, st.2.1.2)]

/-- the comparison of the sort keys `(start, length)`, patterns.py 284-285 -/
def keyLe (a b : Triple α) : Prop := a.1 < b.1 ∨ (a.1 = b.1 ∧ a.2.1.length ≤ b.2.1.length)

instance (a b : Triple α) : Decidable (keyLe a b) := by unfold keyLe; infer_instance

/-- `create_tandem_arrays_from_repeat_types`, patterns.py 262-286; the stable `list.sort` is the stable
`List.insertionSort` -/
def createFromTypes (types : List (List α)) (sequence : List α) : Py (List (Triple α)) := do
  let l ← types.foldlM (fun acc r => do
    let ts ← createFromType r sequence
    return acc ++ ts) []
  return l.insertionSort keyLe

/-- `TandemArray`; used for patterns.py 344-353 -/
structure TandemArray (α : Type) where
  trace : List α
  start : Nat
  repeatType : List α
  repeats : Nat
  deriving DecidableEq

/-- `TandemArray.__init__`, patterns.py 344-353 -/
def TandemArray.create (fuel : Nat) (trace : List α) (start : Nat) (r : List α) (n : Nat) : Py (TandemArray α) := do
  let b ← isTandemArray fuel trace start r (some n)
  if ¬ b.1 then .error .value else return ⟨trace, start, r, n⟩

/-- `TandemArray.is_maximal`, patterns.py 355-367 -/
def TandemArray.isMaximal (t : TandemArray α) : Bool :=
  decide (pySlice t.trace (t.start - t.repeatType.length) t.start ≠ t.repeatType) &&
  decide (pySlice t.trace (min t.trace.length (t.start + t.repeatType.length * t.repeats))
    (min t.trace.length (t.start + t.repeatType.length + t.repeatType.length * t.repeats)) ≠ t.repeatType)

/-- the loop of `filter_super_maximal_repeats`, patterns.py 121-132, over the sorted list -/
def superLoop : List (List α) → Py (List (List α))
  | [] => .ok []
  | m :: rest => do
    let ct := charTable m
    let ot ← offsetTable m
    let hits ← rest.mapM fun o => isSublistWith ct ot o m
    let tail ← superLoop rest
    if hits.any id then return tail else return m :: tail

/-- `filter_super_maximal_repeats`, patterns.py 116-134; the early `break` has no effect on the result since
`is_sublist_bm` has no effects. Also returns the argument, which is sorted in place. -/
def filterSuper (ms : List (List α)) : Py (List (List α) × List (List α)) := do
  let sorted := ms.insertionSort fun a b => a.length ≤ b.length
  let r ← superLoop sorted
  return (r, sorted)

/-- marking of one occurrence, patterns.py 171-172 -/
def markOne (mask : List Bool) (o len : Nat) : Py (List Bool) :=
  (List.range' o len).foldlM (fun m i => pySet m i true) mask

/-- `_build_super_maximal_sequence_mask`, patterns.py 164-173; the iteration order of the set does not matter -/
def buildMask (sequence : List α) (supers : List (List α)) : Py (List Bool) :=
  supers.foldlM (fun mask s => do
    let occ ← searchAll sequence s
    occ.foldlM (fun mask o => markOne mask o s.length) mask) (List.replicate sequence.length false)

/-- `_does_not_overlap_super_maximal_repeat_at_least_once`, patterns.py 184-193, with
`_no_super_maximal_sequence_in_range`, 175-182 -/
def freeOccurrence (sequence m : List α) (mask : List Bool) : Py Bool := do
  let occ ← searchAll sequence m
  return occ.any fun o => (pySlice mask o (o + m.length)).all fun b => !b

/-- the loop body of `find_near_super_maximal_repeats`, patterns.py 151-154 -/
def nearStep (sequence : List α) (supers : List (List α)) (mask : List Bool) (acc : List (List α)) (m : List α) :
    Py (List (List α)) :=
  if m ∉ supers then do
    let b ← freeOccurrence sequence m mask
    if b then return acc ++ [m] else return acc
  else return acc

/-- `find_near_super_maximal_repeats`, patterns.py 136-162, applied to the maximal repeats `ms` -/
def nearSuper (sequence : List α) (ms : List (List α)) : Py (List (List α) × List (List α)) := do
  let fs ← filterSuper ms
  let supers := fs.1.dedup
  let mask ← buildMask sequence supers
  let near ← fs.2.foldlM (nearStep sequence supers mask) []
  return (near ++ supers, supers)

end Prolothar.Patterns
