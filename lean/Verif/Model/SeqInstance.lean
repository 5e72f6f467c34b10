import Verif.Model.Py
import Mathlib.Data.List.Dedup
/-
Model of `TargetSequenceInstance` (prolothar_common/models/dataset/instance.pyx 101-136) with its set of symbols. Model/Dataset.lean has
only the sequence. Ids and features are left out. The set of symbols is a list without duplicates.
-/
namespace Prolothar.SeqInstance
variable {σ : Type} [DecidableEq σ]

/-- the argument of `set_target_sequence`: something that can be iterated again (a tuple, a list, a string), or an iterator that
yields `l` and then ends or raises; used for instance.pyx 110-115 -/
inductive SeqArg (σ : Type)
  | container (l : List σ)
  | iterator (l : List σ) (failure : Option PyErr)

/-- the two attributes, instance.pyx 102-105 (`target_sequence` and `set_of_symbols` in instance.pxd) -/
structure SeqInst (σ : Type) where
  seq : List σ
  symbols : List σ

/-- `frozenset(l)`: elements that cannot be hashed raise a TypeError; used for instance.pyx 115 -/
def frozenset (hashable : σ → Bool) (l : List σ) : Py (List σ) := if l.all hashable then .ok l.dedup else .error .type

/-- `set_target_sequence`, instance.pyx 110-115: the result and the instance afterwards. The argument is iterated twice: by `tuple`
(a tuple is stored as it is, with the same elements) and by `frozenset`. An iterator has nothing left for the second time. -/
def setTargetSequence (hashable : σ → Bool) (arg : SeqArg σ) (x : SeqInst σ) : Py Unit × SeqInst σ :=
  match arg with
  | .container l =>
    match frozenset hashable l with
    | .ok s => (.ok (), ⟨l, s⟩)
    | .error e => (.error e, { x with seq := l })
  | .iterator _ (some e) => (.error e, x)
  | .iterator l none =>
    match frozenset hashable [] with
    | .ok s => (.ok (), ⟨l, s⟩)
    | .error e => (.error e, { x with seq := l })

/-- `__init__`, instance.pyx 102-105 -/
def new (hashable : σ → Bool) (arg : SeqArg σ) : Py (SeqInst σ) :=
  match setTargetSequence hashable arg ⟨[], []⟩ with
  | (.ok _, x) => .ok x
  | (.error e, _) => .error e

/-- `get_target_sequence`, instance.pyx 107-108 -/
def getTargetSequence (x : SeqInst σ) : List σ := x.seq

/-- `contains_symbol`, instance.pyx 121-125 -/
def containsSymbol (x : SeqInst σ) (s : σ) : Bool := decide (s ∈ x.symbols)

/-- `get_symbols`, instance.pyx 127-131 -/
def getSymbols (x : SeqInst σ) : List σ := x.symbols

/-- `copy`, instance.pyx 133-136 -/
def copy (hashable : σ → Bool) (x : SeqInst σ) : Py (SeqInst σ) := new hashable (.container x.seq)

end Prolothar.SeqInstance
