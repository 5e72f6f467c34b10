import Verif.Model.Dict
import Mathlib.Data.Finset.Dedup
/-
Model of prolothar_common/models/labeled_transition_system/labeled_transition_system.py and
state_representation.py.
-/
namespace Prolothar.Lts

section
variable {S E : Type} [DecidableEq S] [DecidableEq E]

/-- the fields of `LabeledTransitionSystem`, labeled_transition_system.py 38-43, without the abstraction function; python sets are
lists without duplicates -/
structure System (S E : Type) where
  states : List S
  starts : List S
  ends : List S
  rel : Dict S (Dict E S)

/-- `__init__`, labeled_transition_system.py 38-43 -/
def new : System S E := ⟨[], [], [], []⟩

/-- `set.add`; used for labeled_transition_system.py 76-81 -/
def setAdd (l : List S) (s : S) : List S := if s ∈ l then l else l ++ [s]

/-- `__add_state`, labeled_transition_system.py 76-81 -/
def addState (t : System S E) (s : S) (start stop : Bool) : System S E :=
  { t with
    states := setAdd t.states s
    starts := if start then setAdd t.starts s else t.starts
    ends := if stop then setAdd t.ends s else t.ends }

/-- `__transition_relation[state]` of a `defaultdict(dict)`: the inner dictionary, which is created
if it is missing; used for labeled_transition_system.py 83-85 -/
def touch (rel : Dict S (Dict E S)) (s : S) : Dict S (Dict E S) × Dict E S :=
  match rel.get? s with
  | some d => (rel, d)
  | none => (rel.put s [], [])

/-- `__add_transition`, labeled_transition_system.py 83-85 -/
def addTransition (t : System S E) (s : S) (e : E) (s' : S) : System S E :=
  let r := touch t.rel s
  { t with rel := r.1.put s (r.2.put e s') }

/-- the loop of `add_sequence`, labeled_transition_system.py 70-74: `done` is `sequence[:i-1]`, the last argument the rest -/
def loop (f : List E → S) (done : List E) (last : S) : List E → System S E → System S E
  | [], t => t
  | e :: rest, t =>
    let s := f (done ++ [e])
    loop f (done ++ [e]) s rest (addTransition (addState t s false rest.isEmpty) last e s)

/-- `add_sequence`, labeled_transition_system.py 57-74 -/
def addSequence (f : List E → S) (t : System S E) (seq : List E) : System S E :=
  loop f [] (f []) seq (addState t (f []) true seq.isEmpty)

/-- a system filled by a history of `add_sequence` (or `add_trace`, labeled_transition_system.py 45-55) calls -/
def build (f : List E → S) (seqs : List (List E)) : System S E := seqs.foldl (addSequence f) new

/-- `get_next_state`, labeled_transition_system.py 100-101, with its effect on the `defaultdict` -/
def nextState (t : System S E) (s : S) (e : E) : System S E × Py S :=
  let r := touch t.rel s
  ({ t with rel := r.1 }, r.2.getItem e)

/-- `yield_outgoing_transitions`, labeled_transition_system.py 96-98, with its effect on the `defaultdict` -/
def outgoing (t : System S E) (s : S) : System S E × List (S × E × S) :=
  let r := touch t.rel s
  ({ t with rel := r.1 }, r.2.map fun p => (s, p.1, p.2))

/-- `get_nr_of_states`, labeled_transition_system.py 103-107 -/
def nrOfStates (t : System S E) : Nat := t.states.length

/-- `get_nr_of_transitions`, labeled_transition_system.py 109-116 -/
def nrOfTransitions (t : System S E) : Nat := t.rel.foldl (fun n p => n + p.2.length) 0

/-- `transition_iterator`, labeled_transition_system.py 118-124 -/
def transitions (t : System S E) : List (S × E × S) := t.rel.flatMap fun p => p.2.map fun q => (p.1, q.1, q.2)

end

/-! state_representation.py -/

section
variable {E : Type}

/-- `set_abstraction`, state_representation.py 20-21 -/
def setAbstraction [DecidableEq E] (p : List E) : Finset E := p.toFinset

/-- `list_abstraction`, state_representation.py 23-24 -/
def listAbstraction (p : List E) : List E := p

/-- `last_abstraction`, state_representation.py 26-30: `prefix[-1]`, `None` after the IndexError -/
def lastAbstraction (p : List E) : Option E :=
  match pyGet p (-1) with
  | .ok e => some e
  | .error _ => none

/-- `last_n_abstraction`, state_representation.py 32-35: the slice `prefix[-n:]`; a negative start counts from the end -/
def lastNAbstraction (n : Int) (p : List E) : List E :=
  let start := -n
  p.drop (if start < 0 then (max 0 (start + p.length)).toNat else start.toNat)

end
end Prolothar.Lts
