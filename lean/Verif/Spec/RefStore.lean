import Verif.Model.LogShare
/-
Programs on event logs that share traces: there are numbered traces with values, and every variable holds a list of such numbers. A command on a
log changes the values of the traces with its numbers. `new` are the numbers of the traces that a command creates.
-/
namespace Prolothar.RefStore
open Prolothar.EventLog Prolothar.EventLogHeap Prolothar.LogShare
variable {I A V : Type}

/-- the values of the traces, and the numbers of the traces of every log -/
structure Refs (I A V : Type) where
  value : Nat → Trace I A V
  logs : Nat → List Nat

/-- what one sees of a log -/
def Refs.see (s : Refs I A V) (l : Nat) : Log I A V := (s.logs l).map s.value

/-- some log has the trace -/
def Refs.Has (s : Refs I A V) (t : Nat) : Prop := ∃ l, t ∈ s.logs l

/-- all traces of a list are changed, one after the other -/
def changeValues (f : Trace I A V → Trace I A V) (ts : List Nat) (value : Nat → Trace I A V) : Nat → Trace I A V :=
  ts.foldl (fun v t => upd v t (f (v t))) value

/-- all traces of a log are changed -/
def Refs.change (s : Refs I A V) (l : Nat) (f : Trace I A V → Trace I A V) : Refs I A V := { s with value := changeValues f (s.logs l) s.value }

/-- the log loses its empty traces -/
def Refs.dropEmpty (s : Refs I A V) (l : Nat) : Refs I A V :=
  { s with logs := upd s.logs l ((s.logs l).filter fun t => decide ((s.value t).events.length > 0)) }

/-- the trace at a position of a log is changed -/
def Refs.changeAt (s : Refs I A V) (l i : Nat) (f : Trace I A V → Trace I A V) : Py (Refs I A V) :=
  match (s.logs l)[i]? with
  | some t => .ok { s with value := upd s.value t (f (s.value t)) }
  | none => .error .index

/-- new traces get their values -/
def setValues (value : Nat → Trace I A V) : List Nat → List (Trace I A V) → Nat → Trace I A V
  | n :: ns, x :: xs => setValues (upd value n x) ns xs
  | _, _ => value

/-- the trace without the events before the first activity in `S` -/
def from_ (S : A → Bool) (t : Trace I A V) : Trace I A V := { t with events := sliceFrom t.events (firstIndexOfMatching t S) }

/-- the trace without the events after the last activity in `E` -/
def to_ (E : A → Bool) (t : Trace I A V) : Trace I A V := { t with events := sliceTo t.events (lastIndexOfMatching t E + 1) }

/-- an optional change of all traces of a log -/
def Refs.changeOpt (s : Refs I A V) (l : Nat) (f : (A → Bool) → Trace I A V → Trace I A V) : Option (A → Bool) → Refs I A V
  | none => s
  | some S => s.change l (f S)

/-- the effect of a command; `new` are the numbers of the created traces -/
def exec [DecidableEq A] (s : Refs I A V) (new : List Nat) : Op I A V → Py (Refs I A V)
  | .cmd (.new dst) => .ok { s with logs := upd s.logs dst [] }
  | .cmd (.copy src dst) =>
    if ∃ t ∈ s.see src, t.events = [] then .error .value
    else .ok ⟨setValues s.value new (s.see src), upd s.logs dst new⟩
  | .cmd (.addTrace l id es attrs) =>
    if es = [] then .error .value else .ok ⟨setValues s.value new [⟨id, es, attrs⟩], upd s.logs l (s.logs l ++ new)⟩
  | .cmd (.cut l a b) => .ok (((s.changeOpt l from_ a).changeOpt l to_ b).dropEmpty l)
  | .cmd (.filter l p b) =>
    let s' := s.change l fun t => { t with events := t.events.filter fun e => p e.activity }
    .ok (if b then s'.dropEmpty l else s')
  | .cmd (.addStart l a) => .ok (s.change l fun t => { t with events := Event.new a :: t.events })
  | .cmd (.addEnd l a) => .ok (s.change l fun t => { t with events := t.events ++ [Event.new a] })
  | .cmd (.keepFirst l) => .ok (s.change l fun t => { t with events := (t.events.foldl keepFirstStep ([], [])).2 })
  | .cmd (.setId l i id) => s.changeAt l i fun t => { t with id := id }
  | .cmd (.setAttribute l i k v) => s.changeAt l i fun t => { t with attributes := t.attributes.put k v }
  | .cmd (.appendEvent l i e) => s.changeAt l i fun t => { t with events := t.events ++ [e] }
  | .query src dst keep => .ok { s with logs := upd s.logs dst ((s.logs src).filter fun t => keep (s.value t)) }
  | .pick src dst positions =>
    if ∃ i ∈ positions, (s.logs src).length ≤ i then .error .index
    else .ok { s with logs := upd s.logs dst (positions.map fun i => (s.logs src).getD i 0) }
  | .share src i dst =>
    match (s.logs src)[i]? with
    | some t => .ok { s with logs := upd s.logs dst (s.logs dst ++ [t]) }
    | none => .error .index
  | .extend src dst => .ok { s with logs := upd s.logs dst (s.logs dst ++ s.logs src) }

/-- how many traces a command creates -/
def created (s : Refs I A V) : Op I A V → Nat
  | .cmd (.copy src _) => (s.logs src).length
  | .cmd (.addTrace ..) => 1
  | _ => 0

/-- `t` is what a command makes of `s`: the created traces have new numbers, and `t` agrees with the result in everything that can be seen -/
def Step [DecidableEq A] (s : Refs I A V) (op : Op I A V) (t : Refs I A V) : Prop :=
  ∃ new s', new.Nodup ∧ new.length = created s op ∧ (∀ n ∈ new, ¬ s.Has n) ∧ exec s new op = .ok s' ∧ t.logs = s'.logs ∧ ∀ l, t.see l = s'.see l

/-- `t` is what a program makes of `s` -/
inductive Steps [DecidableEq A] : Refs I A V → List (Op I A V) → Refs I A V → Prop
  | nil (s : Refs I A V) : Steps s [] s
  | cons {s t u : Refs I A V} {op : Op I A V} {ops : List (Op I A V)} : Step s op t → Steps t ops u → Steps s (op :: ops) u

/-- the logs whose list of traces a command may change -/
def assigned : Op I A V → List Nat
  | .cmd (.new dst) => [dst]
  | .cmd (.copy _ dst) => [dst]
  | .cmd (.addTrace l ..) => [l]
  | .cmd (.cut l ..) => [l]
  | .cmd (.filter l _ b) => if b then [l] else []
  | .cmd _ => []
  | .query _ dst _ => [dst]
  | .pick _ dst _ => [dst]
  | .share _ _ dst => [dst]
  | .extend _ dst => [dst]

/-- the logs a command works with; from the source of a copy it only takes values -/
def touched : Op I A V → List Nat
  | .cmd (.new dst) => [dst]
  | .cmd (.copy _ dst) => [dst]
  | .cmd (.addTrace l ..) => [l]
  | .cmd (.cut l ..) => [l]
  | .cmd (.filter l ..) => [l]
  | .cmd (.addStart l _) => [l]
  | .cmd (.addEnd l _) => [l]
  | .cmd (.keepFirst l) => [l]
  | .cmd (.setId l ..) => [l]
  | .cmd (.setAttribute l ..) => [l]
  | .cmd (.appendEvent l ..) => [l]
  | .query src dst _ => [src, dst]
  | .pick src dst _ => [src, dst]
  | .share src _ dst => [src, dst]
  | .extend src dst => [src, dst]

/-- the command works with one log only -/
def Alone (l : Nat) : Cmd I A V → Prop
  | .copy src dst => src = l ∧ dst = l
  | c => touched (.cmd c) = [l]

end Prolothar.RefStore
