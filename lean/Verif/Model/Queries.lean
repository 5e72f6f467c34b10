import Verif.Model.EventLog
import Verif.Model.BoyerMoore
/-
Model of prolothar_common/models/log_queries/{query,queries}.py. A query object can hold an iterator, so evaluating
it returns the query with its new state. Query objects are values: a query that occurs twice in a composed query has
two independent copies of its state here (this matters only for iterators).
-/
namespace Prolothar.Queries
open Prolothar.EventLog

variable {I A V : Type}

/-- the argument `activities: Iterable[str]`: a container that can be iterated any number of times, or an iterator with
its remaining elements; used for query.py 50-72 -/
inductive Acts (A : Type)
  | container (l : List A)
  | iterator (rest : List A)

/-- the queries of query.py 50-72 and queries.py 26-73, and user defined ones -/
inductive Query (I A V : Type)
  | containsNone (activities : Acts A)
  | contains (activity : A)
  | containsWith (activity : A) (matcher : Dict String V → Py Bool)
  | containsAll (activities : Acts A)
  | subsequence (activities : List A)
  | custom (matcher : Trace I A V → Py Bool)
  | and (left right : Query I A V)
  | or (left right : Query I A V)
  | invert (q : Query I A V)

/-- a `for` loop that is left at the first element with `p`: was there one, and what is left of the iterable; used for queries.py 29-33 -/
def scan (p : A → Bool) : List A → Bool × List A
  | [] => (false, [])
  | x :: l => if p x then (true, l) else scan p l

/-- the loop on an iterable; used for queries.py 29-33 -/
def Acts.scan (p : A → Bool) : Acts A → Bool × Acts A
  | .container l => ((Queries.scan p l).1, .container l)
  | .iterator l => ((Queries.scan p l).1, .iterator (Queries.scan p l).2)

/-- the loop of queries.py 51-54 -/
def anyWith [DecidableEq A] (a : A) (m : Dict String V → Py Bool) : List (Event A V) → Py Bool
  | [] => .ok false
  | e :: l => do
    if e.activity = a then
      let b ← m e.attributes
      if b then return true else anyWith a m l
    else anyWith a m l

/-- `matches_trace`: queries.py 29-33, 38-39, 50-55, 60-64, 71-73; query.py 54-56 (`and` is lazy), 63-65, 71-72 -/
def matchesTrace [DecidableEq A] (t : Trace I A V) : Query I A V → Py (Bool × Query I A V)
  | .containsNone acts => .ok (!(acts.scan t.containsActivity).1, .containsNone (acts.scan t.containsActivity).2)
  | .contains a => .ok (t.containsActivity a, .contains a)
  | .containsWith a m => do let b ← anyWith a m t.events; return (b, .containsWith a m)
  | .containsAll acts => .ok (!(acts.scan fun a => !t.containsActivity a).1, .containsAll (acts.scan fun a => !t.containsActivity a).2)
  | .subsequence l => do let b ← BoyerMoore.isSublist t.activities l; return (b, .subsequence l)
  | .custom m => do let b ← m t; return (b, .custom m)
  | .and l r => do
    let x ← matchesTrace t l
    if x.1 then do let y ← matchesTrace t r; return (y.1, .and x.2 y.2) else return (false, .and x.2 r)
  | .or l r => do
    let x ← matchesTrace t l
    if x.1 then return (true, .or x.2 r) else do let y ← matchesTrace t r; return (y.1, .or x.2 y.2)
  | .invert q => do let x ← matchesTrace t q; return (!x.1, .invert x.2)

/-- `execute`, query.py 25-34: the traces are not copied -/
def execute [DecidableEq A] (q : Query I A V) : Log I A V → Py (Log I A V × Query I A V)
  | [] => .ok ([], q)
  | t :: log => do
    let x ← matchesTrace t q
    let r ← execute x.2 log
    return (if x.1 then t :: r.1 else r.1, r.2)

end Prolothar.Queries
