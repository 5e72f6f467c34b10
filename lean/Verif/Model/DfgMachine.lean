import Verif.Model.Dfg
import Verif.Model.CInt
import Verif.Model.Float
/-
The parts of /repo/prolothar_common/models/directly_follows_graph.pyx and models/dfg/edge.pyx whose results depend on the C types
of their variables: counts are C `int`s, the minimal frequency is a C `float`.
-/
namespace Prolothar.Dfg
open Prolothar.EventLog (Log Event Trace)
variable {A : Type} [DecidableEq A]

/-- `self.edges[edge].count += count`, 91. `self.edges` is a `dict`, so the attribute is read and written as a python attribute: the sum
is a python integer and the setter of `cdef public int count` (edge.pxd 23) raises OverflowError if it does not fit. -/
def increase (g : Graph A) (e : Nat) (count : Int) : Graph A × Py Unit :=
  match g.heap[e]? with
  | some o =>
    match CInt.toInt (o.count + count) with
    | .ok c => (modifyEdge g e fun o => { o with count := c }, .ok ())
    | .error err => (g, .error err)
  | none => (g, .error .index)

/-- `add_count`, directly_follows_graph.pyx 82-91, with the C type of the argument: the graph after the call, and the exception that was raised -/
def addCountInt (g : Graph A) (a b : A) (count : Int := 1) : Graph A × Py Unit :=
  match CInt.toInt count with
  | .error err => (g, .error err)
  | .ok count =>
    let g := addNode (addNode g a) b
    match g.edges.get? (a, b) with
    | some e => increase g e count
    | none =>
      let e := g.heap.length
      let g := newEdge g (a, b) 0
      let g := appendIng (appendOut g a e) b e
      increase g e count

/-- the loop over the pairs of consecutive activities in `read_counts_from_log`, directly_follows_graph.pyx 420-424: the graph after the loop, and the exception
that ended it -/
def readPairsInt (g : Graph A) : List (A × A) → Graph A × Py Unit
  | [] => (g, .ok ())
  | p :: ps =>
    match addCountInt (addNode g p.1) p.1 p.2 with
    | (g, .ok ()) => readPairsInt g ps
    | (g, .error err) => (g, .error err)

/-- `read_counts_from_log`, directly_follows_graph.pyx 416-424, with bounded counts -/
def readCountsInt {I V : Type} (g : Graph A) : Log I A V → Graph A × Py Unit
  | [] => (g, .ok ())
  | t :: log =>
    match readPairsInt (addFirst g t.activities) (t.activities.zip t.activities.tail) with
    | (g, .ok ()) => readCountsInt g log
    | (g, .error err) => (g, .error err)

/-- the frequency test, directly_follows_graph.pyx 268-269, as it is compiled: `min_frequency` is a C `float` (256-257), which has 24 significant bits; the quotient
of the two integers is a python float (the total is a python object), which has 53 -/
def frequentFloat (minFrequency : ℚ) (total : Int) (o : EdgeObj A) : Bool :=
  0 < total ∧ Float.rnd 24 minFrequency ≤ Float.rnd 53 ((o.count : ℚ) / (total : ℚ))

/-- `filter_edges_by_local_frequency`, directly_follows_graph.pyx 256-283, as it is compiled -/
def filterLocalFloat (g : Graph A) (minFrequency : ℚ) (keepAtLeastOne : Bool) : Py (Graph A) :=
  filterLocalBy g (frequentFloat minFrequency) keepAtLeastOne

end Prolothar.Dfg
