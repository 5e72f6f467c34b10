import Verif.Model.Dict
import Verif.Model.EventLog
import Mathlib.Data.List.Sort
/-
Model of /repo/prolothar_common/models/directly_follows_graph.pyx and models/dfg/{node,edge}.pyx.

An `Edge` object is shared by the dictionary `edges` and the lists of its two end nodes, so edges live
in a heap and are referred to by their position in it. A `Node` object is identified with its
activity. Simplifications: activities are values of an arbitrary type `A` (linearly ordered where the
code sorts them); counts are unbounded integers (C ints in the code); frequencies are exact rationals;
colors and the graphviz plotting are not modelled; a node that was popped from `nodes` is dropped
together with its lists (nothing reads them any more).
-/
namespace Prolothar.Dfg
open Prolothar.EventLog (Log Event Trace keepFirst)

/-- edge.pyx 19-24 -/
structure EdgeObj (A : Type) where
  start : A
  stop : A
  count : Int
deriving DecidableEq, Repr

/-- node.pyx 20-25: the lists of outgoing and ingoing edges, as heap positions -/
structure NodeObj where
  out : List Nat
  ing : List Nat
deriving DecidableEq, Repr

/-- directly_follows_graph.pyx 32-34 and the heap of the edge objects -/
structure Graph (A : Type) where
  heap : List (EdgeObj A)
  edges : Dict (A × A) Nat
  nodes : Dict A NodeObj
deriving DecidableEq, Repr

/-- `DirectlyFollowsGraph()`, directly_follows_graph.pyx 32-34 -/
def empty {A : Type} : Graph A := ⟨[], [], []⟩

section
variable {A : Type} [DecidableEq A]

/-- `add_node`, directly_follows_graph.pyx 36-42 -/
def addNode (g : Graph A) (a : A) : Graph A :=
  if g.nodes.has a then g else { g with nodes := g.nodes.put a ⟨[], []⟩ }

/-- in-place change of the lists of a node (no effect on a node that was popped); used for directly_follows_graph.pyx 82-91 -/
def modifyNode (g : Graph A) (a : A) (f : NodeObj → NodeObj) : Graph A :=
  match g.nodes.get? a with
  | some n => { g with nodes := g.nodes.put a (f n) }
  | none => g

/-- in-place change of an edge object; used for directly_follows_graph.pyx 82-91 -/
def modifyEdge (g : Graph A) (e : Nat) (f : EdgeObj A → EdgeObj A) : Graph A :=
  { g with heap := g.heap.modify e f }

/-- `node.edges.append(edge)`; used for directly_follows_graph.pyx 82-91 -/
def appendOut (g : Graph A) (a : A) (e : Nat) : Graph A :=
  modifyNode g a fun n => { n with out := n.out ++ [e] }

/-- `node.ingoing_edges.append(edge)`; used for directly_follows_graph.pyx 82-91 -/
def appendIng (g : Graph A) (a : A) (e : Nat) : Graph A :=
  modifyNode g a fun n => { n with ing := n.ing ++ [e] }

/-- `self.edges[key] = Edge(nodes[key[0]], nodes[key[1]], count)`, directly_follows_graph.pyx 87-88, 407-410 -/
def newEdge (g : Graph A) (k : A × A) (count : Int) : Graph A :=
  { g with heap := g.heap ++ [⟨k.1, k.2, count⟩], edges := g.edges.put k g.heap.length }

/-- `add_count`, directly_follows_graph.pyx 82-91 -/
def addCount (g : Graph A) (a b : A) (count : Int := 1) : Graph A :=
  let g := addNode (addNode g a) b
  match g.edges.get? (a, b) with
  | some e => modifyEdge g e fun o => { o with count := o.count + count }
  | none =>
    let e := g.heap.length
    let g := newEdge g (a, b) 0
    let g := appendIng (appendOut g a e) b e
    modifyEdge g e fun o => { o with count := o.count + count }

/-- python's `l.remove(x)`: removes the first equal element or raises ValueError; used for directly_follows_graph.pyx 77 -/
def listRemove (eq : Nat → Bool) : List Nat → Py (List Nat)
  | [] => .error .value
  | x :: xs => if eq x then .ok xs else do
    let xs ← listRemove eq xs
    return x :: xs

/-- `Edge.__eq__`, edge.pyx 26-29, for heap positions -/
def edgeEq (heap : List (EdgeObj A)) (e f : Nat) : Bool :=
  match heap[e]?, heap[f]? with
  | some x, some y => x.start = y.start ∧ x.stop = y.stop ∧ x.count = y.count
  | _, _ => false

/-- `edge.start.edges.remove(edge)`, directly_follows_graph.pyx 77 -/
def removeOut (g : Graph A) (a : A) (e : Nat) : Py (Graph A) :=
  match g.nodes.get? a with
  | some n => do
    let l ← listRemove (edgeEq g.heap e) n.out
    return { g with nodes := g.nodes.put a { n with out := l } }
  | none => .ok g

/-- `edge.end.ingoing_edges.remove(edge)`, directly_follows_graph.pyx 78 -/
def removeIng (g : Graph A) (a : A) (e : Nat) : Py (Graph A) :=
  match g.nodes.get? a with
  | some n => do
    let l ← listRemove (edgeEq g.heap e) n.ing
    return { g with nodes := g.nodes.put a { n with ing := l } }
  | none => .ok g

/-- `remove_edge`, directly_follows_graph.pyx 73-80; also returns the removed edge -/
def removeEdge (g : Graph A) (k : A × A) : Py (Graph A × Option (EdgeObj A)) :=
  match g.edges.get? k with
  | none => .ok (g, none)
  | some e =>
    match g.heap[e]? with
    | none => .error .index
    | some o => do
      let g := { g with edges := g.edges.del k }
      let g ← removeOut g o.start e
      let g ← removeIng g o.stop e
      return (g, some o)

/-- `get_following_activities`, directly_follows_graph.pyx 390-394 -/
def following (g : Graph A) (a : A) : Py (List A) := do
  let n ← g.nodes.getItem a
  return n.out.filterMap fun e => (g.heap[e]?).map EdgeObj.stop

/-- `get_preceeding_activities`, directly_follows_graph.pyx 384-388 -/
def preceding (g : Graph A) (a : A) : Py (List A) := do
  let n ← g.nodes.getItem a
  return n.ing.filterMap fun e => (g.heap[e]?).map EdgeObj.start

/-- the nested loops of `remove_node`, directly_follows_graph.pyx 53-56 -/
def connectAll (g : Graph A) (a : A) : List A → Py (Graph A)
  | [] => .ok g
  | p :: ps => do
    let followers ← following g a
    connectAll (followers.foldl (fun g s => addCount g p s) g) a ps

/-- the loop over the edge keys in `remove_node`, directly_follows_graph.pyx 70-71 -/
def removeEdges (g : Graph A) : List (A × A) → Py (Graph A)
  | [] => .ok g
  | k :: ks => do
    let r ← removeEdge g k
    removeEdges r.1 ks

/-- end points of an edge object, directly_follows_graph.pyx 60-69 -/
def edgeKey (g : Graph A) (e : Nat) : Option (A × A) := (g.heap[e]?).map fun o => (o.start, o.stop)

/-- `set.add` on a duplicate free list; used for directly_follows_graph.pyx 44-71 -/
def setAdd {α : Type} [DecidableEq α] (s : List α) (a : α) : List α := if a ∈ s then s else s ++ [a]

/-- `remove_node`, directly_follows_graph.pyx 44-71 (the order in which the set of edge keys is visited is irrelevant, see
Lemmas/Dfg) -/
def removeNode (g : Graph A) (a : A) (createConnections : Bool := false) : Py (Graph A) := do
  let g ← if createConnections then do
      let ps ← preceding g a
      connectAll g a ps
    else .ok g
  let n ← g.nodes.getItem a
  let g := { g with nodes := g.nodes.del a }
  let keys := ((n.out ++ n.ing).filterMap (edgeKey g)).foldl setAdd []
  removeEdges g keys

/-- `join`, directly_follows_graph.pyx 401-414 -/
def join (g other : Graph A) : Graph A :=
  let g := other.nodes.keys.foldl addNode g
  let g := other.edges.foldl
    (fun g p => newEdge g p.1 (match other.heap[p.2]? with | some o => o.count | none => 0)) g
  let g := other.edges.keys.foldl
    (fun g k => match g.edges.get? k with | some e => appendOut g k.1 e | none => g) g
  other.edges.keys.foldl
    (fun g k => match g.edges.get? k with | some e => appendIng g k.2 e | none => g) g

/-- `copy`, directly_follows_graph.pyx 396-399 -/
def copy (g : Graph A) : Graph A := join empty g

/-- `get_count`, directly_follows_graph.pyx 531-533 -/
def getCount (g : Graph A) (a b : A) : Int :=
  match g.edges.get? (a, b) with
  | some e => match g.heap[e]? with | some o => o.count | none => 0
  | none => 0

/-- `read_counts_from_log`, directly_follows_graph.pyx 416-424: the first activity of a trace, 418-419 -/
def addFirst (g : Graph A) : List A → Graph A
  | a :: _ => addNode g a
  | [] => g

/-- `read_counts_from_log`, directly_follows_graph.pyx 416-424: one trace -/
def readTrace (g : Graph A) (acts : List A) : Graph A :=
  let g := addFirst g acts
  (acts.zip acts.tail).foldl (fun g p => addCount (addNode g p.1) p.1 p.2) g

/-- `read_counts_from_log`, directly_follows_graph.pyx 416-424 -/
def readCounts {I V : Type} (g : Graph A) (log : Log I A V) : Graph A :=
  log.foldl (fun g t => readTrace g t.activities) g

/-- `create_from_event_log`, directly_follows_graph.pyx 628-632 -/
def createFromLog {I V : Type} (log : Log I A V) : Graph A := readCounts empty log

/-- `build_eventually_follows_on_first_occurence_graph`, directly_follows_graph.pyx 634-651: the loops over one trace -/
def readPairs (g : Graph A) : List A → Graph A
  | [] => g
  | a :: rest => readPairs (rest.foldl (fun g b => addCount g a b) g) rest

/-- `build_eventually_follows_on_first_occurence_graph`, directly_follows_graph.pyx 634-651 -/
def eventuallyFollows {I V : Type} (log : Log I A V) : Graph A :=
  (keepFirst log).foldl (fun g t => readPairs g t.activities) empty

/-- `select_nodes`, directly_follows_graph.pyx 426-436 -/
def selectNodes (g : Graph A) (keep : A → Bool) : Py (Graph A) :=
  let c := copy g
  c.nodes.keys.foldlM (fun c a => if keep a then .ok c else removeNode c a) c

/-- an edgeless copy, directly_follows_graph.pyx 258-260 and 290-292 -/
def withoutEdges (g : Graph A) : Py (Graph A) :=
  let c := copy g
  removeEdges c c.edges.keys

/-- `filter_edges_by_absolute_count`, directly_follows_graph.pyx 285-297 -/
def filterAbsolute (g : Graph A) (minCount : Int) : Py (Graph A) := do
  let f ← withoutEdges g
  return (g.edges.values.filterMap fun e => g.heap[e]?).foldl
    (fun f o => if minCount ≤ o.count then addCount f o.start o.stop o.count else f) f

/-- edges of a node as objects; used for directly_follows_graph.pyx 263-271 -/
def outObjs (g : Graph A) (n : NodeObj) : List (EdgeObj A) := n.out.filterMap fun e => g.heap[e]?

/-- sum of the counts of the outgoing edges, directly_follows_graph.pyx 264-266 -/
def totalCount (l : List (EdgeObj A)) : Int := (l.map EdgeObj.count).sum

/-- the frequency test, directly_follows_graph.pyx 268-269 -/
def frequent (total : Int) (minFrequency : ℚ) (o : EdgeObj A) : Bool :=
  0 < total ∧ minFrequency ≤ (o.count : ℚ) / (total : ℚ)

/-- first loop of `filter_edges_by_local_frequency`, directly_follows_graph.pyx 263-271, for one node; `test total edge` is the frequency test -/
def addFrequent (g : Graph A) (test : Int → EdgeObj A → Bool) (f : Graph A) (n : NodeObj) : Graph A :=
  let l := outObjs g n
  l.foldl (fun f o => if test (totalCount l) o then addCount f o.start o.stop o.count else f) f

/-- body of the loop directly_follows_graph.pyx 278-280; `none` is the default edge with count 0 and without end points -/
def maxStep (m : Option (EdgeObj A)) (o : EdgeObj A) : Option (EdgeObj A) :=
  match m with
  | some m => if m.count < o.count then some o else some m
  | none => if 0 < o.count then some o else none

/-- the edge with the largest count, directly_follows_graph.pyx 277-280 -/
def maxEdge (l : List (EdgeObj A)) : Option (EdgeObj A) := l.foldl maxStep none

/-- second loop of `filter_edges_by_local_frequency`, directly_follows_graph.pyx 273-282, for one node -/
def keepOne (g : Graph A) (f : Graph A) (a : A) : Py (Graph A) := do
  let n ← f.nodes.getItem a
  if n.out = [] then
    let u ← g.nodes.getItem a
    if u.out = [] then return f
    else match maxEdge (outObjs g u) with
      | some o => return addCount f o.start o.stop o.count
      | none => .error .attribute
  else return f

/-- `filter_edges_by_local_frequency`, directly_follows_graph.pyx 256-283, for an arbitrary frequency test -/
def filterLocalBy (g : Graph A) (test : Int → EdgeObj A → Bool) (keepAtLeastOne : Bool) : Py (Graph A) := do
  let f ← withoutEdges g
  let f := g.nodes.values.foldl (addFrequent g test) f
  if keepAtLeastOne then f.nodes.keys.foldlM (keepOne g) f else return f

/-- `filter_edges_by_local_frequency`, directly_follows_graph.pyx 256-283, with exact arithmetic -/
def filterLocal (g : Graph A) (minFrequency : ℚ) (keepAtLeastOne : Bool) : Py (Graph A) :=
  filterLocalBy g (fun total => frequent total minFrequency) keepAtLeastOne

/-- `compute_indegree`, directly_follows_graph.pyx 381-382 -/
def indegree (g : Graph A) (a : A) : Py Nat := do
  let n ← g.nodes.getItem a
  return n.ing.length

/-- `Node.is_followed_by`, node.pyx 40-46 -/
def isFollowedBy (g : Graph A) (n : NodeObj) (a : A) : Bool := (outObjs g n).any fun o => o.stop = a

/-- `get_source_activities`, directly_follows_graph.pyx 438-449 -/
def sources (g : Graph A) : List A :=
  (g.nodes.filter fun p => p.2.ing.length = 0 ∨ (p.2.ing.length = 1 ∧ isFollowedBy g p.2 p.1)).map Prod.fst

/-- `get_sink_activities`, directly_follows_graph.pyx 451-461 -/
def sinks (g : Graph A) : List A :=
  (g.nodes.filter fun p => p.2.out.length = 0 ∨ (p.2.out.length = 1 ∧ isFollowedBy g p.2 p.1)).map Prod.fst

/-- body of the `for` loops directly_follows_graph.pyx 543-546 and 555-558; the flag tells whether a node was removed -/
def pruneStep (allowed : A → Bool) (st : Graph A × Bool) (a : A) : Py (Graph A × Bool) :=
  if allowed a then .ok st else do
    let g ← removeNode st.1 a
    return (g, true)

/-- `remove_not_allowed_start_activities`, directly_follows_graph.pyx 535-546, and `remove_not_allowed_end_activities`, 548-559:
`ends` is `sources` or `sinks` -/
def prune (ends : Graph A → List A) (allowed : A → Bool) : Nat → Graph A → Py (Graph A)
  | 0, _ => .error .diverge
  | fuel + 1, g => do
    let st ← (ends g).foldlM (pruneStep allowed) (g, false)
    if st.2 then prune ends allowed fuel st.1 else return st.1

/-- `remove_not_allowed_start_activities`, directly_follows_graph.pyx 535-546 -/
def removeNotAllowedStart (g : Graph A) (allowed : A → Bool) : Py (Graph A) :=
  prune sources allowed (g.nodes.length + 1) g

/-- `remove_not_allowed_end_activities`, directly_follows_graph.pyx 548-559 -/
def removeNotAllowedEnd (g : Graph A) (allowed : A → Bool) : Py (Graph A) :=
  prune sinks allowed (g.nodes.length + 1) g

/-- `set.pop()`: removes an element; which one is up to the `pick` function; used for directly_follows_graph.pyx 509-514 -/
def setPop (pick : List A → Nat) : List A → Option (A × List A)
  | [] => none
  | x :: xs =>
    let i := pick (x :: xs) % (xs.length + 1)
    some (((x :: xs)[i]?).getD x, (x :: xs).eraseIdx i)

/-- the loops directly_follows_graph.pyx 509-514 and 523-528; `next` is `following` or `preceding` -/
def closureLoop (pick : List A → Nat) (next : A → Py (List A)) : Nat → List A → List A → Py (List A)
  | 0, _, _ => .error .diverge
  | fuel + 1, todo, done =>
    match setPop pick todo with
    | none => .ok done
    | some (a, todo) => do
      let done := setAdd done a
      let l ← next a
      closureLoop pick next fuel (l.foldl (fun t b => if b ∈ done then t else setAdd t b) todo) done

/-- `get_reachable_activities`, directly_follows_graph.pyx 502-515 -/
def reachable (pick : List A → Nat) (g : Graph A) (a : A) : Py (List A) := do
  let l ← following g a
  closureLoop pick (following g) (g.nodes.length + 1) (l.foldl setAdd []) []

/-- `get_activities_that_reach`, directly_follows_graph.pyx 517-529 -/
def thatReach (pick : List A → Nat) (g : Graph A) (a : A) : Py (List A) := do
  let l ← preceding g a
  closureLoop pick (preceding g) (g.nodes.length + 1) (l.foldl setAdd []) []

/-- the `for` loop directly_follows_graph.pyx 495-499: state is (unseen, stack); the head of the list is the top of the stack -/
def weakStep (st : List A × List A) (b : A) : List A × List A :=
  if b ∈ st.1 then (st.1.erase b, b :: st.2) else st

/-- `_create_weakly_connected_component_from_start`, directly_follows_graph.pyx 487-500 -/
def weakLoop (g : Graph A) : Nat → List A → List A → List A → Py (List A × List A)
  | 0, _, _, _ => .error .diverge
  | _ + 1, unseen, [], comp => .ok (unseen, comp)
  | fuel + 1, unseen, a :: stack, comp => do
    let ps ← preceding g a
    let fs ← following g a
    let st := (ps ++ fs).foldl weakStep (unseen, stack)
    weakLoop g fuel st.1 st.2 (comp ++ [a])

/-- `get_weakly_connected_components`, directly_follows_graph.pyx 473-486 -/
def weakComponentsLoop (pick : List A → Nat) (g : Graph A) : Nat → List A → List (List A) → Py (List (List A))
  | 0, _, _ => .error .diverge
  | fuel + 1, unseen, comps =>
    match setPop pick unseen with
    | none => .ok comps
    | some (a, unseen) => do
      let r ← weakLoop g (g.nodes.length + 1) unseen [a] []
      weakComponentsLoop pick g fuel r.1 (comps ++ [r.2])

/-- `get_weakly_connected_components`, directly_follows_graph.pyx 473-486 -/
def weakComponents (pick : List A → Nat) (g : Graph A) : Py (List (List A)) :=
  weakComponentsLoop pick g (g.nodes.length + 1) g.nodes.keys []

/-- `get_largest_weakly_connected_component`, directly_follows_graph.pyx 463-471 -/
def largestWeakComponent (pick : List A → Nat) (g : Graph A) : Py (Graph A) := do
  let comps ← weakComponents pick g
  let best := comps.foldl (fun (st : List A × Nat) c => if st.2 < c.length then (c, c.length) else st) ([], 0)
  selectNodes g fun a => a ∈ best.1

/-- `rename_activity`, directly_follows_graph.pyx 561-578: the loop over the ingoing edges, 569-574; the names in the edge objects
have already changed -/
def renameIng (old new : A) (g : Graph A) (e : Nat) : Py (Graph A) :=
  match g.heap[e]? with
  | none => .error .index
  | some o =>
    let k := if o.start = o.stop then (old, old) else (o.start, old)
    if g.edges.has k then .ok { g with edges := (g.edges.del k).put (o.start, new) e }
    else .error .key

/-- `rename_activity`, directly_follows_graph.pyx 561-578: the loop over the outgoing edges, 575-578 -/
def renameOut (old new : A) (g : Graph A) (e : Nat) : Py (Graph A) :=
  match g.heap[e]? with
  | none => .error .index
  | some o =>
    if o.start = o.stop then .ok g
    else if g.edges.has (old, o.stop) then .ok { g with edges := (g.edges.del (old, o.stop)).put (new, o.stop) e }
    else .error .key

/-- `rename_activity`, directly_follows_graph.pyx 561-578; `node.activity = new_name` changes the names seen through all edge
objects of the node -/
def rename (g : Graph A) (old new : A) : Py (Graph A) := do
  let n ← g.nodes.getItem old
  let g := { g with nodes := (g.nodes.put new n).del old }
  let g := n.out.foldl (fun g e => modifyEdge g e fun o => { o with start := new }) g
  let g := n.ing.foldl (fun g e => modifyEdge g e fun o => { o with stop := new }) g
  let g ← n.ing.foldlM (renameIng old new) g
  n.out.foldlM (renameOut old new) g

/-- inner `while` loop of `generate_log`, directly_follows_graph.pyx 614-624; `choose` is `Random.choice`, an arbitrary pick -/
def walk {G : Type} (g : Graph A) (choose : G → Nat → Nat × G) (stops : A → Bool) :
    Nat → G → List A → List A → Py (List A × G)
  | 0, _, _, _ => .error .diverge
  | fuel + 1, rng, options, path =>
    if options.length = 0 then .error .index
    else
      let r := choose rng options.length
      match options[r.1 % options.length]? with
      | none => .error .index
      | some a => do
        let next ← following g a
        if stops a then return (path ++ [a], r.2)
        else walk g choose stops fuel r.2 next (path ++ [a])

/-- the loop over the traces in `generate_log`, directly_follows_graph.pyx 610-625 -/
def walks {G : Type} (g : Graph A) (choose : G → Nat → Nat × G) (starts stops : List A) (fuel : Nat) :
    Nat → G → Py (List (List A))
  | 0, _ => .ok []
  | n + 1, rng => do
    let r ← walk g choose (fun a => a ∈ stops) fuel rng starts []
    let rest ← walks g choose starts stops fuel n r.2
    return r.1 :: rest

/-- `generate_log`, directly_follows_graph.pyx 580-626; the result is the list of the activity sequences of the traces -/
def generateLog {G : Type} (g : Graph A) (choose : G → Nat → Nat × G) (rng : G) (fuel n : Nat)
    (starts stops : Option (List A)) : Py (List (List A)) :=
  let starts := starts.getD (sources g)
  let stops := stops.getD (sinks g)
  if starts = [] then .error .value
  else if stops = [] then .error .value
  else walks g choose starts stops fuel n rng

end

section paths
variable {A : Type} [LinearOrder A]

/-- the `for` loop directly_follows_graph.pyx 328-334 and 369-375: `.inl` is the `return` -/
def expand (isEnd : A → Bool) (path : List A) (cur : A) :
    List A → List (A × List A) × List A → List A ⊕ (List (A × List A) × List A)
  | [], st => .inr st
  | b :: bs, st =>
    if isEnd b then .inl (path ++ [cur, b])
    else if b ∈ st.2 then expand isEnd path cur bs st
    else expand isEnd path cur bs (st.1 ++ [(b, path ++ [cur])], st.2 ++ [b])

/-- the `while` loop directly_follows_graph.pyx 324-337 and 364-378 -/
def bfs (g : Graph A) (isEnd : A → Bool) : Nat → List (A × List A) → List A → Py (List A)
  | 0, _, _ => .error .diverge
  | _ + 1, [], _ => .ok []
  | fuel + 1, (cur, path) :: queue, visited => do
    let visited := setAdd visited cur
    let nb ← following g cur
    match expand isEnd path cur (nb.insertionSort (· ≤ ·)) (queue, visited) with
    | .inl p => return p
    | .inr st => bfs g isEnd fuel st.1 st.2

/-- `compute_shortest_path_to_one_of`, directly_follows_graph.pyx 346-379 -/
def shortestPathToOneOf (g : Graph A) (a : A) (ends : A → Bool) : Py (List A) :=
  if ¬ g.nodes.has a then .error .value
  else if ends a then .ok []
  else bfs g ends (g.nodes.length + 1) [(a, [])] [a]

/-- the loop directly_follows_graph.pyx 314-316 that takes the forbidden edges out -/
def takeOut (g : Graph A) : List (A × A) → Py (Graph A × List (Option (EdgeObj A)))
  | [] => .ok (g, [])
  | k :: ks => do
    let r ← removeEdge g k
    let s ← takeOut r.1 ks
    return (s.1, r.2 :: s.2)

/-- the `finally` block directly_follows_graph.pyx 339-342. `edge` is declared as `Edge`, and for a `None` in the list the compiled code reads the
attributes of `None` without a check, which is undefined: the model stops there. -/
def putBack (g : Graph A) : List (Option (EdgeObj A)) → Graph A × Py Unit
  | [] => (g, .ok ())
  | some o :: os => putBack (addCount g o.start o.stop o.count) os
  | none :: _ => (g, .error .undefined)

/-- `compute_shortest_path`, directly_follows_graph.pyx 299-344: the graph after the call and the result -/
def shortestPath (g : Graph A) (a b : A) (forbidden : List (A × A)) : Graph A × Py (List A) :=
  if ¬ g.nodes.has a then (g, .error .value)
  else if a = b then (g, .ok [])
  else match takeOut g forbidden with
    | .error e => (g, .error e)
    | .ok (g', removed) =>
      let r := bfs g' (fun x => x = b) (g'.nodes.length + 1) [(a, [])] [a]
      match putBack g' removed with
      | (g'', .ok ()) => (g'', r)
      | (g'', .error e) => (g'', .error e)

end paths

end Prolothar.Dfg
