import Verif.Lemmas.DfgMore
import Verif.Props.EventLog
/-
Directly-follows graph: C43 – C51, C81 – C84.
-/
set_option linter.unusedSimpArgs false
set_option linter.unusedVariables false
set_option linter.unusedSectionVars false
set_option linter.unusedDecidableInType false
namespace Prolothar.Dfg
open Prolothar.EventLog (Log Event Trace keepFirst)
open Prolothar.Spec.Dfg Prolothar.Spec.Graph

section
variable {A : Type} [LinearOrder A]

/-- what a user sees of a graph: its nodes, and for every stored edge its count -/
def view (g : Graph A) : Digraph A where
  node a := g.nodes.has a = true
  count a b := (g.edges.get? (a, b)).bind fun e => (g.heap[e]?).map EdgeObj.count

/-- the graphs obtained by a history of successful calls; two graphs are joined only if they have no
edge in common and a node is renamed only to an unused name -/
inductive Built : Graph A → Prop
  | new : Built empty
  | addNode {g} (h : Built g) (a : A) : Built (addNode g a)
  | addCount {g} (h : Built g) (a b : A) (k : Int) : Built (addCount g a b k)
  | removeEdge {g g' o} (h : Built g) (a b : A) (hr : removeEdge g (a, b) = .ok (g', o)) : Built g'
  | removeNode {g g'} (h : Built g) (a : A) (conn : Bool) (hr : removeNode g a conn = .ok g') : Built g'
  | filterAbsolute {g g'} (h : Built g) (m : Int) (hr : filterAbsolute g m = .ok g') : Built g'
  | filterLocal {g g'} (h : Built g) (q : ℚ) (keep : Bool) (hr : filterLocal g q keep = .ok g') : Built g'
  | selectNodes {g g'} (h : Built g) (keep : A → Bool) (hr : selectNodes g keep = .ok g') : Built g'
  | largest {g g'} (h : Built g) (pick : List A → Nat) (hr : largestWeakComponent pick g = .ok g') : Built g'
  | pruneStart {g g'} (h : Built g) (allowed : A → Bool) (hr : removeNotAllowedStart g allowed = .ok g') : Built g'
  | pruneEnd {g g'} (h : Built g) (allowed : A → Bool) (hr : removeNotAllowedEnd g allowed = .ok g') : Built g'
  | readCounts {g} {I V : Type} (h : Built g) (log : Log I A V) : Built (readCounts g log)
  | eventually {I V : Type} (log : Log I A V) : Built (eventuallyFollows log)
  | copy {g} (h : Built g) : Built (copy g)
  | join {g other} (h : Built g) (h' : Built other)
      (hd : ∀ a b, ¬ ((view g).Edge a b ∧ (view other).Edge a b)) : Built (join g other)
  | rename {g g'} (h : Built g) (old new : A) (hn : ¬ (view g).node new) (hr : rename g old new = .ok g') : Built g'
  | path {g} (h : Built g) (a b : A) (forbidden : List (A × A)) : Built (shortestPath g a b forbidden).1

theorem view_node (g : Graph A) (a : A) : (view g).node a ↔ a ∈ g.nodes.keys := Dict.has_iff

theorem view_edge (g : Graph A) (a b : A) : (view g).Edge a b ↔ Edge g a b := by
  unfold Digraph.Edge Edge
  rw [Option.isSome_iff_exists]
  rfl

theorem putBack_wf (os : List (Option (EdgeObj A))) {g : Graph A} (h : WF g) : WF (putBack g os).1 := by
  induction os generalizing g with
  | nil => exact h
  | cons o os ih =>
    cases o with
    | none => exact h
    | some o => exact ih (addCount_wf h _ _ _).1

theorem path_wf {g : Graph A} (h : WF g) (a b : A) (forbidden : List (A × A)) :
    WF (shortestPath g a b forbidden).1 := by
  unfold shortestPath
  split
  · exact h
  · split
    · exact h
    · obtain ⟨g', os, h1, h2, _⟩ := takeOut_spec forbidden h
      rw [h1]
      have := putBack_wf os h2
      simp only
      split
      · rename_i hh; rw [hh] at this; exact this
      · rename_i hh; rw [hh] at this; exact this

theorem eventually_wf {I V : Type} (log : Log I A V) {g : Graph A} (h : WF g) :
    WF ((keepFirst log).foldl (fun g t => readPairs g t.activities) g) := by
  have hnd : ∀ t ∈ keepFirst log, t.activities.Nodup := by
    intro t ht
    unfold keepFirst at ht
    obtain ⟨t0, _, rfl⟩ := List.mem_map.1 ht
    exact (Prolothar.EventLog.firsts_spec [] t0.events).2.1
  generalize keepFirst log = l at *
  induction l generalizing g with
  | nil => exact h
  | cons t l ih =>
    exact ih (readPairs_ok h (hnd t (by simp))).1 fun t' ht' => hnd t' (by simp [ht'])

theorem rename_missing {g g' : Graph A} {old new : A} (hr : rename g old new = .ok g') : old ∈ g.nodes.keys := by
  rw [Dict.mem_keys_iff]
  cases hn : g.nodes.get? old with
  | some n => exact ⟨n, rfl⟩
  | none =>
    unfold rename at hr
    have : g.nodes.getItem old = .error .key := by unfold Dict.getItem; rw [hn]
    rw [this] at hr
    cases hr

theorem Built.wf {g : Graph A} (hb : Built g) : WF g := by
  induction hb with
  | new => exact empty_wf
  | addNode _ a ih => exact addNode_core ih a
  | addCount _ a b k ih => exact (addCount_wf ih a b k).1
  | removeEdge _ a b hr ih =>
    obtain ⟨g', o, h1, h2, _⟩ := removeEdge_wf ih a b
    rw [h1] at hr; cases hr; exact h2
  | @removeNode g g' _ a conn hr ih =>
    by_cases ha : a ∈ g.nodes.keys
    · cases conn with
      | true =>
        obtain ⟨g', h1, h2, _⟩ := removeNode_connect ih ha
        rw [h1] at hr; cases hr; exact h2
      | false =>
        obtain ⟨g', h1, h2, _⟩ := removeNode_plain ih ha
        rw [h1] at hr; cases hr; exact h2
    · rw [removeNode_missing ha] at hr; cases hr
  | filterAbsolute _ m hr ih =>
    obtain ⟨g', h1, h2, _⟩ := filterAbsolute_ok ih m
    rw [h1] at hr; cases hr; exact h2
  | filterLocal _ q keep hr ih =>
    cases keep with
    | true =>
      rcases filterLocal_keep ih q with ⟨_, h⟩ | ⟨g', h1, h2, _⟩
      · rw [h] at hr; cases hr
      · rw [h1] at hr; cases hr; exact h2
    | false =>
      obtain ⟨g', h1, h2, _⟩ := filterLocal_plain ih q
      rw [h1] at hr; cases hr; exact h2
  | selectNodes _ keep hr ih =>
    obtain ⟨g', h1, h2, _⟩ := selectNodes_ok ih keep
    rw [h1] at hr; cases hr; exact h2
  | @largest g g' _ pick hr ih =>
    obtain ⟨r, h1, _⟩ := weakComponents_ok pick ih
    unfold largestWeakComponent at hr
    rw [h1] at hr
    have hr : Dfg.selectNodes g _ = .ok g' := hr
    obtain ⟨g'', h1, h2, _⟩ := selectNodes_ok ih _
    rw [h1] at hr; cases hr; exact h2
  | pruneStart _ allowed hr ih =>
    obtain ⟨g', h1, h2, _⟩ := removeNotAllowedStart_ok ih allowed
    rw [h1] at hr; cases hr; exact h2
  | pruneEnd _ allowed hr ih =>
    obtain ⟨g', h1, h2, _⟩ := removeNotAllowedEnd_ok ih allowed
    rw [h1] at hr; cases hr; exact h2
  | readCounts _ log ih => exact (readCounts_ok log ih).1
  | eventually log => exact eventually_wf log empty_wf
  | copy _ ih => exact (copy_ok ih).1
  | @join g other _ _ hd ih ih' =>
    refine (join_ok ih ih' ?_).1
    intro k hk hk'
    refine hd k.1 k.2 ⟨?_, ?_⟩
    · rw [view_edge]; unfold Edge; rw [ih.cnt_isSome]; exact hk'
    · rw [view_edge]; unfold Edge; rw [ih'.cnt_isSome]; exact hk
  | rename _ old new hn hr ih =>
    rw [view_node] at hn
    obtain ⟨g', h1, h2, _⟩ := rename_ok ih (rename_missing hr) hn
    rw [h1] at hr; cases hr; exact h2
  | path _ a b forbidden ih => exact path_wf ih a b forbidden

/-! ### C43 well-formedness -/

/-- C43: after every history, every stored edge has exactly its key as end points, both of them are
nodes, and the lists of every node have no duplicates and consist exactly of the stored edges that
leave (enter) the node. -/
theorem C43_well_formed {g : Graph A} (hb : Built g) :
    (∀ a b e, g.edges.get? (a, b) = some e →
      (∃ c, g.heap[e]? = some ⟨a, b, c⟩) ∧ (view g).node a ∧ (view g).node b) ∧
    (∀ k k' e, g.edges.get? k = some e → g.edges.get? k' = some e → k = k') ∧
    ∀ a n, g.nodes.get? a = some n →
      (n.out.Nodup ∧ ∀ e, e ∈ n.out ↔ ∃ b, g.edges.get? (a, b) = some e) ∧
      (n.ing.Nodup ∧ ∀ e, e ∈ n.ing ↔ ∃ b, g.edges.get? (b, a) = some e) := by
  have h := hb.wf
  refine ⟨fun a b e he => ⟨h.obj _ _ he, ?_⟩, fun k k' e => h.inj, fun a n hn => ⟨h.out a n hn, h.ing a n hn⟩⟩
  rw [view_node, view_node]
  exact h.ends _ _ he

/-- C43: the query operations agree with the stored edges: successors, predecessors and counts. -/
theorem C43_queries {g : Graph A} (hb : Built g) (a : A) :
    ((view g).node a → (∃ l, following g a = .ok l ∧ l.Nodup ∧ ∀ b, b ∈ l ↔ (view g).Edge a b) ∧
      (∃ l, preceding g a = .ok l ∧ l.Nodup ∧ ∀ b, b ∈ l ↔ (view g).Edge b a)) ∧
    (¬ (view g).node a → following g a = .error .key ∧ preceding g a = .error .key) ∧
    ∀ b, getCount g a b = ((view g).count a b).getD 0 := by
  have h := hb.wf
  rw [view_node]
  refine ⟨fun ha => ⟨?_, ?_⟩, fun ha => ⟨following_missing ha, preceding_missing ha⟩, fun b => getCount_eq g a b⟩
  · obtain ⟨l, h1, h2, h3⟩ := following_ok h.toCore ha
    exact ⟨l, h1, h2, fun b => by rw [h3, view_edge]; rfl⟩
  · obtain ⟨l, h1, h2, h3⟩ := preceding_ok h.toCore ha
    exact ⟨l, h1, h2, fun b => by rw [h3, view_edge]; rfl⟩

/-- C43: the effect of the operations that add and remove nodes and edges. -/
theorem C43_effects {g : Graph A} (hb : Built g) (a b : A) (k : Int) :
    (∀ x, (view (addNode g a)).node x ↔ (view g).node x ∨ x = a) ∧
    (∀ x y, (view (addNode g a)).count x y = (view g).count x y) ∧
    (∀ x, (view (addCount g a b k)).node x ↔ (view g).node x ∨ x = a ∨ x = b) ∧
    (∀ x y, (view (addCount g a b k)).count x y =
      if x = a ∧ y = b then some (((view g).count a b).getD 0 + k) else (view g).count x y) ∧
    ∃ g', removeEdge g (a, b) = .ok (g', ((view g).count a b).map fun c => ⟨a, b, c⟩) ∧
      (∀ x, (view g').node x ↔ (view g).node x) ∧
      ∀ x y, (view g').count x y = if x = a ∧ y = b then none else (view g).count x y := by
  have h := hb.wf
  simp only [view_node]
  refine ⟨fun x => addNode_keys g a x, fun x y => addNode_cnt g a x y, (addCount_wf h a b k).2.1,
    (addCount_wf h a b k).2.2, ?_⟩
  obtain ⟨g', o, h1, h2, h3, h4, h5⟩ := removeEdge_wf h a b
  refine ⟨g', by rw [h1, h3]; rfl, fun x => by rw [h4], h5⟩

/-- C43: `filter_edges_by_absolute_count` keeps all nodes and exactly the edges with at least the
minimum count. -/
theorem C43_filter_absolute {g : Graph A} (hb : Built g) (m : Int) :
    ∃ f, filterAbsolute g m = .ok f ∧ (∀ x, (view f).node x ↔ (view g).node x) ∧
      ∀ x y c, (view f).count x y = some c ↔ (view g).count x y = some c ∧ m ≤ c := by
  obtain ⟨f, h1, _, h3, h4⟩ := filterAbsolute_ok hb.wf m
  simp only [view_node]
  exact ⟨f, h1, h3, h4⟩

/-- C43: `filter_edges_by_local_frequency` keeps all nodes and exactly the edges whose share of the
outgoing counts of their start node is large enough; `succs` lists the successors of `x`. -/
theorem C43_filter_local {g : Graph A} (hb : Built g) (q : ℚ) :
    ∃ f, filterLocal g q false = .ok f ∧ (∀ x, (view f).node x ↔ (view g).node x) ∧
      ∀ (x : A) (succs : List A), succs.Nodup → (∀ b, b ∈ succs ↔ (view g).Edge x b) →
        ∀ y c, (view f).count x y = some c ↔ (view g).count x y = some c ∧
          0 < (succs.map fun b => getCount g x b).sum ∧
          q ≤ (c : ℚ) / ((succs.map fun b => getCount g x b).sum : ℤ) := by
  obtain ⟨f, h1, _, h3, h4⟩ := filterLocal_plain hb.wf q
  simp only [view_node]
  refine ⟨f, h1, h3, ?_⟩
  intro x succs hnd hs y c
  have := outTotal_eq hb.wf x succs hnd (fun b => by rw [hs]; rfl)
  show cnt f x y = some c ↔ cnt g x y = some c ∧ _
  rw [h4, this]
  unfold frequent
  simp

/-- C43: with `keep_at_least_one` a node with a positive outgoing count keeps at least one outgoing
edge: those that are frequent enough or, if there are none, one with the largest count. The call
raises only if all outgoing counts of some node with outgoing edges are not positive. -/
theorem C43_filter_local_keep {g : Graph A} (hb : Built g) (q : ℚ) :
    ((∃ a, (∃ b, (view g).Edge a b) ∧ ∀ b c, (view g).count a b = some c → c ≤ 0) ∧
      filterLocal g q true = .error .attribute) ∨
    ∃ f f0, filterLocal g q true = .ok f ∧ filterLocal g q false = .ok f0 ∧
      (∀ x, (view f).node x ↔ (view g).node x) ∧
      ∀ a, ((∃ b, (view f0).Edge a b) → ∀ b, (view f).count a b = (view f0).count a b) ∧
        ((∀ b, ¬ (view f0).Edge a b) →
          ((∀ b, ¬ (view g).Edge a b) ∧ ∀ b, ¬ (view f).Edge a b) ∨
          ∃ b c, (view g).count a b = some c ∧ (∀ b' c', (view g).count a b' = some c' → c' ≤ c) ∧
            ∀ y, (view f).count a y = if y = b then some c else none) := by
  rcases filterLocal_keep hb.wf q with ⟨⟨a, ⟨b, c, hc⟩, h2⟩, h3⟩ | ⟨f, h1, _, h3, h4⟩
  · exact .inl ⟨⟨a, ⟨b, c, hc⟩, h2⟩, h3⟩
  · obtain ⟨f0, i1, _, i3, i4⟩ := filterLocal_plain hb.wf q
    simp only [view_node]
    refine .inr ⟨f, f0, h1, i1, h3, ?_⟩
    intro a
    rcases h4 a with ⟨⟨b0, c0, hb0⟩, hiff⟩ | ⟨hno, hrest⟩
    · refine ⟨fun _ b => ?_, fun hn => ?_⟩
      · show cnt f a b = cnt f0 a b
        ext c
        rw [hiff, i4]
      · exact absurd ⟨c0, (i4 a b0 c0).2 hb0⟩ (hn b0)
    · refine ⟨?_, fun _ => ?_⟩
      · rintro ⟨b, c, hc⟩
        have := (i4 a b c).1 hc
        rw [hno b c this.1] at this
        cases this.2
      · rcases hrest with ⟨h5, h6⟩ | h5
        · left
          refine ⟨?_, ?_⟩
          · rintro b ⟨c, hc⟩
            have hc : cnt g a b = some c := hc
            rw [h5] at hc; cases hc
          · rintro b ⟨c, hc⟩
            have hc : cnt f a b = some c := hc
            rw [h6] at hc; cases hc
        · exact .inr h5

/-- C43: `copy` keeps nodes, their order and counts; `select_nodes` is the induced subgraph; `join`
of graphs without common edges is the union. -/
theorem C43_copy_select_join {g : Graph A} (hb : Built g) :
    ((copy g).nodes.keys = g.nodes.keys ∧ ∀ x y, (view (copy g)).count x y = (view g).count x y) ∧
    (∀ keep : A → Bool, ∃ f, selectNodes g keep = .ok f ∧
      (∀ x, (view f).node x ↔ (view g).node x ∧ keep x = true) ∧
      ∀ x y, (view f).count x y = if keep x = true ∧ keep y = true then (view g).count x y else none) ∧
    ∀ other, Built other → (∀ a b, ¬ ((view g).Edge a b ∧ (view other).Edge a b)) →
      (∀ x, (view (join g other)).node x ↔ (view g).node x ∨ (view other).node x) ∧
      ∀ x y, (view (join g other)).count x y = ((view g).count x y).or ((view other).count x y) := by
  have h := hb.wf
  simp only [view_node]
  refine ⟨(copy_ok h).2, fun keep => ?_, fun other ho hd => ?_⟩
  · obtain ⟨f, h1, _, h3, h4⟩ := selectNodes_ok h keep
    exact ⟨f, h1, h3, h4⟩
  · have := join_ok h ho.wf (by
      intro k hk hk'
      refine hd k.1 k.2 ⟨?_, ?_⟩
      · rw [view_edge]; unfold Edge; rw [h.cnt_isSome]; exact hk'
      · rw [view_edge]; unfold Edge; rw [ho.wf.cnt_isSome]; exact hk)
    exact ⟨this.2.2.1, this.2.2.2⟩

/-- C43 needs the restriction on `join`: joining two graphs that share an edge leaves an edge in the
lists of the nodes that is not stored any more, so the successor is listed twice and removing the edge
leaves a dangling one behind. -/
theorem C43_join_overlap :
    let g := addCount (empty : Graph Nat) 1 2
    following (join g g) 1 = .ok [2, 2] ∧
    ∃ g', removeEdge (join g g) (1, 2) = .ok (g', some ⟨1, 2, 1⟩) ∧ following g' 1 = .ok [2] ∧
      getCount g' 1 2 = 0 := by
  refine ⟨by decide, _, rfl, by decide, by decide⟩

/-- a history with a self-loop, a node removed with connections and a renamed node -/
example : ∃ g : Graph Nat, Built g ∧ (view g).Edge 1 4 ∧ (view g).Edge 4 4 ∧ ¬ (view g).node 2 := by
  have hb : Built (addCount (addCount (addCount (empty : Graph Nat) 1 2 3) 2 3 1) 3 3 5) :=
    .addCount (.addCount (.addCount .new 1 2 3) 2 3 1) 3 3 5
  have h1 : (removeNode (addCount (addCount (addCount (empty : Graph Nat) 1 2 3) 2 3 1) 3 3 5) 2 true).toOption.bind
      (fun g => (rename g 3 4).toOption.map fun g' =>
        (g.nodes.has 4, g'.nodes.keys, getCount g' 1 4, getCount g' 4 4)) = some (false, [1, 4], 1, 5) := by decide
  cases h2 : removeNode (addCount (addCount (addCount (empty : Graph Nat) 1 2 3) 2 3 1) 3 3 5) 2 true with
  | error e => rw [h2] at h1; cases h1
  | ok g =>
    rw [h2] at h1
    cases h3 : rename g 3 4 with
    | error e =>
      have h1 : ((rename g 3 4).toOption.map fun g' =>
        (g.nodes.has 4, g'.nodes.keys, getCount g' 1 4, getCount g' 4 4)) = some (false, [1, 4], 1, 5) := h1
      rw [h3] at h1; cases h1
    | ok g' =>
      have h1 : ((rename g 3 4).toOption.map fun g' =>
        (g.nodes.has 4, g'.nodes.keys, getCount g' 1 4, getCount g' 4 4)) = some (false, [1, 4], 1, 5) := h1
      rw [h3] at h1
      simp only [Except.toOption, Option.map_some, Option.some.injEq, Prod.mk.injEq] at h1
      obtain ⟨i1, i2, i3, i4⟩ := h1
      have hb' : Built g' := .rename (.removeNode hb 2 true h2) 3 4 (by show ¬ (_ = true); simp [i1]) h3
      refine ⟨g', hb', ?_, ?_, by rw [view_node, i2]; decide⟩
      · rw [(C43_queries hb' 1).2.2] at i3
        cases h : (view g').count 1 4 with
        | none => rw [h] at i3; cases i3
        | some c => exact ⟨c, h⟩
      · rw [(C43_queries hb' 4).2.2] at i4
        cases h : (view g').count 4 4 with
        | none => rw [h] at i4; cases i4
        | some c => exact ⟨c, h⟩

/-! ### C44 counts of a log -/

/-- C44: the count of an edge is the number of positions at which the second activity follows the
first immediately, and the nodes are the activities of the log. -/
theorem C44_counts {I V : Type} (log : Log I A V) :
    (∀ a b, getCount (createFromLog log) a b = ((log.map fun t => adjacentCount a b t.activities).sum : Nat)) ∧
    (∀ a b, (view (createFromLog log)).Edge a b ↔ ∃ t ∈ log, 0 < adjacentCount a b t.activities) ∧
    ∀ a, (view (createFromLog log)).node a ↔ ∃ t ∈ log, a ∈ t.activities := by
  obtain ⟨h1, h2, h3⟩ := readCounts_ok log (empty_wf (A := A))
  have he : ∀ x y : A, cnt (empty : Graph A) x y = none := fun x y => rfl
  refine ⟨?_, ?_, ?_⟩
  · intro a b
    rw [getCount_eq]
    unfold createFromLog
    rw [h3, he]
    split
    · simp
    · rename_i hno
      have : (log.map fun t => adjacentCount a b t.activities).sum = 0 := by
        apply List.sum_eq_zero
        intro n hn
        obtain ⟨t, ht, rfl⟩ := List.mem_map.1 hn
        by_contra hc
        exact hno ⟨t, ht, by omega⟩
      rw [this]; rfl
  · intro a b
    rw [view_edge]
    unfold Edge createFromLog
    rw [h3, he]
    split
    · rename_i hh; simp [hh]
    · rename_i hh
      constructor
      · intro hc; cases hc
      · intro hc; exact absurd hc hh
  · intro a
    rw [view_node]
    unfold createFromLog
    rw [h2]
    simp [empty, Dict.keys]

/-- C44: reading a further log adds its counts. -/
theorem C44_read_more {I V : Type} {g : Graph A} (hb : Built g) (log : Log I A V) (a b : A) :
    getCount (readCounts g log) a b = getCount g a b + ((log.map fun t => adjacentCount a b t.activities).sum : Nat) := by
  obtain ⟨h1, h2, h3⟩ := readCounts_ok log hb.wf
  rw [getCount_eq, getCount_eq, h3]
  split
  · simp
  · rename_i hno
    have : (log.map fun t => adjacentCount a b t.activities).sum = 0 := by
      apply List.sum_eq_zero
      intro n hn
      obtain ⟨t, ht, rfl⟩ := List.mem_map.1 hn
      by_contra hc
      exact hno ⟨t, ht, by omega⟩
    rw [this]; simp

example : getCount (createFromLog [(⟨0, [⟨1, [], none⟩, ⟨2, [], none⟩, ⟨1, [], none⟩, ⟨2, [], none⟩], []⟩ : Trace Nat Nat Nat),
    ⟨1, [⟨1, [], none⟩, ⟨2, [], none⟩, ⟨2, [], none⟩], []⟩]) 1 2 = 3 := by decide

/-! ### C45, C46, C81 shortest paths -/

theorem cnt_iff_view (g : Graph A) (a b : A) : cnt g a b = (view g).count a b := rfl

theorem allowedWalk_iff {g g' : Graph A} (forbidden : List (A × A))
    (hc : ∀ x y, cnt g' x y = if (x, y) ∈ forbidden then none else cnt g x y) (a b : A) (p : List A) :
    AllowedWalk (view g) forbidden a b p ↔ IsWalk (Edge g') a b p := by
  unfold AllowedWalk
  have : (fun x y => (view g).Edge x y ∧ (x, y) ∉ forbidden) = Edge g' := by
    funext x y
    rw [view_edge]
    unfold Edge
    rw [hc]
    by_cases h : (x, y) ∈ forbidden <;> simp [h]
  rw [this]

/-- the call, in terms of the graph `g'` without the forbidden edges -/
theorem shortestPath_eq {g : Graph A} (h : WF g) {a b : A} (ha : a ∈ g.nodes.keys) (hab : a ≠ b)
    {forbidden : List (A × A)} (hf : forbidden.Nodup) (hin : ∀ k ∈ forbidden, Edge g k.1 k.2) :
    ∃ g' g'', WF g' ∧ (∀ x, x ∈ g'.nodes.keys ↔ x ∈ g.nodes.keys) ∧
      (∀ x y, cnt g' x y = if (x, y) ∈ forbidden then none else cnt g x y) ∧
      (∀ x, x ∈ g''.nodes.keys ↔ x ∈ g.nodes.keys) ∧ (∀ x y, cnt g'' x y = cnt g x y) ∧
      shortestPath g a b forbidden = (g'', bfs g' (fun x => x = b) (g'.nodes.length + 1) [(a, [])] [a]) := by
  obtain ⟨g', os, h1, h2, h3, h4, h5, _⟩ := takeOut_spec forbidden h
  have hos := h5 hf hin
  obtain ⟨g'', p1, p2, p3, p4⟩ := putBack_ok forbidden hf (fun x y => (cnt g x y).getD 0) h2
    (fun k hk => by rw [h4, if_pos]; exact hk)
    (fun k hk => by rw [h3]; exact Edge.nodes h (hin k hk))
  refine ⟨g', g'', h2, fun x => by rw [h3], h4, fun x => by rw [p3, h3], ?_, ?_⟩
  · intro x y
    rw [p4]
    split
    · rename_i hm
      obtain ⟨c, hc⟩ := Option.isSome_iff_exists.1 (hin _ hm)
      simp only at hc
      rw [hc]; rfl
    · rename_i hm
      rw [h4, if_neg hm]
  · unfold shortestPath
    rw [if_neg (by rw [Dict.has_iff]; exact fun hc => hc ha), if_neg hab, h1]
    simp only
    rw [hos, p1]

/-- C45: for different nodes the result is a shortest path that avoids the forbidden edges, or the
empty list if there is no such path. -/
theorem C45_shortest_path {g : Graph A} (hb : Built g) {a b : A} (ha : (view g).node a) (hab : a ≠ b)
    {forbidden : List (A × A)} (hf : forbidden.Nodup) (hin : ∀ k ∈ forbidden, (view g).Edge k.1 k.2) :
    ∃ p, (shortestPath g a b forbidden).2 = .ok p ∧
      ((∃ q, AllowedWalk (view g) forbidden a b q) →
        AllowedWalk (view g) forbidden a b p ∧
          ∀ q, AllowedWalk (view g) forbidden a b q → p.length ≤ q.length) ∧
      ((¬ ∃ q, AllowedWalk (view g) forbidden a b q) → p = []) := by
  rw [view_node] at ha
  obtain ⟨g', g'', w1, w2, w3, _, _, w6⟩ := shortestPath_eq hb.wf ha hab hf
    (fun k hk => (view_edge g _ _).1 (hin k hk))
  simp only [allowedWalk_iff forbidden w3]
  rw [w6]
  obtain ⟨r, h1, h2⟩ := bfs_start w1 (fun x => decide (x = b)) a ((w2 a).2 ha) (by simpa using hab)
  refine ⟨r, h1, ?_, ?_⟩
  · rintro ⟨q, hq⟩
    rcases h2 with ⟨rfl, hno⟩ | ⟨p, e, rfl, hw, he, hmin⟩
    · obtain ⟨q', rfl, hq'⟩ := (wk_iff _ _ _ _).1 hq
      have := hno q' b hq'
      simp at this
    · simp only [decide_eq_true_eq] at he
      subst he
      refine ⟨(wk_iff _ _ _ _).2 ⟨p, rfl, hw⟩, ?_⟩
      intro q2 hq2
      obtain ⟨q3, rfl, hq3⟩ := (wk_iff _ _ _ _).1 hq2
      have := hmin q3 e hq3 (by simp)
      unfold SL at this
      omega
  · intro hno
    rcases h2 with ⟨rfl, _⟩ | ⟨p, e, rfl, hw, he, hmin⟩
    · rfl
    · simp only [decide_eq_true_eq] at he
      subst he
      exact absurd ⟨_, (wk_iff _ _ _ _).2 ⟨p, rfl, hw⟩⟩ hno

/-- C45: the path from a node to itself is the empty list; an unknown start is rejected. -/
theorem C45_trivial (g : Graph A) (a b : A) (forbidden : List (A × A)) :
    ((view g).node a → (shortestPath g a a forbidden).2 = .ok []) ∧
    (¬ (view g).node a → (shortestPath g a b forbidden).2 = .error .value) := by
  refine ⟨fun ha => ?_, fun ha => ?_⟩
  · unfold shortestPath
    rw [if_neg (fun hc => hc ha), if_pos rfl]
  · have ha : ¬ g.nodes.has a = true := ha
    unfold shortestPath
    rw [if_pos ha]

/-- C45: `compute_shortest_path_to_one_of` returns a shortest path to some end activity. -/
theorem C45_to_one_of {g : Graph A} (hb : Built g) {a : A} (ha : (view g).node a) (ends : A → Bool) :
    ∃ p, shortestPathToOneOf g a ends = .ok p ∧
      (ends a = true → p = []) ∧
      (ends a = false → (∃ q e, ends e = true ∧ IsWalk (view g).Edge a e q) →
        (∃ e, ends e = true ∧ IsWalk (view g).Edge a e p) ∧
          ∀ q e, ends e = true → IsWalk (view g).Edge a e q → p.length ≤ q.length) ∧
      ((¬ ∃ q e, ends e = true ∧ IsWalk (view g).Edge a e q) → p = []) := by
  have hE : (view g).Edge = Edge g := by funext x y; rw [view_edge]
  rw [hE]
  have ha' := (view_node g a).1 ha
  unfold shortestPathToOneOf
  rw [if_neg (fun hc => hc ha)]
  by_cases he : ends a = true
  · rw [if_pos he]
    exact ⟨[], rfl, fun _ => rfl, (fun hc => by rw [he] at hc; cases hc), fun _ => rfl⟩
  · rw [if_neg he]
    have hef : ends a = false := by simpa using he
    obtain ⟨r, h1, h2⟩ := bfs_start hb.wf ends a ha' hef
    refine ⟨r, h1, fun hc => absurd hc he, fun _ => ?_, ?_⟩
    · rintro ⟨q, e, hend, hq⟩
      rcases h2 with ⟨rfl, hno⟩ | ⟨p, e', rfl, hw, he', hmin⟩
      · obtain ⟨q', rfl, hq'⟩ := (wk_iff _ _ _ _).1 hq
        have := hno q' e hq'
        rw [hend] at this; cases this
      · refine ⟨⟨e', he', (wk_iff _ _ _ _).2 ⟨p, rfl, hw⟩⟩, ?_⟩
        intro q2 e2 he2 hq2
        obtain ⟨q3, rfl, hq3⟩ := (wk_iff _ _ _ _).1 hq2
        have := hmin q3 e2 hq3 he2
        unfold SL at this
        omega
    · intro hno
      rcases h2 with ⟨rfl, _⟩ | ⟨p, e', rfl, hw, he', hmin⟩
      · rfl
      · exact absurd ⟨_, e', he', (wk_iff _ _ _ _).2 ⟨p, rfl, hw⟩⟩ hno

/-- C81: among the shortest paths the lexicographically least is returned, so the result depends
only on the nodes and edges of the graph and not on the order in which they were added. -/
theorem C81_least_path {g : Graph A} (hb : Built g) {a b : A} (ha : (view g).node a) (hab : a ≠ b)
    {forbidden : List (A × A)} (hf : forbidden.Nodup) (hin : ∀ k ∈ forbidden, (view g).Edge k.1 k.2)
    {p : List A} (hp : (shortestPath g a b forbidden).2 = .ok p) {q : List A}
    (hq : AllowedWalk (view g) forbidden a b q) (hlen : q.length = p.length) : p ≤ q := by
  rw [view_node] at ha
  obtain ⟨g', g'', w1, w2, w3, _, _, w6⟩ := shortestPath_eq hb.wf ha hab hf
    (fun k hk => (view_edge g _ _).1 (hin k hk))
  rw [allowedWalk_iff forbidden w3] at hq
  rw [w6] at hp
  obtain ⟨r, h1, h2⟩ := bfs_start w1 (fun x => decide (x = b)) a ((w2 a).2 ha) (by simpa using hab)
  simp only at hp
  rw [h1] at hp
  cases hp
  rcases h2 with ⟨rfl, hno⟩ | ⟨p, e, rfl, hw, he, hmin⟩
  · obtain ⟨q', rfl, hq'⟩ := (wk_iff _ _ _ _).1 hq
    simp at hlen
  · obtain ⟨q3, rfl, hq3⟩ := (wk_iff _ _ _ _).1 hq
    simp only [decide_eq_true_eq] at he
    subst he
    have := hmin q3 e hq3 (by simp)
    unfold SL at this
    by_contra hc
    exact this (.inr ⟨hlen, not_le.1 hc⟩)

/-- C81: two graphs with the same nodes and edges give the same path. -/
theorem C81_order_irrelevant {g g' : Graph A} (hb : Built g) (hb' : Built g')
    (hn : ∀ x, (view g).node x ↔ (view g').node x) (he : ∀ x y, (view g).Edge x y ↔ (view g').Edge x y)
    (a b : A) (ha : (view g).node a) {forbidden : List (A × A)} (hf : forbidden.Nodup)
    (hin : ∀ k ∈ forbidden, (view g).Edge k.1 k.2) :
    (shortestPath g a b forbidden).2 = (shortestPath g' a b forbidden).2 := by
  by_cases hab : a = b
  · subst hab
    rw [(C45_trivial g a a forbidden).1 ha, (C45_trivial g' a a forbidden).1 ((hn a).1 ha)]
  · have hin' : ∀ k ∈ forbidden, (view g').Edge k.1 k.2 := fun k hk => (he _ _).1 (hin k hk)
    have hw : ∀ q, AllowedWalk (view g) forbidden a b q ↔ AllowedWalk (view g') forbidden a b q := by
      intro q
      unfold AllowedWalk
      simp only [he]
    obtain ⟨p, p1, p2, p3⟩ := C45_shortest_path hb ha hab hf hin
    obtain ⟨p', q1, q2, q3⟩ := C45_shortest_path hb' ((hn a).1 ha) hab hf hin'
    rw [p1, q1]
    by_cases hex : ∃ q, AllowedWalk (view g) forbidden a b q
    · obtain ⟨u1, u2⟩ := p2 hex
      obtain ⟨v1, v2⟩ := q2 (by obtain ⟨q, hq⟩ := hex; exact ⟨q, (hw q).1 hq⟩)
      have hl : p.length = p'.length := le_antisymm (u2 p' ((hw p').2 v1)) (v2 p ((hw p).1 u1))
      have h1 := C81_least_path hb ha hab hf hin p1 ((hw p').2 v1) hl.symm
      have h2 := C81_least_path hb' ((hn a).1 ha) hab hf hin' q1 ((hw p).1 u1) hl
      rw [le_antisymm h1 h2]
    · rw [p3 hex, q3 (by rintro ⟨q, hq⟩; exact hex ⟨q, (hw q).2 hq⟩)]

/-- C46: if all forbidden edges are distinct edges of the graph, the call leaves nodes and counts as
they were, whether or not a path is found. -/
theorem C46_graph_unchanged {g : Graph A} (hb : Built g) (a b : A) {forbidden : List (A × A)}
    (hf : forbidden.Nodup) (hin : ∀ k ∈ forbidden, (view g).Edge k.1 k.2) :
    (∀ x, (view (shortestPath g a b forbidden).1).node x ↔ (view g).node x) ∧
    ∀ x y, (view (shortestPath g a b forbidden).1).count x y = (view g).count x y := by
  simp only [view_node]
  by_cases ha : a ∈ g.nodes.keys
  · by_cases hab : a = b
    · unfold shortestPath
      rw [if_neg (by rw [Dict.has_iff]; exact fun hc => hc ha), if_pos hab]
      exact ⟨fun _ => Iff.rfl, fun _ _ => rfl⟩
    · obtain ⟨g', g'', _, _, _, w4, w5, w6⟩ := shortestPath_eq hb.wf ha hab hf
        (fun k hk => (view_edge g _ _).1 (hin k hk))
      rw [w6]
      exact ⟨w4, w5⟩
  · unfold shortestPath
    rw [if_pos (by rw [Dict.has_iff]; exact ha)]
    exact ⟨fun _ => Iff.rfl, fun _ _ => rfl⟩

/-- C46: with a forbidden edge that is not in the graph (or that is listed twice) the call has no defined result: the code
reads the attributes of `None` as if it was an edge. -/
theorem C46_unknown_forbidden_edge {g : Graph A} (hb : Built g) {a b : A} (ha : (view g).node a) (hab : a ≠ b)
    {forbidden : List (A × A)} (hbad : ¬ (forbidden.Nodup ∧ ∀ k ∈ forbidden, (view g).Edge k.1 k.2)) :
    (shortestPath g a b forbidden).2 = .error .undefined := by
  obtain ⟨g', os, h1, h2, h3, h4, _, h6⟩ := takeOut_spec forbidden hb.wf
  have hn := h6 (by
    rintro ⟨c1, c2⟩
    exact hbad ⟨c1, fun k hk => (view_edge g _ _).2 (c2 k hk)⟩)
  obtain ⟨g'', hp⟩ := putBack_none os g' hn
  unfold shortestPath
  rw [if_neg (fun hc => hc ha), if_neg hab, h1]
  simp only
  rw [hp]

/-- C46: at this time an edge of the graph may be missing. -/
theorem C46_failed_call_loses_edge :
    let g := addCount (addCount (empty : Graph Nat) 1 2 5) 2 3 1
    let r := shortestPath g 1 3 [(1, 7), (1, 2)]
    r.2 = .error .undefined ∧ getCount g 1 2 = 5 ∧ getCount r.1 1 2 = 0 := by decide

example : let g := createFromLog [(⟨0, [⟨1, [], none⟩, ⟨2, [], none⟩, ⟨4, [], none⟩], []⟩ : Trace Nat Nat Nat),
      ⟨1, [⟨1, [], none⟩, ⟨3, [], none⟩, ⟨4, [], none⟩, ⟨1, [], none⟩], []⟩]
    (shortestPath g 1 4 []).2 = .ok [1, 2, 4] ∧ (shortestPath g 1 4 [(1, 2)]).2 = .ok [1, 3, 4] ∧
      (shortestPath g 1 4 [(2, 4), (3, 4)]).2 = .ok [] := by decide

/-! ### C47 reachability -/

/-- C47: `get_reachable_activities` returns exactly the nodes that can be reached by one or more
edges, and the reverse query exactly the nodes that reach the activity, whatever order the sets are
iterated in; unknown activities are rejected. -/
theorem C47_reachable (pick : List A → Nat) {g : Graph A} (hb : Built g) (a : A) :
    ((view g).node a →
      (∃ r, reachable pick g a = .ok r ∧ r.Nodup ∧ ∀ x, x ∈ r ↔ Relation.TransGen (view g).Edge a x) ∧
      ∃ r, thatReach pick g a = .ok r ∧ r.Nodup ∧ ∀ x, x ∈ r ↔ Relation.TransGen (view g).Edge x a) ∧
    (¬ (view g).node a → reachable pick g a = .error .key ∧ thatReach pick g a = .error .key) := by
  have hE : (view g).Edge = Edge g := by funext x y; rw [view_edge]
  rw [hE, view_node]
  refine ⟨fun ha => ⟨reachable_ok pick hb.wf ha, thatReach_ok pick hb.wf ha⟩, fun ha => ⟨?_, ?_⟩⟩
  · unfold reachable; rw [following_missing ha]; rfl
  · unfold thatReach; rw [preceding_missing ha]; rfl

example : let g := addCount (addCount (addCount (empty : Graph Nat) 1 2) 2 3) 3 2
    reachable (fun _ => 0) g 1 = .ok [2, 3] ∧ reachable (fun _ => 1) g 2 = .ok [3, 2] ∧
      thatReach (fun _ => 0) g 1 = .ok [] := by decide

/-! ### C48 weakly connected components -/

/-- connected when the directions of the edges are ignored -/
abbrev Connected (G : Digraph A) : A → A → Prop := Reach fun a b => G.Edge a b ∨ G.Edge b a

theorem weak_eq (g : Graph A) : Weak g = Connected (view g) := by
  unfold Weak Connected
  simp only [view_edge]

/-- C48: the components list every node exactly once, none is empty, and a component is exactly the
set of nodes connected to any of its nodes. -/
theorem C48_components (pick : List A → Nat) {g : Graph A} (hb : Built g) :
    ∃ comps, weakComponents pick g = .ok comps ∧ comps.flatten.Nodup ∧
      (∀ x, x ∈ comps.flatten ↔ (view g).node x) ∧
      ∀ c ∈ comps, c ≠ [] ∧ ∀ x ∈ c, ∀ y, y ∈ c ↔ Connected (view g) x y := by
  obtain ⟨r, h1, h2, h3⟩ := weakComponents_ok pick hb.wf
  refine ⟨r, h1, h2.nodup_iff.2 hb.wf.nodesWF, fun x => by rw [h2.mem_iff, view_node], ?_⟩
  intro c hc
  obtain ⟨s, hs, hm⟩ := h3 c hc
  refine ⟨List.ne_nil_of_mem hs, ?_⟩
  intro x hx y
  rw [hm, ← weak_eq]
  have hx' := (hm x).1 hx
  exact ⟨fun hy => hx'.symm.trans hy, fun hy => hx'.trans hy⟩

theorem best_spec (comps : List (List A)) (st : List A × Nat) (hst : st.2 = st.1.length) :
    let r := comps.foldl (fun (st : List A × Nat) c => if st.2 < c.length then (c, c.length) else st) st
    (r.1 ∈ comps ∨ r.1 = st.1) ∧ r.2 = r.1.length ∧ st.1.length ≤ r.1.length ∧ ∀ c ∈ comps, c.length ≤ r.1.length := by
  induction comps generalizing st with
  | nil => exact ⟨.inr rfl, hst, le_refl _, by simp⟩
  | cons c comps ih =>
    simp only [List.foldl_cons]
    by_cases h : st.2 < c.length
    · rw [if_pos h]
      obtain ⟨i1, i2, i3, i4⟩ := ih (c, c.length) rfl
      simp only at i1 i3
      refine ⟨?_, i2, by omega, ?_⟩
      · rcases i1 with i1 | i1
        · exact .inl (by simp [i1])
        · exact .inl (by simp [i1])
      · intro c' hc'
        rcases List.mem_cons.1 hc' with rfl | hc'
        · exact i3
        · exact i4 c' hc'
    · rw [if_neg h]
      obtain ⟨i1, i2, i3, i4⟩ := ih st hst
      refine ⟨?_, i2, i3, ?_⟩
      · rcases i1 with i1 | i1
        · exact .inl (by simp [i1])
        · exact .inr i1
      · intro c' hc'
        rcases List.mem_cons.1 hc' with rfl | hc'
        · omega
        · exact i4 c' hc'

/-- C48: the largest component is the subgraph on the nodes connected to one node, and no other
component has more nodes. -/
theorem C48_largest (pick : List A → Nat) {g : Graph A} (hb : Built g) :
    ∃ (f : Graph A) (comp : List A), largestWeakComponent pick g = .ok f ∧ comp.Nodup ∧
      (∀ x, (view f).node x ↔ x ∈ comp) ∧
      (∀ x y, (view f).count x y = if x ∈ comp ∧ y ∈ comp then (view g).count x y else none) ∧
      (∀ x ∈ comp, (view g).node x ∧ ∀ y, y ∈ comp ↔ Connected (view g) x y) ∧
      ∀ other : List A, other.Nodup → (∀ x ∈ other, (view g).node x ∧ ∀ y ∈ other, Connected (view g) x y) →
        other.length ≤ comp.length := by
  obtain ⟨r, h1, h2, h3, h4⟩ := C48_components pick hb
  let st := r.foldl (fun (st : List A × Nat) c => if st.2 < c.length then (c, c.length) else st) (([] : List A), 0)
  obtain ⟨b1, _, _, b4⟩ := best_spec r (([] : List A), 0) rfl
  obtain ⟨f, f1, _, f3, f4⟩ := selectNodes_ok hb.wf fun a => decide (a ∈ st.1)
  have hcomp : st.1 ∈ r ∨ st.1 = [] := b1
  have hin : ∀ x ∈ st.1, (view g).node x ∧ ∀ y, y ∈ st.1 ↔ Connected (view g) x y := by
    intro x hx
    rcases hcomp with hc | hc
    · exact ⟨(h3 x).1 (List.mem_flatten.2 ⟨_, hc, hx⟩), (h4 _ hc).2 x hx⟩
    · rw [hc] at hx; cases hx
  refine ⟨f, st.1, ?_, ?_, ?_, ?_, hin, ?_⟩
  · unfold largestWeakComponent
    rw [h1]
    exact f1
  · rcases hcomp with hc | hc
    · exact (List.nodup_flatten.1 h2).1 _ hc
    · rw [hc]; exact List.nodup_nil
  · intro x
    rw [view_node, f3, ← view_node]
    simp only [decide_eq_true_eq]
    exact ⟨fun hh => hh.2, fun hh => ⟨(hin x hh).1, hh⟩⟩
  · intro x y
    show cnt f x y = _
    rw [f4]
    simp only [decide_eq_true_eq]
    rfl
  · intro other hnd hoth
    cases other with
    | nil => simp
    | cons x rest =>
      obtain ⟨hx, hxy⟩ := hoth x (by simp)
      obtain ⟨c, hc, hxc⟩ := List.mem_flatten.1 ((h3 x).2 hx)
      have hsub : (x :: rest) ⊆ c := by
        intro y hy
        exact ((h4 c hc).2 x hxc y).2 (hxy y hy)
      exact ((List.subperm_of_subset hnd hsub).length_le).trans (b4 c hc)

example : let g := addNode (addCount (addCount (empty : Graph Nat) 1 2) 3 2) 4
    weakComponents (fun _ => 0) g = .ok [[1, 2, 3], [4]] := by decide

/-! ### C49 removing a node -/

/-- C49: `remove_node` without connections removes exactly the node and its edges. -/
theorem C49_remove_plain {g : Graph A} (hb : Built g) {a : A} (ha : (view g).node a) :
    ∃ g', removeNode g a = .ok g' ∧ (∀ x, (view g').node x ↔ (view g).node x ∧ x ≠ a) ∧
      (∀ x y, (view g').count x y = if x = a ∨ y = a then none else (view g).count x y) ∧
      ∀ x y, Reach (view g').Edge x y ↔ Reach (fun u v => (view g).Edge u v ∧ u ≠ a ∧ v ≠ a) x y := by
  rw [view_node] at ha
  obtain ⟨g', h1, _, h3, h4⟩ := removeNode_plain hb.wf ha
  refine ⟨g', h1, ?_, h4, ?_⟩
  · intro x
    rw [view_node, view_node, h3, List.Nodup.mem_erase_iff hb.wf.nodesWF, and_comm]
  · intro x y
    have : (view g').Edge = fun u v => (view g).Edge u v ∧ u ≠ a ∧ v ≠ a := by
      funext u v
      rw [view_edge, view_edge]
      unfold Edge
      rw [h4]
      by_cases hu : u = a <;> by_cases hv : v = a <;> simp [hu, hv]
    rw [this]

/-- C49: `remove_node` with connections removes the node, adds one to the count of every edge from a
predecessor to a successor (creating it if needed), and keeps reachability between the other nodes. -/
theorem C49_remove_connected {g : Graph A} (hb : Built g) {a : A} (ha : (view g).node a) :
    ∃ g', removeNode g a true = .ok g' ∧ (∀ x, (view g').node x ↔ (view g).node x ∧ x ≠ a) ∧
      (∀ x y, x ≠ a → y ≠ a → ((view g).Edge x a ∧ (view g).Edge a y →
        (view g').count x y = some (((view g).count x y).getD 0 + 1)) ∧
        (¬ ((view g).Edge x a ∧ (view g).Edge a y) → (view g').count x y = (view g).count x y)) ∧
      ∀ x y, x ≠ a → y ≠ a → (Reach (view g').Edge x y ↔ Reach (view g).Edge x y) := by
  rw [view_node] at ha
  obtain ⟨g', h1, _, h3, h4⟩ := removeNode_connect hb.wf ha
  have hE : ∀ u v, (view g').Edge u v ↔ u ≠ a ∧ v ≠ a ∧
      ((view g).Edge u v ∨ (view g).Edge u a ∧ (view g).Edge a v) := by
    intro u v
    simp only [view_edge]
    unfold Edge
    rw [h4]
    by_cases hu : u = a
    · simp [hu]
    · by_cases hv : v = a
      · simp [hv]
      · by_cases hc : (cnt g u a).isSome ∧ (cnt g a v).isSome
        · simp [hu, hv, hc]
        · simp [hu, hv, hc]
  refine ⟨g', h1, ?_, ?_, ?_⟩
  · intro x
    rw [view_node, view_node, h3]
  · intro x y hx hy
    simp only [view_edge]
    refine ⟨fun hc => ?_, fun hc => ?_⟩
    · show cnt g' x y = _
      have hc : (cnt g x a).isSome = true ∧ (cnt g a y).isSome = true := hc
      rw [h4, if_neg (by tauto), if_pos hc]; rfl
    · show cnt g' x y = _
      have hc : ¬ ((cnt g x a).isSome = true ∧ (cnt g a y).isSome = true) := hc
      rw [h4, if_neg (by tauto), if_neg hc]; rfl
  · intro x y hx hy
    constructor
    · intro hr
      induction hr with
      | refl => exact .refl
      | @tail b c _ hbc ih =>
        obtain ⟨hb', hc', he⟩ := (hE b c).1 hbc
        rcases he with he | ⟨he1, he2⟩
        · exact (ih hb').tail he
        · exact ((ih hb').tail he1).tail he2
    · intro hr
      have key : ∀ z, Reach (view g).Edge x z → (z ≠ a → Reach (view g').Edge x z) ∧
          (z = a → ∃ w, Reach (view g').Edge x w ∧ w ≠ a ∧ (view g).Edge w a) := by
        intro z hz
        induction hz with
        | refl => exact ⟨fun _ => .refl, fun hc => absurd hc hx⟩
        | @tail b c _ hbc ih =>
          by_cases hba : b = a
          · obtain ⟨w, hw1, hw2, hw3⟩ := ih.2 hba
            rw [hba] at hbc
            refine ⟨fun hc => hw1.tail ((hE w c).2 ⟨hw2, hc, .inr ⟨hw3, hbc⟩⟩), fun _ => ⟨w, hw1, hw2, hw3⟩⟩
          · refine ⟨fun hc => (ih.1 hba).tail ((hE b c).2 ⟨hba, hc, .inl hbc⟩), fun hc => ?_⟩
            rw [hc] at hbc
            exact ⟨b, ih.1 hba, hba, hbc⟩
      exact (key y hr).1 hy

/-- C49: removing an unknown node raises. -/
theorem C49_unknown (g : Graph A) (a : A) (conn : Bool) (ha : ¬ (view g).node a) :
    removeNode g a conn = .error .key := by
  rw [view_node] at ha
  exact removeNode_missing ha conn

example : let g := addCount (addCount (addCount (empty : Graph Nat) 1 2) 2 3) 2 2
    (removeNode g 2 true).toOption.map (fun g' => (getCount g' 1 3, g'.nodes.keys)) = some (1, [1, 3]) ∧
    (removeNode g 2).toOption.map (fun g' => (getCount g' 1 3, g'.nodes.keys)) = some (0, [1, 3]) := by decide

/-! ### C50 sources and sinks -/

/-- C50: the sources (sinks) are exactly the nodes without other ingoing (outgoing) edges than a
self-loop. -/
theorem C50_sources_sinks {g : Graph A} (hb : Built g) (a : A) :
    (a ∈ sources g ↔ (view g).node a ∧ ∀ b, (view g).Edge b a → b = a) ∧
    (a ∈ sinks g ↔ (view g).node a ∧ ∀ b, (view g).Edge a b → b = a) ∧
    (sources g).Nodup ∧ (sinks g).Nodup := by
  simp only [view_node, view_edge]
  exact ⟨mem_sources hb.wf a, mem_sinks hb.wf a, sources_nodup hb.wf, sinks_nodup hb.wf⟩

example : let g := addNode (addCount (addCount (addCount (empty : Graph Nat) 1 2) 1 1) 2 3) 4
    sources g = [1, 4] ∧ sinks g = [3, 4] := by decide

/-! ### C51 removing disallowed start and end activities -/

theorem forced_iff {into into' : A → A → Prop} (hi : ∀ b a, into b a ↔ into' b a) (allowed : A → Bool) (a : A) :
    Forced into allowed a ↔ MustGo into' (fun x => allowed x = true) a := by
  constructor
  · intro h
    induction h with
    | intro a ha _ ih => exact .intro a (by simp [ha]) fun b hb hne => ih b ((hi b a).2 hb) hne
  · intro h
    induction h with
    | intro a ha _ ih => exact .intro a (by simpa using ha) fun b hb hne => ih b ((hi b a).1 hb) hne

/-- C51: the removal of disallowed start activities terminates; it removes exactly the nodes that
must go (disallowed, and nothing that stays leads into them) and keeps all edges between the others;
all remaining sources are allowed. -/
theorem C51_start {g : Graph A} (hb : Built g) (allowed : A → Bool) :
    ∃ r, removeNotAllowedStart g allowed = .ok r ∧
      (∀ x, (view r).node x ↔ (view g).node x ∧ ¬ MustGo (view g).Edge (fun x => allowed x = true) x) ∧
      (∀ x y, (view r).node x → (view r).node y → (view r).count x y = (view g).count x y) ∧
      ∀ x ∈ sources r, allowed x = true := by
  obtain ⟨r, h1, h2, h3, h4⟩ := removeNotAllowedStart_ok hb.wf allowed
  have hf : ∀ x, Forced (Edge g) allowed x ↔ MustGo (view g).Edge (fun x => allowed x = true) x :=
    forced_iff (fun b a => (view_edge g b a).symm) allowed
  refine ⟨r, h1, ?_, ?_, ?_⟩
  · intro x; rw [view_node, view_node, h3, hf]
  · intro x y hx hy
    rw [view_node] at hx hy
    exact h4 x y hx hy
  · intro x hx
    obtain ⟨hxk, hpred⟩ := (mem_sources h2 x).1 hx
    by_contra hna
    obtain ⟨hxg, hnf⟩ := (h3 x).1 hxk
    apply hnf
    refine .intro x (by simpa using hna) fun b hbx hne => ?_
    by_contra hbf
    have hbk : b ∈ r.nodes.keys := (h3 b).2 ⟨(Edge.nodes hb.wf hbx).1, hbf⟩
    apply hne
    apply hpred
    unfold Edge
    rw [h4 b x hbk hxk]
    exact hbx

/-- C51: the same for end activities. -/
theorem C51_end {g : Graph A} (hb : Built g) (allowed : A → Bool) :
    ∃ r, removeNotAllowedEnd g allowed = .ok r ∧
      (∀ x, (view r).node x ↔
        (view g).node x ∧ ¬ MustGo (fun b a => (view g).Edge a b) (fun x => allowed x = true) x) ∧
      (∀ x y, (view r).node x → (view r).node y → (view r).count x y = (view g).count x y) ∧
      ∀ x ∈ sinks r, allowed x = true := by
  obtain ⟨r, h1, h2, h3, h4⟩ := removeNotAllowedEnd_ok hb.wf allowed
  have hf : ∀ x, Forced (fun b a => Edge g a b) allowed x ↔
      MustGo (fun b a => (view g).Edge a b) (fun x => allowed x = true) x :=
    forced_iff (fun b a => (view_edge g a b).symm) allowed
  refine ⟨r, h1, ?_, ?_, ?_⟩
  · intro x; rw [view_node, view_node, h3, hf]
  · intro x y hx hy
    rw [view_node] at hx hy
    exact h4 x y hx hy
  · intro x hx
    obtain ⟨hxk, hpred⟩ := (mem_sinks h2 x).1 hx
    by_contra hna
    obtain ⟨hxg, hnf⟩ := (h3 x).1 hxk
    apply hnf
    refine .intro x (by simpa using hna) fun b hbx hne => ?_
    by_contra hbf
    have hbk : b ∈ r.nodes.keys := (h3 b).2 ⟨(Edge.nodes hb.wf hbx).2, hbf⟩
    apply hne
    apply hpred
    unfold Edge
    rw [h4 x b hxk hbk]
    exact hbx

/-- a chain of disallowed starts is removed, a cycle is not -/
example : let g := addCount (addCount (addCount (addCount (addCount (empty : Graph Nat) 1 2) 2 3) 3 4) 5 6) 6 5
    (removeNotAllowedStart g (fun x => x = 3)).toOption.map (fun r => r.nodes.keys) = some [3, 4, 5, 6] := by decide

/-! ### C82 eventually-follows graph of first occurrences -/

theorem firstBefore_cons (x y a : A) (l : List A) :
    FirstBefore x y (a :: l) ↔ y ≠ a ∧ ((x = a ∧ y ∈ l) ∨ FirstBefore x y l) := by
  constructor
  · rintro ⟨i, j, hij, hi, hj, hk⟩
    cases j with
    | zero => omega
    | succ j =>
      have hya : y ≠ a := by
        intro hc
        exact hk 0 (by omega) (by simp [hc])
      refine ⟨hya, ?_⟩
      simp only [List.getElem?_cons_succ] at hj
      cases i with
      | zero =>
        left
        simp only [List.getElem?_cons_zero, Option.some.injEq] at hi
        exact ⟨hi.symm, List.mem_of_getElem? hj⟩
      | succ i =>
        right
        refine ⟨i, j, by omega, by simpa using hi, hj, ?_⟩
        intro k hkj
        have := hk (k + 1) (by omega)
        simpa using this
  · rintro ⟨hya, ⟨rfl, hy⟩ | ⟨i, j, hij, hi, hj, hk⟩⟩
    · have hlt := List.idxOf_lt_length_of_mem hy
      refine ⟨0, l.idxOf y + 1, by omega, rfl, ?_, ?_⟩
      · rw [List.getElem?_cons_succ, List.getElem?_idxOf hy]
      · intro k hk hc
        cases k with
        | zero => simp only [List.getElem?_cons_zero, Option.some.injEq] at hc; exact hya hc.symm
        | succ k =>
          rw [List.getElem?_cons_succ] at hc
          have hkl := (List.getElem?_eq_some_iff.1 hc).1
          obtain ⟨_, hc⟩ := List.getElem?_eq_some_iff.1 hc
          have := List.not_of_lt_findIdx (p := (· == y)) (xs := l) (i := k) (by unfold List.idxOf at hk; omega)
          simp only [hc, beq_self_eq_true, Bool.true_eq_false] at this
    · refine ⟨i + 1, j + 1, by omega, by simpa using hi, by simpa using hj, ?_⟩
      intro k hkj hc
      cases k with
      | zero => simp only [List.getElem?_cons_zero, Option.some.injEq] at hc; exact hya hc.symm
      | succ k => exact hk k (by omega) (by simpa using hc)

theorem firstBefore_right {x y : A} {l : List A} (h : FirstBefore x y l) : x ∈ l ∧ y ∈ l ∧ x ≠ y := by
  obtain ⟨i, j, hij, hi, hj, hk⟩ := h
  refine ⟨List.mem_of_getElem? hi, List.mem_of_getElem? hj, ?_⟩
  rintro rfl
  exact hk i hij hi

theorem mem_allPairs_firsts {V : Type} (s : List A) (es : List (Event A V)) (x y : A) :
    (x, y) ∈ allPairs ((Prolothar.EventLog.firsts s es).map Event.activity) ↔
      x ∉ s ∧ y ∉ s ∧ FirstBefore x y (es.map Event.activity) := by
  induction es generalizing s with
  | nil =>
    simp only [Prolothar.EventLog.firsts, List.foldl_nil, List.map_nil, allPairs, List.not_mem_nil, false_iff]
    rintro ⟨_, _, i, j, _, hi, _⟩
    simp at hi
  | cons e es ih =>
    rw [Prolothar.EventLog.firsts_cons, List.map_cons, firstBefore_cons]
    by_cases he : e.activity ∈ s
    · rw [if_pos he, ih]
      constructor
      · rintro ⟨h1, h2, h3⟩
        exact ⟨h1, h2, fun hc => h2 (hc ▸ he), .inr h3⟩
      · rintro ⟨h1, h2, h3, ⟨h4, _⟩ | h4⟩
        · exact absurd (h4 ▸ he) h1
        · exact ⟨h1, h2, h4⟩
    · rw [if_neg he, List.map_cons, allPairs, List.mem_append, ih]
      simp only [List.mem_map, Prod.mk.injEq, Prolothar.EventLog.mem_setAdd, not_or]
      have hm := fun a => (Prolothar.EventLog.firsts_spec (Prolothar.EventLog.setAdd s e.activity) es).2.2.1 a
      simp only [Prolothar.EventLog.mem_setAdd, not_or, List.mem_map] at hm
      constructor
      · rintro (⟨b, hb, rfl, rfl⟩ | ⟨h1, h2, h3⟩)
        · obtain ⟨h5, h6, h7⟩ := (hm b).1 hb
          exact ⟨he, h6, h7, .inl ⟨rfl, h5⟩⟩
        · exact ⟨h1.1, h2.1, h2.2, .inr h3⟩
      · rintro ⟨h1, h2, h3, h4⟩
        by_cases hx : x = e.activity
        · left
          refine ⟨y, (hm y).2 ⟨?_, h2, h3⟩, hx.symm, rfl⟩
          rcases h4 with ⟨_, h4⟩ | h4
          · exact h4
          · exact List.mem_map.1 (firstBefore_right h4).2.1
        · right
          rcases h4 with ⟨h4, _⟩ | h4
          · exact absurd h4 hx
          · exact ⟨⟨h1, hx⟩, ⟨h2, h3⟩, h4⟩

open Classical in
/-- C82: in the eventually-follows graph the count of an edge is the number of traces in which the
first occurrence of the second activity comes after the first occurrence of the first; an activity is
a node iff it occurs in a trace together with another activity. -/
theorem C82_eventually_follows {I V : Type} (log : Log I A V) (a b : A) :
    getCount (eventuallyFollows log) a b = ((log.filter fun t => decide (FirstBefore a b t.activities)).length : Nat) ∧
    ((view (eventuallyFollows log)).Edge a b ↔ ∃ t ∈ log, FirstBefore a b t.activities) ∧
    ((view (eventuallyFollows log)).node a ↔
      ∃ t ∈ log, a ∈ t.activities ∧ ∃ c ∈ t.activities, c ≠ a) := by
  have key : ∀ (log : Log I A V) (g : Graph A), WF g →
      WF ((keepFirst log).foldl (fun g t => readPairs g t.activities) g) ∧
      (∀ x, x ∈ ((keepFirst log).foldl (fun g t => readPairs g t.activities) g).nodes.keys ↔
        x ∈ g.nodes.keys ∨ ∃ t ∈ log, x ∈ t.activities ∧ ∃ c ∈ t.activities, c ≠ x) ∧
      ∀ x y, cnt ((keepFirst log).foldl (fun g t => readPairs g t.activities) g) x y =
        if ∃ t ∈ log, FirstBefore x y t.activities then
          some ((cnt g x y).getD 0 + ((log.filter fun t => decide (FirstBefore x y t.activities)).length : Nat))
        else cnt g x y := by
    intro log
    induction log with
    | nil => intro g hg; simp [keepFirst, hg]
    | cons t log ih =>
      intro g hg
      have hsp := Prolothar.EventLog.firsts_spec [] t.events
      have hk : keepFirst (t :: log) = { t with events := Prolothar.EventLog.firsts [] t.events } :: keepFirst log := rfl
      rw [hk, List.foldl_cons]
      obtain ⟨r1, r2, r3⟩ := readPairs_ok hg
        (l := ({ t with events := Prolothar.EventLog.firsts [] t.events } : Trace I A V).activities) hsp.2.1
      obtain ⟨i1, i2, i3⟩ := ih _ r1
      have hpair : ∀ x y, (x, y) ∈ allPairs
          ({ t with events := Prolothar.EventLog.firsts [] t.events } : Trace I A V).activities ↔
          FirstBefore x y t.activities := by
        intro x y
        have := mem_allPairs_firsts [] t.events x y
        simp only [List.not_mem_nil, not_false_eq_true, true_and] at this
        exact this
      refine ⟨i1, ?_, ?_⟩
      · intro x
        rw [i2, r2, or_assoc]
        apply or_congr_right
        have hmem : ∀ x, x ∈ ({ t with events := Prolothar.EventLog.firsts [] t.events } : Trace I A V).activities ↔
            x ∈ t.activities := by
          intro x
          have := hsp.2.2.1 x
          simp only [List.not_mem_nil, not_false_eq_true, and_true] at this
          exact this
        have hnd : ({ t with events := Prolothar.EventLog.firsts [] t.events } : Trace I A V).activities.Nodup := hsp.2.1
        have h2 : (x ∈ ({ t with events := Prolothar.EventLog.firsts [] t.events } : Trace I A V).activities ∧
            2 ≤ ({ t with events := Prolothar.EventLog.firsts [] t.events } : Trace I A V).activities.length) ↔
            x ∈ t.activities ∧ ∃ c ∈ t.activities, c ≠ x := by
          simp only [← hmem]
          generalize ({ t with events := Prolothar.EventLog.firsts [] t.events } : Trace I A V).activities = l at hnd
          apply and_congr_right
          intro hx
          constructor
          · intro hl
            by_contra hc
            push Not at hc
            have : l ⊆ [x] := fun c hc' => by simp [hc c hc']
            have := (List.subperm_of_subset hnd this).length_le
            simp at this
            omega
          · rintro ⟨c, hc, hne⟩
            have : [x, c] ⊆ l := by
              intro z hz
              rcases List.mem_cons.1 hz with rfl | hz
              · exact hx
              · rw [List.mem_singleton.1 hz]; exact hc
            have := (List.subperm_of_subset (by simp [Ne.symm hne]) this).length_le
            simpa using this
        rw [h2]
        simp
      · intro x y
        rw [i3, r3]
        simp only [hpair, List.mem_cons, exists_eq_or_imp, List.filter_cons, decide_eq_true_eq]
        by_cases h1 : FirstBefore x y t.activities
        · simp only [h1, true_or, if_true, List.length_cons]
          split
          · simp; omega
          · rename_i hno
            have : log.filter (fun t => decide (FirstBefore x y t.activities)) = [] := by
              rw [List.filter_eq_nil_iff]
              intro t' ht' hc
              exact hno ⟨t', ht', by simpa using hc⟩
            rw [this]; simp
        · simp only [h1, false_or, if_false]
  obtain ⟨_, k2, k3⟩ := key log empty empty_wf
  have he : cnt (empty : Graph A) a b = none := rfl
  refine ⟨?_, ?_, ?_⟩
  · rw [getCount_eq]
    unfold eventuallyFollows
    rw [k3, he]
    split
    · simp
    · rename_i hno
      have : log.filter (fun t => decide (FirstBefore a b t.activities)) = [] := by
        rw [List.filter_eq_nil_iff]
        intro t' ht' hc
        exact hno ⟨t', ht', by simpa using hc⟩
      rw [this]; rfl
  · rw [view_edge]
    unfold Edge eventuallyFollows
    rw [k3, he]
    split
    · rename_i hh; simp [hh]
    · rename_i hh
      constructor
      · intro hc; cases hc
      · intro hc; exact absurd hc hh
  · rw [view_node]
    unfold eventuallyFollows
    rw [k2]
    simp [empty, Dict.keys]

example : let g := eventuallyFollows [(⟨0, [⟨1, [], none⟩, ⟨2, [], none⟩, ⟨1, [], none⟩, ⟨3, [], none⟩], []⟩ : Trace Nat Nat Nat),
      ⟨1, [⟨1, [], none⟩, ⟨2, [], none⟩], []⟩, ⟨2, [⟨4, [], none⟩, ⟨4, [], none⟩], []⟩]
    getCount g 1 2 = 2 ∧ getCount g 2 1 = 0 ∧ getCount g 2 3 = 1 ∧ g.nodes.keys = [1, 2, 3] := by decide

/-! ### C83 renaming -/

/-- C83: renaming an activity to an unused name gives the same graph under the renaming. -/
theorem C83_rename {g : Graph A} (hb : Built g) {old new : A} (ho : (view g).node old) (hn : ¬ (view g).node new) :
    ∃ g', rename g old new = .ok g' ∧
      let rn := fun x => if x = old then new else x
      (∀ x, (view g').node x ↔ ∃ x0, (view g).node x0 ∧ x = rn x0) ∧
      (∀ x y c, (view g').count x y = some c ↔ ∃ x0 y0, (view g).count x0 y0 = some c ∧ x = rn x0 ∧ y = rn y0) ∧
      ∀ x0 y0, (view g).node x0 → (view g).node y0 → rn x0 = rn y0 → x0 = y0 := by
  rw [view_node] at ho hn
  obtain ⟨g', h1, h2, h3, h4⟩ := rename_ok hb.wf ho hn
  refine ⟨g', h1, ?_, h4, ?_⟩
  · intro x
    rw [view_node, h3]
    simp only [view_node]
    rfl
  · intro x0 y0 hx hy hh
    rw [view_node] at hx hy
    simp only at hh
    split_ifs at hh with h5 h6 h6
    · rw [h5, h6]
    · exact absurd (hh ▸ hy) hn
    · exact absurd (hh ▸ hx) hn
    · exact hh

/-- C83: an unknown activity is rejected. -/
theorem C83_unknown (g : Graph A) (old new : A) (ho : ¬ (view g).node old) : rename g old new = .error .key := by
  rw [view_node] at ho
  unfold rename
  have : g.nodes.getItem old = .error .key := by
    unfold Dict.getItem
    rw [Dict.get?_eq_none_iff.2 ho]
  rw [this]; rfl

/-! ### C84 simulated logs -/

theorem walk_spec {G : Type} {g : Graph A} (h : WF g) (choose : G → Nat → Nat × G) (stops : A → Bool)
    (fuel : Nat) (rng : G) (options path : List A) {r : List A × G}
    (hr : walk g choose stops fuel rng options path = .ok r) :
    ∃ q e, r.1 = path ++ (q ++ [e]) ∧ (∃ s ∈ options, (q ++ [e]).head? = some s) ∧
      (q ++ [e]).IsChain (Edge g) ∧ stops e = true ∧ ∀ x ∈ q, stops x = false := by
  induction fuel generalizing rng options path with
  | zero => cases hr
  | succ fuel ih =>
    unfold walk at hr
    split at hr
    · cases hr
    · simp only at hr
      split at hr
      · cases hr
      · rename_i a ha
        have hmem := List.mem_of_getElem? ha
        by_cases hk : a ∈ g.nodes.keys
        · obtain ⟨l, l1, _, l3⟩ := following_ok h.toCore hk
          rw [l1] at hr
          by_cases hs : stops a = true
          · have hr : (if stops a = true then _ else _) = Except.ok r := hr
            rw [if_pos hs] at hr
            cases hr
            exact ⟨[], a, rfl, ⟨a, hmem, rfl⟩, by simp, hs, by simp⟩
          · have hr : (if stops a = true then _ else _) = Except.ok r := hr
            rw [if_neg hs] at hr
            obtain ⟨q, e, q1, ⟨s, hs1, hs2⟩, q3, q4, q5⟩ := ih _ _ _ hr
            refine ⟨a :: q, e, by rw [q1]; simp, ⟨a, hmem, rfl⟩, ?_, q4, ?_⟩
            · rw [List.cons_append, List.isChain_cons]
              refine ⟨?_, q3⟩
              intro y hy
              rw [hs2] at hy
              cases hy
              have := (l3 s).1 hs1
              exact this
            · intro x hx
              rcases List.mem_cons.1 hx with rfl | hx
              · simpa using hs
              · exact q5 x hx
        · rw [following_missing hk] at hr
          cases hr

/-- C84: a simulated log has the requested number of traces; every trace starts with a start activity
(by default a source), follows the edges of the graph and ends at the first stop activity (by default
a sink) it meets, whatever the random choices are. -/
theorem C84_generated {G : Type} {g : Graph A} (hb : Built g) (choose : G → Nat → Nat × G) (rng : G) (fuel n : Nat)
    (starts stops : Option (List A)) {traces : List (List A)}
    (hr : generateLog g choose rng fuel n starts stops = .ok traces) :
    traces.length = n ∧ ∀ t ∈ traces, t.IsChain (view g).Edge ∧
      (∃ s ∈ starts.getD (sources g), t.head? = some s) ∧
      ∃ q e, t = q ++ [e] ∧ e ∈ stops.getD (sinks g) ∧ ∀ x ∈ q, x ∉ stops.getD (sinks g) := by
  have hE : (view g).Edge = Edge g := by funext x y; rw [view_edge]
  rw [hE]
  unfold generateLog at hr
  simp only at hr
  split at hr
  · cases hr
  · split at hr
    · cases hr
    · generalize starts.getD (sources g) = st at *
      generalize stops.getD (sinks g) = sp at *
      clear * - hr hb
      induction n generalizing rng traces with
      | zero => cases hr; simp
      | succ n ih =>
        unfold walks at hr
        cases hw : walk g choose (fun a => decide (a ∈ sp)) fuel rng st [] with
        | error e => rw [hw] at hr; cases hr
        | ok r =>
          rw [hw] at hr
          have hr : (walks g choose st sp fuel n r.2 >>= fun rest => pure (r.1 :: rest)) = .ok traces := hr
          cases hws : walks g choose st sp fuel n r.2 with
          | error e => rw [hws] at hr; cases hr
          | ok rest =>
            rw [hws] at hr
            have hr : Except.ok (r.1 :: rest) = (Except.ok traces : Py _) := hr
            cases hr
            obtain ⟨i1, i2⟩ := ih _ hws
            obtain ⟨q, e, q1, q2, q3, q4, q5⟩ := walk_spec hb.wf _ _ _ _ _ _ hw
            rw [List.nil_append] at q1
            refine ⟨by simp [i1], ?_⟩
            intro t ht
            rcases List.mem_cons.1 ht with rfl | ht
            · rw [q1]
              exact ⟨q3, q2, q, e, rfl, by simpa using q4, fun x hx => by simpa using q5 x hx⟩
            · exact i2 t ht

/-- C84: without start or without stop activities the call raises. -/
theorem C84_rejected {G : Type} (g : Graph A) (choose : G → Nat → Nat × G) (rng : G) (fuel n : Nat)
    (starts stops : Option (List A)) (h : starts.getD (sources g) = [] ∨ stops.getD (sinks g) = []) :
    generateLog g choose rng fuel n starts stops = .error .value := by
  unfold generateLog
  simp only
  split
  · rfl
  · rw [if_pos]
    rcases h with h | h
    · contradiction
    · exact h

example : generateLog (addCount (addCount (addCount (empty : Graph Nat) 1 2) 2 1) 2 3)
    (fun s k => (s, s + 1)) 0 10 2 none none = .error .value := by decide

example : generateLog (addCount (addCount (addCount (empty : Graph Nat) 1 2) 2 1) 2 3)
    (fun s _ => (s / 3, s + 1)) 0 10 2 (some [1]) none = .ok [[1, 2, 1, 2, 3], [1, 2, 1, 2, 3]] := by decide

end
end Prolothar.Dfg
