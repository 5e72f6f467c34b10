import Verif.Props.Dfg
/-
C201: `join` of graphs that have edges in common (C43 is about graphs without common edges), and how to add graphs.
-/
set_option linter.unusedSectionVars false
namespace Prolothar.Dfg
open Prolothar.Spec.Dfg
variable {A : Type} [LinearOrder A]

theorem filterMap_some_map {α β : Type} {f : α → Option β} {h : α → β} : ∀ {l : List α}, (∀ x ∈ l, f x = some (h x)) → l.filterMap f = l.map h
  | [], _ => rfl
  | x :: l, hf => by
    rw [List.filterMap_cons, hf x (by simp), List.map_cons, filterMap_some_map fun y hy => hf y (by simp [hy])]

theorem count_nodup {l : List A} (hl : l.Nodup) {p : Bool} {b : A} (h : b ∈ l ↔ p = true) : l.count b = if p then 1 else 0 := by
  rw [hl.count]
  by_cases hb : b ∈ l
  · rw [if_pos hb, if_pos (h.1 hb)]
  · rw [if_neg hb, if_neg (fun hp => hb (h.2 hp))]

/-- what the lists of a joined graph contain -/
theorem join_lists {g other : Graph A} (hg : WF g) (ho : WF other) :
    (∀ x, x ∈ (join g other).nodes.keys ↔ x ∈ g.nodes.keys ∨ x ∈ other.nodes.keys) ∧
    (∀ x y, cnt (join g other) x y = (cnt other x y).or (cnt g x y)) ∧
    ∀ x, x ∈ (join g other).nodes.keys →
      (∃ l, following (join g other) x = .ok l ∧ ∀ b, l.count b =
        (if (cnt g x b).isSome then 1 else 0) + (if (cnt other x b).isSome then 1 else 0)) ∧
      ∃ l, preceding (join g other) x = .ok l ∧ ∀ b, l.count b =
        (if (cnt g b x).isSome then 1 else 0) + (if (cnt other b x).isSome then 1 else 0) := by
  let cs : ((A × A) × Nat) → Int := fun p => match other.heap[p.2]? with | some o => o.count | none => 0
  let g1 := other.nodes.keys.foldl addNode g
  let g2 := other.edges.foldl (fun g p => newEdge g p.1 (cs p)) g1
  obtain ⟨a1, a2, a3, a4⟩ := foldl_addNode hg other.nodes.keys
  obtain ⟨b1, b2, b3, b4, b5⟩ := foldl_newEdge cs other.edges ho.edgesWF g1
  obtain ⟨c1, c2, c3, c4⟩ := foldl_appendOut other.edges.keys g2
  let g3 := other.edges.keys.foldl (fun g k => match g.edges.get? k with | some e => appendOut g k.1 e | none => g) g2
  obtain ⟨d1, d2, d3, d4⟩ := foldl_appendIng other.edges.keys g3
  let g4 := other.edges.keys.foldl (fun g k => match g.edges.get? k with | some e => appendIng g k.2 e | none => g) g3
  have hj : join g other = g4 := rfl
  have eE : g4.edges = g2.edges := d1.trans c1
  have eH : g4.heap = g2.heap := d2.trans c2
  have eK : g4.nodes.keys = g1.nodes.keys := by
    rw [show g4.nodes.keys = g3.nodes.keys from d3, show g3.nodes.keys = g2.nodes.keys from c3, show g2.nodes = g1.nodes from b1]
  have eN : ∀ x, g4.nodes.get? x = (g1.nodes.get? x).map fun n =>
      ⟨n.out ++ (other.edges.keys.filter fun k => k.1 = x).filterMap g2.edges.get?,
       n.ing ++ (other.edges.keys.filter fun k => k.2 = x).filterMap g2.edges.get?⟩ := by
    intro x
    rw [show g4.nodes.get? x = _ from d4 x, show g3.nodes.get? x = _ from c4 x,
      show g2.nodes = g1.nodes from b1, show g3.edges = g2.edges from c1, Option.map_map]
    rfl
  have hlt : ∀ k e, g1.edges.get? k = some e → e < g1.heap.length := fun k e hk => a1.toCore.lt hk
  have hnew : ∀ k ∈ other.edges.keys, ∃ e c, g2.edges.get? k = some e ∧ g2.heap[e]? = some ⟨k.1, k.2, c⟩ ∧ cnt other k.1 k.2 = some c := by
    intro k hk
    obtain ⟨v, hv⟩ := Dict.mem_keys_iff.1 hk
    obtain ⟨c, hc, hcnt⟩ := ho.toCore.cnt_eq (a := k.1) (b := k.2) hv
    obtain ⟨e, e1, e2, e3⟩ := b3 (k, v) (Dict.mem_of_get? hv)
    refine ⟨e, c, e1, ?_, hcnt⟩
    rw [show g2.heap[e]? = _ from e3]
    simp [cs, hc]
  have hcnt1 : ∀ x y, cnt g1 x y = cnt g x y := by
    intro x y
    unfold cnt
    rw [show g1.edges = g.edges from a3, show g1.heap = g.heap from a4]
  refine ⟨fun x => by rw [hj, eK]; exact a2 x, fun x y => ?_, fun x hx => ?_⟩
  · rw [hj]
    by_cases hk : (x, y) ∈ other.edges.keys
    · obtain ⟨e, c, p1, p3, p4⟩ := hnew _ hk
      have h1 : cnt g4 x y = some c := by unfold cnt; rw [eE, eH, p1]; simp [p3]
      have p4 : cnt other x y = some c := p4
      rw [h1, p4]; rfl
    · have h2 : cnt other x y = none := cnt_none (Dict.get?_eq_none_iff.2 hk)
      rw [h2, Option.none_or]
      unfold cnt
      rw [eE, eH, show g2.edges.get? _ = _ from b2 _ hk, show g1.edges = g.edges from a3]
      cases he : g.edges.get? (x, y) with
      | none => rfl
      | some e =>
        simp only [Option.bind_some]
        have hl : e < g1.heap.length := by rw [show g1.heap = g.heap from a4]; exact hg.toCore.lt he
        rw [show g2.heap[e]? = g1.heap[e]? from b4 e hl, show g1.heap = g.heap from a4]
  · rw [hj, eK] at hx
    obtain ⟨n, hn⟩ := Dict.mem_keys_iff.1 hx
    obtain ⟨on, om⟩ := a1.out x n hn
    obtain ⟨inn, im⟩ := a1.ing x n hn
    have hn4 := eN x
    rw [hn] at hn4
    constructor
    · obtain ⟨l1, f1, f2, f3⟩ := following_ok a1.toCore hx
      have hl1 : l1 = n.out.filterMap fun e => (g1.heap[e]?).map EdgeObj.stop := by
        unfold following Dict.getItem at f1; rw [hn] at f1; cases f1; rfl
      have hp1 : (n.out.filterMap fun e => (g4.heap[e]?).map EdgeObj.stop) = l1 := by
        rw [hl1]
        refine List.filterMap_congr fun e he => ?_
        obtain ⟨y, hy⟩ := (om e).1 he
        rw [eH, show g2.heap[e]? = g1.heap[e]? from b4 e (hlt _ _ hy)]
      have hp2 : ((other.edges.keys.filter fun k => k.1 = x).filterMap g2.edges.get?).filterMap (fun e => (g4.heap[e]?).map EdgeObj.stop) =
          (other.edges.keys.filter fun k => k.1 = x).map Prod.snd := by
        rw [List.filterMap_filterMap]
        refine filterMap_some_map fun k hk => ?_
        obtain ⟨e, c, p1, p3, _⟩ := hnew k (List.mem_filter.1 hk).1
        rw [p1, eH]
        simp [p3]
      refine ⟨l1 ++ (other.edges.keys.filter fun k => k.1 = x).map Prod.snd, ?_, fun b => ?_⟩
      · rw [hj]
        unfold following Dict.getItem
        rw [hn4]
        show Except.ok (List.filterMap _ (n.out ++ _)) = _
        rw [List.filterMap_append, hp1, hp2]
      · rw [List.count_append, count_nodup f2 (f3 b), hcnt1]
        congr 1
        refine count_nodup ?_ ?_
        · refine List.Nodup.map_on ?_ (List.Nodup.filter _ ho.edgesWF)
          intro k hk k' hk' he
          have h1 := (List.mem_filter.1 hk).2
          have h2 := (List.mem_filter.1 hk').2
          simp only [decide_eq_true_eq] at h1 h2
          exact Prod.ext (h1.trans h2.symm) he
        · rw [ho.toCore.cnt_isSome, List.mem_map]
          constructor
          · rintro ⟨k, hk, rfl⟩
            have h1 := List.mem_filter.1 hk
            simp only [decide_eq_true_eq] at h1
            rw [← h1.2]; exact h1.1
          · intro hk
            exact ⟨(x, b), List.mem_filter.2 ⟨hk, by simp⟩, rfl⟩
    · obtain ⟨l1, f1, f2, f3⟩ := preceding_ok a1.toCore hx
      have hl1 : l1 = n.ing.filterMap fun e => (g1.heap[e]?).map EdgeObj.start := by
        unfold preceding Dict.getItem at f1; rw [hn] at f1; cases f1; rfl
      have hp1 : (n.ing.filterMap fun e => (g4.heap[e]?).map EdgeObj.start) = l1 := by
        rw [hl1]
        refine List.filterMap_congr fun e he => ?_
        obtain ⟨y, hy⟩ := (im e).1 he
        rw [eH, show g2.heap[e]? = g1.heap[e]? from b4 e (hlt _ _ hy)]
      have hp2 : ((other.edges.keys.filter fun k => k.2 = x).filterMap g2.edges.get?).filterMap (fun e => (g4.heap[e]?).map EdgeObj.start) =
          (other.edges.keys.filter fun k => k.2 = x).map Prod.fst := by
        rw [List.filterMap_filterMap]
        refine filterMap_some_map fun k hk => ?_
        obtain ⟨e, c, p1, p3, _⟩ := hnew k (List.mem_filter.1 hk).1
        rw [p1, eH]
        simp [p3]
      refine ⟨l1 ++ (other.edges.keys.filter fun k => k.2 = x).map Prod.fst, ?_, fun b => ?_⟩
      · rw [hj]
        unfold preceding Dict.getItem
        rw [hn4]
        show Except.ok (List.filterMap _ (n.ing ++ _)) = _
        rw [List.filterMap_append, hp1, hp2]
      · rw [List.count_append, count_nodup f2 (f3 b), hcnt1]
        congr 1
        refine count_nodup ?_ ?_
        · refine List.Nodup.map_on ?_ (List.Nodup.filter _ ho.edgesWF)
          intro k hk k' hk' he
          have h1 := (List.mem_filter.1 hk).2
          have h2 := (List.mem_filter.1 hk').2
          simp only [decide_eq_true_eq] at h1 h2
          exact Prod.ext he (h1.trans h2.symm)
        · rw [ho.toCore.cnt_isSome, List.mem_map]
          constructor
          · rintro ⟨k, hk, rfl⟩
            have h1 := List.mem_filter.1 hk
            simp only [decide_eq_true_eq] at h1
            rw [← h1.2]; exact h1.1
          · intro hk
            exact ⟨(b, x), List.mem_filter.2 ⟨hk, by simp⟩, rfl⟩

/-- how often an edge is listed: once if it is there -/
def listed (G : Digraph A) (a b : A) : Nat := if (G.count a b).isSome then 1 else 0

/-- C201: `join` of any two graphs has the nodes of both. An edge of the other graph replaces the count of the same edge of the graph: the
counts are not added. As successors and predecessors of a node, those of both graphs are listed, common ones twice. -/
theorem C201_join {g other : Graph A} (hg : Built g) (ho : Built other) :
    (∀ x, (view (join g other)).node x ↔ (view g).node x ∨ (view other).node x) ∧
    (∀ x y, (view (join g other)).count x y = ((view other).count x y).or ((view g).count x y)) ∧
    ∀ x, (view g).node x ∨ (view other).node x →
      (∃ l, following (join g other) x = .ok l ∧ ∀ b, l.count b = listed (view g) x b + listed (view other) x b) ∧
      ∃ l, preceding (join g other) x = .ok l ∧ ∀ b, l.count b = listed (view g) b x + listed (view other) b x := by
  obtain ⟨h1, h2, h3⟩ := join_lists hg.wf ho.wf
  refine ⟨fun x => by rw [view_node, view_node, view_node]; exact h1 x, h2, fun x hx => ?_⟩
  rw [view_node, view_node] at hx
  exact h3 x ((h1 x).2 hx)

/-- C201: so the result is consistent (no successor is listed twice) exactly if the graphs have no edge in common -/
theorem C201_consistent_iff {g other : Graph A} (hg : Built g) (ho : Built other) :
    (∀ x l, following (join g other) x = .ok l → l.Nodup) ↔ ∀ a b, ¬ ((view g).Edge a b ∧ (view other).Edge a b) := by
  obtain ⟨h1, _, h3⟩ := C201_join hg ho
  have hE : ∀ (G : Digraph A) a b, G.Edge a b ↔ (G.count a b).isSome = true := by
    intro G a b; unfold Digraph.Edge; rw [Option.isSome_iff_exists]
  constructor
  · rintro h a b ⟨e1, e2⟩
    have hn : (view g).node a ∨ (view other).node a := by
      left
      rw [view_node]
      rw [view_edge] at e1
      obtain ⟨e, he⟩ := Dict.mem_keys_iff.1 ((hg.wf.toCore.cnt_isSome).1 e1)
      exact (hg.wf.ends _ _ he).1
    obtain ⟨⟨l, l1, l2⟩, _⟩ := h3 a hn
    have hd := h a l l1
    have hc := l2 b
    unfold listed at hc
    rw [if_pos ((hE _ _ _).1 e1), if_pos ((hE _ _ _).1 e2)] at hc
    have := List.nodup_iff_count_le_one.1 hd b
    omega
  · intro h x l hl
    have hn : (view g).node x ∨ (view other).node x := by
      rw [← h1, view_node]
      by_contra hc
      unfold following Dict.getItem at hl
      rw [Dict.get?_eq_none_iff.2 hc] at hl
      cases hl
    obtain ⟨⟨l', l1, l2⟩, _⟩ := h3 x hn
    rw [hl] at l1
    cases l1
    refine List.nodup_iff_count_le_one.2 fun b => ?_
    rw [l2 b]
    unfold listed
    split
    · split
      · next e1 e2 => exact absurd ⟨(hE _ _ _).2 e1, (hE _ _ _).2 e2⟩ (h x b)
      · omega
    · split <;> omega

/-- C201: a graph joined with itself keeps nodes and counts, but lists every successor twice -/
theorem C201_self {g : Graph A} (hg : Built g) {x : A} (hx : (view g).node x) :
    (∀ y z, (view (join g g)).count y z = (view g).count y z) ∧
    ∃ l, following (join g g) x = .ok l ∧ ∀ b, l.count b = 2 * listed (view g) x b := by
  obtain ⟨_, h2, h3⟩ := C201_join hg hg
  obtain ⟨⟨l, l1, l2⟩, _⟩ := h3 x (.inl hx)
  refine ⟨fun y z => ?_, l, l1, fun b => by rw [l2 b]; omega⟩
  rw [h2 y z]
  cases (view g).count y z <;> rfl

/-! ### adding graphs -/

/-- a program that adds another graph with `add_node` and `add_count` (directly_follows_graph.pyx 36-42, 82-91): one call for each node and
each edge of the other graph -/
def addGraph (g : Graph A) (nodes : List A) (edges : List (A × A × Int)) : Graph A :=
  edges.foldl (fun g e => addCount g e.1 e.2.1 e.2.2) (nodes.foldl addNode g)

/-- C201: the way to add two graphs: if `add_node` is called for each node of the other graph and `add_count` for each of its edges (in
any order), the result has the nodes of both graphs, an edge where one of them has it, and the sums of the counts -/
theorem C201_add {g other : Graph A} (hg : Built g) {nodes : List A} {edges : List (A × A × Int)}
    (hn : ∀ a, a ∈ nodes ↔ (view other).node a) (hnd : (edges.map fun e => (e.1, e.2.1)).Nodup)
    (he : ∀ a b c, (a, b, c) ∈ edges ↔ (view other).count a b = some c) (ho : Built other) :
    Built (addGraph g nodes edges) ∧
    (∀ x, (view (addGraph g nodes edges)).node x ↔ (view g).node x ∨ (view other).node x) ∧
    (∀ x y, (view (addGraph g nodes edges)).Edge x y ↔ (view g).Edge x y ∨ (view other).Edge x y) ∧
    ∀ x y, getCount (addGraph g nodes edges) x y = getCount g x y + getCount other x y := by
  have hnodes : ∀ (l : List A) (g : Graph A), Built g → Built (l.foldl addNode g) ∧
      (∀ x, (view (l.foldl addNode g)).node x ↔ (view g).node x ∨ x ∈ l) ∧
      ∀ x y, (view (l.foldl addNode g)).count x y = (view g).count x y := by
    intro l
    induction l with
    | nil => intro g hg; exact ⟨hg, by simp, fun _ _ => rfl⟩
    | cons a l ih =>
      intro g hg
      obtain ⟨e1, e2, _⟩ := C43_effects hg a a 0
      obtain ⟨i1, i2, i3⟩ := ih _ (.addNode hg a)
      refine ⟨i1, fun x => ?_, fun x y => ?_⟩
      · rw [List.foldl_cons, i2, e1, List.mem_cons, or_assoc]
      · rw [List.foldl_cons, i3, e2]
  have hedges : ∀ (l : List (A × A × Int)) (g : Graph A), Built g → (l.map fun e => (e.1, e.2.1)).Nodup →
      let g' := l.foldl (fun g e => addCount g e.1 e.2.1 e.2.2) g
      Built g' ∧ (∀ x, (view g').node x ↔ (view g).node x ∨ ∃ e ∈ l, x = e.1 ∨ x = e.2.1) ∧
      (∀ x y c, (x, y, c) ∈ l → (view g').count x y = some (((view g).count x y).getD 0 + c)) ∧
      ∀ x y, (∀ c, (x, y, c) ∉ l) → (view g').count x y = (view g).count x y := by
    intro l
    induction l with
    | nil => intro g hg _; exact ⟨hg, by simp, by simp, fun _ _ _ => rfl⟩
    | cons e l ih =>
      obtain ⟨a, b, c⟩ := e
      intro g hg hnd
      rw [List.map_cons, List.nodup_cons] at hnd
      obtain ⟨_, _, e3, e4, _⟩ := C43_effects hg a b c
      obtain ⟨i1, i2, i3, i4⟩ := ih (addCount g a b c) (.addCount hg a b c) hnd.2
      have hab : ∀ c', (a, b, c') ∉ l := fun c' hm => hnd.1 (List.mem_map.2 ⟨(a, b, c'), hm, rfl⟩)
      refine ⟨i1, fun x => ?_, fun x y c' hm => ?_, fun x y hm => ?_⟩
      · show (view (l.foldl _ (addCount g a b c))).node x ↔ _
        rw [i2, e3]
        simp only [List.mem_cons, exists_eq_or_imp]
        exact or_assoc
      · show (view (l.foldl _ (addCount g a b c))).count x y = _
        rcases List.mem_cons.1 hm with hm | hm2
        · cases hm
          rw [i4 a b hab, e4, if_pos ⟨rfl, rfl⟩]
        · have hne : ¬ (x = a ∧ y = b) := by
            intro hxy
            rw [hxy.1, hxy.2] at hm2
            exact hab c' hm2
          rw [i3 x y c' hm2, e4, if_neg hne]
      · show (view (l.foldl _ (addCount g a b c))).count x y = _
        have hne : ¬ (x = a ∧ y = b) := by
          rintro ⟨rfl, rfl⟩; exact hm c (by simp)
        rw [i4 x y (fun c' h => hm c' (by simp [h])), e4, if_neg hne]
  obtain ⟨n1, n2, n3⟩ := hnodes nodes g hg
  obtain ⟨r1, r2, r3, r4⟩ := hedges edges _ n1 hnd
  have hcount : ∀ x y, (view (addGraph g nodes edges)).count x y =
      match (view other).count x y with
      | some c => some (((view g).count x y).getD 0 + c)
      | none => (view g).count x y := by
    intro x y
    unfold addGraph
    cases hc : (view other).count x y with
    | some c => rw [r3 x y c ((he x y c).2 hc), n3]
    | none => rw [r4 x y (fun c hm => by rw [(he x y c).1 hm] at hc; cases hc), n3]
  refine ⟨r1, fun x => ?_, fun x y => ?_, fun x y => ?_⟩
  · show (view (edges.foldl _ _)).node x ↔ _
    rw [r2, n2, hn]
    constructor
    · rintro ((h | h) | ⟨⟨a, b, c⟩, hm, hx⟩)
      · exact .inl h
      · exact .inr h
      · right
        have hc := (he a b c).1 hm
        have hk : (view other).Edge a b := ⟨c, hc⟩
        rw [view_edge] at hk
        obtain ⟨e, hek⟩ := Dict.mem_keys_iff.1 ((ho.wf.toCore.cnt_isSome).1 hk)
        have hends := ho.wf.ends _ _ hek
        rw [view_node]
        rcases hx with rfl | rfl
        · exact hends.1
        · exact hends.2
    · rintro (h | h)
      · exact .inl (.inl h)
      · exact .inl (.inr h)
  · unfold Digraph.Edge
    rw [hcount]
    cases (view other).count x y with
    | some c => simp
    | none => simp
  · have r1' : Built (addGraph g nodes edges) := r1
    rw [(C43_queries r1' x).2.2 y, (C43_queries hg x).2.2 y, (C43_queries ho x).2.2 y]
    show ((view (addGraph g nodes edges)).count x y).getD 0 = _
    rw [hcount]
    cases (view other).count x y with
    | some c => simp
    | none => simp

/-- the hypotheses are met: two graphs with a common edge -/
example :
    let g := addCount (addCount (empty : Graph Nat) 1 2 5) 2 3 1
    let other := addCount (addCount (empty : Graph Nat) 1 2 7) 1 4 2
    Built g ∧ Built other ∧ following (join g other) 1 = .ok [2, 2, 4] ∧ getCount (join g other) 1 2 = 7 ∧
    getCount (addGraph g [1, 2, 4] [(1, 2, 7), (1, 4, 2)]) 1 2 = 12 ∧
    following (addGraph g [1, 2, 4] [(1, 2, 7), (1, 4, 2)]) 1 = .ok [2, 4] :=
  ⟨.addCount (.addCount .new 1 2 5) 2 3 1, .addCount (.addCount .new 1 2 7) 1 4 2, by decide, by decide, by decide, by decide⟩

end Prolothar.Dfg
