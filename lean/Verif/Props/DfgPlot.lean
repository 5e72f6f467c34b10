import Verif.Lemmas.DfgWalk
import Verif.Props.DfgQueries
/-
Plots of directly-follows graphs: which nodes get the same rank, and the widths of the edges, C131.
-/
set_option linter.unusedSectionVars false
set_option linter.unusedDecidableInType false
namespace Prolothar.Dfg
open Prolothar.Spec.Dfg Prolothar.Spec.DfgPlot

section
variable {A : Type} [LinearOrder A] {G : Type}

/-- a node that nothing but itself leads to -/
def IsSource (D : Digraph A) (a : A) : Prop := D.node a ∧ ∀ b, D.Edge b a → b = a

theorem view_rel (g : Graph A) : (view g).Edge = Edge g ∧ IsSource (view g) = Source g := by
  have h1 : (view g).Edge = Edge g := by funext a b; exact propext (view_edge g a b)
  refine ⟨h1, ?_⟩
  funext a
  unfold IsSource Source
  rw [h1]
  exact propext (and_congr_left fun _ => view_node g a)

theorem sortActs_spec {l : List A} (h : l.Nodup) : (sortActs l).Pairwise (· < ·) ∧ ∀ a, a ∈ sortActs l ↔ a ∈ l := by
  unfold sortActs
  have hp := List.perm_insertionSort (· ≤ ·) l
  refine ⟨?_, fun a => hp.mem_iff⟩
  have h1 := List.pairwise_insertionSort (· ≤ ·) l
  have h2 : (l.insertionSort (· ≤ ·)).Nodup := hp.nodup_iff.2 h
  exact (h1.and h2).imp fun hab => lt_of_le_of_ne hab.1 hab.2

/-- C131: with `use_topological_order` the k-th rank consists of the nodes whose shortest distance from a source node is k. -/
theorem C131_ranks_by_distance {g : Graph A} (hb : Built g) (choose : G → Nat → Nat × G) (rng : G) :
    ∃ ranks, plotNodes g choose rng none true = .ok (.ranks ranks) ∧
      (∀ k rank, ranks[k]? = some rank →
        rank.Pairwise (· < ·) ∧ rank ≠ [] ∧ ∀ a, a ∈ rank ↔ Level (view g).Edge (IsSource (view g)) k a) ∧
      ∀ k a, Level (view g).Edge (IsSource (view g)) k a → k < ranks.length := by
  rw [(view_rel g).1, (view_rel g).2]
  obtain ⟨groups, h1, h2, h3⟩ := topoGroups_ok hb.wf
  refine ⟨groups.map sortActs, ?_, fun k rank hk => ?_, fun k a ha => by simpa using h3 k a ha⟩
  · unfold plotNodes
    rw [if_pos rfl, h1]
    rfl
  · rw [List.getElem?_map, Option.map_eq_some_iff] at hk
    obtain ⟨grp, hg, rfl⟩ := hk
    obtain ⟨a1, a2, a3⟩ := h2 k grp hg
    obtain ⟨b1, b2⟩ := sortActs_spec a1
    refine ⟨b1, fun hc => ?_, fun a => (b2 a).trans (a3 a)⟩
    obtain ⟨x, l, rfl⟩ := List.exists_cons_of_ne_nil a2
    have := (b2 x).2 List.mem_cons_self
    rw [hc] at this
    cases this

/-- C131: hence a node that cannot be reached from a source node is in no rank, and a graph without source nodes has no ranks. -/
theorem C131_unreachable_missing {g : Graph A} (hb : Built g) (choose : G → Nat → Nat × G) (rng : G) :
    (∀ a, (∀ s, IsSource (view g) s → ¬ Spec.Graph.Reach (view g).Edge s a) →
      ∀ ranks, plotNodes g choose rng none true = .ok (.ranks ranks) → ∀ rank ∈ ranks, a ∉ rank) ∧
    ((∀ a, ¬ IsSource (view g) a) → plotNodes g choose rng none true = .ok (.ranks [])) := by
  obtain ⟨ranks, h1, h2, h3⟩ := C131_ranks_by_distance hb choose rng
  have hreach : ∀ k a, ReachIn (view g).Edge (IsSource (view g)) k a → ∃ s, IsSource (view g) s ∧ Spec.Graph.Reach (view g).Edge s a := by
    intro k a h
    induction h with
    | zero h => exact ⟨_, h, .refl⟩
    | succ _ he ih => obtain ⟨s, hs, hr⟩ := ih; exact ⟨s, hs, hr.tail he⟩
  constructor
  · intro a ha ranks' hr rank hm hmem
    rw [h1] at hr
    cases hr
    obtain ⟨k, hk⟩ := List.getElem?_of_mem hm
    obtain ⟨s, hs, hsr⟩ := hreach k a (((h2 k rank hk).2.2 a).1 hmem).1
    exact ha s hs hsr
  · intro hno
    rw [h1]
    cases ranks with
    | nil => rfl
    | cons r rs =>
      exfalso
      obtain ⟨_, hne, hm⟩ := h2 0 r rfl
      obtain ⟨x, l, rfl⟩ := List.exists_cons_of_ne_nil hne
      have := ((hm x).1 List.mem_cons_self).1
      cases this with
      | zero h => exact hno x h

/-- C131: with `random_walk_alignment = (start, stop, n)` there are n random walks from start to stop (each visits no node twice
and ends at stop, or where all followers have been visited), such that the rank of a node is the rounded average of its
positions in the walks; it is 0 for nodes that no walk visits after the start. Ranks are written in ascending order. -/
theorem C131_ranks_by_walks {g : Graph A} (hb : Built g) (choose : G → Nat → Nat × G) (rng : G) (start stop : A) (n : Int)
    (hs : (view g).node start ∨ n ≤ 0) :
    ∃ (ws : List (List A)) (rank : A → Int) (nums : List Int) (lines : List (List A)),
      ws.length = n.toNat ∧ (∀ w ∈ ws, SimpleWalk (view g).Edge start stop w) ∧
      (∀ a, (view g).node a → Rounded (average (positions ws a)) (rank a)) ∧
      plotNodes g choose rng (some (start, stop, n)) false = .ok (.ranks lines) ∧ nums.Pairwise (· < ·) ∧
      (∀ a, (view g).node a → rank a ∈ nums) ∧
      List.Forall₂ (fun i line => line ≠ [] ∧ line.Pairwise (· < ·) ∧ ∀ a, a ∈ line ↔ (view g).node a ∧ rank a = i) nums lines := by
  have h := hb.wf
  rw [(view_rel g).1]
  simp only [view_node] at hs ⊢
  have hrep0 : Rep g (g.nodes.keys.map fun a => (a, Statistics.new)) [] := by
    have hk : Dict.keys (g.nodes.keys.map fun a => (a, (Statistics.new : Statistics.Stats ℚ))) = g.nodes.keys := by
      show List.map Prod.fst (List.map _ _) = _
      rw [List.map_map]
      exact List.map_id _
    refine ⟨hk, fun a ha => Dict.get?_of_mem ?_ (List.mem_map.2 ⟨a, ha, rfl⟩)⟩
    unfold Dict.WF
    rw [hk]
    exact h.nodesWF
  have hstats : ∃ stats ws, Statistics.Stats ℚ = Statistics.Stats ℚ ∧
      randomWalks g choose start stop n.toNat rng (g.nodes.keys.map fun a => (a, Statistics.new)) = .ok stats ∧
      ws.length = n.toNat ∧ (∀ w ∈ ws, SimpleWalk (Edge g) start stop w) ∧ Rep g stats ws := by
    by_cases hn : n ≤ 0
    · have hz : n.toNat = 0 := by omega
      rw [hz]
      exact ⟨_, [], rfl, rfl, rfl, by simp, hrep0⟩
    · obtain ⟨stats, ws, r1, r2, r3, r4⟩ := randomWalks_ok h choose start stop (hs.resolve_right hn) n.toNat [] rng _ hrep0
      exact ⟨stats, ws, rfl, r1, r2, r3, by simpa using r4⟩
  obtain ⟨stats, ws, -, r1, r2, r3, r4⟩ := hstats
  obtain ⟨d, d1, d2, d3, d4⟩ := walkGroups_of_stats h choose rng start stop n stats ws r1 r4
  have hperm := List.perm_insertionSort (fun p q : Int × List A => p.1 ≤ q.1) d
  refine ⟨ws, fun a => pyRound (average (positions ws a)), (d.insertionSort fun p q => p.1 ≤ q.1).map Prod.fst, groupLines d, r2, r3,
    fun a _ => pyRound_spec _, ?_, ?_, fun a ha => ?_, ?_⟩
  · show (do let d ← walkGroups g choose rng start stop n; return .ranks (groupLines d) : Py (NodePart A)) = _
    rw [d1]
    rfl
  · have hsorted : ((d.insertionSort fun p q => p.1 ≤ q.1).map Prod.fst).Pairwise (· ≤ ·) := by
      rw [List.pairwise_map]
      have : Std.Total fun p q : Int × List A => p.1 ≤ q.1 := ⟨fun p q => le_total p.1 q.1⟩
      have : IsTrans (Int × List A) fun p q => p.1 ≤ q.1 := ⟨fun p q r h1 h2 => le_trans h1 h2⟩
      exact List.pairwise_insertionSort _ _
    have hnd : ((d.insertionSort fun p q => p.1 ≤ q.1).map Prod.fst).Nodup := (hperm.map Prod.fst).nodup_iff.2 d2
    exact (hsorted.and hnd).imp fun hab => lt_of_le_of_ne hab.1 hab.2
  · exact (hperm.map Prod.fst).mem_iff.2 (d4 a ha)
  · unfold groupLines
    rw [List.forall₂_map_left_iff, List.forall₂_map_right_iff, List.forall₂_same]
    intro p hp
    obtain ⟨e1, e2, e3⟩ := d3 p.1 p.2 (Dict.get?_of_mem d2 (hperm.mem_iff.1 hp))
    obtain ⟨s1, s2⟩ := sortActs_spec e2
    refine ⟨fun hc => ?_, s1, fun a => (s2 a).trans (e3 a)⟩
    obtain ⟨x, hx⟩ := List.exists_mem_of_ne_nil _ e1
    have := (s2 x).2 hx
    rw [hc] at this
    cases this

/-- C131: random walks from an unknown node raise KeyError; both kinds of ranks at once raise NotImplementedError; without
ranks every node gets one line, in the order of the activities. -/
theorem C131_other_cases {g : Graph A} (hb : Built g) (choose : G → Nat → Nat × G) (rng : G) (start stop : A) (n : Int) :
    (0 < n → ¬ (view g).node start → plotNodes g choose rng (some (start, stop, n)) false = .error .key) ∧
    plotNodes g choose rng (some (start, stop, n)) true = .error .notImplemented ∧
    ∃ l, plotNodes g choose rng none false = .ok (.flat l) ∧ l.Pairwise (· < ·) ∧ ∀ a, a ∈ l ↔ (view g).node a := by
  refine ⟨fun hn hs => ?_, rfl, nodeLines g, rfl, ?_⟩
  · rw [view_node] at hs
    show (do let d ← walkGroups g choose rng start stop n; return .ranks (groupLines d) : Py (NodePart A)) = _
    unfold walkGroups
    rw [show n.toNat = (n.toNat - 1) + 1 by omega, randomWalks_missing choose start stop hs]
    rfl
  · obtain ⟨s1, s2⟩ := sortActs_spec hb.wf.nodesWF
    exact ⟨s1, fun a => by rw [view_node]; exact s2 a⟩

/-! ### edges -/

theorem mem_edgeLines {g : Graph A} (h : WF g) (o : EdgeObj A) : o ∈ edgeLines g ↔ cnt g o.start o.stop = some o.count := by
  rw [← mem_objs h.toCore]
  exact (List.perm_insertionSort _ _).mem_iff

/-- C131: every edge gets exactly one line, in the order of the activities, labelled with its count if counts are shown. -/
theorem C131_edge_lines {g : Graph A} (hb : Built g) (o : EdgeOpts) :
    (plotEdges g o).Pairwise (fun x y => x.start < y.start ∨ (x.start = y.start ∧ x.stop < y.stop)) ∧
    (∀ a b, (∃ x ∈ plotEdges g o, x.start = a ∧ x.stop = b) ↔ (view g).Edge a b) ∧
    ∀ x ∈ plotEdges g o, ∃ c, (view g).count x.start x.stop = some c ∧ x.label = if o.showCounts then some c else none := by
  have h := hb.wf
  unfold plotEdges
  refine ⟨?_, fun a b => ?_, fun x hx => ?_⟩
  · simp only
    rw [List.pairwise_map]
    have := edgeKeyLe_total (A := A)
    have := edgeKeyLe_trans (A := A)
    have h1 : (edgeLines g).Pairwise edgeKeyLe := List.pairwise_insertionSort _ _
    have h2 : (edgeLines g).Nodup := (List.perm_insertionSort _ _).nodup_iff.2 (objs_nodup h.toCore)
    refine (h1.and h2).imp_of_mem fun {x y} hx hy hxy => ?_
    obtain ⟨hle, hne⟩ := hxy
    rcases hle with hlt | ⟨he, hle⟩
    · exact .inl hlt
    · refine .inr ⟨he, lt_of_le_of_ne hle fun (e : x.stop = y.stop) => hne ?_⟩
      have e1 := (mem_edgeLines h x).1 hx
      have e2 := (mem_edgeLines h y).1 hy
      rw [he, e, e2] at e1
      obtain ⟨s, t, c⟩ := x
      obtain ⟨s', t', c'⟩ := y
      simp_all
  · rw [view_edge]
    constructor
    · rintro ⟨x, hx, rfl, rfl⟩
      obtain ⟨e, he, rfl⟩ := List.mem_map.1 hx
      unfold Edge
      rw [show cnt g _ _ = _ from (mem_edgeLines h e).1 he]
      rfl
    · intro he
      obtain ⟨c, hc⟩ := Option.isSome_iff_exists.1 he
      exact ⟨_, List.mem_map.2 ⟨⟨a, b, c⟩, (mem_edgeLines h _).2 hc, rfl⟩, rfl, rfl⟩
  · obtain ⟨e, he, rfl⟩ := List.mem_map.1 hx
    exact ⟨e.count, (mem_edgeLines h e).1 he, rfl⟩

theorem extremes {l : List Int} {c : Int} (hc : c ∈ l) : ∃ lo hi, l.min? = some lo ∧ l.max? = some hi ∧ lo ∈ l ∧ hi ∈ l ∧ ∀ x ∈ l, lo ≤ x ∧ x ≤ hi := by
  have hne := List.ne_nil_of_mem hc
  obtain ⟨lo, hlo⟩ := Option.ne_none_iff_exists'.1 (fun e => hne (List.min?_eq_none_iff.1 e))
  obtain ⟨hi, hhi⟩ := Option.ne_none_iff_exists'.1 (fun e => hne (List.max?_eq_none_iff.1 e))
  obtain ⟨a1, a2⟩ := List.min?_eq_some_iff.1 hlo
  obtain ⟨b1, b2⟩ := List.max?_eq_some_iff.1 hhi
  exact ⟨lo, hi, hlo, hhi, a1, b1, fun x hx => ⟨a2 x hx, b2 x hx⟩⟩

/-- C131: with `counts_as_edge_weight` the widths lie between the two given bounds and grow linearly with the count: smallest
count, smallest width; largest count, largest width. If all counts are equal, every width is 1, even outside of the bounds.
Without `counts_as_edge_weight` every width is 1. -/
theorem C131_widths {g : Graph A} (hb : Built g) (o : EdgeOpts) :
    (o.countsAsWeight = false → ∀ x ∈ plotEdges g o, x.width = 1) ∧
    (o.countsAsWeight = true → (∀ a b a' b' c c', (view g).count a b = some c → (view g).count a' b' = some c' → c = c') →
      ∀ x ∈ plotEdges g o, x.width = 1) ∧
    (o.countsAsWeight = true → ∀ a b a' b' lo hi, (view g).count a b = some lo → (view g).count a' b' = some hi → lo < hi →
      (∀ s t c, (view g).count s t = some c → lo ≤ c ∧ c ≤ hi) →
      ∀ x ∈ plotEdges g o, ∀ c, (view g).count x.start x.stop = some c →
        (x.width - o.minWeight) * ((hi : ℚ) - lo) = (o.maxWeight - o.minWeight) * ((c : ℚ) - lo) ∧
        (o.minWeight ≤ o.maxWeight → o.minWeight ≤ x.width ∧ x.width ≤ o.maxWeight)) := by
  have h := hb.wf
  have hmem : ∀ c, c ∈ (g.edges.values.filterMap fun e => g.heap[e]?).map EdgeObj.count ↔ ∃ a b, cnt g a b = some c := by
    intro c
    rw [List.mem_map]
    constructor
    · rintro ⟨e, he, rfl⟩
      exact ⟨_, _, (mem_objs h.toCore e).1 he⟩
    · rintro ⟨a, b, hc⟩
      exact ⟨⟨a, b, c⟩, (mem_objs h.toCore _).2 hc, rfl⟩
  unfold plotEdges
  refine ⟨fun hw x hx => ?_, fun hw hall x hx => ?_, fun hw a b a' b' lo hi hlo hhi hlt hbd x hx c hc => ?_⟩
  · obtain ⟨e, he, rfl⟩ := List.mem_map.1 hx
    simp [edgeWeight, hw]
  · obtain ⟨e, he, rfl⟩ := List.mem_map.1 hx
    have hec := (mem_edgeLines h e).1 he
    obtain ⟨l, u, h1, h2, h3, h4, _⟩ := extremes ((hmem e.count).2 ⟨_, _, hec⟩)
    obtain ⟨_, _, h5⟩ := (hmem l).1 h3
    obtain ⟨_, _, h6⟩ := (hmem u).1 h4
    have := hall _ _ _ _ _ _ h5 h6
    simp [edgeWeight, h1, h2, this]
  · obtain ⟨e, he, rfl⟩ := List.mem_map.1 hx
    have hec := (mem_edgeLines h e).1 he
    obtain ⟨l, u, h1, h2, h3, h4, h5⟩ := extremes ((hmem e.count).2 ⟨_, _, hec⟩)
    obtain ⟨_, _, h6⟩ := (hmem l).1 h3
    obtain ⟨_, _, h7⟩ := (hmem u).1 h4
    have el : l = lo := le_antisymm (h5 lo ((hmem lo).2 ⟨_, _, hlo⟩)).1 (hbd _ _ _ h6).1
    have eu : u = hi := le_antisymm (hbd _ _ _ h7).2 (h5 hi ((hmem hi).2 ⟨_, _, hhi⟩)).2
    subst el eu
    have ec : c = e.count := by
      have : cnt g e.start e.stop = some c := hc
      rw [hec] at this
      exact (Option.some.inj this).symm
    subst ec
    have hq : (0 : ℚ) < (u : ℚ) - l := by
      have : ((l : Int) : ℚ) < ((u : Int) : ℚ) := by exact_mod_cast hlt
      linarith
    have hb1 : (0 : ℚ) ≤ (e.count : ℚ) - l := by
      have := (hbd _ _ _ hec).1
      have : ((l : Int) : ℚ) ≤ ((e.count : Int) : ℚ) := by exact_mod_cast this
      linarith
    have hb2 : (e.count : ℚ) - l ≤ (u : ℚ) - l := by
      have := (hbd _ _ _ hec).2
      have : ((e.count : Int) : ℚ) ≤ ((u : Int) : ℚ) := by exact_mod_cast this
      linarith
    simp only [edgeWeight, hw, h1, h2, Option.getD_some, if_true, ne_eq, (ne_of_lt hlt).symm, not_false_eq_true, Int.cast_sub]
    have hne := ne_of_gt hq
    constructor
    · field_simp
      ring
    · intro hmm
      have hr0 : 0 ≤ ((e.count : ℚ) - l) / ((u : ℚ) - l) := div_nonneg hb1 hq.le
      have hr1 : ((e.count : ℚ) - l) / ((u : ℚ) - l) ≤ 1 := (div_le_one hq).2 hb2
      constructor
      · nlinarith
      · nlinarith

/-- C131: a whole plot fails exactly if its ranks cannot be computed, and then with the same exception, whatever the options of
the edges; without ranks it never fails and both ends of every edge line have their own node line. -/
theorem C131_plot {g : Graph A} (hb : Built g) (choose : G → Nat → Nat × G) (rng : G) (o : EdgeOpts) :
    (∀ al topo e, plot g choose rng al topo o = .error e ↔ plotNodes g choose rng al topo = .error e) ∧
    (∀ al topo nodes edges, plot g choose rng al topo o = .ok (nodes, edges) →
      plotNodes g choose rng al topo = .ok nodes ∧
        ∀ a b, (∃ x ∈ edges, x.start = a ∧ x.stop = b) ↔ (view g).Edge a b) ∧
    ∃ l edges, plot g choose rng none false o = .ok (.flat l, edges) ∧ ∀ x ∈ edges, x.start ∈ l ∧ x.stop ∈ l := by
  refine ⟨fun al topo e => ?_, fun al topo nodes edges h => ?_, nodeLines g, plotEdges g o, rfl, fun x hx => ?_⟩
  · unfold plot
    cases plotNodes g choose rng al topo <;> simp [bind, Except.bind, pure, Except.pure]
  · unfold plot at h
    cases hp : plotNodes g choose rng al topo with
    | error e => rw [hp] at h; cases h
    | ok n =>
      rw [hp] at h
      cases h
      exact ⟨rfl, (C131_edge_lines hb o).2.1⟩
  · obtain ⟨s1, s2⟩ := sortActs_spec hb.wf.nodesWF
    have he := ((C131_edge_lines hb o).2.1 x.start x.stop).1 ⟨x, hx, rfl, rfl⟩
    rw [view_edge, edge_iff_key hb.wf.toCore] at he
    obtain ⟨e, he⟩ := he
    have h1 := hb.wf.ends _ _ he
    exact ⟨(s2 _).2 h1.1, (s2 _).2 h1.2⟩

end

/-! ### examples -/

/-- 0→1, 0→2, 1→2 -/
def exTriangle : Graph Nat := addCount (addCount (addCount empty 0 1 3) 0 2 1) 1 2 2

theorem exTriangle_built : Built exTriangle := ((Built.new.addCount 0 1 3).addCount 0 2 1).addCount 1 2 2

/-- C131: ranks by distance are not a topological order: in an acyclic graph two nodes with an edge between them can have the
same rank. -/
theorem C131_not_topological : (∀ a b, (view exTriangle).Edge a b → a < b) ∧ (view exTriangle).Edge 1 2 ∧
    ∀ (choose : Unit → Nat → Nat × Unit), plotNodes exTriangle choose () none true = .ok (.ranks [[0], [1, 2]]) := by
  refine ⟨fun a b hab => ?_, ⟨2, by decide⟩, fun choose => ?_⟩
  · rw [view_edge, edge_iff_key exTriangle_built.wf.toCore] at hab
    obtain ⟨e, he⟩ := hab
    have := Dict.mem_of_get? he
    have hl : exTriangle.edges = [((0, 1), 0), ((0, 2), 1), ((1, 2), 2)] := by decide +kernel
    rw [hl] at this
    simp only [List.mem_cons, Prod.mk.injEq, List.not_mem_nil, or_false] at this
    omega
  · unfold plotNodes
    have : topoGroups exTriangle = .ok [[0], [1, 2]] := by decide +kernel
    rw [if_pos rfl, this]
    show (.ok (.ranks ([[0], [1, 2]].map sortActs)) : Py (NodePart Nat)) = _
    decide +kernel

/-- the hypotheses of the theorems about widths are met -/
example : plotEdges exTriangle ⟨true, true, 1, 10⟩ = [⟨0, 1, some 3, 10⟩, ⟨0, 2, some 1, 1⟩, ⟨1, 2, some 2, 11 / 2⟩] := by decide +kernel

/-- a whole plot -/
example : plot exTriangle (fun (_ : Unit) _ => (0, ())) () none false ⟨true, false, 1, 10⟩ =
    .ok (.flat [0, 1, 2], [⟨0, 1, some 3, 1⟩, ⟨0, 2, some 1, 1⟩, ⟨1, 2, some 2, 1⟩]) := by decide +kernel

/-- one random walk that always takes the first choice -/
example : plotNodes exTriangle (fun (_ : Unit) _ => (0, ())) () (some (0, 2, 1)) false = .ok (.ranks [[0], [1], [2]]) := by decide +kernel

end Prolothar.Dfg
