import Verif.Props.NestedGraph
/-
C116: edits, queries and equality of nested graphs.
-/
namespace Prolothar.Nested
variable {V : Type} [DecidableEq V]

/-- the edges are equal: same id, ends and attributes (as a mapping) -/
def SameEdge (a b : Edge V) : Prop := a.id = b.id ∧ a.source = b.source ∧ a.target = b.target ∧ ∀ k, a.attrs.get? k = b.attrs.get? k

/-- C116: after `add_node` the node is found under its id, and all other nodes as before -/
theorem C116_add_node (g : Graph V) (n : Node V) (id : V) :
    (addNode g n).nodes.get? id = if id = n.id then some n else g.nodes.get? id := by
  unfold addNode
  by_cases h : id = n.id
  · subst h; rw [if_pos rfl]; exact Dict.get?_put_self _ _ _
  · rw [if_neg h]; exact Dict.get?_put_of_ne _ _ (Ne.symm h)

/-- C116: after `add_edge` exactly the old edges and the new one are in the graph, and no edge twice -/
theorem C116_add_edge {g : Graph V} (hg : GraphOk g) {e : Edge V} (he : e.attrs.WF) (x : Edge V) (hx : x.attrs.WF) :
    ((∃ e' ∈ (addEdge g e).edges, SameEdge x e') ↔ (∃ e' ∈ g.edges, SameEdge x e') ∨ SameEdge x e) ∧
    (addEdge g e).edges.Pairwise (fun a b => ¬ SameEdge a b) ∧ (addEdge g e).nodes = g.nodes := by
  have hok := hg.addEdge he
  have conv : ∀ {l : List (Edge V)}, EdgesOk l → ((∃ e' ∈ l, SameEdge x e') ↔ In x l) := fun {l} hl =>
    ⟨fun ⟨e', h1, h2⟩ => ⟨e', h1, (edgeEq_iff hx (hl e' h1)).2 h2⟩, fun ⟨e', h1, h2⟩ => ⟨e', h1, (edgeEq_iff hx (hl e' h1)).1 h2⟩⟩
  refine ⟨?_, ?_, rfl⟩
  · rw [conv hok.edgeAttrs, conv hg.edgeAttrs]
    exact (in_edgeAdd hg.edgeAttrs he hx).trans (or_congr Iff.rfl (edgeEq_iff hx he))
  · refine hok.distinct.imp_of_mem fun {a b} ha hb h hs => ?_
    rw [(edgeEq_iff (hok.edgeAttrs a ha) (hok.edgeAttrs b hb)).2 hs] at h
    cases h

/-- C116: `remove_edge` raises a KeyError iff the edge is not in the graph; otherwise exactly this edge is removed -/
theorem C116_remove_edge {g : Graph V} (hg : GraphOk g) {e : Edge V} (he : e.attrs.WF) :
    ((∀ e' ∈ g.edges, ¬ SameEdge e e') ∧ removeEdge g e = .error .key) ∨
    ((∃ e' ∈ g.edges, SameEdge e e') ∧ ∃ g', removeEdge g e = .ok g' ∧ g'.nodes = g.nodes ∧ g'.edges.Sublist g.edges ∧
      ∀ x ∈ g.edges, x ∈ g'.edges ↔ ¬ SameEdge e x) := by
  have conv : ∀ e' ∈ g.edges, (edgeEq e e' = true ↔ SameEdge e e') := fun e' h => edgeEq_iff he (hg.edgeAttrs e' h)
  unfold removeEdge edgeRemove
  by_cases h : g.edges.any (edgeEq e) = true
  · right
    rw [if_pos h]
    obtain ⟨e', he', h1⟩ := List.any_eq_true.1 h
    refine ⟨⟨e', he', (conv e' he').1 h1⟩, _, rfl, rfl, List.eraseP_sublist, fun x hx => ?_⟩
    show x ∈ g.edges.eraseP (edgeEq e) ↔ _
    constructor
    · intro hm hs
      have hd := hg.distinct
      have heq := (conv x hx).2 hs
      -- the erased element is the only one that equals `e`
      have key : ∀ (l : List (Edge V)), (∀ y ∈ l, y.attrs.WF) → (l.Pairwise fun a b => edgeEq a b = false) → x ∉ l.eraseP (edgeEq e) := by
        intro l
        induction l with
        | nil => simp
        | cons y l ih =>
          intro hw hp hx
          rw [List.pairwise_cons] at hp
          by_cases hy : edgeEq e y = true
          · rw [List.eraseP_cons_of_pos hy] at hx
            have h1 := hp.1 x hx
            have wy := hw y List.mem_cons_self
            have wx := hw x (List.mem_cons_of_mem _ hx)
            rw [edgeEq_trans wy he wx (edgeEq_symm he wy hy) heq] at h1
            cases h1
          · rw [List.eraseP_cons_of_neg hy, List.mem_cons] at hx
            rcases hx with rfl | hx
            · exact hy heq
            · exact ih (fun z hz => hw z (List.mem_cons_of_mem _ hz)) hp.2 hx
      exact key g.edges hg.edgeAttrs hd hm
    · intro hs
      exact (List.mem_eraseP_of_neg (fun hc => hs ((conv x hx).1 hc))).2 hx
  · left
    rw [if_neg h]
    refine ⟨fun e' h1 hs => h (List.any_eq_true.2 ⟨e', h1, (conv e' h1).2 hs⟩), rfl⟩

/-- C116: `get_nodes_by_label` returns exactly the nodes with the label, each once -/
theorem C116_nodes_by_label {g : Graph V} (hg : GraphOk g) (l : V) :
    (∀ n, n ∈ nodesByLabel g l ↔ (n.id, n) ∈ g.nodes ∧ n.label = l) ∧ ((nodesByLabel g l).map (·.id)).Nodup := by
  unfold nodesByLabel
  refine ⟨fun n => ?_, ?_⟩
  · rw [List.mem_filter, mem_values hg, decide_eq_true_eq]
  · exact (values_ids_nodup hg).sublist (List.filter_sublist.map _)

/-- C116: `get_edge_by_source_and_target` returns an edge between the nodes, or raises a ValueError if there is none -/
theorem C116_edge_between (g : Graph V) (s t : V) :
    (∃ e ∈ g.edges, e.source = s ∧ e.target = t ∧ edgeBetween g s t = .ok e) ∨
    ((∀ e ∈ g.edges, ¬ (e.source = s ∧ e.target = t)) ∧ edgeBetween g s t = .error .value) := by
  unfold edgeBetween
  cases h : g.edges.find? fun e => decide (e.source = s ∧ e.target = t) with
  | some e =>
    have h1 := List.find?_some h
    exact .inl ⟨e, List.mem_of_find?_eq_some h, (of_decide_eq_true h1).1, (of_decide_eq_true h1).2, rfl⟩
  | none =>
    refine .inr ⟨fun e he hc => ?_, rfl⟩
    have := List.find?_eq_none.1 h e he
    exact this (decide_eq_true hc)

/-- C116: `has_children`, `get_children`, `get_outgoing_edges`, `get_ingoing_edges` -/
theorem C116_children {g : Graph V} (hg : GraphOk g) (id : V) :
    (hasChildren g id = true ↔ ∃ n, (n.id, n) ∈ g.nodes ∧ n.parent = some id) ∧
    (∀ n, n ∈ children g id ↔ (n.id, n) ∈ g.nodes ∧ n.parent = some id) ∧ ((children g id).map (·.id)).Nodup ∧
    (∀ e, e ∈ outgoing g id ↔ e ∈ g.edges ∧ e.source = id) ∧ ∀ e, e ∈ ingoing g id ↔ e ∈ g.edges ∧ e.target = id := by
  refine ⟨?_, fun n => mem_children hg, (values_ids_nodup hg).sublist (List.filter_sublist.map _), ?_, ?_⟩
  · unfold hasChildren
    simp [mem_values hg]
  · intro e; unfold outgoing; rw [List.mem_filter, decide_eq_true_eq]
  · intro e; unfold ingoing; rw [List.mem_filter, decide_eq_true_eq]

/-- C116: `get_source_nodes` and `get_sink_nodes` -/
theorem C116_source_sink {g : Graph V} (hg : GraphOk g) (n : Node V) :
    (n ∈ sourceNodes g ↔ (n.id, n) ∈ g.nodes ∧ ∀ e ∈ g.edges, e.target ≠ n.id) ∧
    (n ∈ sinkNodes g ↔ (n.id, n) ∈ g.nodes ∧ ∀ e ∈ g.edges, e.source ≠ n.id) := by
  unfold sourceNodes sinkNodes ingoing outgoing
  simp only [List.mem_filter, mem_values hg, decide_eq_true_eq, List.length_eq_zero_iff, List.filter_eq_nil_iff]
  trivial

/-- C116: two graphs are equal iff they have the same node ids, nodes with the same id have the same parent and the same attributes,
and they have the same edges. (Labels are not compared.) -/
theorem C116_equality {g g' : Graph V} (hg : GraphOk g) (hg' : GraphOk g') :
    graphEq g g' = true ↔
      (∀ id, (g.nodes.get? id = none ∧ g'.nodes.get? id = none) ∨
        ∃ n n', g.nodes.get? id = some n ∧ g'.nodes.get? id = some n' ∧ n.parent = n'.parent ∧ ∀ k, n.attrs.get? k = n'.attrs.get? k) ∧
      (∀ e ∈ g.edges, ∃ e' ∈ g'.edges, SameEdge e e') ∧ ∀ e' ∈ g'.edges, ∃ e ∈ g.edges, SameEdge e e' := by
  have hnode : ∀ {id n n'}, g.nodes.get? id = some n → g'.nodes.get? id = some n' →
      (nodeEq n n' = true ↔ n.parent = n'.parent ∧ ∀ k, n.attrs.get? k = n'.attrs.get? k) := by
    intro id n n' h1 h2
    have m1 := Dict.mem_of_get? h1
    have m2 := Dict.mem_of_get? h2
    unfold nodeEq
    rw [Bool.and_eq_true, Bool.and_eq_true, decide_eq_true_eq, decide_eq_true_eq, dictEq_iff (hg.nodeAttrs _ m1) (hg'.nodeAttrs _ m2)]
    have e1 : n.id = id := hg.ids _ m1
    have e2 : n'.id = id := hg'.ids _ m2
    simp [e1, e2]
  have hedge : ∀ e ∈ g.edges, ∀ e' ∈ g'.edges, (edgeEq e e' = true ↔ SameEdge e e') := fun e he e' he' => edgeEq_iff (hg.edgeAttrs e he) (hg'.edgeAttrs e' he')
  have hdist : ∀ {h : Graph V}, GraphOk h → h.edges.Pairwise fun a b => ¬ SameEdge a b := by
    intro h hh
    refine hh.distinct.imp_of_mem fun {a b} ha hb hx hs => ?_
    rw [(edgeEq_iff (hh.edgeAttrs a ha) (hh.edgeAttrs b hb)).2 hs] at hx
    cases hx
  have symm : ∀ {a b : Edge V}, SameEdge a b → SameEdge b a := fun ⟨h1, h2, h3, h4⟩ => ⟨h1.symm, h2.symm, h3.symm, fun k => (h4 k).symm⟩
  have trans : ∀ {a b c : Edge V}, SameEdge a b → SameEdge b c → SameEdge a c := fun ⟨h1, h2, h3, h4⟩ ⟨k1, k2, k3, k4⟩ =>
    ⟨h1.trans k1, h2.trans k2, h3.trans k3, fun k => (h4 k).trans (k4 k)⟩
  -- an injective assignment of edges
  have card : ∀ (l l' : List (Edge V)), (l.Pairwise fun a b => ¬ SameEdge a b) → (∀ e ∈ l, ∃ e' ∈ l', SameEdge e e') → l.length ≤ l'.length := by
    intro l
    induction l with
    | nil => simp
    | cons a l ih =>
      intro l' hp hs
      rw [List.pairwise_cons] at hp
      obtain ⟨a', ha', hs1⟩ := hs a List.mem_cons_self
      have := ih (l'.eraseIdx (l'.findIdx fun y => decide (y = a'))) hp.2 ?_
      · have hi : (l'.findIdx fun y => decide (y = a')) < l'.length := List.findIdx_lt_length_of_exists ⟨a', ha', by simp⟩
        rw [List.length_eraseIdx, if_pos hi] at this
        rw [List.length_cons]
        omega
      · intro e he
        obtain ⟨e', he', hs2⟩ := hs e (List.mem_cons_of_mem _ he)
        refine ⟨e', ?_, hs2⟩
        have hne : e' ≠ a' := fun hc => hp.1 e he (trans hs1 (symm (hc ▸ hs2)))
        have hi : (l'.findIdx fun y => decide (y = a')) < l'.length := List.findIdx_lt_length_of_exists ⟨a', ha', by simp⟩
        have hget : l'[l'.findIdx fun y => decide (y = a')] = a' := by
          have := List.findIdx_getElem (w := hi)
          exact of_decide_eq_true this
        rw [List.mem_eraseIdx_iff_getElem]
        obtain ⟨j, hj, rfl⟩ := List.getElem_of_mem he'
        refine ⟨j, hj, fun hc => hne ?_, rfl⟩
        simp only [hc] at hget ⊢
        exact hget
  unfold graphEq
  rw [Bool.and_eq_true, Bool.and_eq_true, Bool.and_eq_true, beq_iff_eq, beq_iff_eq, List.all_eq_true, List.all_eq_true]
  constructor
  · rintro ⟨⟨hl, hn⟩, hl', he⟩
    refine ⟨fun id => ?_, ?_, ?_⟩
    · have hsub : g.nodes.keys ⊆ g'.nodes.keys := by
        intro k hk
        obtain ⟨p, hp, rfl⟩ := List.mem_map.1 hk
        have := hn p hp
        cases hx : g'.nodes.get? p.1 with
        | none => rw [hx] at this; cases this
        | some n => exact Dict.mem_keys_iff.2 ⟨n, hx⟩
      have hperm := (List.subperm_of_subset hg.keys hsub).perm_of_length_le (by simp [Dict.keys, hl])
      cases hx : g.nodes.get? id with
      | none =>
        left
        refine ⟨rfl, Dict.get?_eq_none_iff.2 fun hc => Dict.get?_eq_none_iff.1 hx (hperm.mem_iff.2 hc)⟩
      | some n =>
        right
        have := hn (id, n) (Dict.mem_of_get? hx)
        cases hy : g'.nodes.get? id with
        | none => rw [show g'.nodes.get? (id, n).1 = none from hy] at this; cases this
        | some n' =>
          rw [show g'.nodes.get? (id, n).1 = some n' from hy] at this
          exact ⟨n, n', rfl, rfl, (hnode hx hy).1 this⟩
    · intro e hm
      obtain ⟨e', h1, h2⟩ := List.any_eq_true.1 (he e hm)
      exact ⟨e', h1, (hedge e hm e' h1).1 h2⟩
    · intro e' hm
      by_contra hc
      have hc' : ∀ e ∈ g.edges, ¬ SameEdge e e' := fun e h1 h2 => hc ⟨e, h1, h2⟩
      have := card (e' :: g.edges) g'.edges (List.pairwise_cons.2 ⟨fun a ha hs => hc' a ha (symm hs), hdist hg⟩) (by
        intro e hx
        rcases List.mem_cons.1 hx with rfl | hx
        · exact ⟨e, hm, rfl, rfl, rfl, fun _ => rfl⟩
        · obtain ⟨e', h1, h2⟩ := List.any_eq_true.1 (he e hx)
          exact ⟨e', h1, (hedge e hx e' h1).1 h2⟩)
      rw [List.length_cons] at this
      omega
  · rintro ⟨hn, h1, h2⟩
    refine ⟨⟨?_, ?_⟩, ?_, ?_⟩
    · have hk : ∀ k, k ∈ g.nodes.keys ↔ k ∈ g'.nodes.keys := by
        intro k
        rcases hn k with ⟨a, b⟩ | ⟨n, n', a, b, _⟩
        · exact iff_of_false (Dict.get?_eq_none_iff.1 a) (Dict.get?_eq_none_iff.1 b)
        · exact iff_of_true (Dict.mem_keys_iff.2 ⟨n, a⟩) (Dict.mem_keys_iff.2 ⟨n', b⟩)
      have := ((List.perm_ext_iff_of_nodup hg.keys hg'.keys).2 hk).length_eq
      simpa [Dict.keys] using this
    · rintro ⟨id, n⟩ hp
      have hx := Dict.get?_of_mem hg.keys hp
      rcases hn id with ⟨a, b⟩ | ⟨m, n', a, b, hh⟩
      · rw [hx] at a; cases a
      · rw [hx] at a
        obtain rfl := Option.some.inj a
        show (match g'.nodes.get? id with | some n' => nodeEq n n' | none => false) = true
        rw [b]
        exact (hnode hx b).2 hh
    · apply Nat.le_antisymm (card _ _ (hdist hg) h1)
      exact card _ _ (hdist hg') fun e' he' => by
        obtain ⟨e, he, hs⟩ := h2 e' he'
        exact ⟨e, he, symm hs⟩
    · intro e he
      obtain ⟨e', h3, h4⟩ := h1 e he
      exact List.any_eq_true.2 ⟨e', h3, (hedge e he e' h3).2 h4⟩

/-! ### the hypotheses are met -/

theorem sample_ok : GraphOk sample := by
  refine ⟨by unfold Dict.WF; decide, by decide, ?_, ?_, by decide⟩
  · intro p hp
    simp [sample] at hp
    rcases hp with rfl | rfl | rfl | rfl | rfl <;> exact Dict.WF.nil
  · intro p hp
    simp [sample] at hp
    rcases hp with rfl | rfl <;> exact Dict.WF.nil

example : GraphOk sample ∧ graphEq sample sample = true ∧ graphEq sample (addEdge sample ⟨9, 3, 4, []⟩) = false ∧
    (edgeBetween sample 4 3 = .error .value ∧ edgeBetween sample 1 2 ≠ .error .value) ∧
    removeEdge sample ⟨9, 3, 4, []⟩ = .error .key ∧ children sample 1 ≠ [] ∧ (nodesByLabel sample 0).length = 5 := by
  exact ⟨sample_ok, by decide, by decide, by decide, by decide, by decide, by decide⟩

end Prolothar.Nested
