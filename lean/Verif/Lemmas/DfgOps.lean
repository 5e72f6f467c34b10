import Verif.Lemmas.Dfg
/- Node removal with connections, join, copy, filters, reading logs. -/
set_option linter.unusedSimpArgs false
set_option linter.unusedVariables false
set_option linter.unusedSectionVars false
namespace Prolothar.Dfg
variable {A : Type} [DecidableEq A]

/-! ### remove_node with connections -/

theorem foldl_connect {g : Graph A} (h : WF g) (p : A) (l : List A) (hl : l.Nodup) :
    WF (l.foldl (fun g s => addCount g p s) g) ∧
      (∀ x, x ∈ (l.foldl (fun g s => addCount g p s) g).nodes.keys ↔ x ∈ g.nodes.keys ∨ l ≠ [] ∧ (x = p ∨ x ∈ l)) ∧
      ∀ x y, cnt (l.foldl (fun g s => addCount g p s) g) x y =
        if x = p ∧ y ∈ l then some ((cnt g x y).getD 0 + 1) else cnt g x y := by
  obtain ⟨h1, h2, h3⟩ := foldl_addCount_wf h l (fun _ => p) id (fun _ => 1)
  refine ⟨h1, ?_, ?_⟩
  · intro x
    have := h2 x
    simp only [id] at this
    rw [this]
    apply or_congr_right
    constructor
    · rintro ⟨q, hq, rfl | rfl⟩
      · exact ⟨List.ne_nil_of_mem hq, .inl rfl⟩
      · exact ⟨List.ne_nil_of_mem hq, .inr hq⟩
    · rintro ⟨hne, rfl | hx⟩
      · obtain ⟨q, hq⟩ := List.exists_mem_of_ne_nil l hne
        exact ⟨q, hq, .inl rfl⟩
      · exact ⟨x, hx, .inr rfl⟩
  · intro x y
    have := h3 x y
    simp only [id] at this
    rw [this]
    by_cases hxy : x = p ∧ y ∈ l
    · obtain ⟨rfl, hy⟩ := hxy
      rw [if_pos ⟨y, hy, rfl, rfl⟩, if_pos ⟨rfl, hy⟩]
      have : l.filter (fun q => decide (x = x ∧ q = y)) = [y] := by
        simp only [true_and]
        rw [List.filter_eq, List.count_eq_one_of_mem hl hy]; rfl
      rw [this]; rfl
    · rw [if_neg hxy, if_neg]
      rintro ⟨q, hq, rfl, rfl⟩
      exact hxy ⟨rfl, hq⟩

theorem connectAll_ok {g : Graph A} (h : WF g) {a : A} (ha : a ∈ g.nodes.keys) (ps : List A) (hps : ps.Nodup)
    (hin : ∀ p ∈ ps, p ∈ g.nodes.keys) :
    ∃ g', connectAll g a ps = .ok g' ∧ WF g' ∧ (∀ x, x ∈ g'.nodes.keys ↔ x ∈ g.nodes.keys) ∧
      ∀ x y, cnt g' x y = if x ∈ ps ∧ (cnt g a y).isSome then some ((cnt g x y).getD 0 + 1) else cnt g x y := by
  induction ps generalizing g with
  | nil => exact ⟨g, rfl, h, by simp, by simp⟩
  | cons p ps ih =>
    obtain ⟨l, hl, hnd, hmem⟩ := following_ok h.toCore ha
    obtain ⟨h1, h2, h3⟩ := foldl_connect h p l hnd
    have hkeys : ∀ x, x ∈ (l.foldl (fun g s => addCount g p s) g).nodes.keys ↔ x ∈ g.nodes.keys := by
      intro x
      rw [h2]
      constructor
      · rintro (hx | ⟨_, rfl | hx⟩)
        · exact hx
        · exact hin x (by simp)
        · rw [hmem] at hx
          obtain ⟨c, hc⟩ := Option.isSome_iff_exists.1 hx
          exact (h.node_of_cnt hc).2
      · exact .inl
    rw [List.nodup_cons] at hps
    obtain ⟨g', i1, i2, i3, i4⟩ := ih h1 ((hkeys a).2 ha) hps.2
      (fun q hq => (hkeys q).2 (hin q (by simp [hq])))
    have hfol : ∀ y, (cnt (l.foldl (fun g s => addCount g p s) g) a y).isSome = (cnt g a y).isSome := by
      intro y
      rw [h3]
      split
      · rename_i hc
        rw [(hmem y).1 hc.2]; rfl
      · rfl
    refine ⟨g', ?_, i2, fun x => (i3 x).trans (hkeys x), ?_⟩
    · simp only [connectAll, hl]
      exact i1
    · intro x y
      rw [i4, hfol, h3]
      simp only [List.mem_cons]
      by_cases hxp : x = p
      · subst hxp
        simp only [hps.1, false_and, if_false, true_and, true_or, hmem]
      · simp only [hxp, false_and, if_false, false_or]

theorem removeNode_connect {g : Graph A} (h : WF g) {a : A} (ha : a ∈ g.nodes.keys) :
    ∃ g', removeNode g a true = .ok g' ∧ WF g' ∧ (∀ x, x ∈ g'.nodes.keys ↔ x ∈ g.nodes.keys ∧ x ≠ a) ∧
      ∀ x y, cnt g' x y = if x = a ∨ y = a then none
        else if (cnt g x a).isSome ∧ (cnt g a y).isSome then some ((cnt g x y).getD 0 + 1) else cnt g x y := by
  obtain ⟨ps, hp, hnd, hmem⟩ := preceding_ok h.toCore ha
  obtain ⟨g1, c1, c2, c3, c4⟩ := connectAll_ok h ha ps hnd (by
    intro p hp'
    rw [hmem] at hp'
    obtain ⟨c, hc⟩ := Option.isSome_iff_exists.1 hp'
    exact (h.node_of_cnt hc).1)
  obtain ⟨g2, d1, d2, d3, d4⟩ := removeNode_plain c2 ((c3 a).2 ha)
  refine ⟨g2, ?_, d2, ?_, ?_⟩
  · rw [← d1]
    unfold removeNode
    simp only [if_true, hp, Bool.false_eq_true, if_false]
    show ((connectAll g a ps) >>= _) = _
    rw [c1]
  · intro x
    have hnd : g1.nodes.keys.Nodup := c2.nodesWF
    rw [d3, hnd.mem_erase_iff, c3, and_comm]
  · intro x y
    rw [d4]
    simp only [c4, hmem]

/-! ### join and copy -/

theorem foldl_addNode {g : Graph A} (h : WF g) (l : List A) :
    WF (l.foldl addNode g) ∧ (∀ x, x ∈ (l.foldl addNode g).nodes.keys ↔ x ∈ g.nodes.keys ∨ x ∈ l) ∧
      (l.foldl addNode g).edges = g.edges ∧ (l.foldl addNode g).heap = g.heap := by
  induction l generalizing g with
  | nil => exact ⟨h, by simp, rfl, rfl⟩
  | cons a l ih =>
    obtain ⟨h1, h2, h3, h4⟩ := ih (addNode_core h a)
    refine ⟨h1, ?_, h3.trans (addNode_edges g a), h4.trans (addNode_heap g a)⟩
    intro x
    rw [List.foldl_cons, h2, addNode_keys, List.mem_cons, or_assoc]

/-- keys stay in order -/
theorem foldl_addNode_keys {g : Graph A} (l : List A) (hl : l.Nodup) (hd : ∀ x ∈ l, x ∉ g.nodes.keys) :
    (l.foldl addNode g).nodes.keys = g.nodes.keys ++ l := by
  induction l generalizing g with
  | nil => simp
  | cons a l ih =>
    rw [List.nodup_cons] at hl
    have ha := hd a (by simp)
    have hk : (addNode g a).nodes.keys = g.nodes.keys ++ [a] := by
      unfold addNode
      rw [if_neg (by rw [Dict.has_iff]; exact ha)]
      show Dict.keys (Dict.put g.nodes a ⟨[], []⟩) = _
      rw [Dict.keys_put, if_neg ha]
    rw [List.foldl_cons, ih hl.2, hk]
    · simp
    · intro x hx hc
      rw [hk, List.mem_append, List.mem_singleton] at hc
      rcases hc with hc | rfl
      · exact hd x (by simp [hx]) hc
      · exact hl.1 hx

theorem foldl_newEdge (cs : ((A × A) × Nat) → Int) (L : Dict (A × A) Nat) (hL : L.WF) (g : Graph A) :
    (L.foldl (fun g p => newEdge g p.1 (cs p)) g).nodes = g.nodes ∧
    (∀ k, k ∉ L.keys → (L.foldl (fun g p => newEdge g p.1 (cs p)) g).edges.get? k = g.edges.get? k) ∧
    (∀ p ∈ L, ∃ e, (L.foldl (fun g p => newEdge g p.1 (cs p)) g).edges.get? p.1 = some e ∧
      g.heap.length ≤ e ∧ (L.foldl (fun g p => newEdge g p.1 (cs p)) g).heap[e]? = some ⟨p.1.1, p.1.2, cs p⟩) ∧
    (∀ e < g.heap.length, (L.foldl (fun g p => newEdge g p.1 (cs p)) g).heap[e]? = g.heap[e]?) ∧
    (g.edges.WF → (L.foldl (fun g p => newEdge g p.1 (cs p)) g).edges.WF) := by
  induction L generalizing g with
  | nil => exact ⟨rfl, by simp, by simp, by simp, id⟩
  | cons p L ih =>
    have hL' : p.1 ∉ Dict.keys L ∧ Dict.WF L := by
      unfold Dict.WF Dict.keys at hL
      rw [List.map_cons, List.nodup_cons] at hL
      exact hL
    obtain ⟨h1, h2, h3, h4, h5⟩ := ih hL'.2 (newEdge g p.1 (cs p))
    have hlen : (newEdge g p.1 (cs p)).heap.length = g.heap.length + 1 := by simp [newEdge]
    rw [List.foldl_cons]
    refine ⟨h1, ?_, ?_, ?_, ?_⟩
    · intro k hk
      have hk' : k ≠ p.1 ∧ k ∉ Dict.keys L := by
        simpa [Dict.keys] using hk
      rw [h2 k hk'.2]
      show Dict.get? (Dict.put g.edges p.1 _) k = _
      rw [Dict.get?_put_of_ne _ _ (Ne.symm hk'.1)]
    · intro q hq
      rcases List.mem_cons.1 hq with rfl | hq
      · refine ⟨g.heap.length, ?_, le_refl _, ?_⟩
        · rw [h2 _ hL'.1]
          exact Dict.get?_put_self ..
        · rw [h4 _ (by omega)]
          simp [newEdge]
      · obtain ⟨e, e1, e2, e3⟩ := h3 q hq
        exact ⟨e, e1, by omega, e3⟩
    · intro e he
      rw [h4 e (by omega)]
      simp only [newEdge]
      rw [List.getElem?_append_left he]
    · intro hw
      exact h5 (hw.put _ _)

theorem foldl_appendOut (ks : List (A × A)) (g : Graph A) :
    let g' := ks.foldl (fun g k => match g.edges.get? k with | some e => appendOut g k.1 e | none => g) g
    g'.edges = g.edges ∧ g'.heap = g.heap ∧ g'.nodes.keys = g.nodes.keys ∧
      ∀ x, g'.nodes.get? x = (g.nodes.get? x).map fun n =>
        { n with out := n.out ++ (ks.filter fun k => k.1 = x).filterMap g.edges.get? } := by
  induction ks generalizing g with
  | nil =>
    refine ⟨rfl, rfl, rfl, fun x => ?_⟩
    simp
  | cons k ks ih =>
    simp only [List.foldl_cons]
    cases he : g.edges.get? k with
    | none =>
      simp only
      obtain ⟨h1, h2, h3, h4⟩ := ih g
      refine ⟨h1, h2, h3, fun x => ?_⟩
      rw [h4]
      congr 1
      funext n
      by_cases hx : k.1 = x
      · simp [List.filter_cons, hx, he]
      · simp [List.filter_cons, hx]
    | some e =>
      simp only
      obtain ⟨h1, h2, h3, h4⟩ := ih (appendOut g k.1 e)
      have hE : (appendOut g k.1 e).edges = g.edges := modifyNode_edges ..
      rw [hE] at h1 h4
      refine ⟨h1, h2.trans (modifyNode_heap ..), h3.trans (modifyNode_keys ..), fun x => ?_⟩
      rw [h4]
      unfold appendOut
      rw [modifyNode_get?]
      by_cases hx : k.1 = x
      · rw [if_pos hx.symm, Option.map_map]
        congr 1
        funext n
        simp [List.filter_cons, hx, he]
      · rw [if_neg (Ne.symm hx)]
        congr 1
        funext n
        simp [List.filter_cons, hx]

theorem foldl_appendIng (ks : List (A × A)) (g : Graph A) :
    let g' := ks.foldl (fun g k => match g.edges.get? k with | some e => appendIng g k.2 e | none => g) g
    g'.edges = g.edges ∧ g'.heap = g.heap ∧ g'.nodes.keys = g.nodes.keys ∧
      ∀ x, g'.nodes.get? x = (g.nodes.get? x).map fun n =>
        { n with ing := n.ing ++ (ks.filter fun k => k.2 = x).filterMap g.edges.get? } := by
  induction ks generalizing g with
  | nil =>
    refine ⟨rfl, rfl, rfl, fun x => ?_⟩
    simp
  | cons k ks ih =>
    simp only [List.foldl_cons]
    cases he : g.edges.get? k with
    | none =>
      simp only
      obtain ⟨h1, h2, h3, h4⟩ := ih g
      refine ⟨h1, h2, h3, fun x => ?_⟩
      rw [h4]
      congr 1
      funext n
      by_cases hx : k.2 = x
      · simp [List.filter_cons, hx, he]
      · simp [List.filter_cons, hx]
    | some e =>
      simp only
      obtain ⟨h1, h2, h3, h4⟩ := ih (appendIng g k.2 e)
      have hE : (appendIng g k.2 e).edges = g.edges := modifyNode_edges ..
      rw [hE] at h1 h4
      refine ⟨h1, h2.trans (modifyNode_heap ..), h3.trans (modifyNode_keys ..), fun x => ?_⟩
      rw [h4]
      unfold appendIng
      rw [modifyNode_get?]
      by_cases hx : k.2 = x
      · rw [if_pos hx.symm, Option.map_map]
        congr 1
        funext n
        simp [List.filter_cons, hx, he]
      · rw [if_neg (Ne.symm hx)]
        congr 1
        funext n
        simp [List.filter_cons, hx]

/-- `join` of graphs without common edges -/
theorem join_ok {g other : Graph A} (hg : WF g) (ho : WF other)
    (hd : ∀ k ∈ other.edges.keys, k ∉ g.edges.keys) :
    WF (join g other) ∧
      (join g other).nodes.keys = (other.nodes.keys.foldl addNode g).nodes.keys ∧
      (∀ x, x ∈ (join g other).nodes.keys ↔ x ∈ g.nodes.keys ∨ x ∈ other.nodes.keys) ∧
      ∀ x y, cnt (join g other) x y = (cnt g x y).or (cnt other x y) := by
  let cs : ((A × A) × Nat) → Int := fun p => match other.heap[p.2]? with | some o => o.count | none => 0
  let g1 := other.nodes.keys.foldl addNode g
  let g2 := other.edges.foldl (fun g p => newEdge g p.1 (cs p)) g1
  obtain ⟨a1, a2, a3, a4⟩ := foldl_addNode hg other.nodes.keys
  obtain ⟨b1, b2, b3, b4, b5⟩ := foldl_newEdge cs other.edges ho.edgesWF g1
  obtain ⟨c1, c2, c3, c4⟩ := foldl_appendOut other.edges.keys g2
  let g3 := other.edges.keys.foldl (fun g k => match g.edges.get? k with | some e => appendOut g k.1 e | none => g) g2
  obtain ⟨d1, d2, d3, d4⟩ := foldl_appendIng other.edges.keys g3
  let g4 := other.edges.keys.foldl (fun g k => match g.edges.get? k with | some e => appendIng g k.2 e | none => g) g3
  have hj : join g other = g4 := rfl
  have eE : g4.edges = g2.edges := d1.trans c1
  have eH : g4.heap = g2.heap := d2.trans c2
  have eK : g4.nodes.keys = g1.nodes.keys := by
    rw [show g4.nodes.keys = g3.nodes.keys from d3, show g3.nodes.keys = g2.nodes.keys from c3,
      show g2.nodes = g1.nodes from b1]
  have eN : ∀ x, g4.nodes.get? x = (g1.nodes.get? x).map fun n =>
      ⟨n.out ++ (other.edges.keys.filter fun k => k.1 = x).filterMap g2.edges.get?,
       n.ing ++ (other.edges.keys.filter fun k => k.2 = x).filterMap g2.edges.get?⟩ := by
    intro x
    rw [show g4.nodes.get? x = _ from d4 x, show g3.nodes.get? x = _ from c4 x,
      show g2.nodes = g1.nodes from b1, show g3.edges = g2.edges from c1, Option.map_map]
    rfl
  have hlt : ∀ k e, g1.edges.get? k = some e → e < g1.heap.length := fun k e hk => a1.toCore.lt hk
  have hdis : ∀ k ∈ other.edges.keys, g1.edges.get? k = none := by
    intro k hk
    rw [show g1.edges = g.edges from a3]
    exact Dict.get?_eq_none_iff.2 (hd k hk)
  -- stored edges
  have hnew : ∀ k ∈ other.edges.keys, ∃ e c, g2.edges.get? k = some e ∧ g1.heap.length ≤ e ∧
      g2.heap[e]? = some ⟨k.1, k.2, c⟩ ∧ cnt other k.1 k.2 = some c := by
    intro k hk
    obtain ⟨v, hv⟩ := Dict.mem_keys_iff.1 hk
    obtain ⟨c, hc, hcnt⟩ := ho.toCore.cnt_eq (a := k.1) (b := k.2) hv
    obtain ⟨e, e1, e2, e3⟩ := b3 (k, v) (Dict.mem_of_get? hv)
    refine ⟨e, c, e1, e2, ?_, hcnt⟩
    rw [show g2.heap[e]? = _ from e3]
    simp [cs, hc]
  have hold : ∀ k, k ∉ other.edges.keys → g2.edges.get? k = g1.edges.get? k := b2
  have hnewinj : ∀ k ∈ other.edges.keys, ∀ k' ∈ other.edges.keys, ∀ e, g2.edges.get? k = some e →
      g2.edges.get? k' = some e → k = k' := by
    intro k hk k' hk' e he he'
    obtain ⟨e1, c1, p1, p2, p3, _⟩ := hnew k hk
    obtain ⟨e2, c2, q1, q2, q3, _⟩ := hnew k' hk'
    rw [he] at p1; rw [he'] at q1
    simp only [Option.some.injEq] at p1 q1
    subst p1
    rw [← q1, p3] at q3
    simp only [Option.some.injEq, EdgeObj.mk.injEq] at q3
    exact Prod.ext q3.1 q3.2.1
  have hwf : WF g4 := by
    refine ⟨⟨?_, ?_, ?_, ?_, ?_⟩, ?_⟩
    · rw [eE]; exact b5 a1.edgesWF
    · show g4.nodes.keys.Nodup
      rw [eK]; exact a1.nodesWF
    · intro k e he
      rw [eE] at he; rw [eH]
      by_cases hk : k ∈ other.edges.keys
      · obtain ⟨e', c, p1, p2, p3, _⟩ := hnew k hk
        rw [he] at p1
        simp only [Option.some.injEq] at p1
        subst p1
        exact ⟨c, p3⟩
      · rw [hold k hk] at he
        obtain ⟨c, hc⟩ := a1.obj k e he
        exact ⟨c, (b4 e (hlt k e he)).trans hc⟩
    · intro x n hn
      rw [eN] at hn
      obtain ⟨m, hm, rfl⟩ := Option.map_eq_some_iff.1 hn
      obtain ⟨o1, o2⟩ := a1.out x m hm
      have hmem : ∀ e, e ∈ (other.edges.keys.filter fun k => k.1 = x).filterMap g2.edges.get? ↔
          ∃ k ∈ other.edges.keys, k.1 = x ∧ g2.edges.get? k = some e := by
        intro e
        simp only [List.mem_filterMap, List.mem_filter, decide_eq_true_eq, and_assoc]
      refine ⟨?_, ?_⟩
      · show (m.out ++ _).Nodup
        rw [List.nodup_append]
        refine ⟨o1, ?_, ?_⟩
        · refine nodup_filterMap (List.Nodup.filter _ ho.edgesWF) ?_
          intro k hk k' hk' e he he'
          exact hnewinj k (List.mem_filter.1 hk).1 k' (List.mem_filter.1 hk').1 e he he'
        · rintro e he f hf rfl
          obtain ⟨y, hy⟩ := (o2 e).1 he
          obtain ⟨k, hk, _, hke⟩ := (hmem e).1 hf
          obtain ⟨e', c, p1, p2, _⟩ := hnew k hk
          rw [hke] at p1
          simp only [Option.some.injEq] at p1
          have := hlt _ _ hy
          omega
      · intro e
        rw [List.mem_append, hmem, o2, eE]
        constructor
        · rintro (⟨y, hy⟩ | ⟨k, hk, rfl, hke⟩)
          · refine ⟨y, ?_⟩
            rw [hold]
            · exact hy
            · intro hc
              rw [hdis _ hc] at hy; cases hy
          · exact ⟨k.2, hke⟩
        · rintro ⟨y, hy⟩
          by_cases hk : (x, y) ∈ other.edges.keys
          · exact .inr ⟨(x, y), hk, rfl, hy⟩
          · rw [hold _ hk] at hy
            exact .inl ⟨y, hy⟩
    · intro x n hn
      rw [eN] at hn
      obtain ⟨m, hm, rfl⟩ := Option.map_eq_some_iff.1 hn
      obtain ⟨o1, o2⟩ := a1.ing x m hm
      have hmem : ∀ e, e ∈ (other.edges.keys.filter fun k => k.2 = x).filterMap g2.edges.get? ↔
          ∃ k ∈ other.edges.keys, k.2 = x ∧ g2.edges.get? k = some e := by
        intro e
        simp only [List.mem_filterMap, List.mem_filter, decide_eq_true_eq, and_assoc]
      refine ⟨?_, ?_⟩
      · show (m.ing ++ _).Nodup
        rw [List.nodup_append]
        refine ⟨o1, ?_, ?_⟩
        · refine nodup_filterMap (List.Nodup.filter _ ho.edgesWF) ?_
          intro k hk k' hk' e he he'
          exact hnewinj k (List.mem_filter.1 hk).1 k' (List.mem_filter.1 hk').1 e he he'
        · rintro e he f hf rfl
          obtain ⟨y, hy⟩ := (o2 e).1 he
          obtain ⟨k, hk, _, hke⟩ := (hmem e).1 hf
          obtain ⟨e', c, p1, p2, _⟩ := hnew k hk
          rw [hke] at p1
          simp only [Option.some.injEq] at p1
          have := hlt _ _ hy
          omega
      · intro e
        rw [List.mem_append, hmem, o2, eE]
        constructor
        · rintro (⟨y, hy⟩ | ⟨k, hk, rfl, hke⟩)
          · refine ⟨y, ?_⟩
            rw [hold]
            · exact hy
            · intro hc
              rw [hdis _ hc] at hy; cases hy
          · exact ⟨k.1, hke⟩
        · rintro ⟨y, hy⟩
          by_cases hk : (y, x) ∈ other.edges.keys
          · exact .inr ⟨(y, x), hk, rfl, hy⟩
          · rw [hold _ hk] at hy
            exact .inl ⟨y, hy⟩
    · intro k e he
      rw [eE] at he
      rw [eK, show g1.nodes.keys = _ from rfl, a2, a2]
      by_cases hk : k ∈ other.edges.keys
      · obtain ⟨v, hv⟩ := Dict.mem_keys_iff.1 hk
        have := ho.ends k v hv
        exact ⟨.inr this.1, .inr this.2⟩
      · rw [hold k hk] at he
        have := a1.ends k e he
        rw [a2, a2] at this
        exact this
  refine ⟨hwf, eK, ?_, ?_⟩
  · intro x
    rw [hj, eK]; exact a2 x
  · intro x y
    rw [hj]
    by_cases hk : (x, y) ∈ other.edges.keys
    · obtain ⟨e, c, p1, p2, p3, p4⟩ := hnew _ hk
      have h1 : cnt g4 x y = some c := by
        unfold cnt; rw [eE, eH, p1]; simp [p3]
      have h2 : cnt g x y = none := by
        apply cnt_none
        have := hdis _ hk
        rwa [show g1.edges = g.edges from a3] at this
      rw [h1, h2]
      simp only at p4
      rw [p4]; rfl
    · have h2 : cnt other x y = none := cnt_none (Dict.get?_eq_none_iff.2 hk)
      rw [h2, Option.or_none]
      unfold cnt
      rw [eE, eH, hold _ hk, show g1.edges = g.edges from a3]
      cases he : g.edges.get? (x, y) with
      | none => rfl
      | some e =>
        simp only [Option.bind_some]
        have hl : e < g1.heap.length := by rw [show g1.heap = g.heap from a4]; exact hg.toCore.lt he
        rw [show g2.heap[e]? = g1.heap[e]? from b4 e hl, show g1.heap = g.heap from a4]

theorem copy_ok {g : Graph A} (h : WF g) :
    WF (copy g) ∧ (copy g).nodes.keys = g.nodes.keys ∧ ∀ x y, cnt (copy g) x y = cnt g x y := by
  obtain ⟨h1, h2, h3, h4⟩ := join_ok empty_wf h (by simp [empty, Dict.keys])
  refine ⟨h1, ?_, ?_⟩
  · show (join empty g).nodes.keys = _
    rw [h2, foldl_addNode_keys _ h.nodesWF (by simp [empty, Dict.keys])]
    simp [empty, Dict.keys]
  · intro x y
    show cnt (join empty g) x y = _
    rw [h4]
    have : cnt (empty : Graph A) x y = none := cnt_none rfl
    rw [this]; rfl

/-! ### filters -/

theorem withoutEdges_ok {g : Graph A} (h : WF g) :
    ∃ f, withoutEdges g = .ok f ∧ WF f ∧ f.nodes.keys = g.nodes.keys ∧ ∀ x y, cnt f x y = none := by
  obtain ⟨h1, h2, h3⟩ := copy_ok h
  obtain ⟨f, e1, e2, e3, e4, e5⟩ := removeEdges_core h1.toCore (copy g).edges.keys
  have hno : ∀ k, f.edges.get? k = none := by
    intro k
    rw [e4]
    split
    · rfl
    · rename_i hk
      exact Dict.get?_eq_none_iff.2 hk
  refine ⟨f, e1, ⟨e2, ?_⟩, e3.trans h2, fun x y => cnt_none (hno _)⟩
  intro k e hk
  rw [hno] at hk; cases hk

/-- the stored edges -/
def objs (g : Graph A) : List (EdgeObj A) := g.edges.values.filterMap fun e => g.heap[e]?

theorem mem_objs {g : Graph A} (h : Core g) (o : EdgeObj A) :
    o ∈ objs g ↔ cnt g o.start o.stop = some o.count := by
  unfold objs
  simp only [List.mem_filterMap, Dict.values, List.mem_map]
  constructor
  · rintro ⟨e, ⟨⟨k, e'⟩, hk, rfl⟩, ho⟩
    have hk' := Dict.get?_of_mem h.edgesWF hk
    obtain ⟨c, hc, hcnt⟩ := h.cnt_eq (a := k.1) (b := k.2) hk'
    simp only at ho
    rw [hc] at ho
    simp only [Option.some.injEq] at ho
    subst ho
    exact hcnt
  · intro hc
    cases he : g.edges.get? (o.start, o.stop) with
    | none => rw [cnt_none he] at hc; cases hc
    | some e =>
      obtain ⟨c, hc', hcnt⟩ := h.cnt_eq he
      rw [hc] at hcnt
      simp only [Option.some.injEq] at hcnt
      refine ⟨e, ⟨((o.start, o.stop), e), Dict.mem_of_get? he, rfl⟩, ?_⟩
      rw [hc', ← hcnt]

theorem objs_nodup {g : Graph A} (h : Core g) : (objs g).Nodup := by
  unfold objs Dict.values
  rw [List.filterMap_map]
  refine nodup_filterMap (List.Nodup.of_map Prod.fst h.edgesWF) ?_
  rintro ⟨k, e⟩ hk ⟨k', e'⟩ hk' o ho ho'
  have hg := Dict.get?_of_mem h.edgesWF hk
  have hg' := Dict.get?_of_mem h.edgesWF hk'
  obtain ⟨c, hc⟩ := h.obj _ _ hg
  obtain ⟨c', hc'⟩ := h.obj _ _ hg'
  simp only [Function.comp] at ho ho'
  rw [hc] at ho; rw [hc'] at ho'
  rw [← ho'] at ho
  simp only [Option.some.injEq, EdgeObj.mk.injEq] at ho
  have : k = k' := Prod.ext ho.1 ho.2.1
  subst this
  rw [hg] at hg'
  simp only [Option.some.injEq] at hg'
  rw [hg']

theorem filter_unique {α : Type} {l : List α} {p : α → Bool} {o : α} (hl : l.Nodup) (ho : o ∈ l) (hp : p o = true)
    (hu : ∀ x ∈ l, p x = true → x = o) : l.filter p = [o] := by
  induction l with
  | nil => cases ho
  | cons a l ih =>
    rw [List.nodup_cons] at hl
    by_cases hao : a = o
    · subst hao
      rw [List.filter_cons_of_pos hp]
      have : l.filter p = [] := by
        rw [List.filter_eq_nil_iff]
        intro x hx hc
        have := hu x (by simp [hx]) hc
        subst this
        exact hl.1 hx
      rw [this]
    · have hpa : ¬ p a = true := fun hc => hao (hu a (by simp) hc)
      rw [List.filter_cons_of_neg hpa]
      refine ih hl.2 ?_ fun x hx => hu x (by simp [hx])
      rcases List.mem_cons.1 ho with h | h
      · exact absurd h.symm hao
      · exact h

/-- adding a duplicate free list of stored edges of `g` to an edgeless graph -/
theorem foldl_stored {g f : Graph A} (hg : WF g) (hf : WF f) (hkeys : ∀ x, x ∈ f.nodes.keys ↔ x ∈ g.nodes.keys)
    (hcnt : ∀ x y, cnt f x y = none) (l : List (EdgeObj A)) (hl : l.Nodup)
    (hmem : ∀ o ∈ l, cnt g o.start o.stop = some o.count) :
    WF (l.foldl (fun f o => addCount f o.start o.stop o.count) f) ∧
      (∀ x, x ∈ (l.foldl (fun f o => addCount f o.start o.stop o.count) f).nodes.keys ↔ x ∈ g.nodes.keys) ∧
      ∀ x y c, cnt (l.foldl (fun f o => addCount f o.start o.stop o.count) f) x y = some c ↔ ⟨x, y, c⟩ ∈ l := by
  obtain ⟨h1, h2, h3⟩ := foldl_addCount_wf hf l EdgeObj.start EdgeObj.stop EdgeObj.count
  refine ⟨h1, ?_, ?_⟩
  · intro x
    rw [h2, hkeys]
    constructor
    · rintro (hx | ⟨o, ho, rfl | rfl⟩)
      · exact hx
      · exact (hg.node_of_cnt (hmem o ho)).1
      · exact (hg.node_of_cnt (hmem o ho)).2
    · exact .inl
  · intro x y c
    rw [h3, hcnt]
    constructor
    · intro h
      split at h
      · rename_i hex
        obtain ⟨o, ho, rfl, rfl⟩ := hex
        have : l.filter (fun p => decide (p.start = o.start ∧ p.stop = o.stop)) = [o] := by
          refine filter_unique hl ho (by simp) ?_
          intro p hp hc
          simp only [decide_eq_true_eq] at hc
          have e1 := hmem p hp
          have e2 := hmem o ho
          rw [hc.1, hc.2, e2] at e1
          simp only [Option.some.injEq] at e1
          cases p; cases o; simp_all
        rw [this] at h
        simp only [Option.getD_none, List.map_cons, List.map_nil, List.sum_cons, List.sum_nil, add_zero,
          zero_add, Option.some.injEq] at h
        rw [← h]; exact ho
      · cases h
    · intro ho
      rw [if_pos ⟨_, ho, rfl, rfl⟩]
      have : l.filter (fun p => decide (p.start = x ∧ p.stop = y)) = [⟨x, y, c⟩] := by
        refine filter_unique hl ho (by simp) ?_
        intro p hp hc
        simp only [decide_eq_true_eq] at hc
        have e1 := hmem p hp
        have e2 := hmem _ ho
        simp only at e2
        rw [hc.1, hc.2, e2] at e1
        simp only [Option.some.injEq] at e1
        cases p; simp_all
      rw [this]; simp

theorem foldl_if {α β : Type} (p : α → Bool) (f : β → α → β) (l : List α) (b : β) :
    l.foldl (fun b a => if p a then f b a else b) b = (l.filter p).foldl f b := by
  induction l generalizing b with
  | nil => rfl
  | cons a l ih =>
    rw [List.foldl_cons, ih, List.filter_cons]
    by_cases h : p a = true
    · simp [h]
    · simp [h]

theorem filterAbsolute_ok {g : Graph A} (h : WF g) (m : Int) :
    ∃ f, filterAbsolute g m = .ok f ∧ WF f ∧ (∀ x, x ∈ f.nodes.keys ↔ x ∈ g.nodes.keys) ∧
      ∀ x y c, cnt f x y = some c ↔ cnt g x y = some c ∧ m ≤ c := by
  obtain ⟨f, e1, e2, e3, e4⟩ := withoutEdges_ok h
  have hl : ((objs g).filter fun o => decide (m ≤ o.count)).Nodup := (objs_nodup h.toCore).filter _
  obtain ⟨h1, h2, h3⟩ := foldl_stored h e2 (fun x => by rw [e3]) e4 _ hl (fun o ho =>
    (mem_objs h.toCore o).1 (List.mem_filter.1 ho).1)
  refine ⟨_, ?_, h1, h2, ?_⟩
  · unfold filterAbsolute
    rw [e1]
    show Except.ok _ = _
    congr 1
    rw [← foldl_if]
    unfold objs
    simp only [decide_eq_true_eq]
  · intro x y c
    rw [h3, List.mem_filter, mem_objs h.toCore]
    simp

/-! ### local frequency -/

theorem mem_outObjs {g : Graph A} (h : Core g) {a : A} {n : NodeObj} (hn : g.nodes.get? a = some n) (o : EdgeObj A) :
    o ∈ outObjs g n ↔ o.start = a ∧ cnt g a o.stop = some o.count := by
  unfold outObjs
  rw [List.mem_filterMap]
  constructor
  · rintro ⟨e, he, ho⟩
    obtain ⟨b, hb⟩ := ((h.out a n hn).2 e).1 he
    obtain ⟨c, hc, hcnt⟩ := h.cnt_eq hb
    rw [hc] at ho
    simp only [Option.some.injEq] at ho
    subst ho
    exact ⟨rfl, hcnt⟩
  · rintro ⟨rfl, hc⟩
    cases he : g.edges.get? (o.start, o.stop) with
    | none => rw [cnt_none he] at hc; cases hc
    | some e =>
      obtain ⟨c, hc', hcnt⟩ := h.cnt_eq he
      rw [hc] at hcnt
      simp only [Option.some.injEq] at hcnt
      refine ⟨e, ((h.out _ n hn).2 e).2 ⟨o.stop, he⟩, ?_⟩
      rw [hc', ← hcnt]

theorem outObjs_nodup {g : Graph A} (h : Core g) {a : A} {n : NodeObj} (hn : g.nodes.get? a = some n) :
    (outObjs g n).Nodup := by
  refine nodup_filterMap (h.out a n hn).1 ?_
  intro e he f hf o ho ho'
  obtain ⟨b, hb⟩ := ((h.out a n hn).2 e).1 he
  obtain ⟨b', hb'⟩ := ((h.out a n hn).2 f).1 hf
  obtain ⟨c, hc⟩ := h.obj _ _ hb
  obtain ⟨c', hc'⟩ := h.obj _ _ hb'
  rw [hc] at ho; rw [hc'] at ho'
  rw [← ho'] at ho
  simp only [Option.some.injEq, EdgeObj.mk.injEq] at ho
  rw [ho.2.1] at hb
  rw [hb] at hb'
  simpa using hb'

theorem outObjs_eq_nil {g : Graph A} (h : Core g) {a : A} {n : NodeObj} (hn : g.nodes.get? a = some n) :
    n.out = [] ↔ ∀ b, cnt g a b = none := by
  constructor
  · intro h0 b
    cases he : g.edges.get? (a, b) with
    | none => exact cnt_none he
    | some e =>
      have := ((h.out a n hn).2 e).2 ⟨b, he⟩
      rw [h0] at this; cases this
  · intro h0
    rw [List.eq_nil_iff_forall_not_mem]
    intro e he
    obtain ⟨b, hb⟩ := ((h.out a n hn).2 e).1 he
    obtain ⟨c, _, hc⟩ := h.cnt_eq hb
    rw [h0] at hc; cases hc

/-- sum of the counts of the edges that leave `a` -/
def outTotal (g : Graph A) (a : A) : Int :=
  match g.nodes.get? a with
  | some n => totalCount (outObjs g n)
  | none => 0

theorem foldl_flatMap {α β γ : Type} (f : γ → β → γ) (s : α → List β) (l : List α) (c : γ) :
    l.foldl (fun c a => (s a).foldl f c) c = (l.flatMap s).foldl f c := by
  induction l generalizing c with
  | nil => rfl
  | cons a l ih => rw [List.foldl_cons, ih, List.flatMap_cons, List.foldl_append]

theorem addFrequentAll_ok {g : Graph A} (h : WF g) (test : Int → EdgeObj A → Bool) {f : Graph A} (hf : WF f)
    (hkeys : ∀ x, x ∈ f.nodes.keys ↔ x ∈ g.nodes.keys) (hcnt : ∀ x y, cnt f x y = none) :
    WF (g.nodes.values.foldl (addFrequent g test) f) ∧
      (∀ x, x ∈ (g.nodes.values.foldl (addFrequent g test) f).nodes.keys ↔ x ∈ g.nodes.keys) ∧
      ∀ x y c, cnt (g.nodes.values.foldl (addFrequent g test) f) x y = some c ↔
        cnt g x y = some c ∧ test (outTotal g x) ⟨x, y, c⟩ = true := by
  let s : NodeObj → List (EdgeObj A) := fun n => (outObjs g n).filter (test (totalCount (outObjs g n)))
  have hs : g.nodes.values.foldl (addFrequent g test) f =
      (g.nodes.values.flatMap s).foldl (fun f o => addCount f o.start o.stop o.count) f := by
    rw [← foldl_flatMap]
    congr 1
    funext f n
    unfold addFrequent
    rw [foldl_if]
  have hmem : ∀ o, o ∈ g.nodes.values.flatMap s ↔
      cnt g o.start o.stop = some o.count ∧ test (outTotal g o.start) o = true := by
    intro o
    rw [List.mem_flatMap]
    constructor
    · rintro ⟨n, hn, ho⟩
      obtain ⟨⟨a, n'⟩, hp, rfl⟩ := List.mem_map.1 hn
      have hget := Dict.get?_of_mem h.nodesWF hp
      obtain ⟨ho1, ho2⟩ := List.mem_filter.1 ho
      have := (mem_outObjs h.toCore hget o).1 ho1
      obtain ⟨rfl, hc⟩ := this
      refine ⟨hc, ?_⟩
      unfold outTotal; rw [hget]; exact ho2
    · rintro ⟨hc, hfr⟩
      obtain ⟨n, hn⟩ := Dict.mem_keys_iff.1 (h.node_of_cnt hc).1
      refine ⟨n, List.mem_map.2 ⟨(o.start, n), Dict.mem_of_get? hn, rfl⟩, ?_⟩
      refine List.mem_filter.2 ⟨(mem_outObjs h.toCore hn o).2 ⟨rfl, hc⟩, ?_⟩
      unfold outTotal at hfr; rw [hn] at hfr; exact hfr
  have hnd : (g.nodes.values.flatMap s).Nodup := by
    have : ∀ d : Dict A NodeObj, d.WF → (∀ p ∈ d, g.nodes.get? p.1 = some p.2) → (d.values.flatMap s).Nodup := by
      intro d
      induction d with
      | nil => exact fun _ _ => List.nodup_nil
      | cons p d ih =>
        intro hd hp
        have hd' : p.1 ∉ Dict.keys d ∧ Dict.WF d := by
          unfold Dict.WF Dict.keys at hd
          rw [List.map_cons, List.nodup_cons] at hd
          exact hd
        show ((p.2 :: Dict.values d).flatMap s).Nodup
        rw [List.flatMap_cons, List.nodup_append]
        refine ⟨(outObjs_nodup h.toCore (hp p (by simp))).filter _, ih hd'.2 fun q hq => hp q (by simp [hq]), ?_⟩
        rintro o ho o' ho' rfl
        have h1 := ((mem_outObjs h.toCore (hp p (by simp)) o).1 (List.mem_filter.1 ho).1).1
        obtain ⟨n, hn, hon⟩ := List.mem_flatMap.1 ho'
        obtain ⟨q, hq, rfl⟩ := List.mem_map.1 hn
        have h2 := ((mem_outObjs h.toCore (hp q (by simp [hq])) o).1 (List.mem_filter.1 hon).1).1
        apply hd'.1
        rw [← h1, h2]
        exact List.mem_map.2 ⟨q, hq, rfl⟩
    exact this g.nodes h.nodesWF fun p hp => Dict.get?_of_mem h.nodesWF hp
  rw [hs]
  obtain ⟨h1, h2, h3⟩ := foldl_stored h hf hkeys hcnt _ hnd fun o ho => ((hmem o).1 ho).1
  refine ⟨h1, h2, ?_⟩
  intro x y c
  rw [h3, hmem]

theorem maxEdge_aux (l : List (EdgeObj A)) (m : Option (EdgeObj A)) (hm : ∀ o, m = some o → 0 < o.count) :
    match l.foldl maxStep m with
    | some r => (r ∈ l ∨ m = some r) ∧ 0 < r.count ∧ (∀ o ∈ l, o.count ≤ r.count) ∧ (∀ o, m = some o → o.count ≤ r.count)
    | none => m = none ∧ ∀ o ∈ l, o.count ≤ 0 := by
  induction l generalizing m with
  | nil =>
    simp only [List.foldl_nil]
    cases m with
    | none => simp
    | some o => simp [hm o rfl]
  | cons o l ih =>
    simp only [List.foldl_cons]
    have key := ih (maxStep m o) (by
        intro x hx
        unfold maxStep at hx
        cases m with
        | none =>
          simp only at hx
          split at hx
          · simp only [Option.some.injEq] at hx; subst hx; assumption
          · cases hx
        | some m =>
          simp only at hx
          have := hm m rfl
          split at hx
          · simp only [Option.some.injEq] at hx; subst hx; omega
          · simp only [Option.some.injEq] at hx; subst hx; exact this)
    generalize List.foldl _ _ l = r at *
    unfold maxStep at key
    cases r with
    | none =>
      simp only at key ⊢
      cases m with
      | none =>
        simp only at key
        refine ⟨rfl, ?_⟩
        intro x hx
        rcases List.mem_cons.1 hx with rfl | hx
        · have := key.1
          split at this
          · cases this
          · omega
        · exact key.2 x hx
      | some m =>
        simp only at key
        have := key.1
        split at this <;> cases this
    | some r =>
      simp only at key ⊢
      obtain ⟨k1, k2, k3, k4⟩ := key
      cases m with
      | none =>
        simp only at k1 k4
        refine ⟨?_, k2, ?_, by simp⟩
        · rcases k1 with h | h
          · exact .inl (by simp [h])
          · split at h
            · simp only [Option.some.injEq] at h; subst h; exact .inl (by simp)
            · cases h
        · intro x hx
          rcases List.mem_cons.1 hx with rfl | hx
          · by_cases h0 : 0 < x.count
            · exact k4 x (by rw [if_pos h0])
            · omega
          · exact k3 x hx
      | some m =>
        simp only at k1 k4
        refine ⟨?_, k2, ?_, ?_⟩
        · rcases k1 with h | h
          · exact .inl (by simp [h])
          · split at h
            · simp only [Option.some.injEq] at h; subst h; exact .inl (by simp)
            · exact .inr h
        · intro x hx
          rcases List.mem_cons.1 hx with rfl | hx
          · by_cases h0 : m.count < x.count
            · exact k4 x (by rw [if_pos h0])
            · have := k4 m (by rw [if_neg h0])
              omega
          · exact k3 x hx
        · intro x hx
          simp only [Option.some.injEq] at hx
          subst hx
          by_cases h0 : m.count < o.count
          · have := k4 o (by rw [if_pos h0])
            omega
          · exact k4 m (by rw [if_neg h0])

theorem maxEdge_spec (l : List (EdgeObj A)) : match maxEdge l with
    | some r => r ∈ l ∧ 0 < r.count ∧ ∀ o ∈ l, o.count ≤ r.count
    | none => ∀ o ∈ l, o.count ≤ 0 := by
  have := maxEdge_aux l none (by simp)
  unfold maxEdge
  generalize List.foldl _ none l = r at *
  cases r with
  | none => exact this.2
  | some r => exact ⟨this.1.resolve_right (by simp), this.2.1, this.2.2.1⟩

/-- one step of the second loop, for a node whose edges leave no positive count aside -/
theorem keepOne_ok {g f : Graph A} (hg : WF g) (hf : WF f) (hkeys : ∀ x, x ∈ f.nodes.keys ↔ x ∈ g.nodes.keys)
    {a : A} (ha : a ∈ g.nodes.keys) :
    (((∀ b, cnt f a b = none) ∧ (∃ b c, cnt g a b = some c) ∧ ∀ b c, cnt g a b = some c → c ≤ 0) ∧
      keepOne g f a = .error .attribute) ∨
    ∃ f', keepOne g f a = .ok f' ∧ WF f' ∧ (∀ x, x ∈ f'.nodes.keys ↔ x ∈ g.nodes.keys) ∧
      (∀ x, x ≠ a → ∀ y, cnt f' x y = cnt f x y) ∧
      (((∃ b, cnt f a b ≠ none) ∨ ∀ b, cnt g a b = none) ∧ (∀ y, cnt f' a y = cnt f a y) ∨
       ((∀ b, cnt f a b = none) ∧ ∃ b c, cnt g a b = some c ∧ (∀ b' c', cnt g a b' = some c' → c' ≤ c) ∧
        ∀ y, cnt f' a y = if y = b then some c else none)) := by
  obtain ⟨n, hn⟩ := Dict.mem_keys_iff.1 ((hkeys a).2 ha)
  obtain ⟨u, hu⟩ := Dict.mem_keys_iff.1 ha
  have hgn : f.nodes.getItem a = .ok n := by unfold Dict.getItem; rw [hn]
  have hgu : g.nodes.getItem a = .ok u := by unfold Dict.getItem; rw [hu]
  by_cases h1 : n.out = []
  · have h1' := (outObjs_eq_nil hf.toCore hn).1 h1
    by_cases h2 : u.out = []
    · have h2' := (outObjs_eq_nil hg.toCore hu).1 h2
      refine .inr ⟨f, ?_, hf, hkeys, fun _ _ _ => rfl, .inl ⟨.inr h2', fun _ => rfl⟩⟩
      unfold keepOne
      rw [hgn]
      show (if n.out = [] then _ else _ : Py _) = _
      rw [if_pos h1, hgu]
      show (if u.out = [] then _ else _ : Py _) = _
      rw [if_pos h2]; rfl
    · have hk : keepOne g f a = match maxEdge (outObjs g u) with
          | some o => .ok (addCount f o.start o.stop o.count)
          | none => .error .attribute := by
        unfold keepOne
        rw [hgn]
        show (if n.out = [] then _ else _ : Py _) = _
        rw [if_pos h1, hgu]
        show (if u.out = [] then _ else _ : Py _) = _
        rw [if_neg h2]; rfl
      have hsome : ∃ b c, cnt g a b = some c := by
        by_contra hno
        apply h2
        rw [outObjs_eq_nil hg.toCore hu]
        intro b
        cases hb : cnt g a b with
        | none => rfl
        | some c => exact absurd ⟨b, c, hb⟩ hno
      have hspec := maxEdge_spec (outObjs g u)
      cases hmax : maxEdge (outObjs g u) with
      | none =>
        rw [hmax] at hk hspec
        refine .inl ⟨⟨h1', hsome, ?_⟩, hk⟩
        intro b c hc
        exact hspec ⟨a, b, c⟩ ((mem_outObjs hg.toCore hu _).2 ⟨rfl, hc⟩)
      | some o =>
        rw [hmax] at hk hspec
        simp only at hk hspec
        obtain ⟨s1, s2, s3⟩ := hspec
        obtain ⟨rfl, hc⟩ := (mem_outObjs hg.toCore hu o).1 s1
        obtain ⟨w1, w2, w3⟩ := addCount_wf hf o.start o.stop o.count
        refine .inr ⟨_, hk, w1, ?_, ?_, .inr ⟨h1', o.stop, o.count, hc, ?_, ?_⟩⟩
        · intro x
          rw [w2, hkeys]
          constructor
          · rintro (h | rfl | rfl)
            · exact h
            · exact ha
            · exact (hg.node_of_cnt hc).2
          · exact .inl
        · intro x hx y
          rw [w3, if_neg fun hh => hx hh.1]
        · intro b' c' hc'
          exact s3 ⟨o.start, b', c'⟩ ((mem_outObjs hg.toCore hu _).2 ⟨rfl, hc'⟩)
        · intro y
          rw [w3, h1', h1']
          simp
  · refine .inr ⟨f, ?_, hf, hkeys, fun _ _ _ => rfl, .inl ⟨.inl ?_, fun _ => rfl⟩⟩
    · unfold keepOne
      rw [hgn]
      show (if n.out = [] then _ else _ : Py _) = _
      rw [if_neg h1]; rfl
    · by_contra hno
      apply h1
      rw [outObjs_eq_nil hf.toCore hn]
      intro b
      by_contra hb
      exact hno ⟨b, hb⟩

/-- the second loop -/
theorem keepAll_ok {g f : Graph A} (hg : WF g) (hf : WF f) (hkeys : ∀ x, x ∈ f.nodes.keys ↔ x ∈ g.nodes.keys)
    (l : List A) (hl : l.Nodup) (hlg : ∀ a ∈ l, a ∈ g.nodes.keys) :
    ((∃ a ∈ l, (∀ b, cnt f a b = none) ∧ (∃ b c, cnt g a b = some c) ∧ ∀ b c, cnt g a b = some c → c ≤ 0) ∧
      l.foldlM (keepOne g) f = .error .attribute) ∨
    ∃ f', l.foldlM (keepOne g) f = .ok f' ∧ WF f' ∧ (∀ x, x ∈ f'.nodes.keys ↔ x ∈ g.nodes.keys) ∧
      (∀ x, x ∉ l → ∀ y, cnt f' x y = cnt f x y) ∧ ∀ a ∈ l,
      (((∃ b, cnt f a b ≠ none) ∨ ∀ b, cnt g a b = none) ∧ (∀ y, cnt f' a y = cnt f a y) ∨
       ((∀ b, cnt f a b = none) ∧ ∃ b c, cnt g a b = some c ∧ (∀ b' c', cnt g a b' = some c' → c' ≤ c) ∧
        ∀ y, cnt f' a y = if y = b then some c else none)) := by
  induction l generalizing f with
  | nil => exact .inr ⟨f, rfl, hf, hkeys, fun _ _ _ => rfl, by simp⟩
  | cons a l ih =>
    rw [List.nodup_cons] at hl
    rcases keepOne_ok hg hf hkeys (hlg a (by simp)) with ⟨h1, h2⟩ | ⟨f1, h1, h2, h3, h4, h5⟩
    · refine .inl ⟨⟨a, by simp, h1⟩, ?_⟩
      rw [List.foldlM_cons, h2]; rfl
    · rcases ih h2 h3 hl.2 (fun x hx => hlg x (by simp [hx])) with ⟨⟨x, hx, hb⟩, he⟩ | ⟨f2, i1, i2, i3, i4, i5⟩
      · refine .inl ⟨⟨x, by simp [hx], ?_, hb.2⟩, ?_⟩
        · intro b
          rw [← h4 x (fun hc => hl.1 (hc ▸ hx))]
          exact hb.1 b
        · rw [List.foldlM_cons, h1]; exact he
      · refine .inr ⟨f2, ?_, i2, i3, ?_, ?_⟩
        · rw [List.foldlM_cons, h1]; exact i1
        · intro x hx y
          rw [List.mem_cons, not_or] at hx
          rw [i4 x hx.2, h4 x hx.1]
        · intro x hx
          rcases List.mem_cons.1 hx with rfl | hx
          · have := i4 x hl.1
            simpa only [this] using h5
          · have hne : x ≠ a := fun hc => hl.1 (hc ▸ hx)
            have := i5 x hx
            simpa only [h4 x hne] using this

/-! ### reading a log -/

theorem addNode_of_mem {g : Graph A} {a : A} (h : a ∈ g.nodes.keys) : addNode g a = g := by
  unfold addNode
  rw [if_pos (Dict.has_iff.2 h)]

theorem addNode_idem (g : Graph A) (a : A) : addNode (addNode g a) a = addNode g a :=
  addNode_of_mem ((addNode_keys g a a).2 (.inr rfl))

theorem addCount_addNode (g : Graph A) (a b : A) (c : Int) : addCount (addNode g a) a b c = addCount g a b c := by
  unfold addCount
  rw [addNode_idem]

theorem mem_of_zip_tail {l : List A} {p : A × A} (h : p ∈ l.zip l.tail) : p.1 ∈ l ∧ p.2 ∈ l := by
  obtain ⟨h1, h2⟩ := List.of_mem_zip (a := p.1) (b := p.2) h
  exact ⟨h1, List.mem_of_mem_tail h2⟩

theorem exists_zip_of_mem {a : A} {l : List A} {x : A} (h : x ∈ l) :
    ∃ p ∈ (a :: l).zip l, x = p.1 ∨ x = p.2 := by
  induction l generalizing a with
  | nil => cases h
  | cons b l ih =>
    rcases List.mem_cons.1 h with rfl | h
    · exact ⟨(a, x), by simp, .inr rfl⟩
    · obtain ⟨p, hp, hx⟩ := ih (a := b) h
      exact ⟨p, by simp only [List.zip_cons_cons, List.mem_cons]; exact .inr hp, hx⟩

theorem readTrace_ok {g : Graph A} (h : WF g) (acts : List A) :
    WF (readTrace g acts) ∧ (∀ x, x ∈ (readTrace g acts).nodes.keys ↔ x ∈ g.nodes.keys ∨ x ∈ acts) ∧
      ∀ x y, cnt (readTrace g acts) x y =
        if (x, y) ∈ acts.zip acts.tail then
          some ((cnt g x y).getD 0 + ((acts.zip acts.tail).count (x, y) : Int))
        else cnt g x y := by
  have hstep : ∀ (l : List (A × A)) (g : Graph A), l.foldl (fun g p => addCount (addNode g p.1) p.1 p.2) g =
      l.foldl (fun g p => addCount g p.1 p.2 1) g := by
    intro l g
    congr 1
    funext g p
    exact addCount_addNode ..
  have hsum : ∀ (l : List (A × A)) (x y : A),
      ((l.filter fun p => p.1 = x ∧ p.2 = y).map fun _ => (1 : Int)).sum = (l.count (x, y) : Int) := by
    intro l x y
    rw [List.map_const', List.sum_replicate, List.count_eq_length_filter]
    simp only [nsmul_eq_mul, mul_one]
    congr 2
    apply List.filter_congr
    intro p _
    rw [Bool.eq_iff_iff]
    simp [Prod.ext_iff]
  have hg1 : WF (addFirst g acts) := by
    cases acts with
    | nil => exact h
    | cons a _ => exact addNode_core h a
  obtain ⟨h1, h2, h3⟩ := foldl_addCount_wf hg1 (acts.zip acts.tail) Prod.fst Prod.snd (fun _ => 1)
  unfold readTrace
  simp only [hstep]
  refine ⟨h1, ?_, ?_⟩
  · intro x
    rw [h2]
    cases acts with
    | nil => simp [addFirst]
    | cons a l =>
      simp only [List.tail_cons]
      rw [show addFirst g (a :: l) = addNode g a from rfl, addNode_keys, List.mem_cons, or_assoc]
      apply or_congr_right
      constructor
      · rintro (rfl | ⟨p, hp, hx⟩)
        · exact .inl rfl
        · have := mem_of_zip_tail (l := a :: l) hp
          rw [List.mem_cons, List.mem_cons] at this
          rcases hx with rfl | rfl
          · exact this.1
          · exact this.2
      · rintro (rfl | hx)
        · exact .inl rfl
        · exact .inr (exists_zip_of_mem hx)
  · intro x y
    rw [h3, hsum]
    have hcnt : cnt (addFirst g acts) x y = cnt g x y := by
      cases acts with
      | nil => rfl
      | cons a _ => exact addNode_cnt ..
    rw [hcnt]
    congr 1
    apply propext
    constructor
    · rintro ⟨p, hp, rfl, rfl⟩; exact hp
    · intro hp; exact ⟨_, hp, rfl, rfl⟩

end Prolothar.Dfg
