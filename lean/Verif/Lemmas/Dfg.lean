import Verif.Model.Dfg
import Verif.Lemmas.EventLog
import Mathlib.Tactic.SplitIfs
/- Invariant of the directly-follows graph and the effect of its operations on the abstract graph. -/
set_option linter.unusedSimpArgs false
set_option linter.unusedVariables false
set_option linter.unusedSectionVars false
namespace Prolothar.Dfg
variable {A : Type} [DecidableEq A]

/-- the part of the invariant that survives while a node is being removed -/
structure Core (g : Graph A) : Prop where
  edgesWF : g.edges.WF
  nodesWF : g.nodes.WF
  obj : ∀ k e, g.edges.get? k = some e → ∃ c, g.heap[e]? = some ⟨k.1, k.2, c⟩
  out : ∀ a n, g.nodes.get? a = some n → n.out.Nodup ∧ ∀ e, e ∈ n.out ↔ ∃ b, g.edges.get? (a, b) = some e
  ing : ∀ a n, g.nodes.get? a = some n → n.ing.Nodup ∧ ∀ e, e ∈ n.ing ↔ ∃ b, g.edges.get? (b, a) = some e

structure WF (g : Graph A) : Prop extends Core g where
  ends : ∀ k e, g.edges.get? k = some e → k.1 ∈ g.nodes.keys ∧ k.2 ∈ g.nodes.keys

/-- the count of an edge, `none` if there is no such edge -/
def cnt (g : Graph A) (a b : A) : Option Int :=
  (g.edges.get? (a, b)).bind fun e => (g.heap[e]?).map EdgeObj.count

theorem Core.cnt_eq {g : Graph A} (h : Core g) {a b : A} {e : Nat} (he : g.edges.get? (a, b) = some e) :
    ∃ c, g.heap[e]? = some ⟨a, b, c⟩ ∧ cnt g a b = some c := by
  obtain ⟨c, hc⟩ := h.obj _ _ he
  exact ⟨c, hc, by simp [cnt, he, hc]⟩

theorem cnt_none {g : Graph A} {a b : A} (he : g.edges.get? (a, b) = none) : cnt g a b = none := by
  simp [cnt, he]

theorem Core.cnt_isSome {g : Graph A} (h : Core g) {a b : A} :
    (cnt g a b).isSome ↔ (a, b) ∈ g.edges.keys := by
  rw [Dict.mem_keys_iff]
  constructor
  · intro hs
    cases he : g.edges.get? (a, b) with
    | none => rw [cnt_none he] at hs; cases hs
    | some e => exact ⟨e, rfl⟩
  · rintro ⟨e, he⟩
    obtain ⟨c, _, hc⟩ := h.cnt_eq he
    simp [hc]

theorem Core.inj {g : Graph A} (h : Core g) {k k' : A × A} {e : Nat} (h1 : g.edges.get? k = some e)
    (h2 : g.edges.get? k' = some e) : k = k' := by
  obtain ⟨c, hc⟩ := h.obj _ _ h1
  obtain ⟨c', hc'⟩ := h.obj _ _ h2
  rw [hc] at hc'
  simp only [Option.some.injEq, EdgeObj.mk.injEq] at hc'
  exact Prod.ext hc'.1 hc'.2.1

theorem Core.lt {g : Graph A} (h : Core g) {k : A × A} {e : Nat} (h1 : g.edges.get? k = some e) :
    e < g.heap.length := by
  obtain ⟨c, hc⟩ := h.obj _ _ h1
  exact (List.getElem?_eq_some_iff.1 hc).1

theorem WF.node_of_cnt {g : Graph A} (h : WF g) {a b : A} {c : Int} (hc : cnt g a b = some c) :
    a ∈ g.nodes.keys ∧ b ∈ g.nodes.keys := by
  have : (cnt g a b).isSome := by simp [hc]
  rw [h.cnt_isSome, Dict.mem_keys_iff] at this
  obtain ⟨e, he⟩ := this
  exact h.ends _ _ he

theorem empty_wf : WF (empty : Graph A) where
  edgesWF := Dict.WF.nil
  nodesWF := Dict.WF.nil
  obj k e h := by simp [empty, Dict.get?] at h
  out a n h := by simp [empty, Dict.get?] at h
  ing a n h := by simp [empty, Dict.get?] at h
  ends k e h := by simp [empty, Dict.get?] at h

/-! ### nodes -/

theorem addNode_heap (g : Graph A) (a : A) : (addNode g a).heap = g.heap := by
  unfold addNode; split <;> rfl

theorem addNode_edges (g : Graph A) (a : A) : (addNode g a).edges = g.edges := by
  unfold addNode; split <;> rfl

theorem addNode_cnt (g : Graph A) (a x y : A) : cnt (addNode g a) x y = cnt g x y := by
  unfold cnt; rw [addNode_edges, addNode_heap]

theorem addNode_get? (g : Graph A) (a x : A) : (addNode g a).nodes.get? x =
    if x = a then some ((g.nodes.get? a).getD ⟨[], []⟩) else g.nodes.get? x := by
  unfold addNode
  split
  · rename_i h
    rw [Dict.has_iff, Dict.mem_keys_iff] at h
    obtain ⟨n, hn⟩ := h
    split
    · rename_i hx; rw [hx, hn]; rfl
    · rfl
  · rename_i h
    rw [Dict.has_iff, ← Dict.get?_eq_none_iff] at h
    show Dict.get? (Dict.put g.nodes a ⟨[], []⟩) x = _
    rw [Dict.get?_put, h]
    by_cases hx : x = a
    · simp [hx]
    · simp [hx, Ne.symm hx]

theorem addNode_keys (g : Graph A) (a x : A) : x ∈ (addNode g a).nodes.keys ↔ x ∈ g.nodes.keys ∨ x = a := by
  unfold addNode
  split
  · rename_i h
    rw [Dict.has_iff] at h
    constructor
    · exact .inl
    · rintro (h' | rfl) <;> assumption
  · show x ∈ Dict.keys (Dict.put g.nodes a ⟨[], []⟩) ↔ _
    rw [Dict.mem_keys_put, or_comm]

theorem addNode_core {g : Graph A} (h : WF g) (a : A) : WF (addNode g a) where
  edgesWF := by rw [addNode_edges]; exact h.edgesWF
  nodesWF := by
    unfold addNode; split
    · exact h.nodesWF
    · exact h.nodesWF.put _ _
  obj k e he := by rw [addNode_edges] at he; rw [addNode_heap]; exact h.obj k e he
  out x n hn := by
    rw [addNode_get?] at hn
    rw [addNode_edges]
    split at hn
    · rename_i hx; subst hx
      simp only [Option.some.injEq] at hn
      cases hg : g.nodes.get? x with
      | some m => rw [hg] at hn; rw [← hn]; exact h.out x m hg
      | none =>
        rw [hg] at hn; subst hn
        refine ⟨List.nodup_nil, fun e => ?_⟩
        simp only [Option.getD_none, List.not_mem_nil, false_iff]
        rintro ⟨b, hb⟩
        exact Dict.get?_eq_none_iff.1 hg (h.ends _ _ hb).1
    · exact h.out x n hn
  ing x n hn := by
    rw [addNode_get?] at hn
    rw [addNode_edges]
    split at hn
    · rename_i hx; subst hx
      simp only [Option.some.injEq] at hn
      cases hg : g.nodes.get? x with
      | some m => rw [hg] at hn; rw [← hn]; exact h.ing x m hg
      | none =>
        rw [hg] at hn; subst hn
        refine ⟨List.nodup_nil, fun e => ?_⟩
        simp only [Option.getD_none, List.not_mem_nil, false_iff]
        rintro ⟨b, hb⟩
        exact Dict.get?_eq_none_iff.1 hg (h.ends _ _ hb).2
    · exact h.ing x n hn
  ends k e he := by
    rw [addNode_edges] at he
    rw [addNode_keys, addNode_keys]
    have := h.ends k e he
    exact ⟨.inl this.1, .inl this.2⟩

theorem modifyNode_get? (g : Graph A) (a : A) (f : NodeObj → NodeObj) (x : A) :
    (modifyNode g a f).nodes.get? x = if x = a then (g.nodes.get? x).map f else g.nodes.get? x := by
  unfold modifyNode
  cases h : g.nodes.get? a with
  | none =>
    by_cases hx : x = a
    · simp [hx, h]
    · simp [hx]
  | some n =>
    show Dict.get? (Dict.put g.nodes a (f n)) x = _
    rw [Dict.get?_put]
    by_cases hx : x = a
    · simp [hx, h]
    · simp [hx, Ne.symm hx]

theorem modifyNode_keys (g : Graph A) (a : A) (f : NodeObj → NodeObj) :
    (modifyNode g a f).nodes.keys = g.nodes.keys := by
  unfold modifyNode
  cases h : g.nodes.get? a with
  | none => rfl
  | some n =>
    show Dict.keys (Dict.put g.nodes a (f n)) = _
    rw [Dict.keys_put, if_pos (Dict.mem_keys_iff.2 ⟨n, h⟩)]

theorem modifyNode_edges (g : Graph A) (a : A) (f : NodeObj → NodeObj) :
    (modifyNode g a f).edges = g.edges := by
  unfold modifyNode; split <;> rfl

theorem modifyNode_heap (g : Graph A) (a : A) (f : NodeObj → NodeObj) :
    (modifyNode g a f).heap = g.heap := by
  unfold modifyNode; split <;> rfl

/-! ### edges -/

/-- changing the count of the edge object of `(a, b)` -/
theorem modifyEdge_wf {g : Graph A} (h : WF g) {a b : A} {e : Nat} (he : g.edges.get? (a, b) = some e)
    (k : Int) : WF (modifyEdge g e fun o => { o with count := o.count + k }) ∧
      ∀ x y, cnt (modifyEdge g e fun o => { o with count := o.count + k }) x y =
        if x = a ∧ y = b then some ((cnt g a b).getD 0 + k) else cnt g x y := by
  obtain ⟨c, hc, hcnt⟩ := h.cnt_eq he
  refine ⟨⟨⟨h.edgesWF, h.nodesWF, ?_, h.out, h.ing⟩, h.ends⟩, ?_⟩
  · intro k' e' he'
    obtain ⟨c', hc'⟩ := h.obj k' e' he'
    show ∃ c, (g.heap.modify e _)[e']? = _
    rw [List.getElem?_modify]
    by_cases hee : e = e'
    · subst hee
      exact ⟨c' + k, by simp [hc']⟩
    · exact ⟨c', by simp [hee, hc']⟩
  · intro x y
    show (g.edges.get? (x, y)).bind _ = _
    by_cases hxy : x = a ∧ y = b
    · obtain ⟨rfl, rfl⟩ := hxy
      rw [if_pos ⟨rfl, rfl⟩, he]
      simp only [Option.bind_some, modifyEdge]
      rw [List.getElem?_modify, hc, hcnt]; simp
    · rw [if_neg hxy]
      unfold cnt
      cases he' : g.edges.get? (x, y) with
      | none => rfl
      | some e' =>
        simp only [Option.bind_some, modifyEdge]
        rw [List.getElem?_modify]
        have : e ≠ e' := by
          rintro rfl
          have := h.inj he he'
          simp only [Prod.mk.injEq] at this
          exact hxy ⟨this.1.symm, this.2.symm⟩
        simp [this]

theorem newEdge_wf {g : Graph A} (h : WF g) {a b : A} (he : g.edges.get? (a, b) = none)
    (ha : a ∈ g.nodes.keys) (hb : b ∈ g.nodes.keys) (c : Int) :
    WF (appendIng (appendOut (newEdge g (a, b) c) a g.heap.length) b g.heap.length) ∧
      ∀ x y, cnt (appendIng (appendOut (newEdge g (a, b) c) a g.heap.length) b g.heap.length) x y =
        if x = a ∧ y = b then some c else cnt g x y := by
  have hE : (appendIng (appendOut (newEdge g (a, b) c) a g.heap.length) b g.heap.length).edges =
      g.edges.put (a, b) g.heap.length := by
    unfold appendIng appendOut
    rw [modifyNode_edges, modifyNode_edges]; rfl
  have hH : (appendIng (appendOut (newEdge g (a, b) c) a g.heap.length) b g.heap.length).heap =
      g.heap ++ [⟨a, b, c⟩] := by
    unfold appendIng appendOut
    rw [modifyNode_heap, modifyNode_heap]; rfl
  have hK : (appendIng (appendOut (newEdge g (a, b) c) a g.heap.length) b g.heap.length).nodes.keys =
      g.nodes.keys := by
    unfold appendIng appendOut
    rw [modifyNode_keys, modifyNode_keys]; rfl
  have hN : ∀ x, (appendIng (appendOut (newEdge g (a, b) c) a g.heap.length) b g.heap.length).nodes.get? x =
      (g.nodes.get? x).map fun n =>
        ⟨if x = a then n.out ++ [g.heap.length] else n.out, if x = b then n.ing ++ [g.heap.length] else n.ing⟩ := by
    intro x
    unfold appendIng appendOut
    rw [modifyNode_get?, modifyNode_get?]
    show (if x = b then Option.map _ (if x = a then Option.map _ (g.nodes.get? x) else g.nodes.get? x) else
      if x = a then Option.map _ (g.nodes.get? x) else g.nodes.get? x) = _
    cases g.nodes.get? x <;> simp only [Option.map_some, Option.map_none] <;> split_ifs <;> rfl
  have hfresh : ∀ k e, g.edges.get? k = some e → e ≠ g.heap.length := by
    intro k e hk
    have := h.lt hk
    omega
  generalize appendIng (appendOut (newEdge g (a, b) c) a g.heap.length) b g.heap.length = g' at *
  refine ⟨⟨⟨?_, ?_, ?_, ?_, ?_⟩, ?_⟩, ?_⟩
  · rw [hE]; exact h.edgesWF.put _ _
  · show g'.nodes.keys.Nodup
    rw [hK]; exact h.nodesWF
  · intro k e hk
    rw [hE, Dict.get?_put] at hk
    rw [hH]
    split at hk
    · rename_i hk'
      simp only [Option.some.injEq] at hk
      subst hk hk'
      exact ⟨c, by simp⟩
    · obtain ⟨c', hc'⟩ := h.obj k e hk
      exact ⟨c', by rw [List.getElem?_append_left (h.lt hk)]; exact hc'⟩
  · intro x n hn
    rw [hN] at hn
    obtain ⟨m, hm, rfl⟩ := Option.map_eq_some_iff.1 hn
    obtain ⟨h1, h2⟩ := h.out x m hm
    by_cases hx : x = a
    · subst hx
      simp only [if_pos]
      refine ⟨?_, fun e => ?_⟩
      · rw [List.nodup_append]
        refine ⟨h1, by simp, ?_⟩
        rintro e he' f hf rfl
        simp only [List.mem_singleton] at hf
        obtain ⟨y, hy⟩ := (h2 e).1 he'
        exact hfresh _ _ hy hf
      · rw [List.mem_append, h2, hE]
        simp only [List.mem_singleton]
        constructor
        · rintro (⟨y, hy⟩ | rfl)
          · refine ⟨y, ?_⟩
            rw [Dict.get?_put, if_neg]
            · exact hy
            · rintro hc
              rw [← hc, he] at hy; cases hy
          · exact ⟨b, by rw [Dict.get?_put_self]⟩
        · rintro ⟨y, hy⟩
          rw [Dict.get?_put] at hy
          split at hy
          · simp only [Option.some.injEq] at hy; exact .inr hy.symm
          · exact .inl ⟨y, hy⟩
    · simp only [hx, if_false]
      refine ⟨h1, fun e => ?_⟩
      rw [h2, hE]
      apply exists_congr
      intro y
      rw [Dict.get?_put, if_neg]
      intro hc; simp only [Prod.mk.injEq] at hc; exact hx hc.1.symm
  · intro x n hn
    rw [hN] at hn
    obtain ⟨m, hm, rfl⟩ := Option.map_eq_some_iff.1 hn
    obtain ⟨h1, h2⟩ := h.ing x m hm
    by_cases hx : x = b
    · subst hx
      simp only [if_pos]
      refine ⟨?_, fun e => ?_⟩
      · rw [List.nodup_append]
        refine ⟨h1, by simp, ?_⟩
        rintro e he' f hf rfl
        simp only [List.mem_singleton] at hf
        obtain ⟨y, hy⟩ := (h2 e).1 he'
        exact hfresh _ _ hy hf
      · rw [List.mem_append, h2, hE]
        simp only [List.mem_singleton]
        constructor
        · rintro (⟨y, hy⟩ | rfl)
          · refine ⟨y, ?_⟩
            rw [Dict.get?_put, if_neg]
            · exact hy
            · rintro hc
              rw [← hc, he] at hy; cases hy
          · exact ⟨a, by rw [Dict.get?_put_self]⟩
        · rintro ⟨y, hy⟩
          rw [Dict.get?_put] at hy
          split at hy
          · simp only [Option.some.injEq] at hy; exact .inr hy.symm
          · exact .inl ⟨y, hy⟩
    · simp only [hx, if_false]
      refine ⟨h1, fun e => ?_⟩
      rw [h2, hE]
      apply exists_congr
      intro y
      rw [Dict.get?_put, if_neg]
      intro hc; simp only [Prod.mk.injEq] at hc; exact hx hc.2.symm
  · intro k e hk
    rw [hE, Dict.get?_put] at hk
    rw [hK]
    split at hk
    · rename_i hk'; subst hk'; exact ⟨ha, hb⟩
    · exact h.ends k e hk
  · intro x y
    unfold cnt
    rw [hE, hH, Dict.get?_put]
    by_cases hxy : x = a ∧ y = b
    · obtain ⟨rfl, rfl⟩ := hxy
      simp
    · rw [if_neg hxy, if_neg (by simp only [Prod.mk.injEq]; tauto)]
      cases hk : g.edges.get? (x, y) with
      | none => rfl
      | some e =>
        simp only [Option.bind_some]
        rw [List.getElem?_append_left (h.lt hk)]

theorem addCount_wf {g : Graph A} (h : WF g) (a b : A) (k : Int) :
    WF (addCount g a b k) ∧ (∀ x, x ∈ (addCount g a b k).nodes.keys ↔ x ∈ g.nodes.keys ∨ x = a ∨ x = b) ∧
      ∀ x y, cnt (addCount g a b k) x y = if x = a ∧ y = b then some ((cnt g a b).getD 0 + k) else cnt g x y := by
  unfold addCount
  have h2 := addNode_core (addNode_core h a) b
  have hkeys : ∀ x, x ∈ (addNode (addNode g a) b).nodes.keys ↔ x ∈ g.nodes.keys ∨ x = a ∨ x = b := by
    intro x; rw [addNode_keys, addNode_keys, or_assoc]
  have hcnt : ∀ x y, cnt (addNode (addNode g a) b) x y = cnt g x y := by
    intro x y; rw [addNode_cnt, addNode_cnt]
  generalize addNode (addNode g a) b = g2 at *
  cases he : g2.edges.get? (a, b) with
  | some e =>
    simp only
    rw [he]
    obtain ⟨w, c⟩ := modifyEdge_wf h2 he k
    refine ⟨w, hkeys, ?_⟩
    intro x y
    have := c x y
    rw [hcnt, hcnt] at this
    exact this
  | none =>
    simp only
    rw [he]
    obtain ⟨w, c⟩ := newEdge_wf h2 he ((hkeys a).2 (.inr (.inl rfl))) ((hkeys b).2 (.inr (.inr rfl))) 0
    have hK : (appendIng (appendOut (newEdge g2 (a, b) 0) a g2.heap.length) b g2.heap.length).nodes.keys =
        g2.nodes.keys := by
      unfold appendIng appendOut
      rw [modifyNode_keys, modifyNode_keys]; rfl
    have hE : (appendIng (appendOut (newEdge g2 (a, b) 0) a g2.heap.length) b g2.heap.length).edges.get? (a, b) =
        some g2.heap.length := by
      unfold appendIng appendOut
      rw [modifyNode_edges, modifyNode_edges]
      exact Dict.get?_put_self ..
    obtain ⟨w', c'⟩ := modifyEdge_wf w hE k
    refine ⟨w', ?_, ?_⟩
    · intro x
      show x ∈ (appendIng (appendOut (newEdge g2 (a, b) 0) a g2.heap.length) b g2.heap.length).nodes.keys ↔ _
      rw [hK]; exact hkeys x
    · intro x y
      have := c' x y
      rw [c, c] at this
      simp only at this
      show cnt (modifyEdge (appendIng (appendOut (newEdge g2 (a, b) 0) a g2.heap.length) b g2.heap.length) _ _) x y = _
      rw [this]
      by_cases hxy : x = a ∧ y = b
      · simp only [hxy, and_self, if_true, Option.getD_some]
        have : cnt g a b = none := by rw [← hcnt]; exact cnt_none he
        rw [this]; rfl
      · simp only [hxy, if_false, hcnt]

theorem listRemove_ok {eq : Nat → Bool} {l : List Nat} {e : Nat} (he : e ∈ l)
    (h : ∀ f ∈ l, eq f = true ↔ f = e) : listRemove eq l = .ok (l.erase e) := by
  induction l with
  | nil => cases he
  | cons x xs ih =>
    simp only [listRemove]
    by_cases hx : eq x = true
    · have := (h x (by simp)).1 hx
      subst this
      simp [hx]
    · have hne : x ≠ e := fun hc => hx ((h x (by simp)).2 hc)
      have hmem : e ∈ xs := by
        rcases List.mem_cons.1 he with h' | h'
        · exact absurd h'.symm hne
        · exact h'
      rw [if_neg hx, ih hmem fun f hf => h f (by simp [hf]), List.erase_cons_tail (by simpa using hne)]
      rfl

theorem edgeEq_iff {g : Graph A} (h : Core g) {k k' : A × A} {e f : Nat} (he : g.edges.get? k = some e)
    (hf : g.edges.get? k' = some f) : edgeEq g.heap e f = true ↔ f = e := by
  obtain ⟨c, hc⟩ := h.obj _ _ he
  obtain ⟨c', hc'⟩ := h.obj _ _ hf
  unfold edgeEq
  rw [hc, hc']
  simp only [decide_eq_true_eq]
  constructor
  · rintro ⟨h1, h2, _⟩
    have : k = k' := Prod.ext h1 h2
    subst this
    rw [he] at hf
    exact (Option.some.injEq _ _ ▸ hf).symm
  · rintro rfl
    have := h.inj he hf
    subst this
    rw [hc] at hc'
    simp only [Option.some.injEq, EdgeObj.mk.injEq] at hc'
    exact ⟨rfl, rfl, hc'.2.2⟩

theorem removeEdge_missing {g : Graph A} {k : A × A} (hk : g.edges.get? k = none) :
    removeEdge g k = .ok (g, none) := by
  unfold removeEdge; rw [hk]

theorem removeEdge_ok {g : Graph A} (h : Core g) {a b : A} {e : Nat} (he : g.edges.get? (a, b) = some e) :
    ∃ g' c, removeEdge g (a, b) = .ok (g', some ⟨a, b, c⟩) ∧ cnt g a b = some c ∧ Core g' ∧
      g'.nodes.keys = g.nodes.keys ∧ g'.edges = g.edges.del (a, b) ∧ g'.heap = g.heap := by
  obtain ⟨c, hc, hcnt⟩ := h.cnt_eq he
  -- first removal
  have s1 : ∃ N1, removeOut { g with edges := g.edges.del (a, b) } a e =
        .ok { g with edges := g.edges.del (a, b), nodes := N1 } ∧ Dict.keys N1 = g.nodes.keys ∧
        ∀ x, Dict.get? N1 x = (g.nodes.get? x).map fun n => if x = a then { n with out := n.out.erase e } else n := by
    unfold removeOut
    cases hn : g.nodes.get? a with
    | none =>
      refine ⟨g.nodes, by simp [hn], rfl, ?_⟩
      intro x
      by_cases hx : x = a
      · subst hx; rw [hn]; rfl
      · simp [hx]
    | some n =>
      have hl := listRemove_ok (eq := edgeEq g.heap e) (l := n.out) (e := e) (((h.out a n hn).2 e).2 ⟨b, he⟩) (by
        intro f hf
        obtain ⟨y, hy⟩ := ((h.out a n hn).2 f).1 hf
        exact edgeEq_iff h he hy)
      refine ⟨g.nodes.put a { n with out := n.out.erase e }, ?_, ?_, ?_⟩
      · simp only [hn]
        show (listRemove (edgeEq g.heap e) n.out >>= _) = _
        rw [hl]; rfl
      · rw [Dict.keys_put, if_pos (Dict.mem_keys_iff.2 ⟨n, hn⟩)]
      · intro x
        rw [Dict.get?_put]
        by_cases hx : x = a
        · subst hx; simp [hn]
        · simp [hx, Ne.symm hx]
  obtain ⟨N1, e1, k1, g1⟩ := s1
  have s2 : ∃ N2, removeIng { g with edges := g.edges.del (a, b), nodes := N1 } b e =
        .ok { g with edges := g.edges.del (a, b), nodes := N2 } ∧ Dict.keys N2 = g.nodes.keys ∧
        ∀ x, Dict.get? N2 x = (g.nodes.get? x).map fun n =>
          ⟨if x = a then n.out.erase e else n.out, if x = b then n.ing.erase e else n.ing⟩ := by
    unfold removeIng
    cases hn : g.nodes.get? b with
    | none =>
      have hn1 : Dict.get? N1 b = none := by rw [g1, hn]; rfl
      refine ⟨N1, by simp [hn1], k1, ?_⟩
      intro x
      rw [g1]
      by_cases hx : x = b
      · subst hx; rw [hn]; rfl
      · simp only [if_neg hx]
        cases g.nodes.get? x <;> simp only [Option.map_some, Option.map_none] <;> split_ifs <;> rfl
    | some n =>
      have hn1 : Dict.get? N1 b = some (if b = a then { n with out := n.out.erase e } else n) := by
        rw [g1, hn]; rfl
      have hing : (if b = a then { n with out := n.out.erase e } else n : NodeObj).ing = n.ing := by
        split <;> rfl
      have hl := listRemove_ok (eq := edgeEq g.heap e) (l := n.ing) (e := e) (((h.ing b n hn).2 e).2 ⟨a, he⟩) (by
        intro f hf
        obtain ⟨y, hy⟩ := ((h.ing b n hn).2 f).1 hf
        exact edgeEq_iff h he hy)
      refine ⟨N1.put b { (if b = a then { n with out := n.out.erase e } else n : NodeObj) with ing := n.ing.erase e }, ?_, ?_, ?_⟩
      · simp only [hn1, hing]
        show (listRemove (edgeEq g.heap e) n.ing >>= _) = _
        rw [hl]; rfl
      · rw [Dict.keys_put, if_pos (Dict.mem_keys_iff.2 ⟨_, hn1⟩), k1]
      · intro x
        rw [Dict.get?_put]
        by_cases hx : b = x
        · subst hx
          rw [if_pos rfl, hn]
          by_cases hxa : b = a
          · simp [hxa]
          · simp [hxa]
        · rw [if_neg hx, g1]
          have hx' : x ≠ b := Ne.symm hx
          simp only [if_neg hx']
          cases g.nodes.get? x <;> simp only [Option.map_some, Option.map_none] <;> split_ifs <;> rfl
  obtain ⟨N2, e2, k2, g2⟩ := s2
  refine ⟨{ g with edges := g.edges.del (a, b), nodes := N2 }, c, ?_, hcnt, ⟨?_, ?_, ?_, ?_, ?_⟩, k2, rfl, rfl⟩
  · unfold removeEdge
    rw [he]
    simp only [hc]
    show (removeOut { g with edges := g.edges.del (a, b) } a e >>= _) = _
    rw [e1]
    show (removeIng { g with edges := g.edges.del (a, b), nodes := N1 } b e >>= _) = _
    rw [e2]; rfl
  · exact h.edgesWF.del _
  · show Dict.keys N2 |>.Nodup
    rw [k2]; exact h.nodesWF
  · intro k' e' hk'
    replace hk' : Dict.get? (Dict.del g.edges (a, b)) k' = some e' := hk'
    rw [Dict.get?_del h.edgesWF] at hk'
    split at hk'
    · cases hk'
    · exact h.obj k' e' hk'
  · intro x n hn
    replace hn : Dict.get? N2 x = some n := hn
    rw [g2] at hn
    obtain ⟨m, hm, rfl⟩ := Option.map_eq_some_iff.1 hn
    obtain ⟨h1, h2⟩ := h.out x m hm
    have hdel : ∀ y f, Dict.get? (Dict.del g.edges (a, b)) (x, y) = some f ↔
        g.edges.get? (x, y) = some f ∧ f ≠ e := by
      intro y f
      rw [Dict.get?_del h.edgesWF]
      split
      · rename_i hk
        constructor
        · intro hc; cases hc
        · rintro ⟨hf, hne⟩
          rw [← hk, he] at hf
          simp only [Option.some.injEq] at hf
          exact absurd hf.symm hne
      · rename_i hk
        constructor
        · intro hf
          refine ⟨hf, ?_⟩
          rintro rfl
          exact hk (h.inj he hf)
        · exact fun hf => hf.1
    by_cases hx : x = a
    · simp only [hx, if_true]
      refine ⟨h1.erase e, fun f => ?_⟩
      rw [h1.mem_erase_iff, h2]
      subst hx
      constructor
      · rintro ⟨hne, y, hy⟩
        exact ⟨y, (hdel y f).2 ⟨hy, hne⟩⟩
      · rintro ⟨y, hy⟩
        have := (hdel y f).1 hy
        exact ⟨this.2, y, this.1⟩
    · simp only [hx, if_false]
      refine ⟨h1, fun f => ?_⟩
      rw [h2]
      apply exists_congr
      intro y
      show g.edges.get? (x, y) = some f ↔ Dict.get? (Dict.del g.edges (a, b)) (x, y) = some f
      rw [Dict.get?_del h.edgesWF, if_neg]
      intro hc; simp only [Prod.mk.injEq] at hc; exact hx hc.1.symm
  · intro x n hn
    replace hn : Dict.get? N2 x = some n := hn
    rw [g2] at hn
    obtain ⟨m, hm, rfl⟩ := Option.map_eq_some_iff.1 hn
    obtain ⟨h1, h2⟩ := h.ing x m hm
    have hdel : ∀ y f, Dict.get? (Dict.del g.edges (a, b)) (y, x) = some f ↔
        g.edges.get? (y, x) = some f ∧ f ≠ e := by
      intro y f
      rw [Dict.get?_del h.edgesWF]
      split
      · rename_i hk
        constructor
        · intro hc; cases hc
        · rintro ⟨hf, hne⟩
          rw [← hk, he] at hf
          simp only [Option.some.injEq] at hf
          exact absurd hf.symm hne
      · rename_i hk
        constructor
        · intro hf
          refine ⟨hf, ?_⟩
          rintro rfl
          exact hk (h.inj he hf)
        · exact fun hf => hf.1
    by_cases hx : x = b
    · simp only [hx, if_true]
      refine ⟨h1.erase e, fun f => ?_⟩
      rw [h1.mem_erase_iff, h2]
      subst hx
      constructor
      · rintro ⟨hne, y, hy⟩
        exact ⟨y, (hdel y f).2 ⟨hy, hne⟩⟩
      · rintro ⟨y, hy⟩
        have := (hdel y f).1 hy
        exact ⟨this.2, y, this.1⟩
    · simp only [hx, if_false]
      refine ⟨h1, fun f => ?_⟩
      rw [h2]
      apply exists_congr
      intro y
      show g.edges.get? (y, x) = some f ↔ Dict.get? (Dict.del g.edges (a, b)) (y, x) = some f
      rw [Dict.get?_del h.edgesWF, if_neg]
      intro hc; simp only [Prod.mk.injEq] at hc; exact hx hc.2.symm

/-- effect of `remove_edge` -/
theorem removeEdge_core {g : Graph A} (h : Core g) (a b : A) :
    ∃ g' o, removeEdge g (a, b) = .ok (g', o) ∧ Core g' ∧ o = (cnt g a b).map (fun c => ⟨a, b, c⟩) ∧
      g'.nodes.keys = g.nodes.keys ∧ (∀ k, g'.edges.get? k = if k = (a, b) then none else g.edges.get? k) ∧
      g'.heap = g.heap := by
  cases he : g.edges.get? (a, b) with
  | none =>
    refine ⟨g, none, removeEdge_missing he, h, by rw [cnt_none he]; rfl, rfl, ?_, rfl⟩
    intro k; split
    · rename_i hk; rw [hk, he]
    · rfl
  | some e =>
    obtain ⟨g', c, h1, h2, h3, h4, h5, h6⟩ := removeEdge_ok h he
    refine ⟨g', _, h1, h3, by rw [h2]; rfl, h4, ?_, h6⟩
    intro k
    rw [h5, Dict.get?_del h.edgesWF]
    by_cases hk : k = (a, b)
    · simp [hk]
    · simp [hk, Ne.symm hk]

theorem cnt_of_get? {g g' : Graph A} (hh : g'.heap = g.heap) {x y : A}
    (he : g'.edges.get? (x, y) = g.edges.get? (x, y)) : cnt g' x y = cnt g x y := by
  unfold cnt; rw [hh, he]

theorem removeEdge_wf {g : Graph A} (h : WF g) (a b : A) :
    ∃ g' o, removeEdge g (a, b) = .ok (g', o) ∧ WF g' ∧ o = (cnt g a b).map (fun c => ⟨a, b, c⟩) ∧
      g'.nodes.keys = g.nodes.keys ∧
      ∀ x y, cnt g' x y = if x = a ∧ y = b then none else cnt g x y := by
  obtain ⟨g', o, h1, h2, h3, h4, h5, h6⟩ := removeEdge_core h.toCore a b
  refine ⟨g', o, h1, ⟨h2, ?_⟩, h3, h4, ?_⟩
  · intro k e hk
    rw [h5] at hk
    rw [h4]
    split at hk
    · cases hk
    · exact h.ends k e hk
  · intro x y
    by_cases hxy : x = a ∧ y = b
    · rw [if_pos hxy]
      apply cnt_none
      rw [h5, if_pos (by rw [hxy.1, hxy.2])]
    · rw [if_neg hxy]
      apply cnt_of_get? h6
      rw [h5, if_neg (by simp only [Prod.mk.injEq]; exact hxy)]

theorem removeEdges_core {g : Graph A} (h : Core g) (ks : List (A × A)) :
    ∃ g', removeEdges g ks = .ok g' ∧ Core g' ∧ g'.nodes.keys = g.nodes.keys ∧
      (∀ k, g'.edges.get? k = if k ∈ ks then none else g.edges.get? k) ∧ g'.heap = g.heap := by
  induction ks generalizing g with
  | nil => exact ⟨g, rfl, h, rfl, by simp, rfl⟩
  | cons k ks ih =>
    obtain ⟨g1, o, h1, h2, h3, h4, h5, h6⟩ := removeEdge_core h k.1 k.2
    obtain ⟨g2, i1, i2, i3, i4, i5⟩ := ih h2
    refine ⟨g2, ?_, i2, i3.trans h4, ?_, i5.trans h6⟩
    · simp only [removeEdges]
      rw [show removeEdge g k = _ from h1]
      exact i1
    · intro k'
      rw [i4, h5]
      by_cases hk' : k' ∈ ks
      · simp [hk']
      · simp [hk']

theorem mem_setAdd' {α : Type} [DecidableEq α] {s : List α} {a x : α} : x ∈ setAdd s a ↔ x ∈ s ∨ x = a := by
  unfold setAdd
  split
  · rename_i h
    constructor
    · exact .inl
    · rintro (h' | rfl) <;> assumption
  · simp

theorem nodup_setAdd' {α : Type} [DecidableEq α] {s : List α} {a : α} (h : s.Nodup) : (setAdd s a).Nodup := by
  unfold setAdd
  split
  · exact h
  · rename_i hn
    rw [List.nodup_append]
    exact ⟨h, by simp, by rintro x hx y hy rfl; simp at hy; exact hn (hy ▸ hx)⟩

theorem mem_foldl_setAdd {α : Type} [DecidableEq α] (l s : List α) (x : α) :
    x ∈ l.foldl setAdd s ↔ x ∈ s ∨ x ∈ l := by
  induction l generalizing s with
  | nil => simp
  | cons a l ih => rw [List.foldl_cons, ih, mem_setAdd', List.mem_cons, or_assoc]

theorem nodup_foldl_setAdd {α : Type} [DecidableEq α] (l s : List α) (h : s.Nodup) : (l.foldl setAdd s).Nodup := by
  induction l generalizing s with
  | nil => exact h
  | cons a l ih => exact ih _ (nodup_setAdd' h)

/-- removing a node without connecting its neighbours -/
theorem removeNode_plain {g : Graph A} (h : WF g) {a : A} (ha : a ∈ g.nodes.keys) :
    ∃ g', removeNode g a = .ok g' ∧ WF g' ∧ g'.nodes.keys = g.nodes.keys.erase a ∧
      ∀ x y, cnt g' x y = if x = a ∨ y = a then none else cnt g x y := by
  obtain ⟨n, hn⟩ := Dict.mem_keys_iff.1 ha
  have hcore : Core { g with nodes := g.nodes.del a } := by
    refine ⟨h.edgesWF, h.nodesWF.del _, h.obj, ?_, ?_⟩
    · intro x m hm
      replace hm : Dict.get? (Dict.del g.nodes a) x = some m := hm
      rw [Dict.get?_del h.nodesWF] at hm
      split at hm
      · cases hm
      · exact h.out x m hm
    · intro x m hm
      replace hm : Dict.get? (Dict.del g.nodes a) x = some m := hm
      rw [Dict.get?_del h.nodesWF] at hm
      split at hm
      · cases hm
      · exact h.ing x m hm
  let keys := ((n.out ++ n.ing).filterMap (edgeKey { g with nodes := g.nodes.del a })).foldl setAdd []
  have hkeys : ∀ k, k ∈ keys ↔ (k.1 = a ∨ k.2 = a) ∧ k ∈ g.edges.keys := by
    intro k
    show k ∈ List.foldl setAdd [] _ ↔ _
    rw [mem_foldl_setAdd]
    simp only [List.not_mem_nil, false_or, List.mem_filterMap, List.mem_append, edgeKey, Option.map_eq_some_iff]
    rw [Dict.mem_keys_iff]
    constructor
    · rintro ⟨e, he, o, ho, rfl⟩
      rcases he with he | he
      · obtain ⟨b, hb⟩ := ((h.out a n hn).2 e).1 he
        obtain ⟨c, hc⟩ := h.obj _ _ hb
        rw [hc] at ho
        simp only [Option.some.injEq] at ho
        subst ho
        exact ⟨.inl rfl, e, hb⟩
      · obtain ⟨b, hb⟩ := ((h.ing a n hn).2 e).1 he
        obtain ⟨c, hc⟩ := h.obj _ _ hb
        rw [hc] at ho
        simp only [Option.some.injEq] at ho
        subst ho
        exact ⟨.inr rfl, e, hb⟩
    · rintro ⟨hor, e, he⟩
      obtain ⟨c, hc⟩ := h.obj _ _ he
      refine ⟨e, ?_, _, hc, rfl⟩
      rcases hor with rfl | rfl
      · exact .inl (((h.out k.1 n hn).2 e).2 ⟨k.2, he⟩)
      · exact .inr (((h.ing k.2 n hn).2 e).2 ⟨k.1, he⟩)
  obtain ⟨g', h1, h2, h3, h4, h5⟩ := removeEdges_core hcore keys
  have h3' : g'.nodes.keys = g.nodes.keys.erase a := by rw [h3]; exact Dict.keys_del ..
  refine ⟨g', ?_, ⟨h2, ?_⟩, h3', ?_⟩
  · unfold removeNode
    show (g.nodes.getItem a >>= _) = _
    have : g.nodes.getItem a = .ok n := by unfold Dict.getItem; rw [hn]
    rw [this]
    exact h1
  · intro k e hk
    rw [h4] at hk
    split at hk
    · cases hk
    · rename_i hnk
      replace hk : g.edges.get? k = some e := hk
      have hek := h.ends k e hk
      rw [hkeys] at hnk
      have hk' : k ∈ g.edges.keys := Dict.mem_keys_iff.2 ⟨e, hk⟩
      have hnd : g.nodes.keys.Nodup := h.nodesWF
      rw [h3', hnd.mem_erase_iff, hnd.mem_erase_iff]
      exact ⟨⟨fun hc => hnk ⟨.inl hc, hk'⟩, hek.1⟩, ⟨fun hc => hnk ⟨.inr hc, hk'⟩, hek.2⟩⟩
  · intro x y
    split
    · rename_i hxy
      apply cnt_none
      rw [h4]
      split
      · rfl
      · rename_i hnk
        rw [hkeys] at hnk
        show g.edges.get? (x, y) = none
        rw [Dict.get?_eq_none_iff]
        exact fun hc => hnk ⟨hxy, hc⟩
    · rename_i hxy
      apply cnt_of_get? h5
      rw [h4, if_neg]
      rw [hkeys]
      exact fun hc => hxy hc.1

theorem removeNode_missing {g : Graph A} {a : A} (ha : a ∉ g.nodes.keys) (c : Bool) :
    removeNode g a c = .error .key := by
  have hn := Dict.get?_eq_none_iff.2 ha
  have hg : g.nodes.getItem a = .error .key := by unfold Dict.getItem; rw [hn]
  cases c with
  | false =>
    unfold removeNode
    show (g.nodes.getItem a >>= _) = _
    rw [hg]; rfl
  | true =>
    unfold removeNode preceding
    rw [if_pos rfl, hg]; rfl

/-! ### neighbours -/

theorem nodup_filterMap {α β : Type} {l : List α} {f : α → Option β} (h : l.Nodup)
    (hf : ∀ x ∈ l, ∀ y ∈ l, ∀ b, f x = some b → f y = some b → x = y) : (l.filterMap f).Nodup := by
  induction l with
  | nil => exact List.nodup_nil
  | cons a l ih =>
    rw [List.nodup_cons] at h
    have ih' := ih h.2 fun x hx y hy => hf x (by simp [hx]) y (by simp [hy])
    rw [List.filterMap_cons]
    cases ha : f a with
    | none => exact ih'
    | some b =>
      simp only
      rw [List.nodup_cons]
      refine ⟨?_, ih'⟩
      rw [List.mem_filterMap]
      rintro ⟨y, hy, hyb⟩
      have := hf a (by simp) y (by simp [hy]) b ha hyb
      subst this
      exact h.1 hy

theorem following_ok {g : Graph A} (h : Core g) {a : A} (ha : a ∈ g.nodes.keys) :
    ∃ l, following g a = .ok l ∧ l.Nodup ∧ ∀ b, b ∈ l ↔ (cnt g a b).isSome := by
  obtain ⟨n, hn⟩ := Dict.mem_keys_iff.1 ha
  obtain ⟨h1, h2⟩ := h.out a n hn
  refine ⟨n.out.filterMap fun e => (g.heap[e]?).map EdgeObj.stop, ?_, ?_, ?_⟩
  · unfold following Dict.getItem; rw [hn]; rfl
  · refine nodup_filterMap h1 ?_
    intro e he f hf b hb hb'
    obtain ⟨o, ho, rfl⟩ := Option.map_eq_some_iff.1 hb
    obtain ⟨o', ho', hbb⟩ := Option.map_eq_some_iff.1 hb'
    obtain ⟨b1, hb1⟩ := (h2 e).1 he
    obtain ⟨b2, hb2⟩ := (h2 f).1 hf
    obtain ⟨c1, hc1⟩ := h.obj _ _ hb1
    obtain ⟨c2, hc2⟩ := h.obj _ _ hb2
    rw [hc1] at ho
    rw [hc2] at ho'
    simp only [Option.some.injEq] at ho ho'
    subst ho ho'
    simp only at hbb
    subst hbb
    rw [hb1] at hb2
    simpa using hb2
  · intro b
    rw [h.cnt_isSome, Dict.mem_keys_iff]
    simp only [List.mem_filterMap, Option.map_eq_some_iff]
    constructor
    · rintro ⟨e, he, o, ho, rfl⟩
      obtain ⟨b, hb⟩ := (h2 e).1 he
      obtain ⟨c, hc⟩ := h.obj _ _ hb
      rw [hc] at ho
      simp only [Option.some.injEq] at ho
      subst ho
      exact ⟨e, hb⟩
    · rintro ⟨e, he⟩
      obtain ⟨c, hc⟩ := h.obj _ _ he
      exact ⟨e, (h2 e).2 ⟨b, he⟩, _, hc, rfl⟩

theorem preceding_ok {g : Graph A} (h : Core g) {a : A} (ha : a ∈ g.nodes.keys) :
    ∃ l, preceding g a = .ok l ∧ l.Nodup ∧ ∀ b, b ∈ l ↔ (cnt g b a).isSome := by
  obtain ⟨n, hn⟩ := Dict.mem_keys_iff.1 ha
  obtain ⟨h1, h2⟩ := h.ing a n hn
  refine ⟨n.ing.filterMap fun e => (g.heap[e]?).map EdgeObj.start, ?_, ?_, ?_⟩
  · unfold preceding Dict.getItem; rw [hn]; rfl
  · refine nodup_filterMap h1 ?_
    intro e he f hf b hb hb'
    obtain ⟨o, ho, rfl⟩ := Option.map_eq_some_iff.1 hb
    obtain ⟨o', ho', hbb⟩ := Option.map_eq_some_iff.1 hb'
    obtain ⟨b1, hb1⟩ := (h2 e).1 he
    obtain ⟨b2, hb2⟩ := (h2 f).1 hf
    obtain ⟨c1, hc1⟩ := h.obj _ _ hb1
    obtain ⟨c2, hc2⟩ := h.obj _ _ hb2
    rw [hc1] at ho
    rw [hc2] at ho'
    simp only [Option.some.injEq] at ho ho'
    subst ho ho'
    simp only at hbb
    subst hbb
    rw [hb1] at hb2
    simpa using hb2
  · intro b
    rw [h.cnt_isSome, Dict.mem_keys_iff]
    simp only [List.mem_filterMap, Option.map_eq_some_iff]
    constructor
    · rintro ⟨e, he, o, ho, rfl⟩
      obtain ⟨b, hb⟩ := (h2 e).1 he
      obtain ⟨c, hc⟩ := h.obj _ _ hb
      rw [hc] at ho
      simp only [Option.some.injEq] at ho
      subst ho
      exact ⟨e, hb⟩
    · rintro ⟨e, he⟩
      obtain ⟨c, hc⟩ := h.obj _ _ he
      exact ⟨e, (h2 e).2 ⟨b, he⟩, _, hc, rfl⟩

theorem following_missing {g : Graph A} {a : A} (ha : a ∉ g.nodes.keys) : following g a = .error .key := by
  have hn := Dict.get?_eq_none_iff.2 ha
  unfold following Dict.getItem; rw [hn]; rfl

theorem preceding_missing {g : Graph A} {a : A} (ha : a ∉ g.nodes.keys) : preceding g a = .error .key := by
  have hn := Dict.get?_eq_none_iff.2 ha
  unfold preceding Dict.getItem; rw [hn]; rfl

/-! ### folds of add_count -/

/-- repeated `add_count` -/
theorem foldl_addCount_wf {β : Type} {g : Graph A} (h : WF g) (l : List β) (fa fb : β → A) (fc : β → Int) :
    WF (l.foldl (fun g x => addCount g (fa x) (fb x) (fc x)) g) ∧
      (∀ x, x ∈ (l.foldl (fun g x => addCount g (fa x) (fb x) (fc x)) g).nodes.keys ↔
        x ∈ g.nodes.keys ∨ ∃ p ∈ l, x = fa p ∨ x = fb p) ∧
      ∀ x y, cnt (l.foldl (fun g x => addCount g (fa x) (fb x) (fc x)) g) x y =
        if ∃ p ∈ l, fa p = x ∧ fb p = y then
          some ((cnt g x y).getD 0 + ((l.filter fun p => fa p = x ∧ fb p = y).map fc).sum)
        else cnt g x y := by
  induction l generalizing g with
  | nil => exact ⟨h, by simp, by simp⟩
  | cons p l ih =>
    obtain ⟨h1, h2, h3⟩ := addCount_wf h (fa p) (fb p) (fc p)
    obtain ⟨i1, i2, i3⟩ := ih h1
    refine ⟨i1, ?_, ?_⟩
    · intro x
      rw [List.foldl_cons, i2, h2]
      simp only [List.mem_cons, exists_eq_or_imp, or_assoc]
    · intro x y
      rw [List.foldl_cons, i3, h3]
      by_cases hp : fa p = x ∧ fb p = y
      · obtain ⟨rfl, rfl⟩ := hp
        simp only [and_self, if_true, List.mem_cons, exists_eq_or_imp, true_or, List.filter_cons, decide_true,
          List.map_cons, List.sum_cons, Option.getD_some]
        split
        · rw [add_assoc]
        · rename_i hno
          have : l.filter (fun q => decide (fa q = fa p ∧ fb q = fb p)) = [] := by
            rw [List.filter_eq_nil_iff]
            intro q hq hc
            exact hno ⟨q, hq, by simpa using hc⟩
          rw [this]; simp
      · have hp' : ¬ (x = fa p ∧ y = fb p) := fun hc => hp ⟨hc.1.symm, hc.2.symm⟩
        simp only [if_neg hp', List.mem_cons, exists_eq_or_imp, hp, false_or, List.filter_cons, decide_false]
        rfl

end Prolothar.Dfg
