import Verif.Model.DfgQueries
import Verif.Props.Dfg
/-
Directly-follows graph: sizes, in-degree and equality, C123.
-/
set_option linter.unusedSectionVars false
set_option linter.unusedDecidableInType false
namespace Prolothar.Dfg
open Prolothar.Spec.Dfg

section
variable {A : Type} [LinearOrder A]

/-- C123: the in-degree of a node is the number of its predecessors; an unknown node raises KeyError. -/
theorem C123_indegree {g : Graph A} (hb : Built g) (a : A) :
    ((view g).node a → ∃ s : Finset A, (∀ b, b ∈ s ↔ (view g).Edge b a) ∧ indegree g a = .ok s.card) ∧
    (¬ (view g).node a → indegree g a = .error .key) := by
  have h := hb.wf
  rw [view_node]
  constructor
  · intro ha
    obtain ⟨l, h1, h2, h3⟩ := preceding_ok h.toCore ha
    refine ⟨l.toFinset, fun b => by rw [List.mem_toFinset, h3, view_edge]; rfl, ?_⟩
    obtain ⟨n, hn⟩ := Dict.mem_keys_iff.1 ha
    unfold preceding Dict.getItem at h1
    rw [hn] at h1
    have h1 : Except.ok (n.ing.filterMap fun e => (g.heap[e]?).map EdgeObj.start) = Except.ok l := h1
    have h1 := Except.ok.inj h1
    unfold indegree Dict.getItem
    rw [hn]
    show Except.ok n.ing.length = _
    congr 1
    rw [List.toFinset_card_of_nodup h2, ← h1]
    have : ∀ m : List Nat, (∀ e ∈ m, e ∈ n.ing) →
        (m.filterMap fun e => (g.heap[e]?).map EdgeObj.start).length = m.length := by
      intro m
      induction m with
      | nil => intro _; rfl
      | cons e m ih =>
        intro hm
        obtain ⟨b, hbe⟩ := ((h.ing a n hn).2 e).1 (hm e (by simp))
        obtain ⟨c, hc⟩ := h.obj _ _ hbe
        rw [List.filterMap_cons, hc]
        simp only [Option.map_some, List.length_cons]
        rw [ih fun e he => hm e (by simp [he])]
    rw [this _ fun _ he => he]
  · intro ha
    have hn := Dict.get?_eq_none_iff.2 ha
    unfold indegree Dict.getItem
    rw [hn]; rfl

/-- C123: the reported sizes are the number of nodes and the number of edges. -/
theorem C123_sizes {g : Graph A} (hb : Built g) :
    (∃ s : Finset A, (∀ a, a ∈ s ↔ (view g).node a) ∧ nrNodes g = s.card) ∧
    ∃ s : Finset (A × A), (∀ a b, (a, b) ∈ s ↔ (view g).Edge a b) ∧ nrEdges g = s.card := by
  have h := hb.wf
  refine ⟨⟨g.nodes.keys.toFinset, fun a => by rw [view_node, List.mem_toFinset], ?_⟩,
    g.edges.keys.toFinset, fun a b => ?_, ?_⟩
  · rw [List.toFinset_card_of_nodup h.nodesWF]; simp [nrNodes, Dict.keys]
  · rw [List.mem_toFinset, view_edge]; unfold Edge; rw [h.cnt_isSome]
  · rw [List.toFinset_card_of_nodup h.edgesWF]; simp [nrEdges, Dict.keys]

theorem edgeKeyLe_total : Std.Total (edgeKeyLe (A := A)) where
  total o p := by
    unfold edgeKeyLe
    rcases lt_trichotomy o.start p.start with h | h | h
    · exact Or.inl (Or.inl h)
    · rcases le_total o.stop p.stop with h' | h'
      · exact Or.inl (Or.inr ⟨h, h'⟩)
      · exact Or.inr (Or.inr ⟨h.symm, h'⟩)
    · exact Or.inr (Or.inl h)

theorem edgeKeyLe_trans : IsTrans (EdgeObj A) edgeKeyLe where
  trans o p q h1 h2 := by
    unfold edgeKeyLe at *
    rcases h1 with h1 | ⟨h1, h1'⟩ <;> rcases h2 with h2 | ⟨h2, h2'⟩
    · exact Or.inl (h1.trans h2)
    · exact Or.inl (h2 ▸ h1)
    · exact Or.inl (h1 ▸ h2)
    · exact Or.inr ⟨h1.trans h2, h1'.trans h2'⟩

theorem nodeLines_iff {g g' : Graph A} (h : WF g) (h' : WF g') :
    nodeLines g = nodeLines g' ↔ ∀ a, a ∈ g.nodes.keys ↔ a ∈ g'.nodes.keys := by
  constructor
  · intro he a
    have := List.perm_insertionSort (· ≤ ·) (g.nodes.map Prod.fst)
    have this' := List.perm_insertionSort (· ≤ ·) (g'.nodes.map Prod.fst)
    unfold Dict.keys
    rw [← this.mem_iff, ← this'.mem_iff]
    unfold nodeLines at he
    rw [he]
  · intro he
    unfold nodeLines
    refine List.Perm.eq_of_pairwise' (r := (· ≤ ·)) (List.pairwise_insertionSort _ _)
      (List.pairwise_insertionSort _ _) ?_
    refine (List.perm_insertionSort _ _).trans (List.Perm.trans ?_ (List.perm_insertionSort _ _).symm)
    exact (List.perm_ext_iff_of_nodup h.nodesWF h'.nodesWF).2 he

theorem edgeLines_iff {g g' : Graph A} (h : WF g) (h' : WF g') :
    edgeLines g = edgeLines g' ↔ ∀ a b, cnt g a b = cnt g' a b := by
  have hmem : ∀ {g : Graph A}, WF g → ∀ o : EdgeObj A, o ∈ edgeLines g ↔ cnt g o.start o.stop = some o.count := by
    intro g h o
    rw [← mem_objs h.toCore]
    exact (List.perm_insertionSort _ _).mem_iff
  constructor
  · intro he a b
    have key : ∀ c, cnt g a b = some c ↔ cnt g' a b = some c := by
      intro c
      have h1 := hmem h ⟨a, b, c⟩
      have h2 := hmem h' ⟨a, b, c⟩
      rw [he] at h1
      exact h1.symm.trans h2
    exact Option.ext key
  · intro he
    have := edgeKeyLe_total (A := A)
    have := edgeKeyLe_trans (A := A)
    have hperm : (edgeLines g).Perm (edgeLines g') := by
      refine (List.perm_insertionSort _ _).trans (List.Perm.trans ?_ (List.perm_insertionSort _ _).symm)
      refine (List.perm_ext_iff_of_nodup (objs_nodup h.toCore) (objs_nodup h'.toCore)).2 fun o => ?_
      rw [mem_objs h.toCore, mem_objs h'.toCore, he]
    refine List.Perm.eq_of_pairwise (le := edgeKeyLe) ?_ (List.pairwise_insertionSort _ _)
      (List.pairwise_insertionSort _ _) hperm
    intro o p ho hp h1 h2
    have e1 := (hmem h o).1 ho
    have e2 := (hmem h' p).1 hp
    rw [he] at e1
    unfold edgeKeyLe at h1 h2
    have hs : o.start = p.start := by
      rcases h1 with h1 | h1
      · rcases h2 with h2 | h2
        · exact absurd h2 h1.asymm
        · exact h2.1.symm
      · exact h1.1
    have ht : o.stop = p.stop := by
      rw [hs] at h1 h2
      simp only [lt_self_iff_false, true_and, false_or] at h1 h2
      exact le_antisymm h1 h2
    rw [hs, ht, e2] at e1
    obtain ⟨s, t, c⟩ := o
    obtain ⟨s', t', c'⟩ := p
    simp_all

/-- C123: two graphs are equal exactly if they have the same nodes and the same edges with the same
counts; the order in which they were built does not matter. -/
theorem C123_equality {g g' : Graph A} (hb : Built g) (hb' : Built g') :
    graphEq g g' = true ↔
      (∀ a, (view g).node a ↔ (view g').node a) ∧ ∀ a b, (view g).count a b = (view g').count a b := by
  unfold graphEq source
  rw [decide_eq_true_eq, Prod.mk.injEq, nodeLines_iff hb.wf hb'.wf, edgeLines_iff hb.wf hb'.wf]
  simp only [view_node]
  rfl

/-- C123: a copy equals the original. -/
theorem C123_copy_equal {g : Graph A} (hb : Built g) : graphEq (copy g) g = true := by
  rw [C123_equality hb.copy hb]
  obtain ⟨_, h2, h3⟩ := copy_ok hb.wf
  refine ⟨fun a => ?_, h3⟩
  rw [view_node, view_node, h2]

/-- C123: an edge with count 0 is not the same as no edge, although every count query agrees. -/
theorem C123_zero_count_edge {a b : A} :
    (∀ x y, getCount (addCount empty a b 0) x y = getCount (addNode (addNode empty a) b) x y) ∧
    graphEq (addCount empty a b 0) (addNode (addNode empty a) b) = false := by
  have hb : Built (addCount empty a b 0) := Built.addCount Built.new a b 0
  have hb' : Built (addNode (addNode empty a) b) := Built.addNode (Built.addNode Built.new a) b
  have e1 : ∀ x y, cnt (addCount (empty : Graph A) a b 0) x y = if x = a ∧ y = b then some 0 else none := by
    intro x y
    rw [(addCount_wf empty_wf a b 0).2.2]
    have : ∀ x y, cnt (empty : Graph A) x y = none := fun _ _ => cnt_none rfl
    simp [this]
  have e2 : ∀ x y, cnt (addNode (addNode (empty : Graph A) a) b) x y = none := by
    intro x y
    rw [addNode_cnt, addNode_cnt]
    exact cnt_none rfl
  constructor
  · intro x y
    rw [getCount_eq, getCount_eq]
    show (cnt _ x y).getD 0 = (cnt _ x y).getD 0
    rw [e1, e2]
    split <;> rfl
  · rw [Bool.eq_false_iff, ne_eq, C123_equality hb hb']
    rintro ⟨_, h⟩
    have h : cnt _ a b = cnt _ a b := h a b
    rw [e1, e2] at h
    simp at h

end

/-- the hypotheses are met; graphs built in different orders are equal -/
example :
    let g := addCount (addCount (addCount empty 1 2 1) 3 2 1) 1 2 1
    let h := addCount (addCount (addNode empty 3) 3 2 1) 1 2 2
    Built g ∧ Built h ∧ graphEq g h = true ∧ g ≠ h ∧ indegree g 2 = .ok 2 ∧ nrNodes g = 3 ∧ nrEdges g = 2 ∧
      graphEq g (addCount h 1 2 1) = false :=
  ⟨.addCount (.addCount (.addCount .new 1 2 1) 3 2 1) 1 2 1, .addCount (.addCount (.addNode .new 3) 3 2 1) 1 2 2,
    by decide +kernel⟩

end Prolothar.Dfg
