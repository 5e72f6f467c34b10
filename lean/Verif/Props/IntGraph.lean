import Verif.Lemmas.IntGraph
import Verif.Spec.IntGraph
/- C41, C42: the directed integer graph. -/
set_option linter.unusedSimpArgs false
namespace Prolothar.IntGraph
open Prolothar.Spec.Graph Prolothar.Spec.IntGraph

/-- apply one operation of a history -/
def step (g : Graph) : Op → Py Graph
  | .add u v => addEdge g u v
  | .remove u v => removeEdge g u v

/-- apply a history -/
def run (g : Graph) (ops : List Op) : Py Graph := ops.foldlM step g

theorem multiplicity_nil (u v : Nat) : multiplicity [] u v = 0 := rfl

theorem multiplicity_snoc (ops : List Op) (op : Op) (u v : Nat) :
    multiplicity (ops ++ [op]) u v =
      if op = .remove u v then 0 else if op = .add u v then multiplicity ops u v + 1
      else multiplicity ops u v := by
  unfold multiplicity
  rw [List.reverse_append]
  simp only [List.reverse_cons, List.reverse_nil, List.nil_append, List.singleton_append]
  rw [List.takeWhile_cons]
  by_cases h : op = .remove u v
  · simp [h]
  · rw [if_pos (by simpa using h), if_neg h, List.filter_cons]
    by_cases h' : op = .add u v
    · simp [h']
    · simp [h']

theorem present_iff (ops : List Op) (u v : Nat) : Present ops u v ↔ 0 < multiplicity ops u v := by
  induction ops using List.reverseRecOn with
  | nil => simp [Present, multiplicity_nil]
  | append_singleton ops op ih =>
    rw [multiplicity_snoc]
    constructor
    · rintro ⟨b, a, h, hn⟩
      rcases List.eq_nil_or_concat a with rfl | ⟨a', op', rfl⟩
      · have := List.append_inj' h rfl
        simp at this
        rw [this.2]; simp
      · have h' : ops ++ [op] = (b ++ .add u v :: a') ++ [op'] := by rw [h]; simp
        obtain ⟨h1, h2⟩ := List.append_inj' h' rfl
        simp at h2; subst h2
        simp at hn
        rw [if_neg (fun hc => hn.2 hc.symm)]
        have : Present ops u v := ⟨b, a', h1, hn.1⟩
        have := ih.1 this
        split <;> omega
    · intro h
      split at h
      · omega
      · rename_i hr
        split at h
        · rename_i ha
          exact ⟨ops, [], by rw [ha], by simp⟩
        · obtain ⟨b, a, h1, h2⟩ := ih.2 h
          exact ⟨b, a ++ [op], by rw [h1]; simp, by simp [h2]; exact fun hc => hr hc.symm⟩

/-- a history of operations in the range of the graph is executed without error; the adjacency
list of `u` then holds `v` exactly as often as it was added since its last removal. -/
theorem run_ok (V : Nat) (ops : List Op) (h : ∀ op ∈ ops, op.src < V) :
    ∃ g, run (new V) ops = .ok g ∧ g.length = V ∧
      ∀ u < V, ∃ l, g[u]? = some l ∧ ∀ v, l.count v = multiplicity ops u v := by
  induction ops using List.reverseRecOn with
  | nil => exact ⟨new V, rfl, by simp [new], fun u hu => ⟨[], by simp [new, hu], by simp [multiplicity_nil]⟩⟩
  | append_singleton ops op ih =>
    obtain ⟨g, h1, h2, h3⟩ := ih fun o ho => h o (by simp [ho])
    have hsrc : op.src < V := h op (by simp)
    have hrun : run (new V) (ops ++ [op]) = step g op := by
      unfold run at *
      rw [List.foldlM_append, h1]
      show (step g op >>= pure) = _
      cases step g op <;> rfl
    obtain ⟨l, hl, hcount⟩ := h3 op.src hsrc
    have hadj : adjacency g op.src = .ok l := by unfold adjacency; rw [hl]
    rw [hrun]
    cases op with
    | add a b =>
      refine ⟨g.set a (l ++ [b]), ?_, by simp [h2], ?_⟩
      · simp only [step, addEdge]
        simp only [Op.src] at hadj
        rw [hadj]; rfl
      · intro u hu
        by_cases hua : u = a
        · subst hua
          refine ⟨l ++ [b], List.getElem?_set_self (by omega), fun v => ?_⟩
          rw [List.count_append, multiplicity_snoc]
          simp only [Op.src] at hcount
          rw [hcount]
          by_cases hvb : b = v
          · subst hvb; simp
          · simp [hvb]
        · obtain ⟨m, hm, hc⟩ := h3 u hu
          refine ⟨m, by rw [List.getElem?_set_ne (Ne.symm hua)]; exact hm, fun v => ?_⟩
          rw [multiplicity_snoc, hc]
          simp [Ne.symm hua]
    | remove a b =>
      refine ⟨g.set a (l.filter fun i => i != b), ?_, by simp [h2], ?_⟩
      · simp only [step, removeEdge]
        simp only [Op.src] at hadj
        rw [hadj]; rfl
      · intro u hu
        by_cases hua : u = a
        · subst hua
          refine ⟨l.filter fun i => i != b, List.getElem?_set_self (by omega), fun v => ?_⟩
          rw [multiplicity_snoc]
          simp only [Op.src] at hcount
          by_cases hvb : b = v
          · subst hvb
            simp [List.count_eq_zero]
          · rw [List.count_filter (by simpa using Ne.symm hvb), hcount]
            simp [hvb]
        · obtain ⟨m, hm, hc⟩ := h3 u hu
          refine ⟨m, by rw [List.getElem?_set_ne (Ne.symm hua)]; exact hm, fun v => ?_⟩
          rw [multiplicity_snoc, hc]
          simp [Ne.symm hua]

theorem E_iff_present {V : Nat} {ops : List Op} {g : Graph} (hlen : g.length = V)
    (h : ∀ u < V, ∃ l, g[u]? = some l ∧ ∀ v, l.count v = multiplicity ops u v)
    (hops : ∀ op ∈ ops, op.src < V) (u v : Nat) : E g u v ↔ Present ops u v := by
  constructor
  · intro he
    have hu := he.lt
    obtain ⟨l, hl, hc⟩ := h u (by omega)
    obtain ⟨l', hl', hv⟩ := he
    rw [hl] at hl'; cases hl'
    rw [present_iff, ← hc]
    exact List.count_pos_iff.2 hv
  · intro hp
    have hu : u < V := by
      obtain ⟨b, a, rfl, _⟩ := hp
      exact hops (.add u v) (by simp)
    obtain ⟨l, hl, hc⟩ := h u hu
    rw [present_iff, ← hc] at hp
    exact ⟨l, hl, List.count_pos_iff.1 hp⟩

/-- **C41** (strongly connected components). In a graph with `V` vertices built by any history of
edge insertions and removals, the components list every vertex exactly once, none is empty, and two
vertices share a component iff each can be reached from the other along present edges. -/
theorem C41_strongly_connected_components (V : Nat) (ops : List Op)
    (h : ∀ op ∈ ops, op.src < V ∧ op.dst < V) :
    ∃ g comps, run (new V) ops = .ok g ∧ scc g = .ok comps ∧
      comps.flatten.Perm (List.range V) ∧ [] ∉ comps ∧
      ∀ u < V, ∀ v < V, (∃ c ∈ comps, u ∈ c ∧ v ∈ c) ↔ Mutual (Present ops) u v := by
  obtain ⟨g, h1, h2, h3⟩ := run_ok V ops fun op ho => (h op ho).1
  have hE : ∀ u v, E g u v ↔ Present ops u v :=
    E_iff_present h2 h3 fun op ho => (h op ho).1
  have hE' : E g = Present ops := by funext u v; exact propext (hE u v)
  have hvalid : Valid g := by
    intro l hl b hb
    obtain ⟨a, ha, hla⟩ := List.mem_iff_getElem.1 hl
    have he : E g a b := ⟨l, by rw [List.getElem?_eq_getElem ha, hla], hb⟩
    obtain ⟨b', a', hops, _⟩ := (hE a b).1 he
    rw [h2]
    exact (h (.add a b) (by rw [hops]; simp)).2
  obtain ⟨comps, c1, c2, c3⟩ := scc_ok hvalid
  rw [hE'] at c3
  rw [h2] at c2 c3
  refine ⟨g, comps, h1, c1, c2, ?_, ?_⟩
  · intro hnil
    obtain ⟨v, _, hv⟩ := c3 [] hnil
    have := (hv v).2 ⟨.refl, .refl⟩
    cases this
  · intro u hu v hv
    constructor
    · rintro ⟨c, hc, hu', hv'⟩
      obtain ⟨x, _, hx⟩ := c3 c hc
      have h1 := (hx u).1 hu'
      have h2 := (hx v).1 hv'
      exact ⟨h1.2.trans h2.1, h2.2.trans h1.1⟩
    · intro hm
      have : u ∈ comps.flatten := c2.mem_iff.2 (List.mem_range.2 hu)
      obtain ⟨c, hc, huc⟩ := List.mem_flatten.1 this
      obtain ⟨x, _, hx⟩ := c3 c hc
      have h1 := (hx u).1 huc
      exact ⟨c, hc, huc, (hx v).2 ⟨h1.1.trans hm.1, hm.2.trans h1.2⟩⟩

/-- a cycle 0 → 1 → 2 → 0 with an exit to 3, one removed and one doubled edge -/
def sampleOps : List Op := [.add 0 1, .add 1 2, .add 2 0, .add 2 0, .add 2 3, .add 3 0, .remove 3 0]

example : ∀ op ∈ sampleOps, op.src < 4 ∧ op.dst < 4 := by decide
example : (run (new 4) sampleOps >>= scc) = .ok [[0, 2, 1], [3]] := by decide

/-- **C42** (edge history). After any history, `contains_edge(u, v)` says whether `(u, v)` was added
after its last removal, and `get_ancestors(u)` lists `v` once per addition since then: the method
returns the direct *successors* of `u`. -/
theorem C42_edge_history (V : Nat) (ops : List Op) (h : ∀ op ∈ ops, op.src < V) :
    ∃ g, run (new V) ops = .ok g ∧ ∀ u < V,
      (∀ v, containsEdge g u v = .ok (decide (0 < multiplicity ops u v)) ∧
        (Present ops u v ↔ 0 < multiplicity ops u v)) ∧
      ∃ l, adjacency g u = .ok l ∧ ∀ v, l.count v = multiplicity ops u v := by
  obtain ⟨g, h1, h2, h3⟩ := run_ok V ops h
  refine ⟨g, h1, fun u hu => ?_⟩
  obtain ⟨l, hl, hc⟩ := h3 u hu
  have hadj : adjacency g u = .ok l := by unfold adjacency; rw [hl]
  refine ⟨fun v => ⟨?_, present_iff ops u v⟩, l, hadj, hc⟩
  simp only [containsEdge, hadj]
  show Except.ok (l.any fun i => i == v) = _
  congr 1
  rw [← hc, Bool.eq_iff_iff]
  simp [List.count_pos_iff]

example : ∀ op ∈ sampleOps, op.src < 4 := by decide
example : (run (new 4) sampleOps >>= fun g => containsEdge g 3 0) = .ok false := by decide

/-- **C42** (removal is local). A removal of `(u, v)` changes the answer for no other pair. -/
theorem C42_removal_affects_no_other_pair (g : Graph) (u v : Nat) (hu : u < g.length) :
    ∃ g', removeEdge g u v = .ok g' ∧ containsEdge g' u v = .ok false ∧
      ∀ a b, (a, b) ≠ (u, v) → containsEdge g' a b = containsEdge g a b := by
  obtain ⟨g', h1, h2, h3⟩ := removeEdge_ok hu v
  refine ⟨g', h1, ?_, ?_⟩
  · obtain ⟨r, hr, hr'⟩ := containsEdge_ok (g := g') (v := u) (by omega) v
    rw [h3] at hr'
    cases r with
    | false => exact hr
    | true => simp at hr'
  · intro a b hab
    by_cases ha : a < g.length
    · obtain ⟨r, hr, hr'⟩ := containsEdge_ok (g := g') (v := a) (by omega) b
      obtain ⟨s, hs, hs'⟩ := containsEdge_ok ha b
      rw [hr, hs]
      congr 1
      rw [Bool.eq_iff_iff, hr', hs', h3]
      have : ¬ (a = u ∧ b = v) := fun hc => hab (by rw [hc.1, hc.2])
      simp [this]
    · have e1 : adjacency g' a = .error .index := by
        unfold adjacency; rw [List.getElem?_eq_none (by omega)]
      have e2 : adjacency g a = .error .index := by
        unfold adjacency; rw [List.getElem?_eq_none (by omega)]
      simp only [containsEdge, e1, e2]

theorem copy_aux (g : Graph) (k : Nat) (hk : k ≤ g.length) :
    (List.range k).foldl (fun c v => c.set v (g.getD v [])) (List.replicate g.length []) =
      g.take k ++ List.replicate (g.length - k) [] := by
  induction k with
  | zero => simp
  | succ k ih =>
    rw [List.range_succ, List.foldl_append, ih (by omega)]
    simp only [List.foldl_cons, List.foldl_nil]
    apply List.ext_getElem?
    intro i
    have hkl : (g.take k).length = k := by simp; omega
    have hkl' : (g.take (k + 1)).length = k + 1 := by simp; omega
    rw [List.getElem?_set]
    split
    · rename_i hi
      subst hi
      rw [List.getElem?_append_left (by omega), List.getElem?_take]
      rw [if_pos (by simp; omega)]
      simp [List.getD_eq_getElem?_getD, List.getElem?_eq_getElem (show k < g.length by omega)]
    · rename_i hi
      by_cases hik : i < k
      · rw [List.getElem?_append_left (by omega), List.getElem?_append_left (by omega),
          List.getElem?_take_of_lt hik, List.getElem?_take_of_lt (by omega)]
      · rw [List.getElem?_append_right (by omega), List.getElem?_append_right (by omega),
          List.getElem?_replicate, List.getElem?_replicate, hkl, hkl']
        congr 1
        apply propext
        omega

theorem copy_eq (g : Graph) : copy g = g := by
  unfold copy
  rw [copy_aux g g.length (le_refl _)]
  simp

/-- operations on an original (`false`) and on its copy (`true`), in any interleaving -/
def runBoth (gs : Graph × Graph) : List (Bool × Op) → Py (Graph × Graph)
  | [] => .ok gs
  | (false, op) :: ops => do
    let g ← step gs.1 op
    runBoth (g, gs.2) ops
  | (true, op) :: ops => do
    let g ← step gs.2 op
    runBoth (gs.1, g) ops

/-- the operations addressed to one of the two graphs -/
def only (b : Bool) (ops : List (Bool × Op)) : List Op := (ops.filter fun p => p.1 == b).map Prod.snd

/-- **C42** (copies). Copy a graph after any history and use both in any interleaving: each answers
as if it alone had seen the common history followed by its own operations. -/
theorem C42_copy_evolves_independently (V : Nat) (ops : List Op) (later : List (Bool × Op))
    (h : ∀ op ∈ ops, op.src < V) (h' : ∀ p ∈ later, p.2.src < V) :
    ∃ g a b, run (new V) ops = .ok g ∧ runBoth (g, copy g) later = .ok (a, b) ∧
      run (new V) (ops ++ only false later) = .ok a ∧ run (new V) (ops ++ only true later) = .ok b := by
  obtain ⟨g, h1, h2, -⟩ := run_ok V ops h
  have hstep : ∀ (g : Graph) (op : Op), g.length = V → op.src < V → ∃ g', step g op = .ok g' ∧ g'.length = V := by
    intro g op hg ho
    cases op with
    | add a b =>
      obtain ⟨g', e1, e2, _⟩ := addEdge_ok (g := g) (v := a) (by rw [hg]; exact ho) b
      exact ⟨g', e1, e2.trans hg⟩
    | remove a b =>
      obtain ⟨g', e1, e2, _⟩ := removeEdge_ok (g := g) (v := a) (by rw [hg]; exact ho) b
      exact ⟨g', e1, e2.trans hg⟩
  have key : ∀ later : List (Bool × Op), (∀ p ∈ later, p.2.src < V) → ∀ x y : Graph, x.length = V →
      y.length = V → ∃ a b, runBoth (x, y) later = .ok (a, b) ∧
        run x (only false later) = .ok a ∧ run y (only true later) = .ok b := by
    intro later
    induction later with
    | nil => exact fun _ x y _ _ => ⟨x, y, rfl, rfl, rfl⟩
    | cons p later ih =>
      intro hp x y hx hy
      obtain ⟨i, op⟩ := p
      have ho := hp (i, op) (by simp)
      cases i with
      | false =>
        obtain ⟨x', e1, e2⟩ := hstep x op hx ho
        obtain ⟨a, b, r1, r2, r3⟩ := ih (fun q hq => hp q (by simp [hq])) x' y e2 hy
        refine ⟨a, b, ?_, ?_, ?_⟩
        · simp only [runBoth, e1]; exact r1
        · show run x (op :: only false later) = _
          unfold run at *
          rw [List.foldlM_cons, e1]; exact r2
        · exact r3
      | true =>
        obtain ⟨y', e1, e2⟩ := hstep y op hy ho
        obtain ⟨a, b, r1, r2, r3⟩ := ih (fun q hq => hp q (by simp [hq])) x y' hx e2
        refine ⟨a, b, ?_, ?_, ?_⟩
        · simp only [runBoth, e1]; exact r1
        · exact r2
        · show run y (op :: only true later) = _
          unfold run at *
          rw [List.foldlM_cons, e1]; exact r3
  obtain ⟨a, b, r1, r2, r3⟩ := key later h' g (copy g) h2 (by rw [copy_eq]; exact h2)
  refine ⟨g, a, b, h1, r1, ?_, ?_⟩
  · unfold run at *
    rw [List.foldlM_append, h1]; exact r2
  · rw [copy_eq] at r3
    unfold run at *
    rw [List.foldlM_append, h1]; exact r3

example : only true [(false, .remove 0 1), (true, .add 1 1)] = [.add 1 1] := by decide

end Prolothar.IntGraph
