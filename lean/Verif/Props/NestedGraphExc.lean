import Verif.Model.NestedGraphExc
import Verif.Props.NestedGraph
/-
C208: replacing high-level edges, exceptions and repetition.
-/
namespace Prolothar.Nested
open Prolothar.Spec.Nested
variable {V : Type} [DecidableEq V]

theorem bind_ok {α β : Type} {x : Py α} {f : α → Py β} {b : β} (h : (x >>= f) = .ok b) : ∃ a, x = .ok a ∧ f a = .ok b := by
  cases x with
  | error e => cases h
  | ok a => exact ⟨a, rfl, h⟩

theorem low_key {g : Graph V} (hg : GraphOk g) {take : V → V → Prop} {id m : V} (hid : id ∈ g.nodes.keys) (h : Low g take id m) :
    m ∈ g.nodes.keys := by
  obtain ⟨n, h1, rfl⟩ := low_node hg hid h
  exact List.mem_map.2 ⟨_, h1, rfl⟩

theorem removeLoop_foldlM : ∀ (es : List (Edge V)) (g : Graph V) {g' : Graph V}, es.foldlM removeEdge g = .ok g' → removeLoop es g = (.ok (), g')
  | [], g, g', h => by cases h; rfl
  | e :: es, g, g', h => by
    rw [List.foldlM_cons] at h
    unfold removeLoop
    cases hr : removeEdge g e with
    | error err => rw [hr] at h; cases h
    | ok g1 => rw [hr] at h; exact removeLoop_foldlM es g1 h

theorem pairs_ok_inner (fmt : V → V → V) (u : Node V) : ∀ (vs : List (Node V)) {acc : List (Edge V)}, EdgesOk acc →
    EdgesOk (vs.foldl (fun acc v => edgeAdd acc ⟨fmt u.id v.id, u.id, v.id, []⟩) acc)
  | [], _, h => h
  | _ :: vs, _, h => pairs_ok_inner fmt u vs (edgeAdd_ok h Dict.WF.nil)

theorem pairs_ok (fmt : V → V → V) : ∀ (us vs : List (Node V)) {acc : List (Edge V)}, EdgesOk acc →
    EdgesOk (us.foldl (fun acc u => vs.foldl (fun acc v => edgeAdd acc ⟨fmt u.id v.id, u.id, v.id, []⟩) acc) acc)
  | [], _, _, h => h
  | u :: us, vs, _, h => pairs_ok fmt us vs (pairs_ok_inner fmt u vs h)

/-- what one step of the first loop adds -/
theorem collect_step {fmt : V → V → V} {fuel : Nat} {g : Graph V} {st st' : List (Edge V) × List (Edge V)} {e : Edge V}
    (h : collect fmt fuel g st e = .ok st') : (st'.1 = st.1 ∨ st'.1 = edgeAdd st.1 e) ∧ (EdgesOk st.2 → EdgesOk st'.2) := by
  unfold collect at h
  obtain ⟨a, ha, h⟩ := bind_ok h
  obtain ⟨b, hb, h⟩ := bind_ok h
  split at h
  · obtain ⟨toAdd, hadd, h⟩ := bind_ok h
    cases h
    refine ⟨.inr rfl, fun hok => ?_⟩
    unfold addLowLevelEdges at hadd
    obtain ⟨us, _, hadd⟩ := bind_ok hadd
    obtain ⟨vs, _, hadd⟩ := bind_ok hadd
    cases hadd
    dsimp only
    exact pairs_ok fmt us vs hok
  · cases h
    exact ⟨.inl rfl, id⟩

theorem collect_all {fmt : V → V → V} {fuel : Nat} {g : Graph V} : ∀ (es : List (Edge V)) {st st' : List (Edge V) × List (Edge V)},
    EdgesOk es → es.foldlM (collect fmt fuel g) st = .ok st' →
    EdgesOk st.1 → (st.1.Pairwise fun a b => edgeEq a b = false) → EdgesOk st.2 →
    EdgesOk st'.1 ∧ (st'.1.Pairwise fun a b => edgeEq a b = false) ∧ (∀ x ∈ st'.1, x ∈ st.1 ∨ x ∈ es) ∧ EdgesOk st'.2
  | [], st, st', _, h, h1, h2, h3 => by cases h; exact ⟨h1, h2, fun x hx => .inl hx, h3⟩
  | e :: es, st, st', he, h, h1, h2, h3 => by
    rw [List.foldlM_cons] at h
    obtain ⟨st1, hs, h⟩ := bind_ok h
    obtain ⟨c1, c2⟩ := collect_step hs
    have hw := he e List.mem_cons_self
    have hm : ∀ x ∈ edgeAdd st.1 e, x ∈ st.1 ∨ x = e := by
      intro x hx
      unfold edgeAdd at hx
      split at hx
      · exact .inl hx
      · rcases List.mem_append.1 hx with hx | hx
        · exact .inl hx
        · exact .inr (List.mem_singleton.1 hx)
    obtain ⟨p1, p2, p3⟩ : EdgesOk st1.1 ∧ (st1.1.Pairwise fun a b => edgeEq a b = false) ∧ ∀ x ∈ st1.1, x ∈ st.1 ∨ x = e := by
      rcases c1 with c1 | c1 <;> rw [c1]
      · exact ⟨h1, h2, fun x hx => .inl hx⟩
      · exact ⟨edgeAdd_ok h1 hw, distinct_edgeAdd h1 h2 hw, hm⟩
    obtain ⟨q1, q2, q3, q4⟩ := collect_all es (fun x hx => he x (List.mem_cons_of_mem _ hx)) h p1 p2 (c2 h3)
    refine ⟨q1, q2, fun x hx => ?_, q4⟩
    rcases q3 x hx with hx | hx
    · rcases p3 x hx with hx | rfl
      · exact .inl hx
      · exact .inr List.mem_cons_self
    · exact .inr (List.mem_cons_of_mem _ hx)

/-- the two loops that change the graph cannot raise -/
theorem replaceX_cases {g : Graph V} (hg : GraphOk g) (fmt : V → V → V) (fuel : Nat) :
    (∃ e, replaceX fmt fuel g = (.error e, g) ∧ replaceHighLevel fmt fuel g = .error e ∧ g.edges.foldlM (collect fmt fuel g) ([], []) = .error e) ∨
    ∃ g', replaceX fmt fuel g = (.ok (), g') ∧ replaceHighLevel fmt fuel g = .ok g' ∧ EdgesOk g'.edges := by
  unfold replaceX replaceHighLevel
  cases hc : g.edges.foldlM (collect fmt fuel g) ([], []) with
  | error e => exact .inl ⟨e, rfl, rfl, rfl⟩
  | ok st =>
    obtain ⟨c1, c2, c3, c4⟩ := collect_all g.edges hg.edgeAttrs hc (by simp [EdgesOk]) List.Pairwise.nil (by simp [EdgesOk])
    have hin : ∀ e ∈ st.1, In e g.edges := by
      intro e he
      rcases c3 e he with h | h
      · cases h
      · exact ⟨e, h, edgeEq_refl (c1 e he)⟩
    obtain ⟨g1, r1, r2, r3, r4⟩ := removeAll_correct st.1 g c1 c2 hg.edgeAttrs hg.distinct hin
    have hl := removeLoop_foldlM _ _ r1
    right
    refine ⟨st.2.foldl addEdge g1, ?_, ?_, ?_⟩
    · dsimp only
      rw [hl]
    · show (st.1.foldlM removeEdge g >>= _) = _
      rw [r1]; rfl
    · have hfold : ∀ (l : List (Edge V)) (s : Graph V), (l.foldl addEdge s).edges = l.foldl edgeAdd s.edges := by
        intro l
        induction l with
        | nil => intro s; rfl
        | cons e l ih => intro s; rw [List.foldl_cons, ih]; rfl
      rw [hfold]
      exact (foldl_edgeAdd st.2 g1.edges r3 c4).1

/-- C208: if the call raises, the graph is unchanged, whatever its nodes, edges and nesting are. -/
theorem C208_atomic {g : Graph V} (hg : GraphOk g) (fmt : V → V → V) (fuel : Nat) {e : PyErr} {g' : Graph V}
    (h : replaceX fmt fuel g = (.error e, g')) : g' = g := by
  rcases replaceX_cases hg fmt fuel with ⟨e', h1, _⟩ | ⟨g1, h1, _⟩
  · rw [h1] at h; cases h; rfl
  · rw [h1] at h; cases h

/-- C208: the result is the one described for `replaceHighLevel`. -/
theorem C208_result {g : Graph V} (hg : GraphOk g) (fmt : V → V → V) (fuel : Nat) (g' : Graph V) :
    replaceX fmt fuel g = (.ok (), g') ↔ replaceHighLevel fmt fuel g = .ok g' := by
  rcases replaceX_cases hg fmt fuel with ⟨e', h1, h2, _⟩ | ⟨g1, h1, h2, _⟩ <;> rw [h1, h2]
  · exact ⟨fun h => (by cases h), fun h => (by cases h)⟩
  · exact ⟨fun h => (by cases h; rfl), fun h => (by cases h; rfl)⟩

theorem foldlM_error {α β : Type} {P : PyErr → Prop} {f : β → α → Py β} (hf : ∀ b a e, f b a = .error e → P e) :
    ∀ (l : List α) (b : β) {e : PyErr}, l.foldlM f b = .error e → P e
  | [], b, e, h => by cases h
  | a :: l, b, e, h => by
    rw [List.foldlM_cons] at h
    cases hb : f b a with
    | error e' => rw [hb] at h; cases h; exact hf b a _ hb
    | ok b' => rw [hb] at h; exact foldlM_error hf l b' h

theorem bind_error {α β : Type} {x : Py α} {f : α → Py β} {e : PyErr} (h : (x >>= f) = .error e) :
    x = .error e ∨ ∃ a, x = .ok a ∧ f a = .error e := by
  cases x with
  | error e' => left; cases h; rfl
  | ok a => exact .inr ⟨a, rfl, h⟩

theorem getItem_error {β : Type} {d : Dict V β} {k : V} {e : PyErr} (h : d.getItem k = .error e) : e = .key := by
  unfold Dict.getItem at h
  cases hg : d.get? k with
  | none => rw [hg] at h; cases h; rfl
  | some _ => rw [hg] at h; cases h

theorem lowNodes_error (g : Graph V) (ends : Graph V → List (Node V)) : ∀ (fuel : Nat) (id : V) {e : PyErr},
    lowNodes g ends fuel id = .error e → e = .key ∨ e = .diverge
  | 0, id, e, h => by cases h; exact .inr rfl
  | fuel + 1, id, e, h => by
    unfold lowNodes at h
    split at h
    · rcases bind_error h with h | ⟨a, _, h⟩
      · exact .inl (getItem_error h)
      · cases h
    · refine foldlM_error (P := fun e => e = .key ∨ e = .diverge) ?_ _ _ h
      intro b a e he
      split at he
      · cases he
      · rcases bind_error he with he | ⟨_, _, he⟩
        · exact lowNodes_error g ends fuel a.id he
        · cases he

/-- C208: the call raises nothing but KeyError and RecursionError. -/
theorem C208_exceptions {g : Graph V} (hg : GraphOk g) (fmt : V → V → V) (fuel : Nat) {e : PyErr}
    (h : (replaceX fmt fuel g).1 = .error e) : e = .key ∨ e = .diverge := by
  rcases replaceX_cases hg fmt fuel with ⟨e', h1, _, h3⟩ | ⟨g1, h1, _⟩
  · rw [h1] at h
    cases h
    refine foldlM_error (P := fun e => e = .key ∨ e = .diverge) ?_ _ _ h3
    intro st x e he
    unfold collect at he
    rcases bind_error he with he | ⟨a, _, he⟩
    · exact .inl (getItem_error he)
    rcases bind_error he with he | ⟨b, _, he⟩
    · exact .inl (getItem_error he)
    split at he
    · rcases bind_error he with he | ⟨_, _, he⟩
      · unfold addLowLevelEdges at he
        rcases bind_error he with he | ⟨_, _, he⟩
        · exact lowNodes_error _ _ _ _ he
        rcases bind_error he with he | ⟨_, _, he⟩
        · exact lowNodes_error _ _ _ _ he
        · cases he
      · cases he
    · cases he
  · rw [h1] at h; cases h

omit [DecidableEq V] in
theorem rank_bound {rank : V → Nat} (l : List (Edge V)) : ∃ N, ∀ e ∈ l, rank e.source < N ∧ rank e.target < N := by
  induction l with
  | nil => exact ⟨0, by simp⟩
  | cons e l ih =>
    obtain ⟨N, hN⟩ := ih
    refine ⟨N + rank e.source + rank e.target + 1, ?_⟩
    intro x hx
    rcases List.mem_cons.1 hx with rfl | hx
    · omega
    · have := hN x hx; omega

omit [DecidableEq V] in
theorem first_bad {p : Edge V → Prop} [DecidablePred p] : ∀ {l : List (Edge V)}, (∃ e ∈ l, ¬ p e) →
    ∃ pre e post, l = pre ++ e :: post ∧ (∀ x ∈ pre, p x) ∧ ¬ p e
  | [], h => by obtain ⟨_, h, _⟩ := h; cases h
  | x :: l, h => by
    by_cases hx : p x
    · obtain ⟨e, he, hp⟩ := h
      rcases List.mem_cons.1 he with rfl | he
      · exact absurd hx hp
      · obtain ⟨pre, e, post, rfl, h1, h2⟩ := first_bad (p := p) ⟨e, he, hp⟩
        exact ⟨x :: pre, e, post, rfl, by simpa using ⟨hx, h1⟩, h2⟩
    · exact ⟨[], x, l, rfl, by simp, hx⟩

/-- C208: for an acyclic nesting the call raises exactly if an edge begins or ends at an id without a node; then it raises KeyError. -/
theorem C208_missing_node {g : Graph V} (hg : GraphOk g) {rank : V → Nat} (hr : Ranked g rank) (fmt : V → V → V) :
    ∃ N, ∀ fuel, N ≤ fuel →
      ((∃ e ∈ g.edges, e.source ∉ g.nodes.keys ∨ e.target ∉ g.nodes.keys) → replaceX fmt fuel g = (.error .key, g)) ∧
      ((∀ e ∈ g.edges, e.source ∈ g.nodes.keys ∧ e.target ∈ g.nodes.keys) → ∃ g', replaceX fmt fuel g = (.ok (), g')) := by
  obtain ⟨N, hN⟩ := rank_bound (rank := rank) g.edges
  obtain ⟨M, hM⟩ : ∃ M, ∀ fuel, M ≤ fuel → (∀ e ∈ g.edges, e.source ∈ g.nodes.keys ∧ e.target ∈ g.nodes.keys) →
      ∃ g', replaceHighLevel fmt fuel g = .ok g' := by
    by_cases hends : ∀ e ∈ g.edges, e.source ∈ g.nodes.keys ∧ e.target ∈ g.nodes.keys
    · obtain ⟨M, hM⟩ := C89_replace hg hr fmt hends
      refine ⟨M, fun fuel hf _ => ?_⟩
      obtain ⟨g', h1, _⟩ := hM fuel hf
      exact ⟨g', h1⟩
    · exact ⟨0, fun _ _ h => absurd h hends⟩
  refine ⟨max N M, fun fuel hf => ⟨fun hbad => ?_, fun hends => ?_⟩⟩
  · have hbad' : ∃ e ∈ g.edges, ¬ (e.source ∈ g.nodes.keys ∧ e.target ∈ g.nodes.keys) := by
      obtain ⟨e, he, h⟩ := hbad
      exact ⟨e, he, fun hc => h.elim (fun h => h hc.1) fun h => h hc.2⟩
    obtain ⟨pre, e, post, hl, hpre, he⟩ := first_bad hbad'
    obtain ⟨st, s1, _⟩ := collect_correct hg hr fmt fuel pre
      (fun x hx => by
        have hxg : x ∈ g.edges := by rw [hl]; simp [hx]
        exact ⟨hg.edgeAttrs x hxg, (hpre x hx).1, (hpre x hx).2, by have := hN x hxg; omega, by have := hN x hxg; omega⟩)
      ([], []) (by simp [EdgesOk]) (by simp [EdgesOk]) (by simp)
    have hcol : collect fmt fuel g st e = .error .key := by
      unfold collect Dict.getItem
      by_cases hs : e.source ∈ g.nodes.keys
      · obtain ⟨a, ha⟩ := Dict.mem_keys_iff.1 hs
        have ht := Dict.get?_eq_none_iff.2 fun ht => he ⟨hs, ht⟩
        rw [ha, ht]
        rfl
      · rw [Dict.get?_eq_none_iff.2 hs]
        rfl
    have hfold : g.edges.foldlM (collect fmt fuel g) ([], []) = .error .key := by
      rw [hl, List.foldlM_append, s1]
      show (e :: post).foldlM (collect fmt fuel g) st = _
      rw [List.foldlM_cons, hcol]
      rfl
    unfold replaceX
    rw [hfold]
  · obtain ⟨g', h⟩ := hM fuel (by omega) hends
    exact ⟨g', (C208_result hg fmt fuel g').2 h⟩

/-- C208: a second call changes nothing, whatever the recursion limit is. -/
theorem C208_again {g : Graph V} (hg : GraphOk g) {rank : V → Nat} (hr : Ranked g rank) (fmt : V → V → V)
    (hends : ∀ e ∈ g.edges, e.source ∈ g.nodes.keys ∧ e.target ∈ g.nodes.keys) :
    ∃ N, ∀ fuel, N ≤ fuel → ∃ g', replaceX fmt fuel g = (.ok (), g') ∧ ∀ fuel', replaceX fmt fuel' g' = (.ok (), g') := by
  obtain ⟨N, hN⟩ := C89_replace hg hr fmt hends
  refine ⟨N, fun fuel hf => ?_⟩
  obtain ⟨g', h1, h2, h3⟩ := hN fuel hf
  refine ⟨g', (C208_result hg fmt fuel g').2 h1, fun fuel' => ?_⟩
  have hok : EdgesOk g'.edges := by
    rcases replaceX_cases hg fmt fuel with ⟨e', _, h4, _⟩ | ⟨g1, _, h4, h5⟩
    · rw [h1] at h4; cases h4
    · rw [h1] at h4; cases h4; exact h5
  have hleaf : ∀ x, Leaf g' x ↔ Leaf g x := by intro x; unfold Leaf ChildOf; rw [h2]
  have hch : ∀ x, Leaf g x → hasChildren g' x = false := by
    intro x hx
    have : hasChildren g' x = hasChildren g x := by unfold hasChildren; rw [h2]
    rw [this]
    cases hc : hasChildren g x with
    | false => rfl
    | true => exact absurd hx ((hasChildren_iff hg).1 hc)
  have hstep : ∀ e ∈ g'.edges, ∀ st, collect fmt fuel' g' st e = .ok st := by
    intro e he st
    obtain ⟨l1, l2, k1, k2⟩ : Leaf g e.source ∧ Leaf g e.target ∧ e.source ∈ g.nodes.keys ∧ e.target ∈ g.nodes.keys := by
      rcases (h3 e (hok e he)).1 ⟨e, he, edgeEq_refl (hok e he)⟩ with ⟨⟨x, hx, hq⟩, l1, l2⟩ | ⟨x, hx, _, l1, l2, _⟩
      · obtain ⟨_, q1, q2⟩ := edgeEq_ends hq
        exact ⟨l1, l2, by rw [q1]; exact (hends x hx).1, by rw [q2]; exact (hends x hx).2⟩
      · exact ⟨low_is_leaf l1, low_is_leaf l2, low_key hg (hends x hx).1 l1, low_key hg (hends x hx).2 l2⟩
    obtain ⟨a, ha⟩ := Dict.mem_keys_iff.1 k1
    obtain ⟨b, hb⟩ := Dict.mem_keys_iff.1 k2
    have haid : a.id = e.source := hg.ids _ (Dict.mem_of_get? ha)
    have hbid : b.id = e.target := hg.ids _ (Dict.mem_of_get? hb)
    unfold collect Dict.getItem
    rw [h2, ha, hb]
    show (if hasChildren g' a.id ∨ hasChildren g' b.id then _ else _) = _
    rw [haid, hbid, hch _ l1, hch _ l2, if_neg (by simp)]
    rfl
  have hfold : ∀ (l : List (Edge V)) st, (∀ e ∈ l, e ∈ g'.edges) → l.foldlM (collect fmt fuel' g') st = .ok st := by
    intro l
    induction l with
    | nil => intro st _; rfl
    | cons e l ih =>
      intro st hl
      rw [List.foldlM_cons, hstep e (hl e List.mem_cons_self)]
      exact ih st fun x hx => hl x (List.mem_cons_of_mem _ hx)
  unfold replaceX
  rw [hfold g'.edges _ fun _ h => h]
  rfl

/-- two nodes that are the parents of each other -/
def knot : Graph Nat := ⟨[(1, ⟨1, 0, some 2, []⟩), (2, ⟨2, 0, some 1, []⟩), (3, ⟨3, 0, none, []⟩)], [⟨100, 3, 1, []⟩]⟩

theorem knot_low : ∀ fuel, lowNodes knot sourceNodes fuel 1 = .error .diverge ∧ lowNodes knot sourceNodes fuel 2 = .error .diverge
  | 0 => ⟨rfl, rfl⟩
  | fuel + 1 => by
    obtain ⟨h1, h2⟩ := knot_low fuel
    have c1 : hasChildren knot 1 = true := by decide
    have c2 : hasChildren knot 2 = true := by decide
    have e1 : sourceNodes (subgraph knot 1) = [⟨2, 0, some 1, []⟩] := by decide
    have e2 : sourceNodes (subgraph knot 2) = [⟨1, 0, some 2, []⟩] := by decide
    constructor
    · unfold lowNodes
      rw [c1, e1]
      simp only [not_true_eq_false, if_false, List.foldlM_cons, c2, h2]
      rfl
    · unfold lowNodes
      rw [c2, e2]
      simp only [not_true_eq_false, if_false, List.foldlM_cons, c1, h1]
      rfl

/-- C208: with a cyclic nesting no recursion limit is enough; the call raises RecursionError and leaves the graph as it was. -/
theorem C208_cyclic_nesting (fmt : Nat → Nat → Nat) (fuel : Nat) : replaceX fmt fuel knot = (.error .diverge, knot) := by
  have hc : collect fmt fuel knot ([], []) ⟨100, 3, 1, []⟩ = .error .diverge := by
    have hl : addLowLevelEdges fmt fuel knot 3 1 [] = .error .diverge := by
      unfold addLowLevelEdges
      rw [(knot_low fuel).1]
      cases fuel <;> rfl
    show (addLowLevelEdges fmt fuel knot 3 1 [] >>= fun r => pure (edgeAdd [] ⟨100, 3, 1, []⟩, r)) = _
    rw [hl]
    rfl
  have hf : knot.edges.foldlM (collect fmt fuel knot) ([], []) = .error .diverge := by
    show [(⟨100, 3, 1, []⟩ : Edge Nat)].foldlM (collect fmt fuel knot) ([], []) = _
    rw [List.foldlM_cons, hc]
    rfl
  unfold replaceX
  rw [hf]

example : hasChildren knot 1 ∧ hasChildren knot 2 ∧ ¬ hasChildren knot 3 := by decide

/-- an edge to the missing node 9 after a high-level edge: nothing is replaced -/
def dangling : Graph Nat :=
  ⟨[(1, ⟨1, 0, none, []⟩), (2, ⟨2, 0, none, []⟩), (3, ⟨3, 0, some 1, []⟩)], [⟨100, 1, 2, []⟩, ⟨101, 2, 9, []⟩]⟩

example : GraphOk dangling ∧ Ranked dangling (fun v => if v ≤ 2 then 1 else 0) ∧
    replaceX (fun a b => 10 * a + b) 5 dangling = (.error .key, dangling) ∧
    replaceX (fun a b => 10 * a + b) 5 { dangling with edges := [⟨100, 1, 2, []⟩] } = (.ok (), { dangling with edges := [⟨32, 3, 2, []⟩] }) := by
  refine ⟨⟨by unfold Dict.WF; decide, by decide, ?_, ?_, by decide⟩, ?_, by rfl, by rfl⟩
  · intro p hp
    simp [dangling] at hp
    rcases hp with rfl | rfl | rfl <;> exact Dict.WF.nil
  · intro p hp
    simp [dangling] at hp
    rcases hp with rfl | rfl <;> exact Dict.WF.nil
  · rintro id c ⟨hc, hp⟩
    simp [dangling] at hc
    rcases hc with ⟨_, rfl⟩ | ⟨_, rfl⟩ | ⟨_, rfl⟩ <;> simp at hp <;> subst hp <;> decide

example : (replaceX (fun a b => 10 * a + b) 5 sample).2.edges = [⟨101, 3, 4, []⟩, ⟨45, 4, 5, []⟩] := by rfl

end Prolothar.Nested
