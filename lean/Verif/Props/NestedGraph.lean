import Verif.Spec.NestedGraph
import Mathlib.Data.List.Perm.Subperm
import Mathlib.Data.List.Basic
/-
Nested graphs: C55, C89, C90.
-/
set_option linter.unusedSectionVars false
set_option linter.unusedSimpArgs false
set_option linter.unusedVariables false
namespace Prolothar.Nested
open Prolothar.Spec.Nested

variable {V : Type} [DecidableEq V]

/-! ### equality of dictionaries and edges -/

theorem dictEq_iff {d d' : Dict String V} (h : d.WF) (h' : d'.WF) :
    dictEq d d' = true ↔ ∀ k, d.get? k = d'.get? k := by
  unfold dictEq
  simp only [Bool.and_eq_true, beq_iff_eq, List.all_eq_true, decide_eq_true_eq]
  constructor
  · rintro ⟨hl, hall⟩ k
    have hsub : d.keys ⊆ d'.keys := by
      intro k hk
      obtain ⟨p, hp, rfl⟩ := List.mem_map.1 hk
      exact Dict.mem_keys_iff.2 ⟨_, hall p hp⟩
    have hsp := List.subperm_of_subset h hsub
    have hperm := hsp.perm_of_length_le (by simp [Dict.keys, hl])
    cases hg : d.get? k with
    | some v => exact (hall _ (Dict.mem_of_get? hg)).symm
    | none =>
      have : k ∉ d'.keys := fun hc => (Dict.get?_eq_none_iff.1 hg) (hperm.mem_iff.2 hc)
      exact (Dict.get?_eq_none_iff.2 this).symm
  · intro hk
    constructor
    · have h1 : d.keys ⊆ d'.keys := fun k hm => by
        obtain ⟨v, hv⟩ := Dict.mem_keys_iff.1 hm
        exact Dict.mem_keys_iff.2 ⟨v, by rw [← hk]; exact hv⟩
      have h2 : d'.keys ⊆ d.keys := fun k hm => by
        obtain ⟨v, hv⟩ := Dict.mem_keys_iff.1 hm
        exact Dict.mem_keys_iff.2 ⟨v, by rw [hk]; exact hv⟩
      have e1 := (List.subperm_of_subset h h1).length_le
      have e2 := (List.subperm_of_subset h' h2).length_le
      simp only [Dict.keys, List.length_map] at e1 e2
      omega
    · intro p hp
      rw [← hk]; exact Dict.get?_of_mem h hp

/-- edges of python: their attributes are dictionaries -/
def EdgesOk (l : List (Edge V)) : Prop := ∀ e ∈ l, e.attrs.WF

theorem edgeEq_iff {a b : Edge V} (ha : a.attrs.WF) (hb : b.attrs.WF) :
    edgeEq a b = true ↔ a.id = b.id ∧ a.source = b.source ∧ a.target = b.target ∧ ∀ k, a.attrs.get? k = b.attrs.get? k := by
  unfold edgeEq
  simp only [Bool.and_eq_true, decide_eq_true_eq, dictEq_iff ha hb, and_assoc]

theorem edgeEq_ends {a b : Edge V} (h : edgeEq a b = true) : a.id = b.id ∧ a.source = b.source ∧ a.target = b.target := by
  unfold edgeEq at h
  simp only [Bool.and_eq_true, decide_eq_true_eq] at h
  exact ⟨h.1.1.1, h.1.1.2, h.1.2⟩

theorem edgeEq_refl {a : Edge V} (ha : a.attrs.WF) : edgeEq a a = true := (edgeEq_iff ha ha).2 ⟨rfl, rfl, rfl, fun _ => rfl⟩

theorem edgeEq_symm {a b : Edge V} (ha : a.attrs.WF) (hb : b.attrs.WF) (h : edgeEq a b = true) : edgeEq b a = true := by
  rw [edgeEq_iff ha hb] at h
  rw [edgeEq_iff hb ha]
  exact ⟨h.1.symm, h.2.1.symm, h.2.2.1.symm, fun k => (h.2.2.2 k).symm⟩

theorem edgeEq_trans {a b c : Edge V} (ha : a.attrs.WF) (hb : b.attrs.WF) (hc : c.attrs.WF)
    (h : edgeEq a b = true) (h' : edgeEq b c = true) : edgeEq a c = true := by
  rw [edgeEq_iff ha hb] at h
  rw [edgeEq_iff hb hc] at h'
  rw [edgeEq_iff ha hc]
  exact ⟨h.1.trans h'.1, h.2.1.trans h'.2.1, h.2.2.1.trans h'.2.2.1, fun k => (h.2.2.2 k).trans (h'.2.2.2 k)⟩

/-- `e in edges` -/
def In (e : Edge V) (l : List (Edge V)) : Prop := ∃ e' ∈ l, edgeEq e e' = true

theorem edgeAdd_ok {l : List (Edge V)} (hl : EdgesOk l) {e : Edge V} (he : e.attrs.WF) : EdgesOk (edgeAdd l e) := by
  unfold edgeAdd
  split
  · exact hl
  · intro x hx
    rcases List.mem_append.1 hx with hx | hx
    · exact hl x hx
    · rw [List.mem_singleton.1 hx]; exact he

theorem in_edgeAdd {l : List (Edge V)} (hl : EdgesOk l) {e x : Edge V} (he : e.attrs.WF) (hx : x.attrs.WF) :
    In x (edgeAdd l e) ↔ In x l ∨ edgeEq x e = true := by
  unfold edgeAdd
  split
  · rename_i hany
    obtain ⟨e0, h0, h1⟩ := List.any_eq_true.1 hany
    constructor
    · exact .inl
    · rintro (h | h)
      · exact h
      · exact ⟨e0, h0, edgeEq_trans hx he (hl e0 h0) h h1⟩
  · constructor
    · rintro ⟨e', he', h⟩
      rcases List.mem_append.1 he' with he' | he'
      · exact .inl ⟨e', he', h⟩
      · rw [List.mem_singleton.1 he'] at h; exact .inr h
    · rintro (⟨e', he', h⟩ | h)
      · exact ⟨e', by simp [he'], h⟩
      · exact ⟨e, by simp, h⟩

/-! ### C55 round trip -/

/-- a graph made by `add_node`, `add_edge`: nodes are stored under their id, no two equal edges, and
attributes are dictionaries -/
structure GraphOk (g : Graph V) : Prop where
  keys : g.nodes.WF
  ids : ∀ p ∈ g.nodes, p.2.id = p.1
  nodeAttrs : ∀ p ∈ g.nodes, p.2.attrs.WF
  edgeAttrs : EdgesOk g.edges
  distinct : g.edges.Pairwise fun a b => edgeEq a b = false

/-- no attribute has one of the names of the dictionary form -/
def NoReserved (g : Graph V) : Prop :=
  (∀ p ∈ g.nodes, ∀ k ∈ ["id", "label", "parent"], k ∉ p.2.attrs.keys) ∧
  ∀ e ∈ g.edges, ∀ k ∈ ["id", "source", "target"], k ∉ e.attrs.keys

theorem put_fresh {κ ν : Type} [DecidableEq κ] (d : Dict κ ν) {k : κ} {v : ν} (hk : k ∉ d.keys) : d.put k v = d ++ [(k, v)] := by
  induction d with
  | nil => rfl
  | cons q d ihd =>
    obtain ⟨k', v'⟩ := q
    simp only [Dict.keys, List.map_cons, List.mem_cons, not_or] at hk
    rw [Dict.put, if_neg (Ne.symm hk.1), ihd hk.2]; rfl

theorem foldl_put_fresh (attrs d : Dict String V) (hw : attrs.WF) (hd : ∀ k ∈ attrs.keys, k ∉ d.keys) :
    attrs.foldl (fun d p => d.put p.1 p.2) d = d ++ attrs := by
  induction attrs generalizing d with
  | nil => simp
  | cons p attrs ih =>
    obtain ⟨k, v⟩ := p
    have hk : k ∉ d.keys := hd k (by simp [Dict.keys])
    rw [List.foldl_cons]
    have hw' : (k :: attrs.map Prod.fst).Nodup := hw
    rw [List.nodup_cons] at hw'
    rw [ih (d.put k v) hw'.2]
    · rw [put_fresh d hk]; simp
    · intro x hx
      rw [Dict.mem_keys_put]
      rintro (hc | hc)
      · rw [hc] at hx; exact hw'.1 hx
      · exact hd x (by simp only [Dict.keys, List.map_cons, List.mem_cons]; exact .inr hx) hc

theorem filter_attrs (attrs : Dict String V) (names : List String) (h : ∀ k ∈ names, k ∉ attrs.keys) :
    attrs.filter (fun p => decide (p.1 ∉ names)) = attrs := by
  rw [List.filter_eq_self]
  intro p hp
  simp only [decide_eq_true_eq]
  intro hc
  exact h _ hc (List.mem_map.2 ⟨p, hp, rfl⟩)

theorem node_round_trip {n : Node V} (hw : n.attrs.WF) (hr : ∀ k ∈ ["id", "label", "parent"], k ∉ n.attrs.keys) :
    nodeFromDict (nodeToDict n) = .ok n := by
  obtain ⟨id, label, parent, attrs⟩ := n
  simp only at hw hr
  cases parent with
  | none =>
    have hd : nodeToDict ⟨id, label, none, attrs⟩ = [("id", id), ("label", label)] ++ attrs := by
      unfold nodeToDict
      exact foldl_put_fresh attrs _ hw (by
        intro k hk hc
        have : k ∈ ["id", "label"] := hc
        exact hr k (by simp at *; tauto) hk)
    rw [hd]
    have hp : Dict.get? attrs "parent" = none := Dict.get?_eq_none_iff.2 (hr "parent" (by simp))
    have hf := filter_attrs attrs _ hr
    show Except.ok (⟨id, label, Dict.get? attrs "parent", List.filter _ (("id", id) :: ("label", label) :: attrs)⟩ : Node V) = _
    rw [List.filter_cons_of_neg (by simp), List.filter_cons_of_neg (by simp), hf, hp]
  | some p =>
    have hd : nodeToDict ⟨id, label, some p, attrs⟩ = [("id", id), ("label", label), ("parent", p)] ++ attrs := by
      unfold nodeToDict
      exact foldl_put_fresh attrs _ hw (by
        intro k hk hc
        have : k ∈ ["id", "label", "parent"] := hc
        exact hr k this hk)
    rw [hd]
    have hf := filter_attrs attrs _ hr
    show Except.ok (⟨id, label, some p, List.filter _ (("id", id) :: ("label", label) :: ("parent", p) :: attrs)⟩ : Node V) = _
    rw [List.filter_cons_of_neg (by simp), List.filter_cons_of_neg (by simp), List.filter_cons_of_neg (by simp), hf]

theorem edge_round_trip {e : Edge V} (hw : e.attrs.WF) (hr : ∀ k ∈ ["id", "source", "target"], k ∉ e.attrs.keys) :
    edgeFromDict (edgeToDict e) = .ok e := by
  obtain ⟨id, s, t, attrs⟩ := e
  simp only at hw hr
  have hd : edgeToDict ⟨id, s, t, attrs⟩ = [("id", id), ("source", s), ("target", t)] ++ attrs := by
    unfold edgeToDict
    exact foldl_put_fresh attrs _ hw (by
      intro k hk hc
      have : k ∈ ["id", "source", "target"] := hc
      exact hr k this hk)
  rw [hd]
  have hf := filter_attrs attrs _ hr
  show Except.ok (⟨id, s, t, List.filter _ (("id", id) :: ("source", s) :: ("target", t) :: attrs)⟩ : Edge V) = _
  rw [List.filter_cons_of_neg (by simp), List.filter_cons_of_neg (by simp), List.filter_cons_of_neg (by simp), hf]

theorem nodes_round_trip (l : Dict V (Node V)) (g : Graph V) (hid : ∀ p ∈ l, p.2.id = p.1)
    (hd : (g.nodes ++ l).keys.Nodup)
    (hn : ∀ p ∈ l, nodeFromDict (nodeToDict p.2) = .ok p.2) :
    (l.values.map nodeToDict).foldlM (fun g nd => do
      let n ← nodeFromDict nd
      return addNode g n) g = (.ok { g with nodes := g.nodes ++ l } : Py (Graph V)) := by
  induction l generalizing g with
  | nil => simp [Dict.values]; rfl
  | cons p l ih =>
    obtain ⟨k, n⟩ := p
    have hk : n.id = k := hid (k, n) (by simp)
    show List.foldlM _ g (nodeToDict n :: _) = _
    rw [List.foldlM_cons, hn (k, n) (by simp)]
    show List.foldlM _ (addNode g n) _ = _
    have hfresh : k ∉ Dict.keys g.nodes := by
      intro hc
      unfold Dict.keys at hd hc
      rw [List.map_append, List.nodup_append] at hd
      exact hd.2.2 k hc k (by simp) rfl
    have hadd : addNode g n = { g with nodes := g.nodes ++ [(k, n)] } := by
      unfold addNode; rw [hk, put_fresh _ hfresh]
    have := ih (addNode g n) (fun p hp => hid p (by simp [hp])) (by rw [hadd]; simpa using hd)
      (fun p hp => hn p (by simp [hp]))
    rw [hadd] at this ⊢
    refine this.trans ?_
    simp

theorem edges_round_trip (l : List (Edge V)) (g : Graph V)
    (hd : (g.edges ++ l).Pairwise fun a b => edgeEq a b = false) (hok : EdgesOk (g.edges ++ l))
    (hn : ∀ e ∈ l, edgeFromDict (edgeToDict e) = .ok e) :
    (l.map edgeToDict).foldlM (fun g ed => do
      let e ← edgeFromDict ed
      return addEdge g e) g = (.ok { g with edges := g.edges ++ l } : Py (Graph V)) := by
  induction l generalizing g with
  | nil => simp; rfl
  | cons e l ih =>
    rw [List.map_cons, List.foldlM_cons, hn e (by simp)]
    show List.foldlM _ (addEdge g e) _ = _
    have hadd : addEdge g e = { g with edges := g.edges ++ [e] } := by
      unfold addEdge edgeAdd
      rw [if_neg]
      intro hc
      obtain ⟨e0, h0, h1⟩ := List.any_eq_true.1 hc
      have := (List.pairwise_append.1 hd).2.2 e0 h0 e (by simp)
      have h2 := edgeEq_symm (hok e (by simp)) (hok e0 (by simp [h0])) h1
      rw [h2] at this; cases this
    have := ih (addEdge g e) (by rw [hadd]; simpa using hd) (by rw [hadd]; simpa using hok)
      (fun x hx => hn x (by simp [hx]))
    rw [hadd] at this ⊢
    refine this.trans ?_
    simp

/-- C55: the dictionary form restores nodes with labels, parents and attributes in their order, and
the edges, in whatever order the set of edges was written. -/
theorem C55_round_trip {g : Graph V} (hg : GraphOk g) (hr : NoReserved g) (written : List (Edge V))
    (hw : written.Perm g.edges) :
    fromDict (toDict { g with edges := written }) = .ok { g with edges := written } := by
  unfold fromDict toDict
  simp only
  rw [nodes_round_trip g.nodes new hg.ids (by exact hg.keys)
    (fun p hp => node_round_trip (hg.nodeAttrs p hp) (hr.1 p hp))]
  show List.foldlM _ _ _ = _
  have hmem : ∀ e, e ∈ written ↔ e ∈ g.edges := fun e => hw.mem_iff
  have hpw : written.Pairwise fun a b => edgeEq a b = false := by
    have hsym : ∀ a ∈ g.edges, ∀ b ∈ g.edges, edgeEq a b = false → edgeEq b a = false := by
      intro a ha b hb h
      cases hc : edgeEq b a with
      | false => rfl
      | true =>
        rw [edgeEq_symm (hg.edgeAttrs b hb) (hg.edgeAttrs a ha) hc] at h
        cases h
    have h1 := hg.distinct
    have h2 : g.edges.Pairwise fun a b => edgeEq a b = false ∧ edgeEq b a = false := by
      refine List.Pairwise.imp_of_mem ?_ h1
      intro a b ha hb h
      exact ⟨h, hsym a ha b hb h⟩
    exact (hw.symm.pairwise h2 (fun {a b} h => And.intro h.2 h.1)).imp fun h => h.1
  refine (edges_round_trip written _ (by simpa [new] using hpw) ?_ ?_).trans ?_
  · intro e he
    simp [new] at he
    exact hg.edgeAttrs e ((hmem e).1 he)
  · intro e he
    have := (hmem e).1 he
    exact edge_round_trip (hg.edgeAttrs e this) (hr.2 e this)
  · simp [new]

theorem dictEq_refl {d : Dict String V} (h : d.WF) : dictEq d d = true := (dictEq_iff h h).2 fun _ => rfl

/-- C55: the restored graph is equal to the original in the sense of `==`. -/
theorem C55_equal {g : Graph V} (hg : GraphOk g) (hr : NoReserved g) (written : List (Edge V))
    (hw : written.Perm g.edges) :
    ∃ g', fromDict (toDict { g with edges := written }) = .ok g' ∧ graphEq g' g = true := by
  refine ⟨_, C55_round_trip hg hr written hw, ?_⟩
  unfold graphEq
  simp only [Bool.and_eq_true, beq_iff_eq, List.all_eq_true]
  refine ⟨⟨trivial, ?_⟩, hw.length_eq, ?_⟩
  · rintro ⟨k, n⟩ hp
    rw [Dict.get?_of_mem hg.keys hp]
    unfold nodeEq
    simp [dictEq_refl (hg.nodeAttrs _ hp)]
  · intro e he
    rw [List.any_eq_true]
    have := hw.mem_iff.1 he
    exact ⟨e, this, edgeEq_refl (hg.edgeAttrs e this)⟩

/-- C55: without the restriction it fails: an attribute named like a reserved key overwrites it. -/
theorem C55_reserved_key :
    ∃ g : Graph Nat, GraphOk g ∧ ∃ g', fromDict (toDict g) = .ok g' ∧ graphEq g' g = false := by
  refine ⟨⟨[(1, ⟨1, 10, none, [("parent", 5)]⟩)], []⟩,
    ⟨by unfold Dict.WF; decide, by decide, ?_, by simp [EdgesOk], List.Pairwise.nil⟩,
    _, rfl, by decide⟩
  intro p hp
  simp at hp
  subst hp
  unfold Dict.WF
  decide

/-- C55: equality of graphs does not look at the labels. -/
theorem C55_labels_ignored (n : Node V) (l : V) (hn : n.attrs.WF) :
    graphEq (addNode new n) (addNode new { n with label := l }) = true := by
  unfold graphEq addNode new
  simp [Dict.put, Dict.get?, nodeEq, dictEq_refl hn]

/-- graphs made by the API satisfy the conditions -/
theorem GraphOk.new : GraphOk (new : Graph V) := ⟨Dict.WF.nil, by simp [Nested.new], by simp [Nested.new], by simp [EdgesOk, Nested.new], .nil⟩

theorem mem_put {d : Dict V (Node V)} (hd : d.WF) {k : V} {n : Node V} {p : V × Node V} (hp : p ∈ d.put k n) :
    p = (k, n) ∨ p ∈ d := by
  obtain ⟨x, m⟩ := p
  have := Dict.get?_of_mem (hd.put k n) hp
  rw [Dict.get?_put] at this
  split at this
  · rename_i h; cases this; rw [h]; exact .inl rfl
  · exact .inr (Dict.mem_of_get? this)

theorem GraphOk.addNode {g : Graph V} (hg : GraphOk g) {n : Node V} (hn : n.attrs.WF) : GraphOk (addNode g n) := by
  refine ⟨hg.keys.put _ _, ?_, ?_, hg.edgeAttrs, hg.distinct⟩
  · intro p hp
    rcases mem_put hg.keys hp with rfl | hp
    · rfl
    · exact hg.ids p hp
  · intro p hp
    rcases mem_put hg.keys hp with rfl | hp
    · exact hn
    · exact hg.nodeAttrs p hp

theorem GraphOk.addEdge {g : Graph V} (hg : GraphOk g) {e : Edge V} (he : e.attrs.WF) : GraphOk (addEdge g e) := by
  refine ⟨hg.keys, hg.ids, hg.nodeAttrs, edgeAdd_ok hg.edgeAttrs he, ?_⟩
  show (edgeAdd g.edges e).Pairwise _
  unfold edgeAdd
  split
  · exact hg.distinct
  · rename_i hn
    rw [List.pairwise_append]
    refine ⟨hg.distinct, by simp, ?_⟩
    intro a ha b hb
    rw [List.mem_singleton.1 hb]
    cases hc : edgeEq a e with
    | false => rfl
    | true =>
      exact absurd (List.any_eq_true.2 ⟨a, ha, edgeEq_symm (hg.edgeAttrs a ha) he hc⟩) hn

example : let g := addEdge (addNode (addNode (new : Graph Nat) ⟨1, 10, none, [("size", 3)]⟩) ⟨2, 20, some 1, []⟩) ⟨7, 1, 2, [("w", 4)]⟩
    GraphOk g ∧ NoReserved g := by
  refine ⟨((GraphOk.new.addNode (by unfold Dict.WF; decide)).addNode (by unfold Dict.WF; decide)).addEdge (by unfold Dict.WF; decide), ?_, ?_⟩
  · decide
  · decide

/-! ### C89 low-level edges -/

theorem foldl_edgeAdd (l : List (Edge V)) : ∀ (acc : List (Edge V)), EdgesOk acc → EdgesOk l →
    EdgesOk (l.foldl edgeAdd acc) ∧
    ∀ x : Edge V, x.attrs.WF → (In x (l.foldl edgeAdd acc) ↔ In x acc ∨ In x l) := by
  induction l with
  | nil => intro acc ha _; exact ⟨ha, fun x _ => by simp [In]⟩
  | cons e l ih =>
    intro acc ha hl
    have he : e.attrs.WF := hl e (by simp)
    obtain ⟨h1, h2⟩ := ih (edgeAdd acc e) (edgeAdd_ok ha he) (fun x hx => hl x (by simp [hx]))
    refine ⟨h1, fun x hx => ?_⟩
    rw [List.foldl_cons, h2 x hx, in_edgeAdd ha he hx]
    simp only [In, List.mem_cons, or_and_right, exists_or, exists_eq_left, or_assoc]

theorem subgraph_fold (g : Graph V) (cs : List (Node V)) : ∀ s : Graph V,
    cs.foldl (fun s n => (outgoing g n.id).foldl addEdge (addNode s n)) s =
      ⟨cs.foldl (fun d n => d.put n.id n) s.nodes, (cs.flatMap fun n => outgoing g n.id).foldl edgeAdd s.edges⟩ := by
  have hin : ∀ (l : List (Edge V)) (s : Graph V), l.foldl addEdge s = ⟨s.nodes, l.foldl edgeAdd s.edges⟩ := by
    intro l
    induction l with
    | nil => intro s; rfl
    | cons e l ih => intro s; rw [List.foldl_cons, ih]; rfl
  induction cs with
  | nil => intro s; rfl
  | cons c cs ih =>
    intro s
    rw [List.foldl_cons, ih, hin]
    simp [addNode]

theorem foldl_put_nodes (cs : List (Node V)) : ∀ d : Dict V (Node V), (d.keys ++ cs.map (·.id)).Nodup →
    cs.foldl (fun d n => d.put n.id n) d = d ++ cs.map fun n => (n.id, n) := by
  induction cs with
  | nil => intro d _; simp
  | cons c cs ih =>
    intro d hd
    have hf : c.id ∉ d.keys := by
      intro hc
      rw [List.nodup_append] at hd
      exact hd.2.2 _ hc _ (by simp) rfl
    rw [List.foldl_cons, put_fresh d hf, ih]
    · simp
    · simp only [Dict.keys, List.map_append, List.map_cons, List.map_nil, List.append_assoc, List.singleton_append]
      exact hd

theorem mem_values {g : Graph V} (hg : GraphOk g) {n : Node V} : n ∈ g.nodes.values ↔ (n.id, n) ∈ g.nodes := by
  unfold Dict.values
  constructor
  · intro h
    obtain ⟨p, hp, rfl⟩ := List.mem_map.1 h
    rw [hg.ids p hp]; exact hp
  · intro h; exact List.mem_map.2 ⟨_, h, rfl⟩

theorem mem_children {g : Graph V} (hg : GraphOk g) {id : V} {n : Node V} : n ∈ children g id ↔ ChildOf g id n := by
  unfold children ChildOf
  simp [mem_values hg]

theorem hasChildren_iff {g : Graph V} (hg : GraphOk g) {id : V} : hasChildren g id = true ↔ ¬ Leaf g id := by
  unfold hasChildren Leaf ChildOf
  simp [mem_values hg]

theorem hasChildren_false {g : Graph V} (hg : GraphOk g) {id : V} : hasChildren g id = false ↔ Leaf g id := by
  have := hasChildren_iff hg (id := id)
  cases h : hasChildren g id <;> simp [h] at this ⊢
  · exact this
  · exact this

theorem values_ids_nodup {g : Graph V} (hg : GraphOk g) : (g.nodes.values.map (·.id)).Nodup := by
  have : g.nodes.values.map (·.id) = g.nodes.keys := by
    unfold Dict.values Dict.keys
    rw [List.map_map]
    exact List.map_congr_left fun p hp => hg.ids p hp
  rw [this]; exact hg.keys

theorem subgraph_values {g : Graph V} (hg : GraphOk g) (id : V) : (subgraph g id).nodes.values = children g id := by
  unfold subgraph
  rw [subgraph_fold]
  simp only [new]
  rw [foldl_put_nodes]
  · simp [Dict.values, Function.comp_def]
  · simp only [Dict.keys, List.map_nil, List.nil_append]
    exact (values_ids_nodup hg).sublist (List.Sublist.map _ List.filter_sublist)

theorem subgraph_edges {g : Graph V} (hg : GraphOk g) (id : V) :
    EdgesOk (subgraph g id).edges ∧
    ∀ x : Edge V, x.attrs.WF → (In x (subgraph g id).edges ↔ ∃ e ∈ g.edges, edgeEq x e = true ∧ ∃ c, ChildOf g id c ∧ e.source = c.id) := by
  unfold subgraph
  rw [subgraph_fold]
  have hl : EdgesOk ((children g id).flatMap fun n => outgoing g n.id) := by
    intro e he
    obtain ⟨n, _, hn⟩ := List.mem_flatMap.1 he
    exact hg.edgeAttrs e (List.mem_of_mem_filter hn)
  obtain ⟨h1, h2⟩ := foldl_edgeAdd _ [] (by simp [EdgesOk]) hl
  refine ⟨h1, fun x hx => ?_⟩
  simp only [new]
  rw [h2 x hx]
  simp only [In, List.mem_flatMap, outgoing, List.mem_filter, decide_eq_true_eq, mem_children hg]
  constructor
  · rintro (⟨e, he, _⟩ | ⟨e, ⟨c, hc, he, hs⟩, hq⟩)
    · cases he
    · exact ⟨e, he, hq, c, hc, hs⟩
  · rintro ⟨e, he, hq, c, hc, hs⟩
    exact .inr ⟨e, ⟨c, hc, he, hs⟩, hq⟩

theorem subgraph_has_edge {g : Graph V} (hg : GraphOk g) (id : V) (P : V → V → Prop) :
    (∃ e ∈ (subgraph g id).edges, P e.source e.target) ↔
      ∃ e ∈ g.edges, P e.source e.target ∧ ∃ c, ChildOf g id c ∧ e.source = c.id := by
  obtain ⟨h1, h2⟩ := subgraph_edges hg id
  constructor
  · rintro ⟨e, he, hp⟩
    obtain ⟨e', he', hq, hc⟩ := (h2 e (h1 e he)).1 ⟨e, he, edgeEq_refl (h1 e he)⟩
    obtain ⟨_, h3, h4⟩ := edgeEq_ends hq
    exact ⟨e', he', by rw [← h3, ← h4]; exact hp, hc⟩
  · rintro ⟨e, he, hp, hc⟩
    obtain ⟨e', he', hq⟩ := (h2 e (hg.edgeAttrs e he)).2 ⟨e, he, edgeEq_refl (hg.edgeAttrs e he), hc⟩
    obtain ⟨_, h3, h4⟩ := edgeEq_ends hq
    exact ⟨e', he', by rw [← h3, ← h4]; exact hp⟩

theorem mem_sinks {g : Graph V} (hg : GraphOk g) (id : V) (n : Node V) :
    n ∈ sinkNodes (subgraph g id) ↔ ChildOf g id n ∧ NoOut g id n.id := by
  unfold sinkNodes outgoing
  rw [subgraph_values hg]
  simp only [List.mem_filter, mem_children hg, decide_eq_true_eq, List.length_eq_zero_iff, List.filter_eq_nil_iff]
  refine and_congr_right fun hc => ?_
  have := subgraph_has_edge hg id (fun s _ => s = n.id)
  unfold NoOut
  constructor
  · intro h e he hs
    obtain ⟨e', he', hs'⟩ := this.2 ⟨e, he, hs, n, hc, hs⟩
    exact h e' he' hs'
  · intro h e he hs
    obtain ⟨e', he', hs', _⟩ := this.1 ⟨e, he, hs⟩
    exact h e' he' hs'

theorem mem_sources {g : Graph V} (hg : GraphOk g) (id : V) (n : Node V) :
    n ∈ sourceNodes (subgraph g id) ↔ ChildOf g id n ∧ NoInFromSiblings g id n.id := by
  unfold sourceNodes ingoing
  rw [subgraph_values hg]
  simp only [List.mem_filter, mem_children hg, decide_eq_true_eq, List.length_eq_zero_iff, List.filter_eq_nil_iff]
  refine and_congr_right fun hc => ?_
  have := subgraph_has_edge hg id (fun _ t => t = n.id)
  unfold NoInFromSiblings
  constructor
  · intro h e he ht c hcc hs
    obtain ⟨e', he', ht'⟩ := this.2 ⟨e, he, ht, c, hcc, hs⟩
    exact h e' he' ht'
  · intro h e he ht
    obtain ⟨e', he', ht', c, hcc, hs⟩ := this.1 ⟨e, he, ht⟩
    exact h e' he' ht' c hcc hs

theorem low_leaf {g : Graph V} {take : V → V → Prop} {id m : V} (hl : Leaf g id) : Low g take id m ↔ m = id := by
  constructor
  · intro h
    cases h with
    | leaf _ => rfl
    | down hc _ _ => exact absurd hc (hl _)
  · rintro rfl; exact .leaf hl

theorem low_inner {g : Graph V} {take : V → V → Prop} {id m : V} (hl : ¬ Leaf g id) :
    Low g take id m ↔ ∃ c, ChildOf g id c ∧ take id c.id ∧ Low g take c.id m := by
  constructor
  · intro h
    cases h with
    | leaf h => exact absurd h hl
    | down hc ht h => exact ⟨_, hc, ht, h⟩
  · rintro ⟨c, hc, ht, h⟩; exact .down hc ht h

theorem node_unique {g : Graph V} (hg : GraphOk g) {n m : Node V} (hn : (n.id, n) ∈ g.nodes) (hm : (m.id, m) ∈ g.nodes)
    (h : m.id = n.id) : m = n := by
  have h1 := Dict.get?_of_mem hg.keys hn
  have h2 := Dict.get?_of_mem hg.keys hm
  rw [h] at h2
  rw [h1] at h2
  exact (Option.some.inj h2).symm

theorem lowNodes_correct {g : Graph V} (hg : GraphOk g) {ends : Graph V → List (Node V)} {take : V → V → Prop}
    (hends : ∀ id n, n ∈ ends (subgraph g id) ↔ ChildOf g id n ∧ take id n.id)
    {rank : V → Nat} (hr : Ranked g rank) (fuel : Nat) : ∀ id, id ∈ g.nodes.keys → rank id < fuel →
    ∃ l, lowNodes g ends fuel id = .ok l ∧ ∀ m, m ∈ l ↔ (m.id, m) ∈ g.nodes ∧ Low g take id m.id := by
  induction fuel with
  | zero => intro id _ h; omega
  | succ fuel ih =>
    intro id hid hf
    rw [lowNodes]
    have hleaf : ∀ n : Node V, (n.id, n) ∈ g.nodes → Leaf g n.id → ∀ m, m ∈ [n] ↔ (m.id, m) ∈ g.nodes ∧ Low g take n.id m.id := by
      intro n hn hl m
      rw [low_leaf hl, List.mem_singleton]
      constructor
      · rintro rfl; exact ⟨hn, rfl⟩
      · rintro ⟨hm, h⟩; exact node_unique hg hn hm h
    by_cases hch : hasChildren g id = true
    · rw [if_neg (by simp [hch])]
      have hnl := (hasChildren_iff hg).1 hch
      have key : ∀ (S : List (Node V)) (acc : List (Node V)), (∀ s ∈ S, ChildOf g id s) →
          ∃ l, S.foldlM (fun acc s =>
            if ¬ hasChildren g s.id then .ok (acc ++ [s])
            else do
              let l ← lowNodes g ends fuel s.id
              return acc ++ l) acc = (.ok l : Py _) ∧
          ∀ m, m ∈ l ↔ m ∈ acc ∨ ∃ s ∈ S, (m.id, m) ∈ g.nodes ∧ Low g take s.id m.id := by
        intro S
        induction S with
        | nil => intro acc _; exact ⟨acc, rfl, by simp⟩
        | cons s S ihS =>
          intro acc hS
          have hs := hS s (by simp)
          rw [List.foldlM_cons]
          have hstep : ∃ r, (if ¬ hasChildren g s.id = true then (.ok (acc ++ [s]) : Py _)
              else do
                let l ← lowNodes g ends fuel s.id
                return acc ++ l) = .ok (acc ++ r) ∧ ∀ m, m ∈ r ↔ (m.id, m) ∈ g.nodes ∧ Low g take s.id m.id := by
            by_cases hcs : hasChildren g s.id = true
            · rw [if_neg (by simp [hcs])]
              obtain ⟨r, h1, h2⟩ := ih s.id (List.mem_map.2 ⟨_, hs.1, rfl⟩) (by have := hr id s hs; omega)
              rw [h1]
              exact ⟨r, rfl, h2⟩
            · rw [if_pos hcs]
              exact ⟨[s], rfl, hleaf s hs.1 ((hasChildren_false hg).1 (by simpa using hcs))⟩
          obtain ⟨r, h1, h2⟩ := hstep
          rw [h1]
          obtain ⟨l, h3, h4⟩ := ihS (acc ++ r) (fun x hx => hS x (by simp [hx]))
          refine ⟨l, h3, fun m => ?_⟩
          rw [h4 m, List.mem_append, h2 m]
          simp only [List.mem_cons, exists_eq_or_imp, or_assoc]
      obtain ⟨l, h1, h2⟩ := key (ends (subgraph g id)) [] (fun s hs => ((hends id s).1 hs).1)
      refine ⟨l, h1, fun m => ?_⟩
      rw [h2 m, low_inner hnl]
      simp only [List.not_mem_nil, false_or, hends]
      constructor
      · rintro ⟨s, ⟨hc, ht⟩, hm, hl⟩; exact ⟨hm, s, hc, ht, hl⟩
      · rintro ⟨hm, s, hc, ht, hl⟩; exact ⟨s, ⟨hc, ht⟩, hm, hl⟩
    · rw [if_pos hch]
      obtain ⟨n, hn⟩ := Dict.mem_keys_iff.1 hid
      have hmem := Dict.mem_of_get? hn
      have hnid : n.id = id := hg.ids _ hmem
      refine ⟨[n], by unfold Dict.getItem; rw [hn]; rfl, ?_⟩
      have hl := (hasChildren_false hg).1 (by simpa using hch)
      rw [← hnid] at hl hmem ⊢
      exact hleaf n hmem hl

/-- C89: the low-level sinks of a node are the leaves reached by descending through children without
outgoing edges. -/
theorem C89_low_level_sinks {g : Graph V} (hg : GraphOk g) {rank : V → Nat} (hr : Ranked g rank) {id : V}
    (hid : id ∈ g.nodes.keys) (fuel : Nat) (hf : rank id < fuel) :
    ∃ l, lowNodes g sinkNodes fuel id = .ok l ∧ ∀ m, m ∈ l ↔ (m.id, m) ∈ g.nodes ∧ Low g (NoOut g) id m.id :=
  lowNodes_correct hg (mem_sinks hg) hr fuel id hid hf

/-- C89: the low-level sources of a node are the leaves reached by descending through children which no
sibling has an edge to. -/
theorem C89_low_level_sources {g : Graph V} (hg : GraphOk g) {rank : V → Nat} (hr : Ranked g rank) {id : V}
    (hid : id ∈ g.nodes.keys) (fuel : Nat) (hf : rank id < fuel) :
    ∃ l, lowNodes g sourceNodes fuel id = .ok l ∧
      ∀ m, m ∈ l ↔ (m.id, m) ∈ g.nodes ∧ Low g (NoInFromSiblings g) id m.id :=
  lowNodes_correct hg (mem_sources hg) hr fuel id hid hf

theorem low_node {g : Graph V} (hg : GraphOk g) {take : V → V → Prop} {id m : V} (hid : id ∈ g.nodes.keys)
    (h : Low g take id m) : ∃ n : Node V, (n.id, n) ∈ g.nodes ∧ n.id = m := by
  induction h with
  | leaf _ =>
    obtain ⟨n, hn⟩ := Dict.mem_keys_iff.1 hid
    have hmem := Dict.mem_of_get? hn
    have hnid := hg.ids _ hmem
    exact ⟨n, by rw [hnid]; exact hmem, hnid⟩
  | down hc _ _ ih => exact ih (List.mem_map.2 ⟨_, hc.1, rfl⟩)

theorem addLowLevelEdges_correct {g : Graph V} (hg : GraphOk g) {rank : V → Nat} (hr : Ranked g rank) (fmt : V → V → V)
    (fuel : Nat) {a b : V} (ha : a ∈ g.nodes.keys) (hb : b ∈ g.nodes.keys) (hfa : rank a < fuel) (hfb : rank b < fuel)
    (acc : List (Edge V)) (hacc : EdgesOk acc) :
    ∃ r, addLowLevelEdges fmt fuel g a b acc = .ok r ∧ EdgesOk r ∧
      ∀ x : Edge V, x.attrs.WF → (In x r ↔ In x acc ∨
        (Low g (NoOut g) a x.source ∧ Low g (NoInFromSiblings g) b x.target ∧
          x.id = fmt x.source x.target ∧ ∀ k, x.attrs.get? k = none)) := by
  obtain ⟨us, h1, h2⟩ := C89_low_level_sinks hg hr ha fuel hfa
  obtain ⟨vs, h3, h4⟩ := C89_low_level_sources hg hr hb fuel hfb
  have hflat : ∀ (us : List (Node V)) (acc : List (Edge V)),
      us.foldl (fun acc u => vs.foldl (fun acc v => edgeAdd acc ⟨fmt u.id v.id, u.id, v.id, []⟩) acc) acc =
        (us.flatMap fun u => vs.map fun v => (⟨fmt u.id v.id, u.id, v.id, []⟩ : Edge V)).foldl edgeAdd acc := by
    intro us
    induction us with
    | nil => intro acc; rfl
    | cons u us ih =>
      intro acc
      rw [List.foldl_cons, ih, List.flatMap_cons, List.foldl_append, List.foldl_map]
  have hok : EdgesOk (us.flatMap fun u => vs.map fun v => (⟨fmt u.id v.id, u.id, v.id, []⟩ : Edge V)) := by
    intro e he
    obtain ⟨u, _, hu⟩ := List.mem_flatMap.1 he
    obtain ⟨v, _, rfl⟩ := List.mem_map.1 hu
    exact Dict.WF.nil
  obtain ⟨h5, h6⟩ := foldl_edgeAdd _ acc hacc hok
  refine ⟨_, ?_, h5, ?_⟩
  · unfold addLowLevelEdges
    rw [h1, h3]
    show Except.ok _ = _
    rw [hflat]
  · intro x hx
    rw [h6 x hx]
    refine or_congr_right ?_
    constructor
    · rintro ⟨e, he, hq⟩
      obtain ⟨u, hu, he⟩ := List.mem_flatMap.1 he
      obtain ⟨v, hv, rfl⟩ := List.mem_map.1 he
      obtain ⟨q1, q2, q3, q4⟩ := (edgeEq_iff hx Dict.WF.nil).1 hq
      simp only at q1 q2 q3 q4
      refine ⟨by rw [q2]; exact ((h2 u).1 hu).2, by rw [q3]; exact ((h4 v).1 hv).2, by rw [q1, q2, q3], fun k => by rw [q4]; rfl⟩
    · rintro ⟨l1, l2, l3, l4⟩
      obtain ⟨u, hu, hus⟩ := low_node hg ha l1
      obtain ⟨v, hv, hvs⟩ := low_node hg hb l2
      refine ⟨⟨fmt u.id v.id, u.id, v.id, []⟩, ?_, ?_⟩
      · exact List.mem_flatMap.2 ⟨u, (h2 u).2 ⟨hu, by rw [hus]; exact l1⟩,
          List.mem_map.2 ⟨v, (h4 v).2 ⟨hv, by rw [hvs]; exact l2⟩, rfl⟩⟩
      · rw [edgeEq_iff hx Dict.WF.nil]
        exact ⟨by rw [hus, hvs]; exact l3, hus.symm, hvs.symm, fun k => by rw [l4]; rfl⟩

theorem distinct_edgeAdd {l : List (Edge V)} (hl : EdgesOk l) (hd : l.Pairwise fun a b => edgeEq a b = false)
    {e : Edge V} (he : e.attrs.WF) : (edgeAdd l e).Pairwise fun a b => edgeEq a b = false := by
  unfold edgeAdd
  split
  · exact hd
  · rename_i hn
    rw [List.pairwise_append]
    refine ⟨hd, by simp, ?_⟩
    intro a ha b hb
    rw [List.mem_singleton.1 hb]
    cases hc : edgeEq a e with
    | false => rfl
    | true => exact absurd (List.any_eq_true.2 ⟨a, ha, edgeEq_symm (hl a ha) he hc⟩) hn

theorem collect_correct {g : Graph V} (hg : GraphOk g) {rank : V → Nat} (hr : Ranked g rank) (fmt : V → V → V)
    (fuel : Nat) (es : List (Edge V))
    (hes : ∀ e ∈ es, e.attrs.WF ∧ e.source ∈ g.nodes.keys ∧ e.target ∈ g.nodes.keys ∧ rank e.source < fuel ∧ rank e.target < fuel) :
    ∀ st : List (Edge V) × List (Edge V), EdgesOk st.1 → EdgesOk st.2 → (st.1.Pairwise fun a b => edgeEq a b = false) →
    ∃ st', es.foldlM (collect fmt fuel g) st = .ok st' ∧ EdgesOk st'.1 ∧ EdgesOk st'.2 ∧
      (st'.1.Pairwise fun a b => edgeEq a b = false) ∧
      (∀ x : Edge V, x.attrs.WF → (In x st'.1 ↔ In x st.1 ∨ ∃ h ∈ es, High g h ∧ edgeEq x h = true)) ∧
      ∀ x : Edge V, x.attrs.WF → (In x st'.2 ↔ In x st.2 ∨ ∃ h ∈ es, High g h ∧ LowFor g fmt h x) := by
  induction es with
  | nil => intro st h1 h2 h3; exact ⟨st, rfl, h1, h2, h3, by simp, by simp⟩
  | cons e es ih =>
    intro st h1 h2 h3
    obtain ⟨hw, hs, ht, hfs, hft⟩ := hes e (by simp)
    obtain ⟨a, ha⟩ := Dict.mem_keys_iff.1 hs
    obtain ⟨b, hb⟩ := Dict.mem_keys_iff.1 ht
    have haid : a.id = e.source := hg.ids _ (Dict.mem_of_get? ha)
    have hbid : b.id = e.target := hg.ids _ (Dict.mem_of_get? hb)
    have hcol : collect fmt fuel g st e = (if hasChildren g e.source ∨ hasChildren g e.target then do
        let toAdd ← addLowLevelEdges fmt fuel g e.source e.target st.2
        return (edgeAdd st.1 e, toAdd)
      else return st) := by
      unfold collect Dict.getItem
      rw [ha, hb]
      show (if hasChildren g a.id ∨ hasChildren g b.id then _ else _) = _
      rw [haid, hbid]
    rw [List.foldlM_cons, hcol]
    by_cases hh : High g e
    · have hc : hasChildren g e.source = true ∨ hasChildren g e.target = true := by
        rw [hasChildren_iff hg, hasChildren_iff hg]; exact hh
      rw [if_pos hc]
      obtain ⟨r, r1, r2, r3⟩ := addLowLevelEdges_correct hg hr fmt fuel hs ht hfs hft st.2 h2
      rw [r1]
      obtain ⟨st', s1, s2, s3, s4, s5, s6⟩ := ih (fun x hx => hes x (by simp [hx])) (edgeAdd st.1 e, r)
        (edgeAdd_ok h1 hw) r2 (distinct_edgeAdd h1 h3 hw)
      refine ⟨st', s1, s2, s3, s4, ?_, ?_⟩
      · intro x hx
        rw [s5 x hx]
        simp only
        rw [in_edgeAdd h1 hw hx]
        simp only [List.mem_cons, exists_eq_or_imp]
        simp only [hh, true_and, or_assoc]
      · intro x hx
        rw [s6 x hx]
        simp only
        rw [r3 x hx]
        simp only [List.mem_cons, exists_eq_or_imp]
        simp only [hh, true_and, or_assoc]
        rfl
    · have hc : ¬ (hasChildren g e.source = true ∨ hasChildren g e.target = true) := by
        rw [hasChildren_iff hg, hasChildren_iff hg]; exact hh
      rw [if_neg hc]
      obtain ⟨st', s1, s2, s3, s4, s5, s6⟩ := ih (fun x hx => hes x (by simp [hx])) st h1 h2 h3
      refine ⟨st', s1, s2, s3, s4, ?_, ?_⟩
      · intro x hx
        rw [s5 x hx]
        simp only [List.mem_cons, exists_eq_or_imp]
        simp only [hh, false_and, false_or]
      · intro x hx
        rw [s6 x hx]
        simp only [List.mem_cons, exists_eq_or_imp]
        simp only [hh, false_and, false_or]

theorem edgeRemove_correct {l : List (Edge V)} (hl : EdgesOk l) (hd : l.Pairwise fun a b => edgeEq a b = false)
    {e : Edge V} (he : e.attrs.WF) (hin : In e l) :
    ∃ r, edgeRemove l e = .ok r ∧ EdgesOk r ∧ (r.Pairwise fun a b => edgeEq a b = false) ∧
      ∀ x : Edge V, x.attrs.WF → (In x r ↔ In x l ∧ edgeEq x e = false) := by
  have hany : l.any (edgeEq e) = true := List.any_eq_true.2 hin
  refine ⟨l.eraseP (edgeEq e), by unfold edgeRemove; rw [if_pos hany], fun x hx => hl x (List.mem_of_mem_eraseP hx),
    hd.sublist List.eraseP_sublist, ?_⟩
  intro x hx
  have key : ∀ l : List (Edge V), EdgesOk l → (l.Pairwise fun a b => edgeEq a b = false) →
      ∀ y, y ∈ l.eraseP (edgeEq e) ↔ y ∈ l ∧ edgeEq e y = false := by
    intro l
    induction l with
    | nil => simp
    | cons z l ih =>
      intro hl hd y
      rw [List.pairwise_cons] at hd
      rw [List.eraseP_cons]
      cases hz : edgeEq e z with
      | true =>
        simp only [cond_true, List.mem_cons, if_true]
        constructor
        · intro hy
          refine ⟨.inr hy, ?_⟩
          cases hc : edgeEq e y with
          | false => rfl
          | true =>
            have hzw := hl z (by simp)
            have := edgeEq_trans hzw he (hl y (by simp [hy])) (edgeEq_symm he hzw hz) hc
            rw [hd.1 y hy] at this; cases this
        · rintro ⟨rfl | hy, hc⟩
          · rw [hz] at hc; cases hc
          · exact hy
      | false =>
        simp only [cond_false, List.mem_cons]
        rw [ih (fun x hx => hl x (by simp [hx])) hd.2 y]
        constructor
        · rintro (rfl | ⟨h1, h2⟩)
          · exact ⟨.inl rfl, hz⟩
          · exact ⟨.inr h1, h2⟩
        · rintro ⟨rfl | h1, h2⟩
          · exact .inl rfl
          · exact .inr ⟨h1, h2⟩
  constructor
  · rintro ⟨y, hy, hq⟩
    obtain ⟨hy, hne⟩ := (key l hl hd y).1 hy
    refine ⟨⟨y, hy, hq⟩, ?_⟩
    cases hc : edgeEq x e with
    | false => rfl
    | true =>
      rw [edgeEq_trans he hx (hl y hy) (edgeEq_symm hx he hc) hq] at hne; cases hne
  · rintro ⟨⟨y, hy, hq⟩, hne⟩
    refine ⟨y, (key l hl hd y).2 ⟨hy, ?_⟩, hq⟩
    cases hc : edgeEq e y with
    | false => rfl
    | true =>
      rw [edgeEq_trans hx (hl y hy) he hq (edgeEq_symm he (hl y hy) hc)] at hne; cases hne

theorem removeAll_correct (R : List (Edge V)) : ∀ g : Graph V, EdgesOk R → (R.Pairwise fun a b => edgeEq a b = false) →
    EdgesOk g.edges → (g.edges.Pairwise fun a b => edgeEq a b = false) → (∀ e ∈ R, In e g.edges) →
    ∃ g', R.foldlM removeEdge g = .ok g' ∧ g'.nodes = g.nodes ∧ EdgesOk g'.edges ∧
      ∀ x : Edge V, x.attrs.WF → (In x g'.edges ↔ In x g.edges ∧ ¬ In x R) := by
  induction R with
  | nil => intro g _ _ h _ _; exact ⟨g, rfl, rfl, h, by simp [In]⟩
  | cons e R ih =>
    intro g h1 h2 h3 h4 h5
    have he := h1 e (by simp)
    rw [List.pairwise_cons] at h2
    obtain ⟨r, r1, r2, r3, r4⟩ := edgeRemove_correct h3 h4 he (h5 e (by simp))
    have hstep : removeEdge g e = .ok { g with edges := r } := by
      unfold removeEdge; rw [r1]; rfl
    rw [List.foldlM_cons, hstep]
    obtain ⟨g', g1, g2, g3, g4⟩ := ih { g with edges := r } (fun x hx => h1 x (by simp [hx])) h2.2 r2 r3 (by
      intro x hx
      have hxw := h1 x (by simp [hx])
      refine (r4 x hxw).2 ⟨h5 x (by simp [hx]), ?_⟩
      cases hc : edgeEq x e with
      | false => rfl
      | true => have := edgeEq_symm hxw he hc; rw [h2.1 x hx] at this; cases this)
    refine ⟨g', g1, g2, g3, fun x hx => ?_⟩
    rw [g4 x hx]
    simp only
    rw [r4 x hx]
    simp only [In, List.mem_cons, exists_eq_or_imp, not_or, Bool.not_eq_true]
    tauto

/-- C89: replacing high-level edges terminates for an acyclic nesting. It keeps the nodes; the edges
afterwards are exactly the edges between leaves that were there before, and for every edge with a compound
end one edge from each low-level sink of its source to each low-level source of its target. -/
theorem C89_replace {g : Graph V} (hg : GraphOk g) {rank : V → Nat} (hr : Ranked g rank) (fmt : V → V → V)
    (hends : ∀ e ∈ g.edges, e.source ∈ g.nodes.keys ∧ e.target ∈ g.nodes.keys) :
    ∃ N, ∀ fuel, N ≤ fuel → ∃ g', replaceHighLevel fmt fuel g = .ok g' ∧ g'.nodes = g.nodes ∧
      ∀ x : Edge V, x.attrs.WF → ((∃ e ∈ g'.edges, edgeEq x e = true) ↔
        ((∃ e ∈ g.edges, edgeEq x e = true) ∧ Leaf g x.source ∧ Leaf g x.target) ∨
        ∃ h ∈ g.edges, High g h ∧ LowFor g fmt h x) := by
  have hN : ∃ N, ∀ e ∈ g.edges, rank e.source < N ∧ rank e.target < N := by
    generalize g.edges = l
    induction l with
    | nil => exact ⟨0, by simp⟩
    | cons e l ih =>
      obtain ⟨N, hN⟩ := ih
      refine ⟨N + rank e.source + rank e.target + 1, ?_⟩
      intro x hx
      rcases List.mem_cons.1 hx with rfl | hx
      · omega
      · have := hN x hx; omega
  obtain ⟨N, hN⟩ := hN
  refine ⟨N, fun fuel hf => ?_⟩
  obtain ⟨st, s1, s2, s3, s4, s5, s6⟩ := collect_correct hg hr fmt fuel g.edges
    (fun e he => ⟨hg.edgeAttrs e he, (hends e he).1, (hends e he).2, by have := hN e he; omega, by have := hN e he; omega⟩)
    ([], []) (by simp [EdgesOk]) (by simp [EdgesOk]) (by simp)
  have hsub : ∀ e ∈ st.1, In e g.edges := by
    intro e he
    rcases (s5 e (s2 e he)).1 ⟨e, he, edgeEq_refl (s2 e he)⟩ with h | ⟨h, hh, _, hq⟩
    · obtain ⟨_, h, _⟩ := h; cases h
    · exact ⟨h, hh, hq⟩
  obtain ⟨g1, r1, r2, r3, r4⟩ := removeAll_correct st.1 g s2 s4 hg.edgeAttrs hg.distinct hsub
  have hfold : ∀ (l : List (Edge V)) (s : Graph V), l.foldl addEdge s = ⟨s.nodes, l.foldl edgeAdd s.edges⟩ := by
    intro l
    induction l with
    | nil => intro s; rfl
    | cons e l ih => intro s; rw [List.foldl_cons, ih]; rfl
  refine ⟨st.2.foldl addEdge g1, ?_, ?_, ?_⟩
  · unfold replaceHighLevel
    rw [s1]
    show (st.1.foldlM removeEdge g >>= _) = _
    rw [r1]; rfl
  · rw [hfold]; exact r2
  · intro x hx
    rw [hfold]
    have := (foldl_edgeAdd st.2 g1.edges r3 s3).2 x hx
    refine this.trans ?_
    rw [r4 x hx, s5 x hx, s6 x hx]
    have hno : ¬ In x ([] : List (Edge V)) := by simp [In]
    simp only [hno, false_or]
    refine or_congr_left ?_
    show In x g.edges ∧ _ ↔ In x g.edges ∧ _
    constructor
    · rintro ⟨hin, hnot⟩
      refine ⟨hin, ?_⟩
      obtain ⟨e, he, hq⟩ := hin
      obtain ⟨_, q1, q2⟩ := edgeEq_ends hq
      by_contra hc
      apply hnot
      refine ⟨e, he, ?_, hq⟩
      unfold High
      rw [← q1, ← q2]
      by_contra hcc
      apply hc
      simpa [not_or] using hcc
    · rintro ⟨hin, l1, l2⟩
      refine ⟨hin, ?_⟩
      rintro ⟨e, he, hhigh, hq⟩
      obtain ⟨_, q1, q2⟩ := edgeEq_ends hq
      unfold High at hhigh
      rw [← q1, ← q2] at hhigh
      rcases hhigh with h | h
      · exact h l1
      · exact h l2

theorem low_is_leaf {g : Graph V} {take : V → V → Prop} {id m : V} (h : Low g take id m) : Leaf g m := by
  induction h with
  | leaf h => exact h
  | down _ _ _ ih => exact ih

/-- C89: afterwards every edge connects nodes without children. -/
theorem C89_only_leaves {g : Graph V} (hg : GraphOk g) {rank : V → Nat} (hr : Ranked g rank) (fmt : V → V → V)
    (hends : ∀ e ∈ g.edges, e.source ∈ g.nodes.keys ∧ e.target ∈ g.nodes.keys) :
    ∃ N, ∀ fuel, N ≤ fuel → ∃ g', replaceHighLevel fmt fuel g = .ok g' ∧
      ∀ e ∈ g'.edges, e.attrs.WF → Leaf g' e.source ∧ Leaf g' e.target := by
  obtain ⟨N, hN⟩ := C89_replace hg hr fmt hends
  refine ⟨N, fun fuel hf => ?_⟩
  obtain ⟨g', h1, h2, h3⟩ := hN fuel hf
  refine ⟨g', h1, fun e he hw => ?_⟩
  have hl : ∀ x, Leaf g' x ↔ Leaf g x := by intro x; unfold Leaf ChildOf; rw [h2]
  rw [hl, hl]
  rcases (h3 e hw).1 ⟨e, he, edgeEq_refl hw⟩ with ⟨_, h⟩ | ⟨h, _, _, l1, l2, _⟩
  · exact h
  · exact ⟨low_is_leaf l1, low_is_leaf l2⟩

/-- two compound nodes 1 and 2 with an edge; 1 contains the chain 3 → 4, 2 contains 5 -/
def sample : Graph Nat :=
  ⟨[(1, ⟨1, 0, none, []⟩), (2, ⟨2, 0, none, []⟩), (3, ⟨3, 0, some 1, []⟩), (4, ⟨4, 0, some 1, []⟩), (5, ⟨5, 0, some 2, []⟩)],
   [⟨100, 1, 2, []⟩, ⟨101, 3, 4, []⟩]⟩

example : GraphOk sample ∧ Ranked sample (fun v => if v ≤ 2 then 1 else 0) ∧
    (replaceHighLevel (fun a b => 10 * a + b) 5 sample).toOption.map (·.edges) = some [⟨101, 3, 4, []⟩, ⟨45, 4, 5, []⟩] := by
  refine ⟨⟨by unfold Dict.WF; decide, by decide, ?_, ?_, by decide⟩, ?_, by decide⟩
  · intro p hp
    simp [sample] at hp
    rcases hp with rfl | rfl | rfl | rfl | rfl <;> exact Dict.WF.nil
  · intro p hp
    simp [sample] at hp
    rcases hp with rfl | rfl <;> exact Dict.WF.nil
  · rintro id c ⟨hc, hp⟩
    simp [sample] at hc
    rcases hc with ⟨_, rfl⟩ | ⟨_, rfl⟩ | ⟨_, rfl⟩ | ⟨_, rfl⟩ | ⟨_, rfl⟩ <;> simp at hp <;> subst hp <;> decide

/-- C89: a compound node whose children form a cycle has no low-level sinks, so its outgoing edges vanish. -/
theorem C89_cycle_loses_edges :
    (replaceHighLevel (fun a b => 10 * a + b) 5
      (⟨[(1, ⟨1, 0, none, []⟩), (2, ⟨2, 0, none, []⟩), (3, ⟨3, 0, some 1, []⟩), (4, ⟨4, 0, some 1, []⟩)],
        [⟨100, 1, 2, []⟩, ⟨101, 3, 4, []⟩, ⟨102, 4, 3, []⟩]⟩ : Graph Nat)).toOption.map (·.edges) =
      some [⟨101, 3, 4, []⟩, ⟨102, 4, 3, []⟩] := by decide

end Prolothar.Nested
