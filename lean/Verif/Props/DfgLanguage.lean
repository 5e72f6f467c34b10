import Verif.Props.DfgSimulation
import Verif.Props.DfgAlgebra
import Verif.Props.LogModels
/-
C212: which logs can be simulated before and after a reduction or an extension of the graph.
-/
set_option linter.unusedSectionVars false
set_option linter.unusedDecidableInType false
namespace Prolothar.Dfg
open Prolothar.Spec Prolothar.Spec.Dfg
open Prolothar.EventLog (Log Trace)
variable {A : Type} [LinearOrder A]

/-! ### Specification -/

/-- with some random choices `generate_log` returns exactly these traces -/
def CanSimulate (g : Graph A) (starts stops : Option (List A)) (traces : List (List A)) : Prop :=
  ∃ (choose : List Nat → Nat → Nat × List Nat) (rng : List Nat) (fuel : Nat), generateLog g choose rng fuel traces.length starts stops = .ok traces

/-- one call that reduces a graph -/
inductive Reduction : Graph A → Graph A → Prop
  | absolute {g f} (m : Int) (h : filterAbsolute g m = .ok f) : Reduction g f
  | local {g f} (q : ℚ) (keep : Bool) (h : filterLocal g q keep = .ok f) : Reduction g f
  | select {g f} (keep : A → Bool) (h : selectNodes g keep = .ok f) : Reduction g f
  | largest {g f} (pick : List A → Nat) (h : largestWeakComponent pick g = .ok f) : Reduction g f
  | start {g f} (allowed : A → Bool) (h : removeNotAllowedStart g allowed = .ok f) : Reduction g f
  | stop {g f} (allowed : A → Bool) (h : removeNotAllowedEnd g allowed = .ok f) : Reduction g f
  | edge {g f o} (a b : A) (h : removeEdge g (a, b) = .ok (f, o)) : Reduction g f

/-! ### Auxiliary -/

/-- all activities of a walk are nodes -/
theorem walk_nodes {G : Type} {g : Graph A} (h : WF g) (choose : G → Nat → Nat × G) (stops : A → Bool) : ∀ (fuel : Nat) (rng : G) (options path : List A) (r : List A × G),
    walk g choose stops fuel rng options path = .ok r → ∀ x ∈ r.1, x ∈ path ∨ x ∈ g.nodes.keys := by
  intro fuel
  induction fuel with
  | zero => intro rng options path r hr; cases hr
  | succ fuel ih =>
    intro rng options path r hr x hx
    obtain ⟨h1, h2⟩ := walk_succ h choose stops fuel rng options path
    by_cases hne : options = []
    · rw [h1 hne] at hr; cases hr
    · obtain ⟨a, _, _, k1, k2, k3⟩ := h2 hne
      by_cases ha : a ∈ g.nodes.keys
      · cases hs : stops a with
        | true =>
          rw [k2 ha hs] at hr
          cases hr
          rcases List.mem_append.1 hx with hx | hx
          · exact .inl hx
          · rw [List.mem_singleton.1 hx]; exact .inr ha
        | false =>
          obtain ⟨l, _, _, _, l4⟩ := k3 ha hs
          rw [l4] at hr
          rcases ih _ _ _ _ hr x hx with hx | hx
          · rcases List.mem_append.1 hx with hx | hx
            · exact .inl hx
            · rw [List.mem_singleton.1 hx]; exact .inr ha
          · exact .inr hx
      · rw [k1 ha] at hr; cases hr

theorem walks_nodes {G : Type} {g : Graph A} (h : WF g) (choose : G → Nat → Nat × G) (starts stops : List A) (fuel : Nat) : ∀ (n : Nat) (rng : G) (traces : List (List A)),
    walks g choose starts stops fuel n rng = .ok traces → ∀ t ∈ traces, ∀ x ∈ t, x ∈ g.nodes.keys
  | 0, _, _, hr => by cases hr; simp
  | n + 1, rng, traces, hr => by
    unfold walks at hr
    cases hw : walk g choose (fun a => decide (a ∈ stops)) fuel rng starts [] with
    | error e => rw [hw] at hr; cases hr
    | ok r =>
      rw [hw, ok_bind] at hr
      cases hws : walks g choose starts stops fuel n r.2 with
      | error e => rw [hws] at hr; cases hr
      | ok rest =>
        rw [hws, ok_bind] at hr
        cases hr
        intro t ht x hx
        rcases List.mem_cons.1 ht with rfl | ht
        · exact (walk_nodes h _ _ _ _ _ _ _ hw x hx).resolve_left (by simp)
        · exact walks_nodes h choose starts stops fuel n _ _ hws t ht x hx

/-- a larger graph with the same start and stop activities -/
theorem simulable_mono {g f : Graph A} (hn : ∀ x, (view f).node x → (view g).node x) (he : ∀ x y, (view f).Edge x y → (view g).Edge x y)
    {starts stops t : List A} (h : Simulable f (some starts) (some stops) t) : Simulable g (some starts) (some stops) t :=
  ⟨h.1.imp fun _ _ => he _ _, h.2.1, fun x hx => hn x (h.2.2.1 x hx), h.2.2.2⟩

/-! ### C212 -/

/-- C212: the logs that can be simulated are exactly those in which every trace is a path over the nodes and edges of the graph, from a start activity to the first
stop activity it meets. -/
theorem C212_exactly {g : Graph A} (hb : Built g) (starts stops : Option (List A)) {traces : List (List A)} (hne : traces ≠ []) :
    CanSimulate g starts stops traces ↔ ∀ t ∈ traces, t.IsChain (view g).Edge ∧ (∀ x ∈ t, (view g).node x) ∧
      (∃ s ∈ starts.getD (sources g), t.head? = some s) ∧ ∃ q e, t = q ++ [e] ∧ e ∈ stops.getD (sinks g) ∧ ∀ x ∈ q, x ∉ stops.getD (sinks g) := by
  constructor
  · rintro ⟨choose, rng, fuel, hr⟩ t ht
    obtain ⟨h1, h2, h3⟩ := (C84_generated hb choose rng fuel _ starts stops hr).2 t ht
    refine ⟨h1, fun x hx => ?_, h2, h3⟩
    rw [view_node]
    unfold generateLog at hr
    simp only at hr
    split at hr
    · cases hr
    · split at hr
      · cases hr
      · exact walks_nodes hb.wf _ _ _ _ _ _ _ hr t ht x hx
  · intro h
    exact C84_every_log hb starts stops traces hne fun t ht => ⟨(h t ht).1, (h t ht).2.2.1, (h t ht).2.1, (h t ht).2.2.2⟩

theorem canSimulate_iff {g : Graph A} (hb : Built g) (starts stops : Option (List A)) {traces : List (List A)} (hne : traces ≠ []) :
    CanSimulate g starts stops traces ↔ ∀ t ∈ traces, Simulable g starts stops t := by
  rw [C212_exactly hb starts stops hne]
  exact forall₂_congr fun t _ => ⟨fun h => ⟨h.1, h.2.2.1, h.2.1, h.2.2.2⟩, fun h => ⟨h.1, h.2.2.1, h.2.1, h.2.2.2⟩⟩

theorem canSimulate_mono {g f : Graph A} (hb : Built g) (hf : Built f) (hn : ∀ x, (view f).node x → (view g).node x)
    (he : ∀ x y, (view f).Edge x y → (view g).Edge x y) {starts stops : List A} {traces : List (List A)}
    (h : CanSimulate f (some starts) (some stops) traces) : CanSimulate g (some starts) (some stops) traces := by
  by_cases hne : traces = []
  · subst hne
    obtain ⟨choose, rng, fuel, hr⟩ := h
    exact ⟨choose, rng, fuel, hr⟩
  · rw [canSimulate_iff hb _ _ hne]
    rw [canSimulate_iff hf _ _ hne] at h
    exact fun t ht => simulable_mono hn he (h t ht)

theorem edge_of_count {g f : Graph A} (h : ∀ x y c, (view f).count x y = some c → (view g).count x y = some c) :
    ∀ x y, (view f).Edge x y → (view g).Edge x y := fun x y ⟨c, hc⟩ => ⟨c, h x y c hc⟩

theorem Reduction.part {g f : Graph A} (hb : Built g) (r : Reduction g f) :
    Built f ∧ (∀ x, (view f).node x → (view g).node x) ∧ ∀ x y, (view f).Edge x y → (view g).Edge x y := by
  cases r with
  | absolute m h =>
    obtain ⟨f', h1, h2, h3⟩ := C43_filter_absolute hb m
    obtain rfl := Except.ok.inj (h.symm.trans h1)
    exact ⟨.filterAbsolute hb m h, fun x => (h2 x).1, edge_of_count fun x y c hc => ((h3 x y c).1 hc).1⟩
  | «local» q keep h =>
    refine ⟨.filterLocal hb q keep h, ?_⟩
    obtain ⟨f0, i1, _, i3, i4⟩ := filterLocal_plain hb.wf q
    have hp : ∀ x y c, (view f0).count x y = some c → (view g).count x y = some c := fun x y c hc => ((i4 x y c).1 hc).1
    cases keep with
    | false =>
      obtain rfl := Except.ok.inj (h.symm.trans i1)
      exact ⟨fun x hx => by rw [view_node] at hx ⊢; exact (i3 x).1 hx, edge_of_count hp⟩
    | true =>
      rcases C43_filter_local_keep hb q with ⟨_, j⟩ | ⟨f', f0', j1, j2, j3, j4⟩
      · rw [h] at j; cases j
      · obtain rfl := Except.ok.inj (h.symm.trans j1)
        obtain rfl := Except.ok.inj (i1.symm.trans j2)
        refine ⟨fun x => (j3 x).1, fun x y hxy => ?_⟩
        obtain ⟨k1, k2⟩ := j4 x
        by_cases hex : ∃ b, (view f0).Edge x b
        · obtain ⟨c, hc⟩ := hxy
          rw [k1 hex] at hc
          exact ⟨c, hp x y c hc⟩
        · rcases k2 fun b hb => hex ⟨b, hb⟩ with ⟨_, k⟩ | ⟨b, c, k, _, k'⟩
          · exact absurd hxy (k y)
          · obtain ⟨d, hd⟩ := hxy
            rw [k'] at hd
            split at hd
            · next hy => subst hy; exact ⟨c, k⟩
            · cases hd
  | select keep h =>
    obtain ⟨f', h1, h2, h3⟩ := select_part hb keep
    obtain rfl := Except.ok.inj (h.symm.trans h1)
    exact ⟨h2, fun x hx => ((h3.node x).1 hx).1, fun x y hxy => ((h3.edge x y).1 hxy).1⟩
  | largest pick h =>
    obtain ⟨f', comp, h1, h2, h3, h4, h5, _⟩ := C48_largest pick hb
    obtain rfl := Except.ok.inj (h.symm.trans h1)
    have hf : Built f := .largest hb pick h
    refine ⟨hf, ?_, edge_of_count fun x y c hc => ?_⟩
    · exact fun x hx => (h5 x ((h3 x).1 hx)).1
    · rw [h4] at hc
      split at hc
      · exact hc
      · cases hc
  | start allowed h =>
    obtain ⟨f', h1, h2, h3, _⟩ := start_part hb allowed
    obtain rfl := Except.ok.inj (h.symm.trans h1)
    exact ⟨h2, fun x hx => ((h3.node x).1 hx).1, fun x y hxy => ((h3.edge x y).1 hxy).1⟩
  | stop allowed h =>
    obtain ⟨f', h1, h2, h3, _⟩ := end_part hb allowed
    obtain rfl := Except.ok.inj (h.symm.trans h1)
    exact ⟨h2, fun x hx => ((h3.node x).1 hx).1, fun x y hxy => ((h3.edge x y).1 hxy).1⟩
  | edge a b h =>
    obtain ⟨f', h1, h2, h3⟩ := (C43_effects hb a b 0).2.2.2.2
    have := Except.ok.inj (h.symm.trans h1)
    cases this
    refine ⟨.removeEdge hb a b h, fun x => (h2 x).1, edge_of_count fun x y c hc => ?_⟩
    rw [h3] at hc
    split at hc
    · cases hc
    · exact hc

/-- C212: with given start and stop activities, every log that can be simulated after any sequence of reductions can be simulated from the original graph. -/
theorem C212_fewer {g f : Graph A} (hb : Built g) (r : Relation.ReflTransGen Reduction g f) (starts stops : List A) {traces : List (List A)}
    (h : CanSimulate f (some starts) (some stops) traces) : CanSimulate g (some starts) (some stops) traces := by
  have key : Built f ∧ (∀ x, (view f).node x → (view g).node x) ∧ ∀ x y, (view f).Edge x y → (view g).Edge x y := by
    clear h
    induction r with
    | refl => exact ⟨hb, fun _ => id, fun _ _ => id⟩
    | tail _ s ih =>
      obtain ⟨i1, i2, i3⟩ := ih
      obtain ⟨j1, j2, j3⟩ := s.part i1
      exact ⟨j1, fun x hx => i2 x (j2 x hx), fun x y hxy => i3 x y (j3 x y hxy)⟩
  exact canSimulate_mono hb key.1 key.2.1 key.2.2 h

/-- the graph 1 → 2 (twice), 2 → 3 (once) -/
def exChain : Graph Nat := addCount (addCount empty 1 2 2) 2 3

theorem exChain_built : Built exChain := (Built.new.addCount 1 2 2).addCount 2 3 1

/-- C212: with the default start and stop activities this fails: the filter makes 2 a sink, so 1, 2 can be simulated from the reduced graph, but not from the
original one. -/
theorem C212_default_more : ∃ g f : Graph Nat, Built g ∧ filterAbsolute g 2 = .ok f ∧ CanSimulate f none none [[1, 2]] ∧ ¬ CanSimulate g none none [[1, 2]] := by
  obtain ⟨f, h1, _, _⟩ := C43_filter_absolute exChain_built 2
  refine ⟨exChain, f, exChain_built, h1, ⟨fun r _ => (r.headD 0, r.tail), [0, 0], 5, ?_⟩, fun h => ?_⟩
  · have : ((filterAbsolute exChain 2).toOption.map fun f =>
        (generateLog f (fun (r : List Nat) _ => (r.headD 0, r.tail)) [0, 0] 5 1 none none).toOption) = some (some [[1, 2]]) := by decide +kernel
    rw [h1] at this
    simp only [Except.toOption, Option.map_some, Option.some.injEq] at this
    cases hg : generateLog f (fun (r : List Nat) _ => (r.headD 0, r.tail)) [0, 0] 5 1 none none with
    | error e => rw [hg] at this; cases this
    | ok l => rw [hg] at this; cases this; rfl
  · obtain ⟨_, _, _, q, e, hq, he, _⟩ := (C212_exactly exChain_built none none (by simp)).1 h [1, 2] (by simp)
    have he : e ∈ sinks exChain := he
    rw [show sinks exChain = [3] by decide +kernel, List.mem_singleton] at he
    subst he
    have := congrArg List.getLast? hq
    simp at this

/-- C212: reading a further log or adding a count never takes away a log that could be simulated with given start and stop activities. -/
theorem C212_more {I V : Type} {g : Graph A} (hb : Built g) (log : Log I A V) (a b : A) (k : Int) (starts stops : List A) {traces : List (List A)}
    (h : CanSimulate g (some starts) (some stops) traces) :
    CanSimulate (readCounts g log) (some starts) (some stops) traces ∧ CanSimulate (addCount g a b k) (some starts) (some stops) traces := by
  obtain ⟨_, r2, r3⟩ := readCounts_ok log hb.wf
  obtain ⟨_, _, e3, e4, _⟩ := C43_effects hb a b k
  constructor
  · refine canSimulate_mono (.readCounts hb log) hb (fun x hx => ?_) (fun x y hxy => ?_) h
    · rw [view_node] at hx ⊢
      exact (r2 x).2 (.inl hx)
    · rw [view_edge] at hxy ⊢
      unfold Edge at hxy ⊢
      rw [r3]
      split
      · rfl
      · exact hxy
  · refine canSimulate_mono (.addCount hb a b k) hb (fun x hx => (e3 x).2 (.inl hx)) (fun x y hxy => ?_) h
    obtain ⟨c, hc⟩ := hxy
    unfold Digraph.Edge
    rw [e4]
    split
    · exact ⟨_, rfl⟩
    · exact ⟨c, hc⟩

theorem chain_of_adjacent {R : A → A → Prop} : ∀ (l : List A), (∀ a b, 0 < adjacentCount a b l → R a b) → l.IsChain R
  | [], _ => by simp
  | [_], _ => by simp
  | a :: b :: l, h => by
    rw [List.isChain_cons_cons]
    refine ⟨h a b (Prolothar.LogModels.adj_pos'.2 ⟨[], l, rfl⟩), chain_of_adjacent (b :: l) fun x y hxy => ?_⟩
    obtain ⟨u, v, huv⟩ := Prolothar.LogModels.adj_pos'.1 hxy
    exact h x y (Prolothar.LogModels.adj_pos'.2 ⟨a :: u, v, by rw [huv]; rfl⟩)

/-- C212: a log can be simulated from its own graph, also after further logs were read, if its traces begin with start activities and have a stop activity at the
end and only there. -/
theorem C212_own_log {I V : Type} (log more : Log I A V) (starts stops : List A) (hne : log ≠ [])
    (h : ∀ t ∈ log, (∃ s ∈ starts, t.activities.head? = some s) ∧ ∃ q e, t.activities = q ++ [e] ∧ e ∈ stops ∧ ∀ x ∈ q, x ∉ stops) :
    CanSimulate (readCounts (createFromLog log) more) (some starts) (some stops) (log.map Trace.activities) := by
  have hb : Built (createFromLog log) := .readCounts .new log
  have hown : CanSimulate (createFromLog log) (some starts) (some stops) (log.map Trace.activities) := by
    rw [C212_exactly hb _ _ (by simpa using hne)]
    intro t ht
    obtain ⟨t, hm, rfl⟩ := List.mem_map.1 ht
    obtain ⟨_, c2, c3⟩ := C44_counts log
    exact ⟨chain_of_adjacent _ fun a b hab => (c2 a b).2 ⟨t, hm, hab⟩, fun x hx => (c3 x).2 ⟨t, hm, hx⟩, (h t hm).1, (h t hm).2⟩
  by_cases hA : Nonempty A
  · exact (C212_more hb more hA.some hA.some 0 starts stops hown).1
  · obtain ⟨t, tl, rfl⟩ := List.exists_cons_of_ne_nil hne
    obtain ⟨⟨s, _⟩, _⟩ := h t (by simp)
    exact absurd ⟨s⟩ hA

/-- a reduction that leaves something to simulate -/
example : ∃ f, Relation.ReflTransGen Reduction exChain f ∧ CanSimulate f (some [1]) (some [2]) [[1, 2], [1, 2]] := by
  obtain ⟨f, h1, h2, h3⟩ := C43_filter_absolute exChain_built 2
  have hf : Built f := .filterAbsolute exChain_built 2 h1
  refine ⟨f, .single (.absolute 2 h1), (C212_exactly hf _ _ (by simp)).2 fun t ht => ?_⟩
  have : t = [1, 2] := by simpa using ht
  subst this
  have hn : ∀ x ∈ [1, 2], (view f).node x := fun x hx => (h2 x).2 (by
    rw [view_node]
    revert x
    decide +kernel)
  refine ⟨?_, hn, ⟨1, by simp, rfl⟩, [1], 2, rfl, by simp, by simp⟩
  simp only [List.isChain_cons_cons, List.isChain_singleton, and_true]
  exact ⟨2, (h3 1 2 2).2 ⟨by decide +kernel, by decide⟩⟩

/-- a log with two traces: 1 2, and 3 -/
def exOwnLog : Log Nat Nat Nat := [⟨1, [EventLog.Event.new 1, EventLog.Event.new 2], []⟩, ⟨2, [EventLog.Event.new 3], []⟩]

/-- a log that can be simulated from its own graph -/
example : CanSimulate (readCounts (createFromLog exOwnLog) exOwnLog) (some [1, 3]) (some [2, 3]) [[1, 2], [3]] :=
  C212_own_log exOwnLog exOwnLog _ _ (by simp [exOwnLog]) (by
    intro t ht
    simp only [exOwnLog, List.mem_cons, List.not_mem_nil, or_false] at ht
    rcases ht with rfl | rfl
    · exact ⟨⟨1, by simp, rfl⟩, [1], 2, rfl, by simp, by simp⟩
    · exact ⟨⟨3, by simp, rfl⟩, [], 3, rfl, by simp, by simp⟩)

end Prolothar.Dfg
