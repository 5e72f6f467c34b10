import Verif.Props.Dfg
/-
C84: which logs can be simulated, and when the simulation fails.
-/
namespace Prolothar.Dfg
open Prolothar.Spec
variable {A : Type} [LinearOrder A]

theorem ok_bind {β γ : Type} (a : β) (f : β → Py γ) : ((Except.ok a : Py β) >>= f) = f a := by
  cases h : f a <;> simp [bind, Except.bind, h]

/-- one round of the walk -/
theorem walk_succ {G : Type} {g : Graph A} (h : WF g) (choose : G → Nat → Nat × G) (stops : A → Bool) (fuel : Nat) (rng : G) (options path : List A) :
    (options = [] → walk g choose stops (fuel + 1) rng options path = .error .index) ∧
    (options ≠ [] → ∃ a ∈ options, options[(choose rng options.length).1 % options.length]? = some a ∧
      (a ∉ g.nodes.keys → walk g choose stops (fuel + 1) rng options path = .error .key) ∧
      (a ∈ g.nodes.keys → stops a = true → walk g choose stops (fuel + 1) rng options path = .ok (path ++ [a], (choose rng options.length).2)) ∧
      (a ∈ g.nodes.keys → stops a = false → ∃ l, l.Nodup ∧ (∀ b, b ∈ l ↔ Edge g a b) ∧ following g a = .ok l ∧
        walk g choose stops (fuel + 1) rng options path = walk g choose stops fuel (choose rng options.length).2 l (path ++ [a]))) := by
  constructor
  · rintro rfl
    rfl
  · intro hne
    have hl : 0 < options.length := List.length_pos_iff.2 hne
    have hlt : (choose rng options.length).1 % options.length < options.length := Nat.mod_lt _ hl
    refine ⟨options[(choose rng options.length).1 % options.length], List.getElem_mem hlt, List.getElem?_eq_getElem hlt, fun hk => ?_, fun hk hs => ?_, fun hk hs => ?_⟩
    · rw [walk, if_neg (by omega)]
      dsimp only
      rw [List.getElem?_eq_getElem hlt]
      dsimp only
      rw [following_missing hk]
      rfl
    · obtain ⟨l, l1, _, _⟩ := following_ok h.toCore hk
      rw [walk, if_neg (by omega)]
      dsimp only
      rw [List.getElem?_eq_getElem hlt]
      dsimp only
      rw [l1, ok_bind, if_pos hs]
      rfl
    · obtain ⟨l, l1, l2, l3⟩ := following_ok h.toCore hk
      refine ⟨l, l2, l3, l1, ?_⟩
      rw [walk, if_neg (by omega)]
      dsimp only
      rw [List.getElem?_eq_getElem hlt]
      dsimp only
      rw [l1, ok_bind, if_neg (by simp [hs])]

/-- how a walk can fail -/
theorem walk_error {G : Type} {g : Graph A} (h : WF g) (choose : G → Nat → Nat × G) (stops : A → Bool) : ∀ (fuel : Nat) (rng : G) (options path : List A)
    (x : PyErr), walk g choose stops fuel rng options path = .error x →
    x = .diverge ∨ (x = .key ∧ ∃ a ∈ options, a ∉ g.nodes.keys) ∨
    (x = .index ∧ (options = [] ∨ ∃ q a, (q ++ [a]).IsChain (Edge g) ∧ (∃ s ∈ options, (q ++ [a]).head? = some s) ∧ (∀ y ∈ q ++ [a], stops y = false) ∧
      ∀ b, ¬ Edge g a b)) := by
  intro fuel
  induction fuel with
  | zero => intro rng options path x hx; cases hx; exact .inl rfl
  | succ fuel ih =>
    intro rng options path x hx
    obtain ⟨h1, h2⟩ := walk_succ h choose stops fuel rng options path
    by_cases hne : options = []
    · rw [h1 hne] at hx
      cases hx
      exact .inr (.inr ⟨rfl, .inl hne⟩)
    · obtain ⟨a, ha, _, h3, h4, h5⟩ := h2 hne
      by_cases hk : a ∈ g.nodes.keys
      · cases hs : stops a with
        | true => rw [h4 hk hs] at hx; cases hx
        | false =>
          obtain ⟨l, _, l2, _, l3⟩ := h5 hk hs
          rw [l3] at hx
          rcases ih _ _ _ _ hx with rfl | ⟨rfl, b, hb, hbk⟩ | ⟨rfl, h6 | ⟨q, b, q1, ⟨s, s1, s2⟩, q3, q4⟩⟩
          · exact .inl rfl
          · exact absurd (((l2 b).1 hb).nodes h).2 hbk
          · refine .inr (.inr ⟨rfl, .inr ⟨[], a, by simp, ⟨a, ha, rfl⟩, by simpa using hs, fun b hb => ?_⟩⟩)
            have := (l2 b).2 hb
            rw [h6] at this
            cases this
          · refine .inr (.inr ⟨rfl, .inr ⟨a :: q, b, ?_, ⟨a, ha, rfl⟩, ?_, q4⟩⟩)
            · rw [List.cons_append, List.isChain_cons]
              refine ⟨fun y hy => ?_, q1⟩
              rw [s2] at hy
              cases hy
              exact (l2 s).1 s1
            · intro y hy
              rcases List.mem_cons.1 hy with rfl | hy
              · exact hs
              · exact q3 y hy
      · rw [h3 hk] at hx
        cases hx
        exact .inr (.inl ⟨rfl, a, ha, hk⟩)

/-- the walk does not run forever if the paths are bounded -/
theorem walk_bounded {G : Type} {g : Graph A} (h : WF g) (choose : G → Nat → Nat × G) (stops : A → Bool) : ∀ (fuel : Nat) (rng : G) (options path : List A),
    (∀ p : List A, p.IsChain (Edge g) → (∃ s ∈ options, p.head? = some s) → p.length < fuel) →
    walk g choose stops fuel rng options path = .error .diverge → options = [] := by
  intro fuel
  induction fuel with
  | zero =>
    intro rng options path hp _
    cases options with
    | nil => rfl
    | cons a l => exact absurd (hp [a] (by simp) ⟨a, by simp, rfl⟩) (by simp)
  | succ fuel ih =>
    intro rng options path hp hx
    by_contra hne
    obtain ⟨_, h2⟩ := walk_succ h choose stops fuel rng options path
    obtain ⟨a, ha, _, h3, h4, h5⟩ := h2 hne
    by_cases hk : a ∈ g.nodes.keys
    · cases hs : stops a with
      | true => rw [h4 hk hs] at hx; cases hx
      | false =>
        obtain ⟨l, _, l2, _, l3⟩ := h5 hk hs
        rw [l3] at hx
        have hl := ih _ l _ (fun p p1 ⟨s, s1, s2⟩ => by
          have := hp (a :: p) (List.isChain_cons.2 ⟨fun y hy => by
            rw [s2] at hy
            cases hy
            exact (l2 s).1 s1, p1⟩) ⟨a, ha, rfl⟩
          simp only [List.length_cons] at this
          omega) hx
        rw [hl] at hx
        cases fuel with
        | zero => exact absurd (hp [a] (by simp) ⟨a, ha, rfl⟩) (by simp)
        | succ fuel => rw [(walk_succ h choose stops fuel _ [] _).1 rfl] at hx; cases hx
    · rw [h3 hk] at hx; cases hx

theorem walks_error {G : Type} (g : Graph A) (choose : G → Nat → Nat × G) (starts stops : List A) (fuel : Nat) : ∀ (n : Nat) (rng : G) (x : PyErr),
    walks g choose starts stops fuel n rng = .error x → ∃ rng, walk g choose (fun a => a ∈ stops) fuel rng starts [] = .error x
  | 0, rng, x, hx => by cases hx
  | n + 1, rng, x, hx => by
    unfold walks at hx
    cases hw : walk g choose (fun a => decide (a ∈ stops)) fuel rng starts [] with
    | error e => rw [hw] at hx; cases hx; exact ⟨rng, hw⟩
    | ok r =>
      rw [hw, ok_bind] at hx
      cases hws : walks g choose starts stops fuel n r.2 with
      | error e => rw [hws] at hx; cases hx; exact walks_error g choose starts stops fuel n r.2 _ hws
      | ok rest => rw [hws, ok_bind] at hx; cases hx

/-- C84: if there are start and end activities, the simulation fails only with a KeyError for a start activity that is no node of the graph, with an IndexError
after a path without end activities to a node without successors, or by running forever (the model's `diverge`). -/
theorem C84_errors {G : Type} {g : Graph A} (hb : Built g) (choose : G → Nat → Nat × G) (rng : G) (fuel n : Nat) (starts stops : Option (List A))
    (h1 : starts.getD (sources g) ≠ []) (h2 : stops.getD (sinks g) ≠ []) {x : PyErr} (hx : generateLog g choose rng fuel n starts stops = .error x) :
    x = .diverge ∨ (x = .key ∧ ∃ a ∈ starts.getD (sources g), ¬ (view g).node a) ∨
    (x = .index ∧ ∃ q a, (q ++ [a]).IsChain (view g).Edge ∧ (∃ s ∈ starts.getD (sources g), (q ++ [a]).head? = some s) ∧
      (∀ y ∈ q ++ [a], y ∉ stops.getD (sinks g)) ∧ ∀ b, ¬ (view g).Edge a b) := by
  have hE : (view g).Edge = Edge g := by funext x y; rw [view_edge]
  rw [hE]
  unfold generateLog at hx
  simp only at hx
  rw [if_neg h1, if_neg h2] at hx
  obtain ⟨r, hr⟩ := walks_error _ _ _ _ _ _ _ _ hx
  rcases walk_error hb.wf _ _ _ _ _ _ _ hr with rfl | ⟨rfl, a, ha, hk⟩ | ⟨rfl, h6 | ⟨q, a, q1, q2, q3, q4⟩⟩
  · exact .inl rfl
  · exact .inr (.inl ⟨rfl, a, ha, fun h => hk ((view_node g a).1 h)⟩)
  · exact absurd h6 h1
  · exact .inr (.inr ⟨rfl, q, a, q1, q2, fun y hy => by simpa using q3 y hy, q4⟩)

/-- C84: with the default start and end activities (sources and sinks) the simulation never raises, except the ValueError of `C84_rejected` -/
theorem C84_default {G : Type} {g : Graph A} (hb : Built g) (choose : G → Nat → Nat × G) (rng : G) (fuel n : Nat)
    (h1 : sources g ≠ []) (h2 : sinks g ≠ []) {x : PyErr} (hx : generateLog g choose rng fuel n none none = .error x) : x = .diverge := by
  rcases C84_errors hb choose rng fuel n none none h1 h2 hx with h | ⟨-, a, ha, hk⟩ | ⟨-, q, a, q1, ⟨s, s1, s2⟩, q3, q4⟩
  · exact h
  · exact absurd ((view_node g a).2 ((mem_sources hb.wf a).1 ha).1) hk
  · exfalso
    have hE : (view g).Edge = Edge g := by funext x y; rw [view_edge]
    rw [hE] at q1 q4
    refine q3 a (by simp) ((mem_sinks hb.wf a).2 ⟨?_, fun b hb' => absurd hb' (q4 b)⟩)
    by_cases hq : q = []
    · subst hq
      have : a = s := by simpa using s2
      subst this
      exact ((mem_sources hb.wf a).1 s1).1
    · obtain ⟨q', y, rfl⟩ := List.eq_nil_or_concat q |>.resolve_left hq
      rw [List.concat_eq_append, List.append_assoc] at q1
      have := (List.isChain_append.1 q1).2.1
      rw [List.singleton_append, List.isChain_cons] at this
      exact ((this.1 a (by simp)).nodes hb.wf).2

/-- C84: if the paths of the graph have at most `k` nodes (for a graph without cycles this holds for the number of nodes), the simulation ends for all
random choices: it returns a log or one of the errors of `C84_errors` -/
theorem C84_terminates {G : Type} {g : Graph A} (hb : Built g) (choose : G → Nat → Nat × G) (rng : G) (n k : Nat) (starts stops : Option (List A))
    (hp : ∀ p : List A, p.IsChain (view g).Edge → p.length ≤ k) :
    generateLog g choose rng (k + 1) n starts stops ≠ .error .diverge := by
  have hE : (view g).Edge = Edge g := by funext x y; rw [view_edge]
  rw [hE] at hp
  intro hx
  unfold generateLog at hx
  simp only at hx
  split at hx
  · cases hx
  · next h1 =>
    split at hx
    · cases hx
    · obtain ⟨r, hr⟩ := walks_error _ _ _ _ _ _ _ _ hx
      exact h1 (walk_bounded hb.wf _ _ _ _ _ _ (fun p p1 _ => by have := hp p p1; omega) hr)

/-- the choices that follow a given path -/
theorem walk_follow {g : Graph A} (h : WF g) (stops : A → Bool) : ∀ (fuel : Nat) (q : List A) (e : A) (options path : List A), q.length < fuel →
    (∀ s, (q ++ [e]).head? = some s → s ∈ options) →
    (q ++ [e]).IsChain (Edge g) → (∀ x ∈ q ++ [e], x ∈ g.nodes.keys) → stops e = true → (∀ x ∈ q, stops x = false) →
    ∃ cs : List Nat, ∀ rest, walk g (fun (r : List Nat) _ => (r.headD 0, r.tail)) stops fuel (cs ++ rest) options path = .ok (path ++ (q ++ [e]), rest)
  | 0, _, _, _, _, hf, _, _, _, _, _ => absurd hf (by omega)
  | fuel + 1, [], e, options, path, _, hh, _, hk, hs, _ => by
    have he : e ∈ options := hh e rfl
    obtain ⟨i, hi, hie⟩ := List.getElem_of_mem he
    refine ⟨[i], fun rest => ?_⟩
    obtain ⟨a, _, h1, _, h2, _⟩ := (walk_succ h (fun (r : List Nat) _ => (r.headD 0, r.tail)) stops fuel ([i] ++ rest) options path).2 (List.ne_nil_of_mem he)
    have hm : i % options.length = i := Nat.mod_eq_of_lt hi
    have : a = e := by
      simp only [List.singleton_append, List.headD_cons, hm, List.getElem?_eq_getElem hi, hie, Option.some.injEq] at h1
      exact h1.symm
    subst this
    exact h2 (hk a (by simp)) hs
  | fuel + 1, b :: q, e, options, path, hf, hh, hc, hk, hs, hq => by
    have hbo : b ∈ options := hh b rfl
    obtain ⟨i, hi, hie⟩ := List.getElem_of_mem hbo
    have hm : i % options.length = i := Nat.mod_eq_of_lt hi
    rw [List.cons_append, List.isChain_cons] at hc
    have hbk := hk b (by simp)
    obtain ⟨l, l1, l2, l3⟩ := following_ok h.toCore hbk
    obtain ⟨cs, hcs⟩ := walk_follow h stops fuel q e l (path ++ [b]) (by simpa using hf) (fun s hs => (l3 s).2 (hc.1 s hs)) hc.2 (fun x hx => hk x (by
      rw [List.cons_append]; exact List.mem_cons_of_mem _ hx)) hs (fun x hx => hq x (by simp [hx]))
    refine ⟨i :: cs, fun rest => ?_⟩
    obtain ⟨a, _, h1, _, _, h2⟩ := (walk_succ h (fun (r : List Nat) _ => (r.headD 0, r.tail)) stops fuel (i :: cs ++ rest) options path).2 (List.ne_nil_of_mem hbo)
    have : a = b := by
      simp only [List.cons_append, List.headD_cons, hm, List.getElem?_eq_getElem hi, hie, Option.some.injEq] at h1
      exact h1.symm
    subst this
    obtain ⟨l', _, _, l4, l5⟩ := h2 hbk (hq a (by simp))
    obtain rfl := Except.ok.inj (l1.symm.trans l4)
    rw [l5]
    simp only [List.cons_append, List.tail_cons]
    rw [hcs]
    simp

/-- what the traces of a simulated log look like, see `C84_generated` -/
def Simulable (g : Graph A) (starts stops : Option (List A)) (t : List A) : Prop :=
  t.IsChain (view g).Edge ∧ (∃ s ∈ starts.getD (sources g), t.head? = some s) ∧ (∀ x ∈ t, (view g).node x) ∧
  ∃ q e, t = q ++ [e] ∧ e ∈ stops.getD (sinks g) ∧ ∀ x ∈ q, x ∉ stops.getD (sinks g)

/-- C84: conversely every list of paths from a start activity to the first end activity on it can be simulated: the random choices of different
traces and of different steps are independent of each other. -/
theorem C84_every_log {g : Graph A} (hb : Built g) (starts stops : Option (List A)) (traces : List (List A)) (hne : traces ≠ [])
    (ht : ∀ t ∈ traces, Simulable g starts stops t) :
    ∃ (choose : List Nat → Nat → Nat × List Nat) (rng : List Nat) (fuel : Nat), generateLog g choose rng fuel traces.length starts stops = .ok traces := by
  have hE : (view g).Edge = Edge g := by funext x y; rw [view_edge]
  have key : ∀ ts : List (List A), (∀ t ∈ ts, Simulable g starts stops t) → ∀ fuel, (∀ t ∈ ts, t.length ≤ fuel) →
      ∃ rng, walks g (fun (r : List Nat) _ => (r.headD 0, r.tail)) (starts.getD (sources g)) (stops.getD (sinks g)) fuel ts.length rng = .ok ts := by
    intro ts
    induction ts with
    | nil => intro _ _ _; exact ⟨[], rfl⟩
    | cons t ts ih =>
      intro ht fuel hf
      obtain ⟨rng, hrng⟩ := ih (fun t h => ht t (by simp [h])) fuel (fun t h => hf t (by simp [h]))
      obtain ⟨hc, ⟨s, s1, s2⟩, hk, q, e, rfl, he, hq⟩ := ht t (by simp)
      rw [hE] at hc
      obtain ⟨cs, hcs⟩ := walk_follow hb.wf (fun a => decide (a ∈ stops.getD (sinks g))) fuel q e (starts.getD (sources g)) []
        (by have := hf (q ++ [e]) (by simp); simp at this; omega)
        (fun s' hs' => by rw [s2] at hs'; cases hs'; exact s1) hc (fun x hx => (view_node g x).1 (hk x hx)) (by simpa using he)
        (fun x hx => by simpa using hq x hx)
      refine ⟨cs ++ rng, ?_⟩
      rw [List.length_cons]
      unfold walks
      rw [hcs, ok_bind]
      dsimp only
      rw [hrng, ok_bind]
      rfl
  obtain ⟨t, tl, rfl⟩ := List.exists_cons_of_ne_nil hne
  obtain ⟨_, ⟨s, s1, _⟩, _, q, e, _, he, _⟩ := ht t (by simp)
  obtain ⟨rng, h⟩ := key (t :: tl) ht (t :: tl).flatten.length (fun u hu => (List.sublist_flatten_of_mem hu).length_le)
  refine ⟨fun r _ => (r.headD 0, r.tail), rng, (t :: tl).flatten.length, ?_⟩
  unfold generateLog
  simp only
  rw [if_neg (List.ne_nil_of_mem s1), if_neg (List.ne_nil_of_mem he)]
  exact h

/-- C84: in particular every such path can be simulated -/
theorem C84_every_trace {g : Graph A} (hb : Built g) (starts stops : Option (List A)) (q : List A) (e : A)
    (hc : (q ++ [e]).IsChain (view g).Edge) (hs : ∃ s ∈ starts.getD (sources g), (q ++ [e]).head? = some s) (hk : ∀ x ∈ q ++ [e], (view g).node x)
    (he : e ∈ stops.getD (sinks g)) (hq : ∀ x ∈ q, x ∉ stops.getD (sinks g)) :
    ∃ (choose : List Nat → Nat → Nat × List Nat) (rng : List Nat), generateLog g choose rng (q.length + 1) 1 starts stops = .ok [q ++ [e]] := by
  have hE : (view g).Edge = Edge g := by funext x y; rw [view_edge]
  rw [hE] at hc
  obtain ⟨s, s1, s2⟩ := hs
  obtain ⟨cs, hcs⟩ := walk_follow hb.wf (fun a => decide (a ∈ stops.getD (sinks g))) (q.length + 1) q e (starts.getD (sources g)) [] (by omega) (fun s' hs' => by
    rw [s2] at hs'; cases hs'; exact s1) hc (fun x hx => (view_node g x).1 (hk x hx)) (by simpa using he) (fun x hx => by simpa using hq x hx)
  refine ⟨fun r _ => (r.headD 0, r.tail), cs ++ [], ?_⟩
  unfold generateLog
  simp only
  rw [if_neg (List.ne_nil_of_mem s1), if_neg (List.ne_nil_of_mem he)]
  unfold walks
  rw [hcs, ok_bind]
  rfl

/-- the successors of the graph decide the walk -/
theorem walk_congr {G : Type} {g g' : Graph A} (hf : ∀ a, following g a = following g' a) (choose : G → Nat → Nat × G) (stops : A → Bool) :
    ∀ (fuel : Nat) (rng : G) (options path : List A), walk g choose stops fuel rng options path = walk g' choose stops fuel rng options path
  | 0, _, _, _ => rfl
  | fuel + 1, rng, options, path => by
    simp only [walk, hf, walk_congr hf choose stops fuel]

theorem walks_congr {G : Type} {g g' : Graph A} (hf : ∀ a, following g a = following g' a) (choose : G → Nat → Nat × G) (starts stops : List A)
    (fuel : Nat) : ∀ (n : Nat) (rng : G), walks g choose starts stops fuel n rng = walks g' choose starts stops fuel n rng
  | 0, _ => rfl
  | n + 1, rng => by
    simp only [walks, walk_congr hf, walks_congr hf choose starts stops fuel n]

theorem modify_map {β γ : Type} (f : β → β) (v : β → γ) (hv : ∀ x, v (f x) = v x) (l : List β) (i j : Nat) :
    ((l.modify i f)[j]?).map v = (l[j]?).map v := by
  rw [List.getElem?_modify]
  split
  · cases l[j]? <;> simp [hv]
  · cases l[j]? <;> simp

/-- C84: the frequencies of the edges have no influence: raising or lowering the count of an edge of the graph does not change what is simulated with the same
random seed -/
theorem C84_counts_ignored {G : Type} {g : Graph A} (hb : Built g) {a b : A} (he : (view g).Edge a b) (count : Int)
    (choose : G → Nat → Nat × G) (rng : G) (fuel n : Nat) (starts stops : Option (List A)) :
    generateLog (addCount g a b count) choose rng fuel n starts stops = generateLog g choose rng fuel n starts stops := by
  rw [view_edge] at he
  have hn := he.nodes hb.wf
  have n1 : addNode g a = g := by unfold addNode; rw [if_pos (Dict.has_iff.2 hn.1)]
  have n2 : addNode g b = g := by unfold addNode; rw [if_pos (Dict.has_iff.2 hn.2)]
  obtain ⟨e, hg⟩ : ∃ e, g.edges.get? (a, b) = some e := by
    unfold Edge cnt at he
    cases hg : g.edges.get? (a, b) with
    | none => rw [hg] at he; exact absurd he (by simp)
    | some e => exact ⟨e, rfl⟩
  have hadd : addCount g a b count = modifyEdge g e fun o => { o with count := o.count + count } := by
    unfold addCount
    rw [n1, n2]
    simp only [hg]
  have hstop : ∀ j : Nat, (((addCount g a b count).heap)[j]?).map EdgeObj.stop = (g.heap[j]?).map EdgeObj.stop := by
    intro j
    rw [hadd]
    exact modify_map (fun o : EdgeObj A => { o with count := o.count + count }) EdgeObj.stop (fun _ => rfl) g.heap e j
  have hnodes : (addCount g a b count).nodes = g.nodes := by rw [hadd]; rfl
  have hf : ∀ x, following (addCount g a b count) x = following g x := by
    intro x
    unfold following
    simp only [hnodes, hstop]
  have hi : ∀ (m : NodeObj) x, isFollowedBy (addCount g a b count) m x = isFollowedBy g m x := by
    intro m x
    have key : ∀ k : Graph A, isFollowedBy k m x = ((m.out.filterMap fun e => (k.heap[e]?).map EdgeObj.stop).any fun y => y = x) := by
      intro k
      unfold isFollowedBy outObjs
      rw [← List.map_filterMap, List.any_map]
      rfl
    rw [key, key]
    simp only [hstop]
  have hs : sources (addCount g a b count) = sources g := by
    unfold sources
    simp only [hnodes, hi]
  have hk : sinks (addCount g a b count) = sinks g := by
    unfold sinks
    simp only [hnodes, hi]
  unfold generateLog
  simp only [hs, hk, walks_congr hf]

/-- C84: with the same random seed a longer simulated log continues a shorter one -/
theorem C84_prefix {G : Type} (g : Graph A) (choose : G → Nat → Nat × G) (rng : G) (fuel : Nat) {n m : Nat} (hnm : n ≤ m) (starts stops : Option (List A))
    {traces : List (List A)} (h : generateLog g choose rng fuel m starts stops = .ok traces) :
    generateLog g choose rng fuel n starts stops = .ok (traces.take n) := by
  have key : ∀ (s e : List A) (n m : Nat), n ≤ m → ∀ (rng : G) (ts : List (List A)), walks g choose s e fuel m rng = .ok ts →
      walks g choose s e fuel n rng = .ok (ts.take n) := by
    intro s e n
    induction n with
    | zero => intro m _ rng ts _; rfl
    | succ n ih =>
      intro m hm rng ts hts
      obtain ⟨m, rfl⟩ : ∃ m', m = m' + 1 := ⟨m - 1, by omega⟩
      unfold walks at hts ⊢
      cases hw : walk g choose (fun a => decide (a ∈ e)) fuel rng s [] with
      | error x => rw [hw] at hts; cases hts
      | ok r =>
        rw [hw, ok_bind] at hts
        rw [ok_bind]
        cases hws : walks g choose s e fuel m r.2 with
        | error x => rw [hws] at hts; cases hts
        | ok rest =>
          rw [hws, ok_bind] at hts
          cases hts
          rw [ih m (by omega) r.2 rest hws, ok_bind]
          rfl
  unfold generateLog at h ⊢
  simp only at h ⊢
  split at h
  · cases h
  · next h1 =>
    split at h
    · cases h
    · next h2 =>
      rw [if_neg h1, if_neg h2]
      exact key _ _ n m hnm rng traces h

/-- an edge that is a thousand times more frequent changes nothing, and three traces continue two traces -/
example : let g := addCount (addCount (addCount (empty : Graph Nat) 1 2) 1 3) 2 3
    generateLog g (fun s _ => (s / 2, s + 1)) 0 10 3 none none = .ok [[1, 2, 3], [1, 2, 3], [1, 3]] ∧
    generateLog (addCount g 1 3 1000) (fun s _ => (s / 2, s + 1)) 0 10 3 none none = .ok [[1, 2, 3], [1, 2, 3], [1, 3]] ∧
    generateLog g (fun s _ => (s / 2, s + 1)) 0 10 2 none none = .ok [[1, 2, 3], [1, 2, 3]] := by decide +kernel

/-- an end activity that is not reached leads to an IndexError -/
example : generateLog (addCount (addCount (addCount (empty : Graph Nat) 1 2) 2 1) 2 3) (fun s _ => (1, s)) () 10 1 (some [1]) (some [7]) = .error .index := by
  decide
/-- a start activity that is no node leads to a KeyError -/
example : generateLog (addCount (empty : Graph Nat) 1 2) (fun s _ => (1, s)) () 10 1 (some [5]) none = .error .key := by decide

/-- the hypotheses of `C84_every_trace` hold for the path 1, 2, 1, 2, 3 of a graph with a cycle -/
example : ∃ (choose : List Nat → Nat → Nat × List Nat) (rng : List Nat),
    generateLog (addCount (addCount (addCount (empty : Graph Nat) 1 2) 2 1) 2 3) choose rng 5 1 (some [1]) none = .ok [[1, 2, 1, 2, 3]] := by
  have hb : Built (addCount (addCount (addCount (empty : Graph Nat) 1 2) 2 1) 2 3) := ((Built.new.addCount _ _ _).addCount _ _ _).addCount _ _ _
  have hE : (view (addCount (addCount (addCount (empty : Graph Nat) 1 2) 2 1) 2 3)).Edge = Edge (addCount (addCount (addCount (empty : Graph Nat) 1 2) 2 1) 2 3) := by
    funext x y; rw [view_edge]
  refine C84_every_trace hb (some [1]) none [1, 2, 1, 2] 3 ?_ ⟨1, by decide, rfl⟩ ?_ (by decide) (by decide)
  · rw [hE]
    simp only [List.cons_append, List.nil_append, List.isChain_cons_cons, List.isChain_singleton, and_true]
    refine ⟨?_, ?_, ?_, ?_⟩ <;> (unfold Edge; decide)
  · intro x hx
    rw [view_node]
    simp only [List.cons_append, List.nil_append, List.mem_cons, List.not_mem_nil, or_false] at hx
    rcases hx with rfl | rfl | rfl | rfl | rfl <;> decide

/-- a log with two different traces of the graph with the cycle -/
example : ∃ (choose : List Nat → Nat → Nat × List Nat) (rng : List Nat) (fuel : Nat),
    generateLog (addCount (addCount (addCount (empty : Graph Nat) 1 2) 2 1) 2 3) choose rng fuel 2 (some [1]) none = .ok [[1, 2, 1, 2, 3], [1, 2, 3]] := by
  have hb : Built (addCount (addCount (addCount (empty : Graph Nat) 1 2) 2 1) 2 3) := ((Built.new.addCount _ _ _).addCount _ _ _).addCount _ _ _
  have hE : (view (addCount (addCount (addCount (empty : Graph Nat) 1 2) 2 1) 2 3)).Edge = Edge (addCount (addCount (addCount (empty : Graph Nat) 1 2) 2 1) 2 3) := by
    funext x y; rw [view_edge]
  have hsink : sinks (addCount (addCount (addCount (empty : Graph Nat) 1 2) 2 1) 2 3) = [3] := by decide
  refine C84_every_log hb (some [1]) none [[1, 2, 1, 2, 3], [1, 2, 3]] (by simp) fun t ht => ?_
  simp only [List.mem_cons, List.not_mem_nil, or_false] at ht
  unfold Simulable
  rw [hE]
  rcases ht with rfl | rfl
  · refine ⟨?_, ⟨1, by simp, rfl⟩, ?_, [1, 2, 1, 2], 3, rfl, ?_, ?_⟩
    · simp only [List.isChain_cons_cons, List.isChain_singleton, and_true]
      refine ⟨?_, ?_, ?_, ?_⟩ <;> (unfold Edge; decide)
    · intro x hx
      rw [view_node]
      simp only [List.mem_cons, List.not_mem_nil, or_false] at hx
      rcases hx with rfl | rfl | rfl | rfl | rfl <;> decide
    · simp [hsink]
    · simp [hsink]
  · refine ⟨?_, ⟨1, by simp, rfl⟩, ?_, [1, 2], 3, rfl, ?_, ?_⟩
    · simp only [List.isChain_cons_cons, List.isChain_singleton, and_true]
      refine ⟨?_, ?_⟩ <;> (unfold Edge; decide)
    · intro x hx
      rw [view_node]
      simp only [List.mem_cons, List.not_mem_nil, or_false] at hx
      rcases hx with rfl | rfl | rfl <;> decide
    · simp [hsink]
    · simp [hsink]

/-- the paths of the graph 1 → 2 have at most two nodes -/
example : generateLog (addCount (empty : Graph Nat) 1 2) (fun s _ => (s, s + 1)) 0 3 2 none none ≠ .error .diverge := by
  have hb : Built (addCount (empty : Graph Nat) 1 2) := Built.new.addCount _ _ _
  refine C84_terminates hb _ _ _ 2 _ _ (fun p hp => ?_)
  have hE : ∀ x y, (view (addCount (empty : Graph Nat) 1 2)).Edge x y → x = 1 ∧ y = 2 := by
    intro x y hxy
    rw [view_edge] at hxy
    unfold Edge at hxy
    have : ((addCount (empty : Graph Nat) 1 2).edges.get? (x, y)).isSome := by
      unfold cnt at hxy
      cases hg : (addCount (empty : Graph Nat) 1 2).edges.get? (x, y) with
      | none => rw [hg] at hxy; exact hxy
      | some e => rfl
    have hk : (x, y) ∈ (addCount (empty : Graph Nat) 1 2).edges.keys := by
      by_contra h
      rw [Dict.get?_eq_none_iff.2 h] at this
      cases this
    have hk' : (addCount (empty : Graph Nat) 1 2).edges.keys = [(1, 2)] := by decide
    rw [hk'] at hk
    simpa using hk
  match p, hp with
  | [], _ => simp
  | [_], _ => simp
  | [_, _], _ => simp
  | a :: b :: c :: p, hp =>
    rw [List.isChain_cons_cons, List.isChain_cons_cons] at hp
    have h1 := hE _ _ hp.1
    have h2 := hE _ _ hp.2.1
    omega

end Prolothar.Dfg
