import Verif.Lemmas.PatternPrune
import Verif.Lemmas.PetriRuns
/-
Pruning of patterns keeps their executions.
-/
namespace Prolothar.Petri
open Prolothar.Spec.Petri

/-- C100: `prune` keeps the source places and the sink places of every net; the remaining places are exactly the ones with an arc, and are
places of the original net -/
theorem C100_prune_ends {n n' : Net} (hw : n.WF) (hp : n.prune = .ok n') (p : String) :
    (IsSource n'.transitions n'.pre n'.post p ↔ IsSource n.transitions n.pre n.post p) ∧
    (IsSink n'.transitions n'.pre n'.post p ↔ IsSink n.transitions n.pre n.post p) ∧
    (p ∈ n'.places ↔ ∃ t ∈ n'.transitions, p ∈ n'.pre t ∨ p ∈ n'.post t) ∧ (p ∈ n'.places → p ∈ n.places) := by
  have h1 := prune_ind hw (g := fun _ => True) (fun _ _ => trivial)
    (fun N => ∀ p, (((∃ u, N.ok u ∧ p ∈ N.pre u) ∧ ¬ ∃ u, N.ok u ∧ p ∈ N.post u) ↔ IsSource n.transitions n.pre n.post p) ∧
      (((∃ u, N.ok u ∧ p ∈ N.post u) ∧ ¬ ∃ u, N.ok u ∧ p ∈ N.pre u) ↔ IsSink n.transitions n.pre n.post p)) ?_ ?_ hp p
  have h2 := prune_ind hw (g := fun _ => True) (fun _ _ => trivial)
    (fun N => ∀ u, N.ok u → ∀ p, p ∈ N.pre u ∨ p ∈ N.post u → p ∈ n.places) ?_ ?_ hp
  · have h1 := h1
    simp only [arcs, and_true] at h1
    refine ⟨h1.1, h1.2, prune_places hp p, fun h => ?_⟩
    obtain ⟨t, ht, h⟩ := (prune_places hp p).1 h
    exact h2 t ⟨ht, trivial⟩ p h
  · intro N N' s e t hs hm hq u hu x hx
    obtain ⟨hu1, hut⟩ := (hm.ok' u).1 hu
    rcases hx with hx | hx
    · exact hq u hu1 x (.inl ((hm.pre' u hu1 hut x).1 hx))
    · rcases (hm.post' u hu1 hut x).1 hx with ⟨k1, _⟩ | ⟨rfl, _⟩
      · exact hq u hu1 x (.inr k1)
      · exact hq t hm.ok_t x (.inr (by rw [hm.post_t]; exact List.mem_singleton_self _))
  · intro u hu x hx
    rcases hx with hx | hx
    · exact (hw.pre u hu.1).2 x hx
    · exact (hw.post u hu.1).2 x hx
  · intro N N' s e t hs hm hq x
    have hcons : ∃ u, N.ok u ∧ s ∈ N.pre u := ⟨t, hm.ok_t, by rw [hm.pre_t]; exact List.mem_singleton_self _⟩
    have hprod : ∃ u, N.ok u ∧ s ∈ N.post u := by
      by_contra hno
      exact hs ((hq s).1.1 ⟨hcons, hno⟩)
    obtain ⟨e1, e2⟩ := hm.ends hprod x
    rw [e1, e2, ← (hq x).1, ← (hq x).2]
    by_cases hx : x = s
    · subst hx
      simp [hcons, hprod]
    · simp [hx]
  · intro x
    simp [arcs, IsSource, IsSink]

/-- in the chain the source and the sink remain -/
example : ∃ n', (exChain oneToken ["p"]).prune = .ok n' ∧ IsSource n'.transitions n'.pre n'.post "s" ∧ IsSink n'.transitions n'.pre n'.post "e" ∧
    n'.places = ["s", "q", "e"] := by
  have hw := exChain_wf oneToken (postA := ["p"]) (by decide) (by decide)
  refine ⟨_, rfl, ?_, ?_, rfl⟩
  · exact (C100_prune_ends hw rfl "s").1.2 ⟨⟨"a", by decide, by decide⟩, by decide⟩
  · exact (C100_prune_ends hw rfl "e").2.1.2 ⟨⟨"b", by decide, by decide⟩, by decide⟩

end Prolothar.Petri

namespace Prolothar.ActivityPattern
open Prolothar.Petri
open Prolothar.Spec.Petri

theorem filterMap_visible {α : Type} (v : String → Bool) (f : String → α) (ts : List String) :
    ts.filterMap (fun t => if v t = true then some (f t) else none) = (ts.filter v).map f := by
  induction ts with
  | nil => rfl
  | cons t ts ih =>
    rw [List.filter_cons, List.filterMap_cons]
    by_cases h : v t = true
    · simp [h, ih]
    · simp [h, ih]

/-- the facts about a pruned pattern -/
theorem prune_facts {a : Pattern} {s e : String} (ha : a.Good s e) : ∃ r, a.prune = .ok r ∧ a.net.prune = .ok r.net ∧ r.Good s e ∧
    (∀ t ∈ r.net.transitions, t ∈ a.net.transitions) ∧ (∀ t ∈ a.net.transitions, a.net.visible t = true → t ∈ r.net.transitions) ∧
    r.net.visible = a.net.visible ∧ r.net.transLabel = a.net.transLabel ∧ r.net.guard = a.net.guard ∧
    (∀ t ∈ r.net.transitions, r.map.get? t = a.map.get? t) := by
  obtain ⟨n', h1, h2, h3, h4, h5, h6, _, h8, h9, h10, _⟩ := C100_prune ha.wf (fun _ => none)
  have hmap : ∀ t, Dict.get? (a.map.filter fun e => decide (e.1 ∈ n'.transitions)) t = if t ∈ n'.transitions then a.map.get? t else none := by
    intro t
    have := get?_filter (fun x => decide (x ∈ n'.transitions)) a.map t
    simpa using this
  have hmap' : ∀ t ∈ n'.transitions, Dict.get? (a.map.filter fun e => decide (e.1 ∈ n'.transitions)) t = a.map.get? t := by
    intro t ht; rw [hmap, if_pos ht]
  refine ⟨⟨n', a.map.filter fun e => decide (e.1 ∈ n'.transitions)⟩, ?_, h1, ⟨h2, ?_, ?_, ?_, ?_, ?_⟩, fun t ht => h8.subset ht, h9, h5, h6, h4, hmap'⟩
  · unfold Pattern.prune; rw [h1]; rfl
  · intro p hp
    show 0 ≤ n'.tokens p
    rw [h3]
    exact ha.tokens p ((C100_prune_ends ha.wf h1 p).2.2.2 hp)
  · intro p
    exact ((C100_prune_ends ha.wf h1 p).1).trans (ha.source p)
  · intro p
    exact ((C100_prune_ends ha.wf h1 p).2.1).trans (ha.sink p)
  · intro t ht
    show n'.pre t ≠ []
    rw [h10 t ht]
    exact ha.pre_ne t (h8.subset ht)
  · intro t ht hv
    show ∃ x, Dict.get? (a.map.filter fun e => decide (e.1 ∈ n'.transitions)) t = some x
    rw [hmap' t ht]
    have hv : n'.visible t = true := hv
    rw [h5] at hv
    exact ha.names t (h8.subset ht) hv

/-- what is kept of the workflow of a pattern -/
theorem prune_keeps {a r : Pattern} {s e : String} (ha : a.Good s e) (hr : a.net.prune = .ok r.net) (hguard : r.net.guard = a.net.guard) (h : Heap)
    (ho : (a.sys h s e).OneSafe) : Keeps a.net.visible (single s) (single e) ⟨a.net.pre, a.net.post, Allowed h a.net⟩ ⟨r.net.pre, r.net.post, Allowed h r.net⟩ := by
  have hsafe : Safe a.net.pre a.net.post (Allowed h a.net) (single s) := fun ts m hrun p => ho m ⟨ts, hrun⟩ p
  have := prune_ind ha.wf (g := fun u => (a.net.guard u).accept h = .ok true) (fun t ht => accept_always ht)
    (fun N => (∀ u, N.ok u → e ∉ N.pre u) ∧ Keeps a.net.visible (single s) (single e) ⟨a.net.pre, a.net.post, Allowed h a.net⟩ N) ?_ ?_ hr
  · have hok : Allowed h r.net = (arcs r.net r.net.transitions fun u => (a.net.guard u).accept h = .ok true).ok := by
      funext t
      show (t ∈ r.net.transitions ∧ (r.net.guard t).accept h = .ok true) = (t ∈ r.net.transitions ∧ _)
      rw [hguard]
    rw [hok]
    exact this.2
  · rintro N N' p q t hp hm ⟨he, hk⟩
    have hps : p ≠ s := fun e => hp ((ha.source p).2 e)
    have hpe : p ≠ e := by
      rintro rfl
      exact he t hm.ok_t (by rw [hm.pre_t]; exact List.mem_singleton_self _)
    refine ⟨fun u hu hx => ?_, hk.merge hm (fun x => ?_) (by simp [single, hps]) (by simp [single, hpe])⟩
    · obtain ⟨hu1, hut⟩ := (hm.ok' u).1 hu
      exact he u hu1 ((hm.pre' u hu1 hut e).1 hx)
    · unfold single; split <;> decide
  · refine ⟨fun u hu hx => ?_, ?_⟩
    · exact ((ha.sink e).2 rfl).2 ⟨u, hu.1, hx⟩
    · exact Keeps.refl hsafe

/-- C114: pruning a pattern always succeeds and gives a pattern. If no place of the pattern ever carries two tokens, the pruned pattern has exactly
the same executions, and again no place carries two tokens. If the pattern completes properly,
so does the pruned one, and if it is sound, so is the pruned one. -/
theorem C114_prune_executions {a : Pattern} (ha : a.Valid) : ∃ r, a.prune = .ok r ∧ r.Valid ∧ ∀ h, a.OneSafe h →
    (∀ w, r.Words h w ↔ a.Words h w) ∧ (∀ w, r.Partial h w ↔ a.Partial h w) ∧ r.OneSafe h ∧ (a.Clean h → r.Clean h) ∧ (a.Sound h → r.Sound h) := by
  obtain ⟨s, e, ha⟩ := ha
  obtain ⟨r, h1, h2, hg, hsub, hvis, hv, hl, hguard, hmap⟩ := prune_facts ha
  refine ⟨r, h1, ⟨s, e, hg⟩, fun h ho => ?_⟩
  rw [ha.oneSafe] at ho
  have hk := prune_keeps ha h2 hguard h ho
  have hobs : ∀ ts : List String, (∀ t ∈ ts, t ∈ r.net.transitions) → ts.filterMap (r.sys h s e).obs = ts.filterMap (a.sys h s e).obs := by
    intro ts hts
    refine List.filterMap_congr fun t ht => ?_
    show (if r.net.visible t then some (r.net.transLabel t, r.map.get? t) else none) = (if a.net.visible t then some (a.net.transLabel t, a.map.get? t) else none)
    rw [hv, hl, hmap t (hts t ht)]
  have hobs' : ∀ ts : List String, ts.filterMap (a.sys h s e).obs = (ts.filter a.net.visible).map fun t => (a.net.transLabel t, a.map.get? t) :=
    fun ts => filterMap_visible a.net.visible (fun t => (a.net.transLabel t, a.map.get? t)) ts
  simp only [ha.words, hg.words, ha.part, hg.part, hg.oneSafe, ha.clean, hg.clean, ha.sound, hg.sound]
  have hseen : ∀ (ts : List String) m, Run r.net.pre r.net.post (Allowed h r.net) (single s) ts m → ts.filterMap (r.sys h s e).obs =
      (ts.filter a.net.visible).map fun t => (a.net.transLabel t, a.map.get? t) :=
    fun ts m hrun => (hobs ts fun t ht => (hrun.ok t ht).1).trans (hobs' ts)
  refine ⟨fun w => ?_, fun w => ?_, ?_, ?_, ?_⟩
  · constructor
    · rintro ⟨ts, hrun, hw⟩
      obtain ⟨us, k1, k2⟩ := (hk.lang _).1 ⟨ts, hrun, rfl⟩
      refine ⟨us, k1, ?_⟩
      rw [hobs', k2, ← hw]
      exact (hseen ts _ hrun).symm
    · rintro ⟨ts, hrun, hw⟩
      obtain ⟨us, k1, k2⟩ := (hk.lang _).2 ⟨ts, hrun, rfl⟩
      refine ⟨us, k1, ?_⟩
      rw [hseen us _ k1, k2, ← hw, hobs']
  · constructor
    · rintro ⟨ts, m, hrun, hw⟩
      obtain ⟨us, m', k1, k2⟩ := (hk.part _).1 ⟨ts, m, hrun, rfl⟩
      refine ⟨us, m', k1, ?_⟩
      rw [hobs', k2, ← hw]
      exact (hseen ts _ hrun).symm
    · rintro ⟨ts, m, hrun, hw⟩
      obtain ⟨us, m', k1, k2⟩ := (hk.part _).2 ⟨ts, m, hrun, rfl⟩
      refine ⟨us, m', k1, ?_⟩
      rw [hseen us _ k1, k2, ← hw, hobs']
  · rintro m ⟨ts, hrun⟩
    exact hk.safe ts m hrun
  · intro hc ts m hrun hm
    obtain ⟨us, k1⟩ := hk.reach ts m hrun
    exact hc us m k1 hm
  · rintro ⟨s1, s2, s3⟩
    refine ⟨?_, ?_, ?_⟩
    · rintro m ⟨ts, hrun⟩
      exact hk.completes (fun ts m hr => s1 m ⟨ts, hr⟩) ts m hrun
    · intro ts m hrun hm
      obtain ⟨us, k1⟩ := hk.reach ts m hrun
      exact s2 us m k1 hm
    · intro t ht
      obtain ⟨k1, k2⟩ := hk.live t ht
      obtain ⟨m, ⟨ts, hm⟩, he⟩ := s3 t k1
      obtain ⟨us, m', l1, l2⟩ := k2 ⟨ts, m, hm, he⟩
      exact ⟨m', ⟨us, l1⟩, l2⟩

/-- C156: a pruned nested composition of sound patterns is sound and has exactly the executions that the expression stands for -/
theorem C156_nested_prune (h : Heap) {x : Expr} {r : Pattern} (hx : x.All (fun a => a.Valid ∧ a.Sound h ∧ a.OneSafe h)) (hr : x.eval = .ok r) :
    ∃ r', r.prune = .ok r' ∧ r'.Valid ∧ r'.Sound h ∧ r'.OneSafe h ∧ ∀ w, r'.Words h w ↔ x.Means h w := by
  obtain ⟨hv, hs, ho⟩ := C156_nested h x r hx hr
  have hx' : x.All (fun a => a.Valid ∧ a.Clean h) := by
    clear hr hv hs ho
    induction x with
    | leaf a => exact ⟨hx.1, fun s e h1 h2 => (hx.2.1 s e h1 h2).2.1⟩
    | seq x y ihx ihy => exact ⟨ihx hx.1, ihy hx.2⟩
    | alt x y ihx ihy => exact ⟨ihx hx.1, ihy hx.2⟩
    | par x y ihx ihy => exact ⟨ihx hx.1, ihy hx.2⟩
    | rep x ih => exact ih hx
  obtain ⟨r', h1, h2, h3⟩ := C114_prune_executions hv
  obtain ⟨k1, _, k3, _, k5⟩ := h3 h ho
  refine ⟨r', h1, h2, k5 hs, k3, fun w => ?_⟩
  rw [k1, (C113_nested h x r hx' hr).2.2]

/-- the pruned repetition of a parallel composition, followed by a choice: invisible transitions are removed -/
example (h : Heap) : ∃ r r', exNested.eval = .ok r ∧ r.prune = .ok r' ∧ r'.Sound h ∧ r'.net.transitions.length < r.net.transitions.length ∧
    r'.Words h [("b", some "B"), ("a", some "A"), ("c", some "C")] := by
  have hx : exNested.All (fun a => a.Valid ∧ a.Sound h ∧ a.OneSafe h) :=
    ⟨⟨exAct_sound _ _ h, exAct_sound _ _ h⟩, exAct_sound _ _ h, exAct_sound _ _ h⟩
  have hs : (exNested.eval.toOption.bind fun r => r.prune.toOption.map fun r' => decide (r'.net.transitions.length < r.net.transitions.length)) =
      some true := by decide +kernel
  cases hr : exNested.eval with
  | error e => rw [hr] at hs; cases hs
  | ok r =>
    obtain ⟨r', h1, _, h2, _, h3⟩ := C156_nested_prune h hx hr
    rw [hr] at hs
    simp only [Except.toOption, Option.bind_some, h1, Option.map_some, Option.some.injEq, decide_eq_true_eq] at hs
    refine ⟨r, r', rfl, h1, h2, hs, (h3 _).2 ?_⟩
    have wa := (exAct_valid "a" "A" h).2.2
    have wb := (exAct_valid "b" "B" h).2.2
    have wc := (exAct_valid "c" "C" h).2.2
    refine ⟨[("b", some "B"), ("a", some "A")], [("c", some "C")], ?_, .inl ((wc _).2 rfl), rfl⟩
    exact ⟨[[("b", some "B"), ("a", some "A")]], by simp, by
      simp only [List.mem_singleton, forall_eq]
      exact ⟨_, _, (wa _).2 rfl, (wb _).2 rfl, .right (.left .nil)⟩, rfl⟩

/-- the transition `a` puts a token on both `p` and `q`, and an invisible transition leads from `p` to `q` -/
def exUnsafe : Pattern := ⟨exChain (fun _ => 0) ["p", "q"], [("a", "A"), ("b", "B")]⟩

theorem exUnsafe_good : exUnsafe.Good "s" "e" := by
  have hc : ∀ p, (∃ t ∈ exUnsafe.net.transitions, p ∈ exUnsafe.net.pre t) ↔ p = "s" ∨ p = "p" ∨ p = "q" := by
    intro p
    show (∃ t ∈ ["a", "t", "b"], p ∈ (if t = "a" then ["s"] else if t = "t" then ["p"] else if t = "b" then ["q"] else [])) ↔ _
    simp
  have hp : ∀ p, (∃ t ∈ exUnsafe.net.transitions, p ∈ exUnsafe.net.post t) ↔ p = "p" ∨ p = "q" ∨ p = "e" := by
    intro p
    show (∃ t ∈ ["a", "t", "b"], p ∈ (if t = "a" then ["p", "q"] else if t = "t" then ["q"] else if t = "b" then ["e"] else [])) ↔ _
    simp
    tauto
  refine ⟨exChain_wf _ (by decide) (by decide), fun _ _ => Int.le_refl 0, fun p => ?_, fun p => ?_, ?_, ?_⟩
  · unfold IsSource
    rw [hc, hp]
    constructor
    · tauto
    · rintro rfl; decide
  · unfold IsSink
    rw [hc, hp]
    constructor
    · tauto
    · rintro rfl; decide
  · intro t ht
    have ht : t ∈ ["a", "t", "b"] := ht
    simp only [List.mem_cons, List.not_mem_nil, or_false] at ht
    rcases ht with rfl | rfl | rfl <;> decide
  · intro t ht hv
    have ht : t ∈ ["a", "t", "b"] := ht
    simp only [List.mem_cons, List.not_mem_nil, or_false] at ht
    rcases ht with rfl | rfl | rfl
    · exact ⟨"A", by decide⟩
    · exact absurd hv (by decide)
    · exact ⟨"B", by decide⟩

/-- C114: if a place can carry two tokens, pruning can add executions: here the pattern can never be completed, since a token is left, but after pruning
it can -/
theorem C114_prune_unsafe_witness (h : Heap) : ∃ a r : Pattern, a.Valid ∧ a.prune = .ok r ∧ (∀ w, ¬ a.Words h w) ∧ ∃ w, r.Words h w := by
  obtain ⟨r, h1, h2, hg, hsub, hvis, hv, hl, hguard, hmap⟩ := prune_facts exUnsafe_good
  refine ⟨exUnsafe, r, ⟨_, _, exUnsafe_good⟩, h1, fun w => ?_, ?_⟩
  · rw [exUnsafe_good.words]
    rintro ⟨ts, hr, -⟩
    have key : ∀ ts m, Run exUnsafe.net.pre exUnsafe.net.post (Allowed h exUnsafe.net) (single "s") ts m →
        2 * m "s" + m "p" + m "q" + m "e" = 2 := by
      intro ts m hr
      induction hr with
      | nil => decide
      | @snoc ts m t hr ht he ih =>
        rcases exChain_allowed ht with rfl | rfl | rfl
        · simp [after, exUnsafe, exChain]; linarith
        · simp [after, exUnsafe, exChain]; linarith
        · simp [after, exUnsafe, exChain]; linarith
    have := key ts _ hr
    revert this
    show ¬ 2 * single "e" "s" + single "e" "p" + single "e" "q" + single "e" "e" = 2
    decide
  · obtain ⟨n', hn', k1, k2, k3, k4, k5, _⟩ := prune_fields (n := exChain (fun _ => 0) ["p", "q"]) (ts := ["a", "b"]) (a := ["s"]) (b := ["q"])
      (c := ["q"]) (d := ["e"]) (x := 0) (y := 0) rfl
    have hn : r.net = n' := by
      have : exUnsafe.net.prune = .ok n' := hn'
      rw [h2] at this
      exact Except.ok.inj this
    refine ⟨_, hg.words.2 ⟨["a", "b"], ?_, rfl⟩⟩
    have hall : ∀ t, t = "a" ∨ t = "b" → Allowed h r.net t := by
      intro t ht
      refine ⟨by rw [hn, k1]; simpa using ht, ?_⟩
      rw [hguard]
      exact (exChain_ok h (fun _ => 0) ["p", "q"] (t := t) (by tauto)).2
    have run : Run r.net.pre r.net.post (Allowed h r.net) (single "s") ["a", "b"]
        (after (r.net.pre "b") (r.net.post "b") (after (r.net.pre "a") (r.net.post "a") (single "s"))) := by
      refine Run.snoc (ts := ["a"]) (Run.snoc (ts := []) .nil (hall _ (.inl rfl)) ?_) (hall _ (.inr rfl)) ?_
      · rw [hn, k2]; intro p hp; rw [List.mem_singleton.1 hp]; decide
      · rw [hn, k4, k2, k3]; intro p hp; rw [List.mem_singleton.1 hp]; decide
    have hm : after (r.net.pre "b") (r.net.post "b") (after (r.net.pre "a") (r.net.post "a") (single "s")) = single "e" := by
      rw [hn, k2, k3, k4, k5]
      funext p
      unfold after single
      simp only [List.mem_singleton]
      by_cases p1 : p = "s"
      · subst p1; decide
      · by_cases p2 : p = "q"
        · subst p2; decide
        · simp [p1, p2]
    rw [hm] at run
    exact run

end Prolothar.ActivityPattern
