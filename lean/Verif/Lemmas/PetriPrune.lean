import Verif.Lemmas.PetriWf
import Verif.Spec.Petri
import Mathlib.Tactic.Linarith
/-
Lemmas for C100: merging the two places of an invisible transition.
-/
namespace Prolothar.Spec.Petri

variable {P T : Type} [DecidableEq P]

theorem Run.append {pre post : T → List P} {ok : T → Prop} {m m1 m2 : P → Int} {ts us : List T}
    (h : Run pre post ok m ts m1) (h' : Run pre post ok m1 us m2) : Run pre post ok m (ts ++ us) m2 := by
  induction h' with
  | nil => rw [List.append_nil]; exact h
  | snoc _ ho he ih => rw [← List.append_assoc]; exact ih.snoc ho he

theorem Run.single {pre post : T → List P} {ok : T → Prop} {m : P → Int} {t : T} (ho : ok t) (he : Enabled (pre t) m) :
    Run pre post ok m [t] (after (pre t) (post t) m) := Run.snoc (ts := []) .nil ho he

theorem Run.nonneg {pre post : T → List P} {ok : T → Prop} {m m1 : P → Int} {ts : List T} (h : Run pre post ok m ts m1)
    (hm : ∀ p, 0 ≤ m p) : ∀ p, 0 ≤ m1 p := by
  induction h with
  | nil => exact hm
  | snoc _ _ he ih =>
    intro p
    unfold after
    have := ih p
    split
    · next h => have := he p h; split <;> omega
    · split <;> omega

/-- a net: arcs and the condition under which a transition may be fired at all -/
structure Arcs (P T : Type) where
  pre : T → List P
  post : T → List P
  ok : T → Prop

/-- `N'` is a reduction of `N` from the marking `m0`: its runs are runs of `N` (with other invisible transitions), and the
runs of `N` can be continued with invisible transitions to a marking of `N'` -/
structure Reduces (visible : T → Bool) (m0 : P → Int) (N N' : Arcs P T) : Prop where
  back : ∀ ts0 m1, Run N'.pre N'.post N'.ok m0 ts0 m1 → ∀ ts m2, Run N'.pre N'.post N'.ok m1 ts m2 →
    ∃ us, Run N.pre N.post N.ok m1 us m2 ∧ us.filter visible = ts.filter visible
  fwd : ∀ ts m, Run N.pre N.post N.ok m0 ts m → ∃ us m', Run N.pre N.post N.ok m us m' ∧ us.filter visible = [] ∧
    ∃ ts', Run N'.pre N'.post N'.ok m0 ts' m' ∧ ts'.filter visible = ts.filter visible

theorem Reduces.refl (visible : T → Bool) (m0 : P → Int) (N : Arcs P T) : Reduces visible m0 N N :=
  ⟨fun _ _ _ ts _ h => ⟨ts, h, rfl⟩, fun ts m h => ⟨[], m, .nil, rfl, ts, h, rfl⟩⟩

theorem Reduces.trans {visible : T → Bool} {m0 : P → Int} {N N1 N2 : Arcs P T} (h : Reduces visible m0 N N1) (h' : Reduces visible m0 N1 N2) :
    Reduces visible m0 N N2 := by
  constructor
  · intro ts0 m1 h0 ts m2 h1
    obtain ⟨us0, hr0, _⟩ := h'.back [] m0 .nil ts0 m1 h0
    obtain ⟨us, hr, hv⟩ := h'.back ts0 m1 h0 ts m2 h1
    obtain ⟨vs, hr', hv'⟩ := h.back us0 m1 hr0 us m2 hr
    exact ⟨vs, hr', hv'.trans hv⟩
  · intro ts m hr
    obtain ⟨us, m', h1, h2, ts', h3, h4⟩ := h.fwd ts m hr
    obtain ⟨us2, m'', k1, k2, ts'', k3, k4⟩ := h'.fwd ts' m' h3
    obtain ⟨us3, l1, l2⟩ := h.back ts' m' h3 us2 m'' k1
    exact ⟨us ++ us3, m'', h1.append l1, by rw [List.filter_append, h2, l2, k2]; rfl, ts'', k3, k4.trans h4⟩

theorem Reduces.trace {visible : T → Bool} {m0 : P → Int} {N N' : Arcs P T} (h : Reduces visible m0 N N') (σ : List T) :
    Trace N.pre N.post N.ok visible m0 σ ↔ Trace N'.pre N'.post N'.ok visible m0 σ := by
  constructor
  · rintro ⟨ts, m, hr, hv⟩
    obtain ⟨us, m', _, _, ts', h3, h4⟩ := h.fwd ts m hr
    exact ⟨ts', m', h3, h4.trans hv⟩
  · rintro ⟨ts, m, hr, hv⟩
    obtain ⟨us, h1, h2⟩ := h.back [] m0 .nil ts m hr
    exact ⟨us, m, h1, h2.trans hv⟩

/-- the transition `t` from `p` to `q` is removed and the place `p` is replaced by `q` -/
structure Merge (visible : T → Bool) (N N' : Arcs P T) (p q : P) (t : T) : Prop where
  pre_t : N.pre t = [p]
  post_t : N.post t = [q]
  ne : q ≠ p
  ok_t : N.ok t
  vis : visible t = false
  only : ∀ u, N.ok u → p ∈ N.pre u → u = t
  pre' : ∀ u, N.ok u → u ≠ t → ∀ x, x ∈ N'.pre u ↔ x ∈ N.pre u
  post' : ∀ u, N.ok u → u ≠ t → ∀ x, x ∈ N'.post u ↔ (x ∈ N.post u ∧ x ≠ p) ∨ (x = q ∧ p ∈ N.post u)
  ok' : ∀ u, N'.ok u ↔ N.ok u ∧ u ≠ t

section
variable {visible : T → Bool} {N N' : Arcs P T} {p q : P} {t : T} {m0 : P → Int}

/-- a transition which is fired in a safe net does not produce on both places -/
theorem Merge.not_both (h : Merge visible N N' p q t) (h0 : ∀ p, 0 ≤ m0 p) (hs : Safe N.pre N.post N.ok m0) {ts : List T} {m : P → Int}
    (hr : Run N.pre N.post N.ok m0 ts m) {u : T} (hu : N.ok u) (he : Enabled (N.pre u) m) (hut : u ≠ t) (hp : p ∈ N.post u) : q ∉ N.post u := by
  intro hq
  have hr1 := hr.snoc hu he
  have hn := hr.nonneg h0
  have hpu : p ∉ N.pre u := fun hx => hut (h.only u hu hx)
  have hmp : 1 ≤ after (N.pre u) (N.post u) m p := by
    unfold after
    rw [if_neg hpu, if_pos hp]; have := hn p; omega
  have hmq : 1 ≤ after (N.pre u) (N.post u) m q := by
    unfold after
    rw [if_pos hq]
    have := hn q
    split
    · next hx => have := he q hx; omega
    · omega
  have hr2 := hr1.snoc h.ok_t (by rw [h.pre_t]; intro x hx; rw [List.mem_singleton.1 hx]; exact hmp)
  have := hs _ _ hr2 q
  unfold after at this hmq
  rw [h.pre_t, h.post_t] at this
  simp only [List.mem_singleton, h.ne, if_false, if_true] at this
  omega

/-- the corresponding marking of the reduced net -/
def merged (p q : P) (m : P → Int) : P → Int := fun x => if x = p then 0 else if x = q then m q + m p else m x

theorem merged_after_t (h : Merge visible N N' p q t) (m : P → Int) : merged p q (after (N.pre t) (N.post t) m) = merged p q m := by
  funext x
  unfold merged
  by_cases hx : x = p
  · simp [hx]
  · simp only [hx, if_false]
    have hne := h.ne
    have hne' : ¬ p = q := fun h => hne h.symm
    unfold after
    rw [h.pre_t, h.post_t]
    by_cases hq : x = q
    · subst hq; simp [hne, hne']
    · simp [hq, hx]

theorem merged_after (h : Merge visible N N' p q t) {u : T} (hu : N.ok u) (hut : u ≠ t) (hb : p ∈ N.post u → q ∉ N.post u) (m : P → Int) :
    merged p q (after (N.pre u) (N.post u) m) = after (N'.pre u) (N'.post u) (merged p q m) := by
  have hpu : p ∉ N.pre u := fun hx => hut (h.only u hu hx)
  funext x
  unfold merged after
  simp only [h.pre' u hu hut, h.post' u hu hut]
  have hne := h.ne
  have hne' : ¬ p = q := fun h => hne h.symm
  by_cases hx : x = p
  · subst hx
    simp [hpu, hne']
  · by_cases hq : x = q
    · subst hq
      simp only [hx, if_false, if_true, hpu, true_and]
      by_cases hp : p ∈ N.post u
      · have := hb hp
        simp only [hp, this, or_true, if_true, if_false, ne_eq]
        omega
      · simp only [hp, or_false, if_false, ne_eq, hx, not_false_eq_true, and_true]
        omega
    · simp [hx, hq]

theorem merged_eq (_hne : q ≠ p) {m : P → Int} (hm : m p = 0) : merged p q m = m := by
  funext x
  unfold merged
  split
  · next h => rw [h, hm]
  · split
    · next h => rw [h, hm]; omega
    · rfl

/-- forward simulation -/
theorem Merge.sim (h : Merge visible N N' p q t) (h0 : ∀ p, 0 ≤ m0 p) (hp0 : m0 p = 0) (hs : Safe N.pre N.post N.ok m0) {ts : List T} {m : P → Int}
    (hr : Run N.pre N.post N.ok m0 ts m) : ∃ ts', Run N'.pre N'.post N'.ok m0 ts' (merged p q m) ∧ ts'.filter visible = ts.filter visible := by
  induction hr with
  | nil => exact ⟨[], by rw [merged_eq h.ne hp0]; exact .nil, rfl⟩
  | @snoc ts m u hr hu he ih =>
    obtain ⟨ts', h1, h2⟩ := ih
    by_cases hut : u = t
    · subst hut
      refine ⟨ts', by rw [merged_after_t h]; exact h1, ?_⟩
      rw [List.filter_append, h2]
      simp [h.vis]
    · have hpu : p ∉ N.pre u := fun hx => hut (h.only u hu hx)
      refine ⟨ts' ++ [u], ?_, by rw [List.filter_append, List.filter_append, h2]⟩
      rw [merged_after h hu hut (fun hx => h.not_both h0 hs hr hu he hut hx)]
      refine h1.snoc ((h.ok' u).2 ⟨hu, hut⟩) ?_
      intro x hx
      rw [h.pre' u hu hut] at hx
      have hx1 := he x hx
      have hxp : x ≠ p := fun e => hpu (e ▸ hx)
      unfold merged
      rw [if_neg hxp]
      split
      · next e => subst e; have := hr.nonneg h0 p; omega
      · exact hx1

/-- backward simulation -/
theorem Merge.back (h : Merge visible N N' p q t) (h0 : ∀ p, 0 ≤ m0 p) (hs : Safe N.pre N.post N.ok m0) {ts0 ts : List T} {m1 m2 : P → Int}
    (hr0 : Run N.pre N.post N.ok m0 ts0 m1) (hp : m1 p = 0) (hr : Run N'.pre N'.post N'.ok m1 ts m2) :
    m2 p = 0 ∧ ∃ us, Run N.pre N.post N.ok m1 us m2 ∧ us.filter visible = ts.filter visible := by
  induction hr with
  | nil => exact ⟨hp, [], .nil, rfl⟩
  | @snoc ts m u hr hu he ih =>
    obtain ⟨hmp, us, h1, h2⟩ := ih
    obtain ⟨hu, hut⟩ := (h.ok' u).1 hu
    have hpu : p ∉ N.pre u := fun hx => hut (h.only u hu hx)
    have he' : Enabled (N.pre u) m := fun x hx => he x ((h.pre' u hu hut x).2 hx)
    have hrm := hr0.append h1
    have hb : p ∈ N.post u → q ∉ N.post u := fun hx => h.not_both h0 hs hrm hu he' hut hx
    have hm : after (N'.pre u) (N'.post u) m = merged p q (after (N.pre u) (N.post u) m) := by
      rw [merged_after h hu hut hb, merged_eq h.ne hmp]
    refine ⟨by rw [hm]; simp [merged], ?_⟩
    have h3 := h1.snoc hu he'
    by_cases hpp : p ∈ N.post u
    · have hm1 : after (N.pre u) (N.post u) m p = 1 := by unfold after; rw [hmp, if_neg hpu, if_pos hpp]; rfl
      have h4 := h3.snoc h.ok_t (by rw [h.pre_t]; intro x hx; rw [List.mem_singleton.1 hx, hm1])
      refine ⟨us ++ [u] ++ [t], ?_, ?_⟩
      · rw [hm, ← merged_after_t h, merged_eq h.ne]
        · exact h4
        · have hne' : ¬ p = q := fun e => h.ne e.symm
          show _ - _ + _ = (0 : Int)
          rw [hm1, h.pre_t, h.post_t]
          simp [hne']
      · rw [List.filter_append, List.filter_append, List.filter_append, h2]
        simp [h.vis]
    · have hm0 : after (N.pre u) (N.post u) m p = 0 := by unfold after; rw [hmp, if_neg hpu, if_neg hpp]; rfl
      exact ⟨_, by rw [hm, merged_eq h.ne hm0]; exact h3, by rw [List.filter_append, List.filter_append, h2]⟩

/-- in a safe net, the reduction keeps the behaviour, and the result is safe -/
theorem Merge.reduces (h : Merge visible N N' p q t) (h0 : ∀ p, 0 ≤ m0 p) (hp0 : m0 p = 0) (hs : Safe N.pre N.post N.ok m0) :
    Reduces visible m0 N N' ∧ Safe N'.pre N'.post N'.ok m0 := by
  refine ⟨⟨?_, ?_⟩, ?_⟩
  · intro ts0 m1 hr0 ts m2 hr
    obtain ⟨hp, us0, h1, _⟩ := h.back h0 hs .nil hp0 hr0
    exact (h.back h0 hs h1 hp hr).2
  · intro ts m hr
    obtain ⟨ts', h1, h2⟩ := h.sim h0 hp0 hs hr
    have hle := hs _ _ hr p
    have hge := hr.nonneg h0 p
    by_cases hm : m p = 0
    · exact ⟨[], merged p q m, by rw [merged_eq h.ne hm]; exact .nil, rfl, ts', h1, h2⟩
    · have hm1 : m p = 1 := by omega
      refine ⟨[t], merged p q m, ?_, by simp [h.vis], ts', h1, h2⟩
      have := Run.single (pre := N.pre) (post := N.post) (m := m) h.ok_t
        (by rw [h.pre_t]; intro x hx; rw [List.mem_singleton.1 hx, hm1])
      rw [← merged_after_t h, merged_eq h.ne]
      · exact this
      · have hne' : ¬ p = q := fun e => h.ne e.symm
        unfold after
        rw [hm1, h.pre_t, h.post_t]
        simp [hne']
  · intro ts m hr
    obtain ⟨_, us, h1, _⟩ := h.back h0 hs .nil hp0 hr
    exact hs _ _ h1
end

end Prolothar.Spec.Petri

namespace Prolothar.Petri
open Prolothar.Spec.Petri

theorem canPrune_iff {n : Net} {so si : List String} {t : String} (h : canPrune n so si t = true) :
    n.visible t = false ∧ (n.guard t).isAlways = true ∧
    ∃ s e, n.pre t = [s] ∧ n.post t = [e] ∧ s ∉ so ∧ (n.out s).length = 1 ∧ hasSelfLoop n s = false := by
  unfold canPrune at h
  rw [Bool.and_eq_true] at h
  obtain ⟨h1, h⟩ := h
  split at h
  · next s e hs he =>
    simp only [Bool.and_eq_true, decide_eq_true_eq] at h
    exact ⟨by simpa using h1, h.2, s, e, hs, he, h.1.1.1.2, h.1.1.2, by simpa using h.1.1.1.1⟩
  · cases h

/-- the arcs after the redirection of the transitions `ts` -/
def redirected (s e : String) (n : Net) (ts : List String) : String → List String :=
  fun u => if u ∈ ts ∧ s ∈ n.post u then (setAdd (n.post u) e).erase s else n.post u

theorem redirect_all (s e : String) : ∀ (ts : List String) (n : Net), ts.Nodup → n.out s = [] →
    ts.foldlM (redirect s e) n = .ok { n with post := redirected s e n ts }
  | [], n, _, _ => by
    have : redirected s e n [] = n.post := by funext x; simp [redirected]
    rw [this]; rfl
  | u :: ts, n, hn, ho => by
    rw [List.foldlM_cons]
    have hnd := (List.nodup_cons.1 hn)
    by_cases hs : s ∈ n.post u
    · have h1 : redirect s e n u = .ok { n with post := upd n.post u ((setAdd (n.post u) e).erase s) } := by
        unfold redirect setRemove
        rw [if_pos hs, if_pos ho, if_pos (mem_setAdd.2 (.inl hs))]
        rfl
      rw [h1]
      show ts.foldlM (redirect s e) _ = _
      rw [redirect_all s e ts { n with post := upd n.post u ((setAdd (n.post u) e).erase s) } hnd.2 ho]
      congr 2
      funext x
      unfold redirected
      by_cases hx : x = u
      · subst hx
        simp only [upd_self]
        rw [if_neg (fun h => hnd.1 h.1), if_pos ⟨List.mem_cons_self, hs⟩]
      · simp only [upd_ne _ _ hx, List.mem_cons, hx, false_or]
    · have h1 : redirect s e n u = .ok n := by
        unfold redirect
        rw [if_neg hs]; rfl
      rw [h1]
      show ts.foldlM (redirect s e) _ = _
      rw [redirect_all s e ts _ hnd.2 ho]
      congr 2
      funext x
      unfold redirected
      by_cases hx : x = u
      · subst hx
        rw [if_neg (fun h => hs h.2), if_neg (fun h => hs h.2)]
      · simp only [List.mem_cons, hx, false_or]

/-- the net without the transition `t` -/
def prunedNet (n : Net) (t s e : String) : Net :=
  { n with pre := upd n.pre t [], out := upd n.out s [], post := redirected s e { n with post := upd n.post t [] } n.transitions }

theorem pruneTransition_eq {n : Net} (hn : n.transitions.Nodup) {t s e : String} (hpre : n.pre t = [s]) (hpost : n.post t = [e])
    (hout : n.out s = [t]) : pruneTransition n t = .ok (prunedNet n t s e) := by
  unfold pruneTransition
  rw [hpre]
  simp only [List.foldlM_cons, List.foldlM_nil, setRemove, hpre, hout, List.mem_singleton, if_true, bind, Except.bind, List.erase_cons_head, hpost]
  rw [redirect_all s e _ _ hn (by simp only [upd_self])]
  rfl

/-- the arcs of the transitions `alive` under the condition `g` -/
def arcs (n : Net) (alive : List String) (g : String → Prop) : Arcs String String := ⟨n.pre, n.post, fun u => u ∈ alive ∧ g u⟩

/-- the loop invariant; the behaviour is kept under a condition `C` -/
structure PruneInv (C : Prop) (n0 n : Net) (alive : List String) (g : String → Prop) (visible : String → Bool) (m0 : String → Int) : Prop where
  wf : n.WF
  same : n.places = n0.places ∧ n.transitions = n0.transitions ∧ n.visible = n0.visible ∧ n.guard = n0.guard ∧ n.tokens = n0.tokens ∧
    n.placeLabel = n0.placeLabel ∧ n.transLabel = n0.transLabel ∧ n.vars = n0.vars
  sub : ∀ u ∈ alive, u ∈ n.transitions
  pre : ∀ u ∈ alive, n.pre u = n0.pre u
  dead : ∀ u ∈ n.transitions, u ∉ alive → n.pre u = [] ∧ n.post u = []
  red : C → Reduces visible m0 (arcs n0 n0.transitions g) (arcs n alive g)
  safe : C → Safe n.pre n.post (arcs n alive g).ok m0

theorem prunedNet_wf {n : Net} (hw : n.WF) {t s e : String} (ht : t ∈ n.transitions) (hpre : n.pre t = [s]) (hpost : n.post t = [e])
    (hout : n.out s = [t]) : (prunedNet n t s e).WF := by
  have hs : s ∈ n.places := (hw.pre t ht).2 s (by rw [hpre]; simp)
  have he : e ∈ n.places := (hw.post t ht).2 e (by rw [hpost]; simp)
  constructor
  · exact hw.places
  · exact hw.transitions
  · intro u hu
    show (upd n.pre t [] u).Nodup ∧ ∀ p ∈ upd n.pre t [] u, p ∈ n.places
    by_cases hut : u = t
    · subst hut; rw [upd_self]; simp
    · rw [upd_ne _ _ hut]; exact hw.pre u hu
  · intro u hu
    show (redirected s e { n with post := upd n.post t [] } n.transitions u).Nodup ∧
      ∀ p ∈ redirected s e { n with post := upd n.post t [] } n.transitions u, p ∈ n.places
    unfold redirected
    by_cases hut : u = t
    · subst hut; simp [upd_self]
    · simp only [upd_ne _ _ hut]
      split
      · refine ⟨(nodup_setAdd (hw.post u hu).1 e).erase _, fun p hp => ?_⟩
        rcases mem_setAdd.1 (List.mem_of_mem_erase hp) with h | rfl
        · exact (hw.post u hu).2 p h
        · exact he
      · exact hw.post u hu
  · intro p hp
    show (upd n.out s [] p).Nodup ∧ ∀ u, u ∈ upd n.out s [] p ↔ u ∈ n.transitions ∧ p ∈ upd n.pre t [] u
    have hts : ∀ u, s ∈ n.pre u → u ∈ n.transitions → u = t := by
      intro u h1 h2
      have := ((hw.out s hs).2 u).2 ⟨h2, h1⟩
      rw [hout] at this
      simpa using this
    by_cases hps : p = s
    · subst hps
      rw [upd_self]
      refine ⟨List.nodup_nil, fun u => ⟨fun h => (by cases h), ?_⟩⟩
      rintro ⟨h1, h2⟩
      by_cases hut : u = t
      · subst hut; rw [upd_self] at h2; cases h2
      · rw [upd_ne _ _ hut] at h2; exact absurd (hts u h2 h1) hut
    · rw [upd_ne _ _ hps]
      refine ⟨(hw.out p hp).1, fun u => ?_⟩
      rw [(hw.out p hp).2]
      by_cases hut : u = t
      · subst hut; rw [upd_self, hpre]; simp [hps]
      · rw [upd_ne _ _ hut]

/-- a transition that can be pruned joins two places -/
theorem PruneInv.merge {C : Prop} {n0 n : Net} {alive alive' : List String} {g : String → Prop} {m0 : String → Int}
    (hi : PruneInv C n0 n alive g n0.visible m0) {so si : List String}
    {t : String} (ht : t ∈ alive) (hg : (n.guard t).isAlways = true → g t) (hal : ∀ u, u ∈ alive' ↔ u ∈ alive ∧ u ≠ t)
    (hc : canPrune n so si t = true) : ∃ s e, s ∉ so ∧ n.pre t = [s] ∧ n.post t = [e] ∧ n.out s = [t] ∧
      Merge n0.visible (arcs n alive g) (arcs (prunedNet n t s e) alive' g) s e t := by
  obtain ⟨hv, hgd, s, e, hpre, hpost, hs, hlen, hloop⟩ := canPrune_iff hc
  have htt := hi.sub t ht
  have hsp : s ∈ n.places := (hi.wf.pre t htt).2 s (by rw [hpre]; simp)
  have hout : n.out s = [t] := by
    have hmem : t ∈ n.out s := ((hi.wf.out s hsp).2 t).2 ⟨htt, by rw [hpre]; simp⟩
    obtain ⟨x, hx⟩ := List.length_eq_one_iff.1 hlen
    rw [hx] at hmem ⊢
    rw [List.mem_singleton.1 hmem]
  have hes : e ≠ s := by
    rintro rfl
    have : hasSelfLoop n e = true := by
      unfold hasSelfLoop
      rw [hout]
      simp [hpost]
    rw [this] at hloop; cases hloop
  refine ⟨s, e, hs, hpre, hpost, hout, ?_⟩
  show Merge n0.visible (arcs n alive g) (arcs (prunedNet n t s e) alive' g) s e t
  · constructor
    · exact hpre
    · exact hpost
    · exact hes
    · exact ⟨ht, hg hgd⟩
    · rw [← hi.same.2.2.1]; exact hv
    · intro u hu hpu
      have := ((hi.wf.out s hsp).2 u).2 ⟨hi.sub u hu.1, hpu⟩
      rw [hout] at this
      simpa using this
    · intro u hu hut x
      show x ∈ upd n.pre t [] u ↔ _
      rw [upd_ne _ _ hut]; rfl
    · intro u hu hut x
      show x ∈ redirected s e { n with post := upd n.post t [] } n.transitions u ↔ _
      unfold redirected
      simp only [upd_ne _ _ hut]
      by_cases hsu : s ∈ n.post u
      · rw [if_pos ⟨hi.sub u hu.1, hsu⟩]
        have hnd := nodup_setAdd (hi.wf.post u (hi.sub u hu.1)).1 e
        rw [hnd.mem_erase_iff, mem_setAdd]
        show _ ↔ (x ∈ n.post u ∧ x ≠ s) ∨ (x = e ∧ s ∈ n.post u)
        constructor
        · rintro ⟨h1, h2 | rfl⟩
          · exact .inl ⟨h2, h1⟩
          · exact .inr ⟨rfl, hsu⟩
        · rintro (⟨h1, h2⟩ | ⟨rfl, _⟩)
          · exact ⟨h2, .inl h1⟩
          · exact ⟨hes, .inr rfl⟩
      · rw [if_neg (fun h => hsu h.2)]
        show _ ↔ (x ∈ n.post u ∧ x ≠ s) ∨ (x = e ∧ s ∈ n.post u)
        constructor
        · intro h; exact .inl ⟨h, fun he => hsu (he ▸ h)⟩
        · rintro (⟨h1, _⟩ | ⟨_, h2⟩)
          · exact h1
          · exact absurd h2 hsu
    · intro u
      show (u ∈ alive' ∧ g u) ↔ (u ∈ alive ∧ g u) ∧ u ≠ t
      rw [hal]
      constructor
      · rintro ⟨⟨h1, h2⟩, h3⟩; exact ⟨⟨h1, h3⟩, h2⟩
      · rintro ⟨⟨h1, h3⟩, h2⟩; exact ⟨⟨h1, h2⟩, h3⟩

theorem PruneInv.step {C : Prop} {n0 n : Net} {alive alive' : List String} {g : String → Prop} {m0 : String → Int}
    (hi : PruneInv C n0 n alive g n0.visible m0) (h0 : C → ∀ p, 0 ≤ m0 p) {so si : List String} (hso : C → ∀ p, p ∉ so → m0 p = 0 ∨ ∀ t ∈ n0.transitions, p ∉ n0.pre t)
    {t : String} (ht : t ∈ alive) (hg : (n.guard t).isAlways = true → g t) (hal : ∀ u, u ∈ alive' ↔ u ∈ alive ∧ u ≠ t)
    (hc : canPrune n so si t = true) : ∃ n', pruneTransition n t = .ok n' ∧ PruneInv C n0 n' alive' g n0.visible m0 := by
  obtain ⟨s, e, hs, hpre, hpost, hout, hmerge⟩ := hi.merge ht hg hal hc
  have htt := hi.sub t ht
  have hms : C → m0 s = 0 := by
    intro c
    rcases hso c s hs with h | h
    · exact h
    · refine absurd ?_ (h t (by rw [← hi.same.2.1]; exact htt))
      rw [← hi.pre t ht, hpre]; simp
  have hrs := fun c => hmerge.reduces (h0 c) (hms c) (hi.safe c)
  refine ⟨_, pruneTransition_eq hi.wf.transitions hpre hpost hout, prunedNet_wf hi.wf htt hpre hpost hout, hi.same, ?_, ?_, ?_,
    fun c => (hi.red c).trans (hrs c).1, fun c => (hrs c).2⟩
  · intro u hu; exact hi.sub u ((hal u).1 hu).1
  · intro u hu
    obtain ⟨h1, h2⟩ := (hal u).1 hu
    show upd n.pre t [] u = _
    rw [upd_ne _ _ h2]; exact hi.pre u h1
  · intro u hu hua
    show upd n.pre t [] u = [] ∧ redirected s e { n with post := upd n.post t [] } n.transitions u = []
    by_cases hut : u = t
    · subst hut; rw [upd_self]; simp [redirected, upd_self]
    · obtain ⟨h1, h2⟩ := hi.dead u hu (fun h => hua ((hal u).2 ⟨h, hut⟩))
      rw [upd_ne _ _ hut]
      refine ⟨h1, ?_⟩
      unfold redirected
      simp only [upd_ne _ _ hut, h2]
      simp

theorem pruneLoop_inv {C : Prop} {n0 : Net} {g : String → Prop} {m0 : String → Int} (h0 : C → ∀ p, 0 ≤ m0 p) {so si : List String}
    (hso : C → ∀ p, p ∉ so → m0 p = 0 ∨ ∀ t ∈ n0.transitions, p ∉ n0.pre t) (hg : ∀ t, (n0.guard t).isAlways = true → g t) :
    ∀ (ts : List String) (n : Net) (rem : List String), (rem ++ ts).Nodup → PruneInv C n0 n (rem ++ ts) g n0.visible m0 →
      ∃ n' rem', pruneLoop so si ts n rem = .ok (n', rem') ∧ PruneInv C n0 n' rem' g n0.visible m0 ∧ rem'.Sublist (rem ++ ts) ∧
        (∀ t ∈ rem ++ ts, n0.visible t = true → t ∈ rem')
  | [], n, rem, _, hi => by
    rw [List.append_nil] at hi
    exact ⟨n, rem, rfl, hi, by rw [List.append_nil], fun t ht _ => by simpa using ht⟩
  | t :: ts, n, rem, hn, hi => by
    unfold pruneLoop
    have htn : t ∉ rem ∧ t ∉ ts := by
      rw [List.nodup_append] at hn
      refine ⟨fun h => hn.2.2 t h t List.mem_cons_self rfl, (List.nodup_cons.1 hn.2.1).1⟩
    split
    · next hc =>
      have hnt : (rem ++ ts).Nodup := hn.sublist ((List.Sublist.refl rem).append (List.sublist_cons_self t ts))
      obtain ⟨n1, h1, hi1⟩ := hi.step (alive' := rem ++ ts) h0 hso (t := t) (by simp) (by rw [hi.same.2.2.2.1]; exact hg t) (by
        intro u
        simp only [List.mem_append, List.mem_cons]
        constructor
        · rintro (h | h)
          · exact ⟨.inl h, fun e => htn.1 (e ▸ h)⟩
          · exact ⟨.inr (.inr h), fun e => htn.2 (e ▸ h)⟩
        · rintro ⟨h | h | h, hne⟩
          · exact .inl h
          · exact absurd h hne
          · exact .inr h) hc
      rw [h1]
      obtain ⟨n', rem', h2, h3, h4, h5⟩ := pruneLoop_inv h0 hso hg ts n1 rem hnt hi1
      refine ⟨n', rem', h2, h3, h4.trans ((List.Sublist.refl rem).append (List.sublist_cons_self t ts)), ?_⟩
      intro u hu hvu
      apply h5 u _ hvu
      rcases List.mem_append.1 hu with h | h
      · exact List.mem_append_left _ h
      · rcases List.mem_cons.1 h with rfl | h
        · have := (canPrune_iff hc).1
          rw [hi.same.2.2.1, hvu] at this; cases this
        · exact List.mem_append_right _ h
    · have e : rem ++ t :: ts = (rem ++ [t]) ++ ts := by simp
      rw [e] at hn hi ⊢
      exact pruneLoop_inv h0 hso hg ts n (rem ++ [t]) hn hi

end Prolothar.Petri
