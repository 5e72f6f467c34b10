import Verif.Props.PatternSound
/-
Lemmas for pruning of patterns: what is kept when the two places of an invisible transition are merged.
-/
namespace Prolothar.Spec.Petri

variable {P T : Type} [DecidableEq P] {visible : T → Bool} {N N' : Arcs P T} {p q : P} {t : T} {m0 : P → Int}

/-- forward simulation from every reachable marking -/
theorem Merge.sim_from (h : Merge visible N N' p q t) (h0 : ∀ p, 0 ≤ m0 p) (hs : Safe N.pre N.post N.ok m0) {ts0 ts : List T} {m1 m : P → Int}
    (hr0 : Run N.pre N.post N.ok m0 ts0 m1) (hr : Run N.pre N.post N.ok m1 ts m) :
    ∃ ts', Run N'.pre N'.post N'.ok (merged p q m1) ts' (merged p q m) ∧ ts'.filter visible = ts.filter visible := by
  induction hr with
  | nil => exact ⟨[], .nil, rfl⟩
  | @snoc ts m u hr hu he ih =>
    obtain ⟨ts', h1, h2⟩ := ih
    have hrr := hr0.append hr
    by_cases hut : u = t
    · subst hut
      refine ⟨ts', by rw [merged_after_t h]; exact h1, ?_⟩
      rw [List.filter_append, h2]
      simp [h.vis]
    · have hpu : p ∉ N.pre u := fun hx => hut (h.only u hu hx)
      refine ⟨ts' ++ [u], ?_, by rw [List.filter_append, List.filter_append, h2]⟩
      rw [merged_after h hu hut (fun hx => h.not_both h0 hs hrr hu he hut hx)]
      refine h1.snoc ((h.ok' u).2 ⟨hu, hut⟩) ?_
      intro x hx
      rw [h.pre' u hu hut] at hx
      have hx1 := he x hx
      have hxp : x ≠ p := fun e => hpu (e ▸ hx)
      unfold merged
      rw [if_neg hxp]
      split
      · next e => subst e; have := hrr.nonneg h0 p; omega
      · exact hx1

/-- what is kept of a net with the initial marking `m0` and the final marking `F` -/
structure Keeps (visible : T → Bool) (m0 F : P → Int) (N0 N : Arcs P T) : Prop where
  safe : Safe N.pre N.post N.ok m0
  lang : ∀ w, (∃ ts, Run N.pre N.post N.ok m0 ts F ∧ ts.filter visible = w) ↔ ∃ ts, Run N0.pre N0.post N0.ok m0 ts F ∧ ts.filter visible = w
  part : ∀ w, Trace N.pre N.post N.ok visible m0 w ↔ Trace N0.pre N0.post N0.ok visible m0 w
  reach : ∀ ts m, Run N.pre N.post N.ok m0 ts m → ∃ ts', Run N0.pre N0.post N0.ok m0 ts' m
  completes : (∀ ts m, Run N0.pre N0.post N0.ok m0 ts m → ∃ us, Run N0.pre N0.post N0.ok m us F) →
    ∀ ts m, Run N.pre N.post N.ok m0 ts m → ∃ us, Run N.pre N.post N.ok m us F
  live : ∀ u, N.ok u → N0.ok u ∧ ((∃ ts m, Run N0.pre N0.post N0.ok m0 ts m ∧ Enabled (N0.pre u) m) →
    ∃ ts m, Run N.pre N.post N.ok m0 ts m ∧ Enabled (N.pre u) m)

theorem Keeps.refl {F : P → Int} (hs : Safe N.pre N.post N.ok m0) : Keeps visible m0 F N N :=
  ⟨hs, fun _ => Iff.rfl, fun _ => Iff.rfl, fun ts _ h => ⟨ts, h⟩, fun h => h, fun _ h => ⟨h, fun h => h⟩⟩

theorem Keeps.merge {F : P → Int} {N0 : Arcs P T} (hk : Keeps visible m0 F N0 N) (h : Merge visible N N' p q t) (h0 : ∀ p, 0 ≤ m0 p) (hp0 : m0 p = 0)
    (hF : F p = 0) : Keeps visible m0 F N0 N' := by
  have hm0 : merged p q m0 = m0 := merged_eq h.ne hp0
  have hmF : merged p q F = F := merged_eq h.ne hF
  constructor
  · exact (h.reduces h0 hp0 hk.safe).2
  · intro w
    rw [← hk.lang]
    constructor
    · rintro ⟨ts, hr, hv⟩
      obtain ⟨_, us, h1, h2⟩ := h.back h0 hk.safe .nil hp0 hr
      exact ⟨us, h1, h2.trans hv⟩
    · rintro ⟨ts, hr, hv⟩
      obtain ⟨ts', h1, h2⟩ := h.sim_from h0 hk.safe .nil hr
      rw [hm0, hmF] at h1
      exact ⟨ts', h1, h2.trans hv⟩
  · intro w
    rw [← hk.part]
    exact ((h.reduces h0 hp0 hk.safe).1.trace w).symm
  · intro ts m hr
    obtain ⟨_, us, h1, _⟩ := h.back h0 hk.safe .nil hp0 hr
    exact hk.reach us m h1
  · intro hc ts m hr
    obtain ⟨hmp, us, h1, _⟩ := h.back h0 hk.safe .nil hp0 hr
    obtain ⟨vs, h2⟩ := hk.completes hc us m h1
    obtain ⟨ts', h3, _⟩ := h.sim_from h0 hk.safe h1 h2
    rw [merged_eq h.ne hmp, hmF] at h3
    exact ⟨ts', h3⟩
  · intro u hu
    obtain ⟨hu1, hut⟩ := (h.ok' u).1 hu
    obtain ⟨k1, k2⟩ := hk.live u hu1
    refine ⟨k1, fun hl => ?_⟩
    obtain ⟨ts, m, hr, he⟩ := k2 hl
    obtain ⟨ts', h1, _⟩ := h.sim_from h0 hk.safe .nil hr
    rw [hm0] at h1
    refine ⟨ts', _, h1, fun x hx => ?_⟩
    rw [h.pre' u hu1 hut] at hx
    have hx1 := he x hx
    have hxp : x ≠ p := fun e => hut (h.only u hu1 (e ▸ hx))
    unfold merged
    rw [if_neg hxp]
    split
    · next e => subst e; have := hr.nonneg h0 p; omega
    · exact hx1

omit [DecidableEq P] in
/-- merging keeps the places that are consumed from and the ones that are produced to, except `p` -/
theorem Merge.ends (h : Merge visible N N' p q t) (hp : ∃ u, N.ok u ∧ p ∈ N.post u) (x : P) :
    ((∃ u, N'.ok u ∧ x ∈ N'.pre u) ↔ (∃ u, N.ok u ∧ x ∈ N.pre u) ∧ x ≠ p) ∧
    ((∃ u, N'.ok u ∧ x ∈ N'.post u) ↔ (∃ u, N.ok u ∧ x ∈ N.post u) ∧ x ≠ p) := by
  constructor
  · constructor
    · rintro ⟨u, hu, hx⟩
      obtain ⟨hu1, hut⟩ := (h.ok' u).1 hu
      rw [h.pre' u hu1 hut] at hx
      exact ⟨⟨u, hu1, hx⟩, fun e => hut (h.only u hu1 (e ▸ hx))⟩
    · rintro ⟨⟨u, hu, hx⟩, hxp⟩
      have hut : u ≠ t := by
        rintro rfl
        rw [h.pre_t] at hx
        exact hxp (List.mem_singleton.1 hx)
      exact ⟨u, (h.ok' u).2 ⟨hu, hut⟩, (h.pre' u hu hut x).2 hx⟩
  · constructor
    · rintro ⟨u, hu, hx⟩
      obtain ⟨hu1, hut⟩ := (h.ok' u).1 hu
      rcases (h.post' u hu1 hut x).1 hx with ⟨h1, h2⟩ | ⟨rfl, h2⟩
      · exact ⟨⟨u, hu1, h1⟩, h2⟩
      · exact ⟨⟨t, h.ok_t, by rw [h.post_t]; exact List.mem_singleton_self _⟩, h.ne⟩
    · rintro ⟨⟨u, hu, hx⟩, hxp⟩
      by_cases hut : u = t
      · subst hut
        rw [h.post_t] at hx
        obtain rfl := List.mem_singleton.1 hx
        obtain ⟨v, hv, hpv⟩ := hp
        have hvt : v ≠ u := by
          rintro rfl
          rw [h.post_t] at hpv
          exact hxp (List.mem_singleton.1 hpv).symm
        exact ⟨v, (h.ok' v).2 ⟨hv, hvt⟩, (h.post' v hv hvt x).2 (.inr ⟨rfl, hpv⟩)⟩
      · exact ⟨u, (h.ok' u).2 ⟨hu, hut⟩, (h.post' u hu hut x).2 (.inl ⟨hx, hxp⟩)⟩

end Prolothar.Spec.Petri

namespace Prolothar.Petri
open Prolothar.Spec.Petri

/-- induction over the loop of `prune`: what is kept by merging two places is kept by the loop -/
theorem pruneLoop_ind {n0 : Net} {g : String → Prop} {so si : List String} (hg : ∀ t, (n0.guard t).isAlways = true → g t)
    (Q : Arcs String String → Prop)
    (hQ : ∀ N N' s e t, s ∉ so → Merge n0.visible N N' s e t → Q N → Q N') :
    ∀ (ts : List String) (n : Net) (rem : List String), (rem ++ ts).Nodup → PruneInv False n0 n (rem ++ ts) g n0.visible (fun _ => 0) →
      Q (arcs n (rem ++ ts) g) → ∀ n' rem', pruneLoop so si ts n rem = .ok (n', rem') → Q (arcs n' rem' g)
  | [], n, rem, _, _, hq, n', rem', hl => by
    have hl : (.ok (n, rem) : Py (Net × List String)) = .ok (n', rem') := hl
    injection hl with hl
    injection hl with h1 h2
    subst h1 h2
    rw [List.append_nil] at hq
    exact hq
  | t :: ts, n, rem, hn, hi, hq, n', rem', hl => by
    unfold pruneLoop at hl
    have htn : t ∉ rem ∧ t ∉ ts := by
      rw [List.nodup_append] at hn
      refine ⟨fun h => hn.2.2 t h t List.mem_cons_self rfl, (List.nodup_cons.1 hn.2.1).1⟩
    split at hl
    · next hc =>
      have hnt : (rem ++ ts).Nodup := hn.sublist ((List.Sublist.refl rem).append (List.sublist_cons_self t ts))
      have hal : ∀ u, u ∈ rem ++ ts ↔ u ∈ rem ++ t :: ts ∧ u ≠ t := by
        intro u
        simp only [List.mem_append, List.mem_cons]
        constructor
        · rintro (h | h)
          · exact ⟨.inl h, fun e => htn.1 (e ▸ h)⟩
          · exact ⟨.inr (.inr h), fun e => htn.2 (e ▸ h)⟩
        · rintro ⟨h | h | h, hne⟩
          · exact .inl h
          · exact absurd h hne
          · exact .inr h
      have htm : t ∈ rem ++ t :: ts := by simp
      have hgt : (n.guard t).isAlways = true → g t := by rw [hi.same.2.2.2.1]; exact hg t
      obtain ⟨s, e, hs, hpre, hpost, hout, hm⟩ := hi.merge htm hgt hal hc
      obtain ⟨n1, h1, hi1⟩ := hi.step (alive' := rem ++ ts) (so := so) (fun c => c.elim) (fun c => c.elim) htm hgt hal hc
      have h2 := pruneTransition_eq hi.wf.transitions hpre hpost hout
      rw [h1] at hl h2
      injection h2 with h2
      subst h2
      exact pruneLoop_ind hg Q hQ ts _ rem hnt hi1 (hQ _ _ _ _ _ hs hm hq) n' rem' hl
    · have e : rem ++ t :: ts = (rem ++ [t]) ++ ts := by simp
      rw [e] at hn hi hq
      exact pruneLoop_ind hg Q hQ ts n (rem ++ [t]) hn hi hq n' rem' hl

/-- what is kept by merging places is kept by `prune` -/
theorem prune_ind {n n' : Net} (hw : n.WF) {g : String → Prop} (hg : ∀ t, (n.guard t).isAlways = true → g t)
    (Q : Arcs String String → Prop)
    (hQ : ∀ N N' s e t, ¬ IsSource n.transitions n.pre n.post s → Merge n.visible N N' s e t → Q N → Q N')
    (h0 : Q (arcs n n.transitions g)) (hp : n.prune = .ok n') : Q (arcs n' n'.transitions g) := by
  unfold Net.prune at hp
  dsimp only at hp
  cases hl : pruneLoop n.sourceSink.1 n.sourceSink.2 n.transitions n [] with
  | error x => rw [hl] at hp; cases hp
  | ok r =>
    rw [hl] at hp
    injection hp with hp
    have := pruneLoop_ind hg Q (fun N N' s e t hs => hQ N N' s e t fun h => hs (mem_source.2 h)) n.transitions n [] (by simpa using hw.transitions)
      ⟨hw, ⟨rfl, rfl, rfl, rfl, rfl, rfl, rfl, rfl⟩, fun u hu => hu, fun _ _ => rfl, fun u hu hn => absurd hu hn, fun c => c.elim, fun c => c.elim⟩
      h0 r.1 r.2 hl
    rw [← hp]
    exact this

/-- the places after `prune` are the ones with an arc -/
theorem prune_places {n n' : Net} (hp : n.prune = .ok n') (p : String) :
    p ∈ n'.places ↔ ∃ t ∈ n'.transitions, p ∈ n'.pre t ∨ p ∈ n'.post t := by
  unfold Net.prune at hp
  dsimp only at hp
  cases hl : pruneLoop n.sourceSink.1 n.sourceSink.2 n.transitions n [] with
  | error x => rw [hl] at hp; cases hp
  | ok r =>
    rw [hl] at hp
    injection hp with hp
    have : ∀ (l s : List String) p, p ∈ l.foldl (fun s t => (r.1.post t).foldl setAdd ((r.1.pre t).foldl setAdd s)) s ↔
        p ∈ s ∨ ∃ t ∈ l, p ∈ r.1.pre t ∨ p ∈ r.1.post t := by
      intro l
      induction l with
      | nil => simp
      | cons t l ih =>
        intro s p
        rw [List.foldl_cons, ih, mem_foldl_setAdd, mem_foldl_setAdd]
        simp only [List.mem_cons, exists_eq_or_imp, or_assoc]
    rw [← hp]
    simpa using this r.2 [] p

end Prolothar.Petri
