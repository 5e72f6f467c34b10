import Verif.Props.PetriPrune
/-
C100: which transitions are removed by `prune`, for nets with at most one invisible transition.
-/
namespace Prolothar.Petri
open Prolothar.Spec.Petri

/-- the transition `t` can be removed by merging its input place `s` into its output place `e`: it is invisible and has no guard, `s` is its only
input place, `e` its only output place, no other transition consumes from `s`, and some transition produces to `s` -/
def Redundant (n : Net) (t s e : String) : Prop :=
  n.visible t = false ∧ n.guard t = .always ∧ n.pre t = [s] ∧ n.post t = [e] ∧ s ≠ e ∧ (∀ u ∈ n.transitions, s ∈ n.pre u → u = t) ∧
    ∃ u ∈ n.transitions, s ∈ n.post u

theorem out_eq {n : Net} (hw : n.WF) {t s : String} (ht : t ∈ n.transitions) (hs : n.pre t = [s]) :
    (n.out s).length = 1 ↔ ∀ u ∈ n.transitions, s ∈ n.pre u → u = t := by
  have hsp : s ∈ n.places := (hw.pre t ht).2 s (by simp [hs])
  obtain ⟨o1, o2⟩ := hw.out s hsp
  have hto : t ∈ n.out s := (o2 t).2 ⟨ht, by simp [hs]⟩
  constructor
  · intro hl u hu hsu
    have huo : u ∈ n.out s := (o2 u).2 ⟨hu, hsu⟩
    obtain ⟨x, hx⟩ := List.length_eq_one_iff.1 hl
    rw [hx, List.mem_singleton] at hto huo
    rw [huo, hto]
  · intro h
    have : n.out s = [t] := by
      match ho : n.out s with
      | [] => rw [ho] at hto; simp at hto
      | x :: xs =>
        have hall : ∀ y ∈ n.out s, y = t := fun y hy => h y ((o2 y).1 hy).1 ((o2 y).1 hy).2
        rw [ho] at o1 hall
        have hx : x = t := hall x (by simp)
        cases xs with
        | nil => rw [hx]
        | cons y ys =>
          have hy : y = t := hall y (by simp)
          rw [hx, hy] at o1
          simp at o1
    rw [this]; rfl

theorem canPrune_redundant {n : Net} (hw : n.WF) {t : String} (ht : t ∈ n.transitions) :
    canPrune n n.sourceSink.1 n.sourceSink.2 t = true ↔ ∃ s e, Redundant n t s e := by
  have hg : (n.guard t).isAlways = true ↔ n.guard t = .always := by
    cases n.guard t <;> simp [Guard.isAlways]
  constructor
  · intro h
    obtain ⟨h1, h2, s, e, h3, h4, h5, h6, h7⟩ := canPrune_iff h
    have h8 := (out_eq hw ht h3).1 h6
    have hsp : s ∈ n.places := (hw.pre t ht).2 s (by simp [h3])
    refine ⟨s, e, h1, hg.1 h2, h3, h4, ?_, h8, ?_⟩
    · rintro rfl
      have hto : t ∈ n.out s := ((hw.out s hsp).2 t).2 ⟨ht, by simp [h3]⟩
      have : hasSelfLoop n s = true := by
        unfold hasSelfLoop
        exact List.any_eq_true.2 ⟨t, hto, by simp [h4]⟩
      rw [h7] at this; cases this
    · by_contra hno
      exact h5 (mem_source.2 ⟨⟨t, ht, by simp [h3]⟩, hno⟩)
  · rintro ⟨s, e, h1, h2, h3, h4, h5, h6, h7⟩
    have hl := (out_eq hw ht h3).2 h6
    have hsp : s ∈ n.places := (hw.pre t ht).2 s (by simp [h3])
    have hs : s ∉ n.sourceSink.1 := fun h => (mem_source.1 h).2 h7
    have hloop : hasSelfLoop n s = false := by
      unfold hasSelfLoop
      rw [List.any_eq_false]
      intro u hu
      obtain ⟨u1, u2⟩ := ((hw.out s hsp).2 u).1 hu
      rw [h6 u u1 u2, h4]
      simpa using h5
    unfold canPrune
    rw [h1, h3, h4]
    simp [hloop, hs, hl, hg.2 h2]

theorem canPrune_visible {n : Net} {so si : List String} {u : String} (h : n.visible u = true) : canPrune n so si u = false := by
  unfold canPrune
  rw [h]; rfl

/-- visible transitions are kept -/
theorem pruneLoop_visible (so si : List String) : ∀ (ts : List String) (n : Net) (rem : List String), (∀ u ∈ ts, n.visible u = true) →
    pruneLoop so si ts n rem = .ok (n, rem ++ ts)
  | [], n, rem, _ => by rw [pruneLoop, List.append_nil]
  | u :: ts, n, rem, h => by
    rw [pruneLoop, canPrune_visible (h u (by simp))]
    simp only [Bool.false_eq_true, if_false]
    rw [pruneLoop_visible so si ts n _ fun v hv => h v (by simp [hv])]
    simp

theorem pruneLoop_append (so si : List String) : ∀ (l ts : List String) (n : Net) (rem : List String), (∀ u ∈ l, n.visible u = true) →
    pruneLoop so si (l ++ ts) n rem = pruneLoop so si ts n (rem ++ l)
  | [], ts, n, rem, _ => by simp
  | u :: l, ts, n, rem, h => by
    rw [List.cons_append, pruneLoop, canPrune_visible (h u (by simp))]
    simp only [Bool.false_eq_true, if_false]
    rw [pruneLoop_append so si l ts n _ fun v hv => h v (by simp [hv])]
    simp

/-- C100: if at most one transition is invisible, `prune` removes it exactly if it is redundant; its input place is replaced by its output
place in the arcs of the other transitions. Otherwise the transitions and arcs are kept. The places of the result are those that have an arc. -/
theorem C100_single {n : Net} (hw : n.WF) {t : String} (ht : t ∈ n.transitions) (hv : ∀ u ∈ n.transitions, u ≠ t → n.visible u = true) :
    ∃ n', n.prune = .ok n' ∧
      (∀ p, p ∈ n'.places ↔ ∃ u ∈ n'.transitions, p ∈ n'.pre u ∨ p ∈ n'.post u) ∧
      (∀ s e, Redundant n t s e → n'.transitions = n.transitions.erase t ∧ ∀ u ∈ n'.transitions, n'.pre u = n.pre u ∧
        ∀ p, p ∈ n'.post u ↔ (p ∈ n.post u ∧ p ≠ s) ∨ (p = e ∧ s ∈ n.post u)) ∧
      ((¬ ∃ s e, Redundant n t s e) → n'.transitions = n.transitions ∧ n'.pre = n.pre ∧ n'.post = n.post) := by
  obtain ⟨l, r, hlr⟩ := List.append_of_mem ht
  have hnd := hw.transitions
  rw [hlr] at hnd
  have htl : t ∉ l := fun h => (List.disjoint_of_nodup_append hnd) h (by simp)
  have htr : t ∉ r := (List.nodup_cons.1 (hnd.of_append_right)).1
  have hvl : ∀ u ∈ l, n.visible u = true := fun u hu => hv u (by simp [hlr, hu]) fun h => htl (h ▸ hu)
  have hvr : ∀ u ∈ r, n.visible u = true := fun u hu => hv u (by simp [hlr, hu]) fun h => htr (h ▸ hu)
  have hmem : ∀ (n1 : Net) (rem : List String) p, p ∈ rem.foldl (fun s t => (n1.post t).foldl setAdd ((n1.pre t).foldl setAdd s)) [] ↔
      ∃ t ∈ rem, p ∈ n1.pre t ∨ p ∈ n1.post t := by
    intro n1 rem
    have : ∀ (l s : List String) p, p ∈ l.foldl (fun s t => (n1.post t).foldl setAdd ((n1.pre t).foldl setAdd s)) s ↔
        p ∈ s ∨ ∃ t ∈ l, p ∈ n1.pre t ∨ p ∈ n1.post t := by
      intro l
      induction l with
      | nil => simp
      | cons t l ih =>
        intro s p
        rw [List.foldl_cons, ih, mem_foldl_setAdd, mem_foldl_setAdd]
        simp only [List.mem_cons, exists_eq_or_imp, or_assoc]
    simpa using this rem []
  have hloop : pruneLoop n.sourceSink.1 n.sourceSink.2 n.transitions n [] = pruneLoop n.sourceSink.1 n.sourceSink.2 (t :: r) n l := by
    rw [hlr, pruneLoop_append _ _ _ _ _ _ hvl]; rfl
  by_cases hc : canPrune n n.sourceSink.1 n.sourceSink.2 t = true
  · obtain ⟨s, e, hr⟩ := (canPrune_redundant hw ht).1 hc
    obtain ⟨r1, r2, r3, r4, r5, r6, r7⟩ := hr
    have hsp : s ∈ n.places := (hw.pre t ht).2 s (by simp [r3])
    have hout : n.out s = [t] := by
      obtain ⟨x, hx⟩ := List.length_eq_one_iff.1 ((out_eq hw ht r3).2 r6)
      have hto : t ∈ n.out s := ((hw.out s hsp).2 t).2 ⟨ht, by simp [r3]⟩
      rw [hx, List.mem_singleton] at hto
      rw [hx, hto]
    have h1 : pruneLoop n.sourceSink.1 n.sourceSink.2 n.transitions n [] = .ok (prunedNet n t s e, l ++ r) := by
      rw [hloop, pruneLoop, hc, pruneTransition_eq hw.transitions r3 r4 hout]
      simp only [if_true]
      show pruneLoop _ _ r (prunedNet n t s e) l = _
      exact pruneLoop_visible _ _ r _ l hvr
    have her : n.transitions.erase t = l ++ r := by
      rw [hlr, List.erase_append_right _ htl, List.erase_cons_head]
    refine ⟨{ prunedNet n t s e with transitions := l ++ r, places := _ }, by unfold Net.prune; simp only [h1]; rfl, hmem _ _, ?_,
      fun hno => absurd ⟨s, e, r1, r2, r3, r4, r5, r6, r7⟩ hno⟩
    rintro s' e' ⟨-, -, q3, q4, -⟩
    obtain rfl : s = s' := by simpa using r3.symm.trans q3
    obtain rfl : e = e' := by simpa using r4.symm.trans q4
    refine ⟨her.symm, fun u hu => ?_⟩
    have hut : u ≠ t := by
      rintro rfl
      rcases List.mem_append.1 hu with h | h
      · exact htl h
      · exact htr h
    have hun : u ∈ n.transitions := List.mem_of_mem_erase (her ▸ hu)
    refine ⟨upd_ne _ _ hut, fun p => ?_⟩
    show p ∈ redirected s e { n with post := upd n.post t [] } n.transitions u ↔ _
    unfold redirected
    simp only [upd_ne _ _ hut]
    by_cases hsu : s ∈ n.post u
    · rw [if_pos ⟨hun, hsu⟩]
      have hndp : (setAdd (n.post u) e).Nodup := by
        unfold setAdd
        split
        · exact (hw.post u hun).1
        · next h => exact List.nodup_append.2 ⟨(hw.post u hun).1, by simp, by simpa using fun a ha (hae : a = e) => h (hae ▸ ha)⟩
      rw [hndp.mem_erase_iff, mem_setAdd]
      constructor
      · rintro ⟨h1, h2 | h2⟩
        · exact .inl ⟨h2, h1⟩
        · exact .inr ⟨h2, hsu⟩
      · rintro (⟨h1, h2⟩ | ⟨rfl, h2⟩)
        · exact ⟨h2, .inl h1⟩
        · exact ⟨fun h => r5 h.symm, .inr rfl⟩
    · rw [if_neg (fun h => hsu h.2)]
      constructor
      · intro h
        exact .inl ⟨h, fun hp => hsu (hp ▸ h)⟩
      · rintro (h | h)
        · exact h.1
        · exact absurd h.2 hsu
  · have h1 : pruneLoop n.sourceSink.1 n.sourceSink.2 n.transitions n [] = .ok (n, n.transitions) := by
      rw [hloop, pruneLoop, if_neg hc, pruneLoop_visible _ _ r _ _ hvr, hlr]
      simp
    refine ⟨{ n with transitions := n.transitions, places := _ }, by unfold Net.prune; simp only [h1]; rfl, hmem _ _,
      fun s e hr => absurd ((canPrune_redundant hw ht).2 ⟨s, e, hr⟩) hc, fun _ => ⟨rfl, rfl, rfl⟩⟩

/-- both cases occur: in a chain the invisible transition is redundant; if nothing produces to its input place, it is kept -/
example : Redundant (exChain (fun _ => 0) ["p"]) "t" "p" "q" ∧ ¬ ∃ s e, Redundant (exChain (fun _ => 0) ["q"]) "t" s e := by
  refine ⟨⟨by decide, rfl, by decide, by decide, by decide, by decide, by decide⟩, ?_⟩
  rintro ⟨s, e, -, -, h, -, -, -, u, hu, h'⟩
  have : s = "p" := by simpa [exChain] using h.symm
  subst this
  revert hu h'
  have : ∀ u ∈ (exChain (fun _ => 0) ["q"]).transitions, "p" ∉ (exChain (fun _ => 0) ["q"]).post u := by decide
  exact this u

end Prolothar.Petri
