import Verif.Model.DfgPlot
import Verif.Spec.DfgPlot
import Verif.Lemmas.DfgMore
/- Lemmas about the plots of directly-follows graphs. -/
set_option linter.unusedSectionVars false
set_option linter.unusedDecidableInType false
namespace Prolothar.Dfg
open Prolothar.Spec.DfgPlot

section
variable {A : Type} [LinearOrder A]

/-! ### ranks by distance -/

theorem cutInto_ok {g : Graph A} (h : WF g) {e : Nat} {o : EdgeObj A} (he : g.heap[e]? = some o) (hs : o.stop ∈ g.nodes.keys) :
    ∃ g', cutInto g e = .ok g' ∧ WF g' ∧ g'.nodes.keys = g.nodes.keys ∧ g'.heap = g.heap ∧
      ∀ x y, g'.edges.get? (x, y) = if y = o.stop then none else g.edges.get? (x, y) := by
  obtain ⟨n, hn⟩ := Dict.mem_keys_iff.1 hs
  obtain ⟨g', h1, h2, h3, h4, h5⟩ := removeEdges_core h.toCore (n.ing.filterMap (edgeKey g))
  refine ⟨g', ?_, ⟨h2, ?_⟩, h3, h5, ?_⟩
  · unfold cutInto Dict.getItem
    rw [he]
    simp only [hn]
    exact h1
  · intro k f hk
    rw [h4] at hk
    rw [h3]
    split at hk
    · cases hk
    · exact h.ends k f hk
  · intro x y
    rw [h4]
    have hmem : (x, y) ∈ n.ing.filterMap (edgeKey g) ↔ y = o.stop ∧ ∃ f, g.edges.get? (x, y) = some f := by
      rw [List.mem_filterMap]
      constructor
      · rintro ⟨f, hf, hk⟩
        obtain ⟨b, hb⟩ := ((h.ing _ n hn).2 f).1 hf
        obtain ⟨c, hc⟩ := h.obj _ _ hb
        unfold edgeKey at hk
        rw [hc] at hk
        cases hk
        exact ⟨rfl, f, hb⟩
      · rintro ⟨rfl, f, hf⟩
        obtain ⟨c, hc⟩ := h.obj _ _ hf
        exact ⟨f, ((h.ing _ n hn).2 f).2 ⟨x, hf⟩, by unfold edgeKey; rw [hc]; rfl⟩
    by_cases hy : y = o.stop
    · rw [if_pos hy]
      split
      · rfl
      · rename_i hx
        cases hg : g.edges.get? (x, y) with
        | none => rfl
        | some f => exact absurd (hmem.2 ⟨hy, f, hg⟩) hx
    · rw [if_neg hy, if_neg fun hx => hy (hmem.1 hx).1]

theorem cutAll_ok (es : List Nat) {g : Graph A} (h : WF g) (hes : ∀ e ∈ es, ∃ o, g.heap[e]? = some o ∧ o.stop ∈ g.nodes.keys) :
    ∃ g', cutAll g es = .ok g' ∧ WF g' ∧ g'.nodes.keys = g.nodes.keys ∧ g'.heap = g.heap ∧
      ∀ x y, g'.edges.get? (x, y) = if (∃ e ∈ es, ∃ o, g.heap[e]? = some o ∧ o.stop = y) then none else g.edges.get? (x, y) := by
  induction es generalizing g with
  | nil => exact ⟨g, rfl, h, rfl, rfl, by simp⟩
  | cons e es ih =>
    obtain ⟨o, ho, hs⟩ := hes e List.mem_cons_self
    obtain ⟨g1, h1, h2, h3, h4, h5⟩ := cutInto_ok h ho hs
    obtain ⟨g2, i1, i2, i3, i4, i5⟩ := ih h2 (by
      intro f hf
      rw [h4, h3]
      exact hes f (List.mem_cons_of_mem _ hf))
    refine ⟨g2, ?_, i2, i3.trans h3, i4.trans h4, fun x y => ?_⟩
    · unfold cutAll; rw [h1]; exact i1
    · rw [i5, h5, h4]
      by_cases hy : y = o.stop
      · rw [if_pos hy, ite_self, if_pos ⟨e, List.mem_cons_self, o, ho, hy.symm⟩]
      · rw [if_neg hy]
        congr 1
        simp only [List.mem_cons, exists_eq_or_imp, ho, Option.some.injEq, exists_eq_left', eq_iff_iff]
        constructor
        · exact .inr
        · rintro (h | h)
          · exact absurd h.symm hy
          · exact h

theorem takeSource_ok {g : Graph A} (h : WF g) {a : A} (ha : a ∈ g.nodes.keys) :
    ∃ g', takeSource g a = .ok g' ∧ WF g' ∧ g'.nodes.keys = g.nodes.keys.erase a ∧
      ∀ x y, Edge g' x y ↔ Edge g x y ∧ x ≠ a ∧ y ≠ a ∧ ¬ Edge g a y := by
  obtain ⟨n, hn⟩ := Dict.mem_keys_iff.1 ha
  obtain ⟨o1, o2⟩ := h.out a n hn
  obtain ⟨g1, h1, h2, h3, h4, h5⟩ := cutAll_ok n.out h (by
    intro e he
    obtain ⟨b, hb⟩ := (o2 e).1 he
    obtain ⟨c, hc⟩ := h.obj _ _ hb
    exact ⟨_, hc, (h.ends _ _ hb).2⟩)
  obtain ⟨g2, i1, i2, i3, i4⟩ := removeNode_plain h2 (a := a) (by rw [h3]; exact ha)
  refine ⟨g2, ?_, i2, by rw [i3, h3], fun x y => ?_⟩
  · unfold takeSource Dict.getItem
    simp only [hn]
    show (do let g ← cutAll g n.out; removeNode g a : Py (Graph A)) = _
    rw [h1]
    exact i1
  · have hstop : (∃ e ∈ n.out, ∃ o, g.heap[e]? = some o ∧ o.stop = y) ↔ Edge g a y := by
      rw [edge_iff_key h.toCore]
      constructor
      · rintro ⟨e, he, o, ho, rfl⟩
        obtain ⟨b, hb⟩ := (o2 e).1 he
        obtain ⟨c, hc⟩ := h.obj _ _ hb
        rw [hc] at ho
        cases ho
        exact ⟨e, hb⟩
      · rintro ⟨e, he⟩
        obtain ⟨c, hc⟩ := h.obj _ _ he
        exact ⟨e, (o2 e).2 ⟨y, he⟩, _, hc, rfl⟩
    have h6 : Edge g1 x y ↔ Edge g x y ∧ ¬ Edge g a y := by
      rw [edge_iff_key h2.toCore, h5, ← hstop, edge_iff_key h.toCore]
      split
      · rename_i hc; simp [hc]
      · rename_i hc; simp [hc]
    unfold Edge at h6 ⊢
    rw [i4]
    by_cases hx : x = a
    · simp [hx]
    · by_cases hy : y = a
      · simp [hy]
      · rw [if_neg (by tauto), h6]; tauto

theorem takeSources_ok (l : List A) (hl : l.Nodup) {g : Graph A} (h : WF g) (hk : ∀ a ∈ l, a ∈ g.nodes.keys) :
    ∃ g', takeSources g l = .ok g' ∧ WF g' ∧ (∀ x, x ∈ g'.nodes.keys ↔ x ∈ g.nodes.keys ∧ x ∉ l) ∧
      g'.nodes.keys.length + l.length = g.nodes.keys.length ∧
      ∀ x y, Edge g' x y ↔ Edge g x y ∧ x ∉ l ∧ y ∉ l ∧ ∀ a ∈ l, ¬ Edge g a y := by
  induction l generalizing g with
  | nil => exact ⟨g, rfl, h, by simp, rfl, by simp⟩
  | cons a l ih =>
    obtain ⟨hal, hl'⟩ := List.nodup_cons.1 hl
    have ha := hk a List.mem_cons_self
    obtain ⟨g1, h1, h2, h3, h4⟩ := takeSource_ok h ha
    have hmem : ∀ x, x ∈ g1.nodes.keys ↔ x ∈ g.nodes.keys ∧ x ≠ a := by
      intro x; rw [h3, List.Nodup.mem_erase_iff h.nodesWF]; exact and_comm
    obtain ⟨g2, i1, i2, i3, i4, i5⟩ := ih hl' h2 (by
      intro b hb
      exact (hmem b).2 ⟨hk b (List.mem_cons_of_mem _ hb), fun e => hal (e ▸ hb)⟩)
    refine ⟨g2, ?_, i2, fun x => ?_, ?_, fun x y => ?_⟩
    · unfold takeSources; rw [h1]; exact i1
    · rw [i3, hmem, List.mem_cons]; tauto
    · rw [h3, List.length_erase_of_mem ha] at i4
      have := List.length_pos_of_mem ha
      simp only [List.length_cons]
      omega
    · rw [i5, h4]
      simp only [List.mem_cons, not_or, forall_eq_or_imp]
      constructor
      · rintro ⟨⟨p1, p2, p3, p4⟩, p5, p6, p7⟩
        refine ⟨p1, ⟨p2, p5⟩, ⟨p3, p6⟩, p4, fun b hb he => p7 b hb ((h4 b y).2 ⟨he, fun e => hal (e ▸ hb), p3, p4⟩)⟩
      · rintro ⟨p1, ⟨p2, p5⟩, ⟨p3, p6⟩, p4, p7⟩
        exact ⟨⟨p1, p2, p3, p4⟩, p5, p6, fun b hb he => p7 b hb ((h4 b y).1 he).1⟩

/-- the source nodes of a graph -/
def Source (g : Graph A) (a : A) : Prop := a ∈ g.nodes.keys ∧ ∀ b, Edge g b a → b = a

theorem ReachIn.node {g : Graph A} (h : WF g) {i : Nat} {a : A} (hr : ReachIn (Edge g) (Source g) i a) : a ∈ g.nodes.keys := by
  cases hr with
  | zero h => exact h.1
  | succ _ he => exact (Edge.nodes h he).2

theorem Level.pred {edge : A → A → Prop} {S : A → Prop} {i : Nat} {a : A} (h : Level edge S (i + 1) a) : ∃ b, Level edge S i b ∧ edge b a := by
  obtain ⟨h1, h2⟩ := h
  cases h1 with
  | succ hr he =>
    rename_i b
    exact ⟨b, ⟨hr, fun j hj hb => h2 (j + 1) (by omega) (hb.succ he)⟩, he⟩

theorem Level.none_after {edge : A → A → Prop} {S : A → Prop} {i : Nat} (h : ∀ a, ¬ Level edge S i a) (k : Nat) : ∀ a, ¬ Level edge S (i + k) a := by
  induction k with
  | zero => exact h
  | succ k ih =>
    intro a ha
    obtain ⟨b, hb, _⟩ := Level.pred ha
    exact ih b hb

theorem topoLoop_ok {g0 : Graph A} (h0 : WF g0) (fuel i : Nat) (g : Graph A) (h : WF g) (hf : g.nodes.keys.length < fuel)
    (hk : ∀ x, x ∈ g.nodes.keys ↔ x ∈ g0.nodes.keys ∧ ∀ j < i, ¬ ReachIn (Edge g0) (Source g0) j x)
    (he : ∀ x y, (∀ j ≤ i, ¬ ReachIn (Edge g0) (Source g0) j y) → (Edge g x y ↔ Edge g0 x y ∧ x ∈ g.nodes.keys))
    (hs : ∀ x y, ReachIn (Edge g0) (Source g0) i y → Edge g x y → x = y) :
    ∃ groups, topoLoop fuel g = .ok groups ∧
      (∀ k grp, groups[k]? = some grp → grp.Nodup ∧ grp ≠ [] ∧ ∀ a, a ∈ grp ↔ Level (Edge g0) (Source g0) (i + k) a) ∧
      ∀ k a, Level (Edge g0) (Source g0) (i + k) a → k < groups.length := by
  induction fuel generalizing i g with
  | zero => omega
  | succ fuel ih =>
    have hsrc : ∀ a, a ∈ sources g ↔ Level (Edge g0) (Source g0) i a := by
      intro a
      rw [mem_sources h]
      constructor
      · rintro ⟨ha, hb⟩
        obtain ⟨ha0, haj⟩ := (hk a).1 ha
        refine ⟨?_, haj⟩
        by_contra hni
        have hall : ∀ j ≤ i, ¬ ReachIn (Edge g0) (Source g0) j a := by
          intro j hj
          rcases Nat.lt_or_ge j i with h1 | h1
          · exact haj j h1
          · rwa [Nat.le_antisymm hj h1]
        have h00 : ¬ Source g0 a := fun hS => hall 0 (Nat.zero_le _) (.zero hS)
        apply h00
        refine ⟨ha0, fun b hba => hb b ((he b a hall).2 ⟨hba, (hk b).2 ⟨(Edge.nodes h0 hba).1, fun j hj hr => hall (j + 1) hj (hr.succ hba)⟩⟩)⟩
      · rintro ⟨h1, h2⟩
        exact ⟨(hk a).2 ⟨ReachIn.node h0 h1, h2⟩, fun b hb => hs b a h1 hb⟩
    unfold topoLoop
    by_cases hemp : sources g = []
    · rw [if_pos hemp]
      refine ⟨[], rfl, by simp, fun k a ha => ?_⟩
      exact absurd ha (Level.none_after (fun a ha => by have := (hsrc a).2 ha; rw [hemp] at this; cases this) k a)
    · rw [if_neg hemp]
      obtain ⟨g', t1, t2, t3, t4, t5⟩ := takeSources_ok (sources g) (sources_nodup h) h fun a ha => ((mem_sources h a).1 ha).1
      have hpos : 0 < (sources g).length := List.length_pos_of_ne_nil hemp
      obtain ⟨groups, r1, r2, r3⟩ := ih (i + 1) g' t2 (by omega)
        (by
          intro x
          rw [t3, hk, hsrc]
          constructor
          · rintro ⟨⟨a1, a2⟩, a3⟩
            refine ⟨a1, fun j hj hr => ?_⟩
            rcases Nat.lt_or_ge j i with h1 | h1
            · exact a2 j h1 hr
            · obtain rfl : j = i := by omega
              exact a3 ⟨hr, a2⟩
          · rintro ⟨a1, a2⟩
            exact ⟨⟨a1, fun j hj => a2 j (by omega)⟩, fun hL => a2 i (by omega) hL.1⟩)
        (by
          intro x y hy
          rw [t5, t3, he x y fun j hj => hy j (by omega)]
          constructor
          · rintro ⟨⟨a1, a2⟩, a3, _, _⟩
            exact ⟨a1, a2, a3⟩
          · rintro ⟨a1, a2, a3⟩
            refine ⟨⟨a1, a2⟩, a3, fun hc => hy i (by omega) ((hsrc y).1 hc).1, fun a ha hay => ?_⟩
            have := ((he a y fun j hj => hy j (by omega)).1 hay).1
            exact hy (i + 1) (Nat.le_refl _) (((hsrc a).1 ha).1.succ this))
        (by
          intro x y hy hxy
          exfalso
          obtain ⟨b1, b2, b3, b4⟩ := (t5 x y).1 hxy
          have hyk : y ∈ g'.nodes.keys := (Edge.nodes t2 hxy).2
          obtain ⟨hyk1, _⟩ := (t3 y).1 hyk
          have hlow : ∀ j ≤ i, ¬ ReachIn (Edge g0) (Source g0) j y := by
            intro j hj hr
            rcases Nat.lt_or_ge j i with h1 | h1
            · exact ((hk y).1 hyk1).2 j h1 hr
            · obtain rfl : j = i := by omega
              exact b3 ((hsrc y).2 ⟨hr, ((hk y).1 hyk1).2⟩)
          obtain ⟨a, ha, hay⟩ := Level.pred (i := i) ⟨hy, fun j hj => hlow j (by omega)⟩
          have has := (hsrc a).2 ha
          exact b4 a has ((he a y hlow).2 ⟨hay, ((mem_sources h a).1 has).1⟩))
      refine ⟨sources g :: groups, ?_, ?_, ?_⟩
      · rw [t1]
        show (do let r ← topoLoop fuel g'; return sources g :: r : Py _) = _
        rw [r1]; rfl
      · intro k grp hg
        cases k with
        | zero =>
          simp only [List.getElem?_cons_zero, Option.some.injEq] at hg
          subst hg
          exact ⟨sources_nodup h, hemp, fun a => hsrc a⟩
        | succ k =>
          rw [List.getElem?_cons_succ] at hg
          obtain ⟨s1, s2, s3⟩ := r2 k grp hg
          exact ⟨s1, s2, fun a => by rw [s3, show i + 1 + k = i + (k + 1) by omega]⟩
      · intro k a ha
        cases k with
        | zero => simp
        | succ k =>
          have := r3 k a (by rwa [show i + 1 + k = i + (k + 1) by omega])
          simpa using this

theorem topoGroups_ok {g : Graph A} (h : WF g) :
    ∃ groups, topoGroups g = .ok groups ∧
      (∀ k grp, groups[k]? = some grp → grp.Nodup ∧ grp ≠ [] ∧ ∀ a, a ∈ grp ↔ Level (Edge g) (Source g) k a) ∧
      ∀ k a, Level (Edge g) (Source g) k a → k < groups.length := by
  obtain ⟨c1, c2, c3⟩ := copy_ok h
  have hE : ∀ x y, Edge (copy g) x y ↔ Edge g x y := fun x y => by unfold Edge; rw [c3]
  obtain ⟨groups, r1, r2, r3⟩ := topoLoop_ok h ((copy g).nodes.length + 1) 0 (copy g) c1 (by simp [Dict.keys])
    (by intro x; rw [c2]; simp)
    (by
      intro x y _
      rw [hE, c2]
      exact ⟨fun he => ⟨he, (Edge.nodes h he).1⟩, fun he => he.1⟩)
    (by
      intro x y hy hxy
      cases hy with
      | zero hS => exact hS.2 x ((hE x y).1 hxy))
  refine ⟨groups, r1, fun k grp hg => ?_, fun k a ha => r3 k a (by rwa [Nat.zero_add])⟩
  have := r2 k grp hg
  rwa [Nat.zero_add] at this

end
end Prolothar.Dfg
