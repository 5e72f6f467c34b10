import Verif.Props.PetriSimRun
import Verif.Props.WalkLaw
import Mathlib.Data.List.Nodup
import Mathlib.Algebra.BigOperators.Group.Finset.Piecewise
/-
C183: the probability of what happens in one simulated time step. The sample space: for every place one number of 0, ..., M-1, where M is a
multiple of the numbers of options at the places; all outcomes are equally likely (data_petri_net.py 271-281, `random.choice`).
-/
namespace Prolothar.Petri
open Prolothar.Spec.Petri

/-- how many transitions that consume from the place have an accepting guard -/
def rivals (h : Heap) (n : Net) (p : String) : Nat :=
  n.transitions.countP fun t => decide (p ∈ n.pre t ∧ (n.guard t).accept h = .ok true)

theorem options_eq (h : Heap) {n : Net} (hw : n.WF) {p : String} (hp : p ∈ n.places) : options h n p = rivals h n p := by
  unfold options rivals
  rw [List.countP_eq_length_filter, List.countP_eq_length_filter]
  refine List.Perm.length_eq ?_
  rw [List.perm_ext_iff_of_nodup ((hw.out p hp).1.filter _) (hw.transitions.filter _)]
  intro t
  rw [List.mem_filter, List.mem_filter, (hw.out p hp).2 t, decide_eq_true_eq, decide_eq_true_eq]
  tauto

/-- the position of a transition among the options at a place -/
def optionIndex (h : Heap) (n : Net) (p t : String) : Nat :=
  ((n.out p).filter fun t => decide ((n.guard t).accept h = .ok true)).idxOf t

theorem choice_iff {h : Heap} {n : Net} (hw : n.WF) {pick : String → Nat} {p t : String} (hp : p ∈ n.places) (ht : t ∈ n.transitions)
    (hpt : p ∈ n.pre t) (hacc : (n.guard t).accept h = .ok true) (htok : 1 ≤ n.tokens p) :
    (choice h n pick p = some t ↔ pick p % rivals h n p = optionIndex h n p t) ∧ optionIndex h n p t < rivals h n p := by
  have hlen : ((n.out p).filter fun t => decide ((n.guard t).accept h = .ok true)).length = rivals h n p := by
    rw [← options_eq h hw hp]; exact List.countP_eq_length_filter.symm
  have hm : t ∈ (n.out p).filter fun t => decide ((n.guard t).accept h = .ok true) := by
    rw [List.mem_filter, (hw.out p hp).2, decide_eq_true_eq]; exact ⟨⟨ht, hpt⟩, hacc⟩
  have hnd : ((n.out p).filter fun t => decide ((n.guard t).accept h = .ok true)).Nodup := (hw.out p hp).1.filter _
  unfold choice optionIndex
  rw [if_pos (by omega)]
  generalize ((n.out p).filter fun t => decide ((n.guard t).accept h = .ok true)) = l at *
  have hi := List.idxOf_lt_length_of_mem hm
  rw [hlen] at hi ⊢
  refine ⟨?_, hi⟩
  have hlt : pick p % rivals h n p < rivals h n p := Nat.mod_lt _ (by omega)
  constructor
  · intro he
    rw [List.getElem?_eq_some_iff] at he
    obtain ⟨h1, h2⟩ := he
    rw [← h2, hnd.idxOf_getElem]
  · intro he
    rw [he]
    exact List.getElem?_idxOf hm

/-- a product over a list without repetitions that is a part of another one -/
theorem prod_places {ps D : List String} (hD : D.Nodup) (hsub : ∀ p ∈ D, p ∈ ps) (f : String → Nat) :
    ∏ p : {p // p ∈ ps}, (if p.1 ∈ D then f p.1 else 1) = (D.map f).prod := by
  classical
  have h1 : ∏ p : {p // p ∈ ps}, (if p.1 ∈ D then f p.1 else 1) = ∏ p ∈ ps.toFinset, (if p ∈ D then f p else 1) := by
    exact (Finset.prod_subtype ps.toFinset (fun x => List.mem_toFinset) fun p => if p ∈ D then f p else 1).symm
  rw [h1, Finset.prod_ite, Finset.prod_const_one, mul_one, ← List.prod_toFinset f hD]
  refine Finset.prod_congr ?_ fun _ _ => rfl
  ext p
  simp only [Finset.mem_filter, List.mem_toFinset]
  exact ⟨fun h => h.2, fun h => ⟨hsub p h, h⟩⟩

/-- C183: the law of a simulated time step. Let the transitions of `S` be enabled, have accepting guards and share no input place. Then the
probability that all of them are fired is the product, over all places from which they consume, of one over the number of transitions with
an accepting guard that consume from the place. -/
theorem C183_law (h : Heap) {n : Net} (hw : n.WF) (hg : ∀ t ∈ n.transitions, ∃ b, (n.guard t).accept h = .ok b)
    {M : Nat} (hM : ∀ p ∈ n.places, rivals h n p ≠ 0 → rivals h n p ∣ M) :
    ∃ F : ({p // p ∈ n.places} → Fin M) → List String,
      (∀ w, (F w).Nodup ∧ n.simulate h (pickOf n.places M w) = forceAll n (F w) ∧ (forceAll n (F w)).2 = .ok ()) ∧
      (∀ w, ∀ t ∈ F w, t ∈ n.transitions ∧ n.pre t ≠ [] ∧ (n.guard t).accept h = .ok true ∧ Enabled (n.pre t) n.tokens) ∧
      (∀ w, ∀ t ∈ F w, ∀ u ∈ F w, t ≠ u → ∀ p ∈ n.pre t, p ∉ n.pre u) ∧
      ∀ S : List String, S.Nodup →
        (∀ t ∈ S, t ∈ n.transitions ∧ n.pre t ≠ [] ∧ (n.guard t).accept h = .ok true ∧ Enabled (n.pre t) n.tokens) →
        (∀ t ∈ S, ∀ u ∈ S, t ≠ u → ∀ p ∈ n.pre t, p ∉ n.pre u) →
        Nat.card {w // ∀ t ∈ S, t ∈ F w} * ((S.flatMap n.pre).map (rivals h n)).prod =
          Nat.card ({p // p ∈ n.places} → Fin M) := by
  classical
  choose F hnd hF hsim hok using fun w : {p // p ∈ n.places} → Fin M => simulate_exact h hw hg (pickOf n.places M w)
  refine ⟨F, fun w => ⟨hnd w, hsim w, hok w⟩, ?_, ?_, ?_⟩
  · intro w t ht
    obtain ⟨g1, g2, g3⟩ := (hF w t).1 ht
    obtain ⟨p, hp⟩ := List.exists_mem_of_ne_nil _ g2
    exact ⟨g1, g2, (choice_some hw ((hw.pre t g1).2 p hp) (g3 p hp)).2.2.1, fun q hq =>
      (choice_some hw ((hw.pre t g1).2 q hq) (g3 q hq)).2.2.2⟩
  · intro w t ht u hu hne p hp hp'
    have a := ((hF w t).1 ht).2.2 p hp
    rw [((hF w u).1 hu).2.2 p hp'] at a
    exact hne (Option.some.inj a).symm
  · intro S hS hSt hSd
    have hDnd : (S.flatMap n.pre).Nodup := by
      rw [List.nodup_flatMap]
      refine ⟨fun t ht => (hw.pre t (hSt t ht).1).1, ?_⟩
      refine hS.imp_of_mem ?_
      intro t u ht hu hne
      exact fun p hp hp' => hSd t ht u hu hne p hp hp'
    have hDsub : ∀ p ∈ S.flatMap n.pre, p ∈ n.places := by
      intro p hp
      obtain ⟨t, ht, hpt⟩ := List.mem_flatMap.1 hp
      exact (hw.pre t (hSt t ht).1).2 p hpt
    -- what the outcome must be at each place
    let C : {p // p ∈ n.places} → Fin M → Prop := fun p x =>
      ∀ t ∈ S, p.1 ∈ n.pre t → (x : Nat) % rivals h n p.1 = optionIndex h n p.1 t
    have hiff : ∀ w : {p // p ∈ n.places} → Fin M, (∀ t ∈ S, t ∈ F w) ↔ ∀ p, C p (w p) := by
      intro w
      constructor
      · intro hall p t ht hpt
        obtain ⟨a1, a2, a3, a4⟩ := hSt t ht
        have := ((choice_iff hw p.2 a1 hpt a3 (a4 _ hpt)).1).1 (((hF w t).1 (hall t ht)).2.2 p.1 hpt)
        unfold pickOf at this
        rwa [dif_pos p.2] at this
      · intro hall t ht
        obtain ⟨a1, a2, a3, a4⟩ := hSt t ht
        refine (hF w t).2 ⟨a1, a2, fun p hp => ?_⟩
        have hpl := (hw.pre t a1).2 p hp
        refine ((choice_iff hw hpl a1 hp a3 (a4 _ hp)).1).2 ?_
        unfold pickOf
        rw [dif_pos hpl]
        exact hall ⟨p, hpl⟩ t ht hp
    have hcard : Nat.card {w // ∀ t ∈ S, t ∈ F w} = ∏ p, Nat.card {x // C p x} := by
      rw [Nat.card_congr (Equiv.subtypeEquivRight hiff), Nat.card_congr Equiv.subtypePiEquivPi, Nat.card_pi]
    rw [hcard, ← prod_places hDnd hDsub, ← Finset.prod_mul_distrib, Nat.card_pi]
    refine Finset.prod_congr rfl fun p _ => ?_
    rw [Nat.card_fin]
    by_cases hp : p.1 ∈ S.flatMap n.pre
    · rw [if_pos hp]
      obtain ⟨t, ht, hpt⟩ := List.mem_flatMap.1 hp
      obtain ⟨a1, a2, a3, a4⟩ := hSt t ht
      have hi := (choice_iff (pick := fun _ => 0) hw p.2 a1 hpt a3 (a4 _ hpt)).2
      refine Eq.trans (congrArg (· * rivals h n p.1) ?_) (Dfg.card_mod (hM p.1 p.2 (by omega)) hi)
      refine Nat.card_congr (Equiv.subtypeEquivRight fun x => ⟨fun hc => hc t ht hpt, fun hc u hu hpu => ?_⟩)
      by_cases hut : t = u
      · exact hut ▸ hc
      · exact absurd hpu (hSd t ht u hu hut p.1 hpt)
    · rw [if_neg hp, mul_one]
      rw [Nat.card_congr (Equiv.subtypeUnivEquiv fun x t ht hpt => absurd (List.mem_flatMap.2 ⟨t, ht, hpt⟩) hp), Nat.card_fin]

/-- C183: one transition. An enabled transition with an accepting guard is fired with probability one over the product of the numbers of
rivals at its input places. -/
theorem C183_single (h : Heap) {n : Net} (hw : n.WF) (hg : ∀ t ∈ n.transitions, ∃ b, (n.guard t).accept h = .ok b)
    {M : Nat} (hM : ∀ p ∈ n.places, rivals h n p ≠ 0 → rivals h n p ∣ M) {t : String} (ht : t ∈ n.transitions) (hne : n.pre t ≠ [])
    (hacc : (n.guard t).accept h = .ok true) (hen : Enabled (n.pre t) n.tokens) :
    ∃ F : ({p // p ∈ n.places} → Fin M) → List String,
      (∀ w, (F w).Nodup ∧ n.simulate h (pickOf n.places M w) = forceAll n (F w) ∧ (forceAll n (F w)).2 = .ok ()) ∧
      Nat.card {w // t ∈ F w} * ((n.pre t).map (rivals h n)).prod = Nat.card ({p // p ∈ n.places} → Fin M) := by
  obtain ⟨F, h1, -, -, h4⟩ := C183_law h hw hg hM
  refine ⟨F, h1, ?_⟩
  have := h4 [t] (by simp) (by simpa using ⟨ht, hne, hacc, hen⟩) (by simp)
  simpa using this

/-- an example: `t` consumes from `a` and `b`, `u` from `a` and `v` from `b` -/
def exRivals : Net :=
  { Net.empty with
    places := ["a", "b"], transitions := ["t", "u", "v"]
    tokens := fun _ => 1
    out := fun p => if p = "a" then ["t", "u"] else if p = "b" then ["t", "v"] else []
    pre := fun t => if t = "t" then ["a", "b"] else if t = "u" then ["a"] else if t = "v" then ["b"] else []
    post := fun _ => [] }

theorem exRivals_wf : exRivals.WF := by
  refine ⟨by decide, by decide, by decide, by decide, ?_⟩
  intro p hp
  have hp' : p = "a" ∨ p = "b" := by simpa [exRivals] using hp
  refine ⟨by rcases hp' with rfl | rfl <;> decide, fun t => ⟨fun h => ?_, fun h => ?_⟩⟩
  · rcases hp' with rfl | rfl
    · have : t = "t" ∨ t = "u" := by simpa [exRivals] using h
      rcases this with rfl | rfl <;> decide
    · have : t = "t" ∨ t = "v" := by simpa [exRivals] using h
      rcases this with rfl | rfl <;> decide
  · have ht : t = "t" ∨ t = "u" ∨ t = "v" := by simpa [exRivals] using h.1
    have h2 := h.2
    rcases hp' with rfl | rfl <;> rcases ht with rfl | rfl | rfl <;> revert h2 <;> decide

/-- the hypotheses are met: `t` is fired in a quarter of the outcomes, and so are `u` and `v` together -/
example (h : Heap) : ∃ F : ({p // p ∈ exRivals.places} → Fin 2) → List String,
    (∀ w, exRivals.simulate h (pickOf exRivals.places 2 w) = forceAll exRivals (F w)) ∧
    Nat.card {w // "t" ∈ F w} = 1 ∧ Nat.card {w // "u" ∈ F w ∧ "v" ∈ F w} = 1 ∧ Nat.card ({p // p ∈ exRivals.places} → Fin 2) = 4 := by
  have hacc : ∀ t, (exRivals.guard t).accept h = .ok true := fun t => accept_always rfl
  have hr : ∀ p ∈ exRivals.places, rivals h exRivals p = 2 := by
    intro p hp
    have hp' : p = "a" ∨ p = "b" := by simpa [exRivals] using hp
    unfold rivals
    simp only [hacc, and_true]
    rcases hp' with rfl | rfl <;> decide
  obtain ⟨F, h1, -, -, h4⟩ := C183_law h exRivals_wf (fun t _ => ⟨true, hacc t⟩) (M := 2) (fun p hp _ => by rw [hr p hp])
  have hen : ∀ t, Enabled (exRivals.pre t) exRivals.tokens := fun t p _ => Int.le_refl 1
  have hc : Nat.card ({p // p ∈ exRivals.places} → Fin 2) = 4 := by
    rw [Nat.card_eq_fintype_card]; decide
  have ha := hr "a" (by decide)
  have hb := hr "b" (by decide)
  refine ⟨F, fun w => (h1 w).2.1, ?_, ?_, hc⟩
  · have := h4 ["t"] (by decide) (fun t ht => ⟨by revert t; decide, by revert t; decide, hacc t, hen t⟩) (by decide)
    have e : ((["t"].flatMap exRivals.pre).map (rivals h exRivals)).prod = 4 := by
      show ([rivals h exRivals "a", rivals h exRivals "b"]).prod = 4
      rw [ha, hb]; rfl
    rw [e, hc] at this
    have : Nat.card {w // ∀ t ∈ ["t"], t ∈ F w} = 1 := by omega
    simpa using this
  · have := h4 ["u", "v"] (by decide) (fun t ht => ⟨by revert t; decide, by revert t; decide, hacc t, hen t⟩) (by decide)
    have e : ((["u", "v"].flatMap exRivals.pre).map (rivals h exRivals)).prod = 4 := by
      show ([rivals h exRivals "a", rivals h exRivals "b"]).prod = 4
      rw [ha, hb]; rfl
    rw [e, hc] at this
    have : Nat.card {w // ∀ t ∈ ["u", "v"], t ∈ F w} = 1 := by omega
    simpa using this

end Prolothar.Petri
