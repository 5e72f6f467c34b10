import Verif.Props.Dataset
import Verif.Model.Transformer
import Verif.Spec.Noise
import Verif.Lemmas.PetriWf
import Mathlib.Data.List.Zip
/-
C105: noise on the target sequences of a dataset.
-/
namespace Prolothar.Data
open Prolothar.Spec.Data

variable {σ : Type}

/-! ### adding -/

theorem noiseOrNot_ok {alphabet : List σ} {p : Rat} {g : Rng} {i : Nat} (h : alphabet ≠ [] ∨ p ≤ g.random i) :
    ∃ n, noiseOrNot alphabet p g i = .ok n ∧ (∀ x ∈ n, x ∈ alphabet) ∧ n.length = if g.random i < p then 1 else 0 := by
  unfold noiseOrNot
  by_cases hp : g.random i < p
  · have hne : alphabet ≠ [] := h.resolve_right (not_le.2 hp)
    have hl : g.index i % alphabet.length < alphabet.length := Nat.mod_lt _ (List.length_pos_of_ne_nil hne)
    rw [if_pos hp, if_neg hne, pyGet_ofNat (List.getElem?_eq_getElem hl)]
    exact ⟨_, rfl, fun x hx => by rw [List.mem_singleton] at hx; subst hx; exact List.getElem_mem hl, by rw [if_pos hp]; rfl⟩
  · rw [if_neg hp]
    exact ⟨[], rfl, fun x hx => (by cases hx), by rw [if_neg hp]; rfl⟩

theorem addNoiseLoop_ok {alphabet : List σ} {p : Rat} {g : Rng} (h : alphabet ≠ [] ∨ ∀ i, p ≤ g.random i) : ∀ (seq : List σ) (i : Nat),
    ∃ (r : List σ) (gaps : List (List σ)), addNoiseLoop alphabet p g i seq = .ok r ∧ gaps.length = seq.length ∧
      (∀ k gap, gaps[k]? = some gap → (∀ x ∈ gap, x ∈ alphabet) ∧ gap.length = if g.random (i + k) < p then 1 else 0) ∧
      r = (List.zipWith (fun x gap => x :: gap) seq gaps).flatten
  | [], i => ⟨[], [], rfl, rfl, fun k gap hk => by simp at hk, rfl⟩
  | x :: l, i => by
    obtain ⟨n, n1, n2, n3⟩ := noiseOrNot_ok (i := i) (h.imp id fun h => h i)
    obtain ⟨r, gaps, e1, e2, e3, e4⟩ := addNoiseLoop_ok h l (i + 1)
    refine ⟨x :: (n ++ r), n :: gaps, ?_, by simp [e2], fun k gap hk => ?_, by simp [e4]⟩
    · simp only [addNoiseLoop, bind, Except.bind]
      rw [n1]
      simp only
      rw [e1]; rfl
    · cases k with
      | zero => simp at hk; subst hk; exact ⟨n2, n3⟩
      | succ k =>
        simp only [List.getElem?_cons_succ] at hk
        have := e3 k gap hk
        rwa [Nat.add_assoc, Nat.add_comm 1 k] at this

/-- C105: adding noise inserts at most one event, from the alphabet, before the first event and after each event, namely
where the drawn number is below the probability. The events of the sequence stay in their order. -/
theorem C105_add {alphabet : List σ} {p : Rat} {g : Rng} (h : alphabet ≠ [] ∨ ∀ i, p ≤ g.random i) (seq : List σ) :
    ∃ (r : List σ) (first : List σ) (gaps : List (List σ)), addNoise alphabet p g seq = .ok r ∧ gaps.length = seq.length ∧
      (∀ k gap, (first :: gaps)[k]? = some gap → (∀ x ∈ gap, x ∈ alphabet) ∧ gap.length = if g.random k < p then 1 else 0) ∧
      r = first ++ (List.zipWith (fun x gap => x :: gap) seq gaps).flatten ∧ seq.Sublist r := by
  obtain ⟨n, n1, n2, n3⟩ := noiseOrNot_ok (i := 0) (h.imp id fun h => h 0)
  obtain ⟨r, gaps, e1, e2, e3, e4⟩ := addNoiseLoop_ok h seq 1
  refine ⟨n ++ r, n, gaps, ?_, e2, fun k gap hk => ?_, by rw [e4], ?_⟩
  · simp only [addNoise, bind, Except.bind]
    rw [n1]
    simp only
    rw [e1]; rfl
  · cases k with
    | zero => simp at hk; subst hk; exact ⟨n2, n3⟩
    | succ k =>
      simp only [List.getElem?_cons_succ] at hk
      have := e3 k gap hk
      rwa [Nat.add_comm 1 k] at this
  · refine List.Sublist.trans ?_ (List.sublist_append_right n r)
    rw [e4]
    clear e1 e3 e4 n1
    induction seq generalizing gaps with
    | nil => simp
    | cons x l ih =>
      cases gaps with
      | nil => simp at e2
      | cons gap gaps =>
        simp only [List.zipWith_cons_cons, List.flatten_cons, List.cons_append]
        exact List.Sublist.cons_cons x ((ih gaps (by simpa using e2)).trans (List.sublist_append_right _ _))

/-- C105: with probability 0 nothing is added -/
theorem C105_add_zero (alphabet : List σ) {g : Rng} (hg : ∀ i, 0 ≤ g.random i) (seq : List σ) : addNoise alphabet 0 g seq = .ok seq := by
  obtain ⟨r, first, gaps, e1, e2, e3, e4, hsub⟩ := C105_add (alphabet := alphabet) (p := 0) (g := g) (.inr hg) seq
  have hnil : ∀ (k : Nat) gap, (first :: gaps)[k]? = some gap → gap = [] := by
    intro k gap hk
    have := (e3 k gap hk).2
    rw [if_neg (not_lt.2 (hg k))] at this
    exact List.length_eq_zero_iff.1 this
  have hf : first = [] := hnil 0 first rfl
  have hgaps : ∀ gap ∈ gaps, gap = [] := by
    intro gap hm
    obtain ⟨k, hk, rfl⟩ := List.mem_iff_getElem.1 hm
    exact hnil (k + 1) _ (by simp)
  rw [e1, e4, hf]
  congr 1
  clear e1 e3 e4 hnil hsub
  induction seq generalizing gaps with
  | nil => simp
  | cons x l ih =>
    cases gaps with
    | nil => simp at e2
    | cons gap gaps =>
      rw [hgaps gap (by simp)]
      simpa using ih gaps (by simpa using e2) (fun gap hm => hgaps gap (List.mem_cons_of_mem _ hm))

/-- C105: without an alphabet an IndexError is raised as soon as an event is to be inserted before the first -/
theorem C105_add_empty_alphabet {p : Rat} {g : Rng} (h : g.random 0 < p) (seq : List σ) : addNoise [] p g seq = .error .index := by
  simp [addNoise, noiseOrNot, h, bind, Except.bind]

/-! ### removing -/

/-- C105: removing noise keeps exactly the events for which the drawn number is above the probability, in their order -/
theorem C105_remove (p : Rat) (g : Rng) (seq : List σ) :
    (removeNoise p g seq).Sublist seq ∧
    ∃ kept : List Nat, kept.Pairwise (· < ·) ∧ (∀ i, i ∈ kept ↔ i < seq.length ∧ p < g.random i) ∧
      removeNoise p g seq = kept.filterMap fun i => seq[i]? := by
  have key : ∀ (l : List σ) (k : Nat), (l.zipIdx k).filter (fun e => decide (g.random e.2 > p)) =
      ((List.range' k l.length).filter fun i => decide (p < g.random i)).filterMap fun i => (l[i - k]?).map fun x => (x, i) := by
    intro l
    induction l with
    | nil => intro k; rfl
    | cons x l ih =>
      intro k
      rw [List.zipIdx_cons, List.length_cons, List.range'_succ, List.filter_cons, List.filter_cons, ih (k + 1)]
      have hcongr : ∀ L : List Nat, (∀ i ∈ L, k + 1 ≤ i) → (L.filterMap fun i => (l[i - (k + 1)]?).map fun x => (x, i)) =
          L.filterMap fun i => ((x :: l)[i - k]?).map fun x => (x, i) := by
        intro L hL
        refine List.filterMap_congr fun i hi => ?_
        rw [show i - k = (i - (k + 1)) + 1 by have := hL i hi; omega, List.getElem?_cons_succ]
      have hmem : ∀ i ∈ (List.range' (k + 1) l.length).filter fun i => decide (p < g.random i), k + 1 ≤ i := by
        intro i hi
        have := (List.mem_filter.1 hi).1
        rw [List.mem_range'_1] at this
        exact this.1
      by_cases hp : p < g.random k
      · simp only [gt_iff_lt, hp, decide_true, if_true, List.filterMap_cons, Nat.sub_self, List.getElem?_cons_zero, Option.map_some]
        rw [hcongr _ hmem]
      · simp only [gt_iff_lt, hp, decide_false, Bool.false_eq_true, if_false]
        exact hcongr _ hmem
  refine ⟨?_, (List.range seq.length).filter fun i => decide (p < g.random i), List.pairwise_lt_range.filter _, fun i => by simp, ?_⟩
  · unfold removeNoise
    have h1 := ((List.filter_sublist (p := fun e : σ × Nat => decide (g.random e.2 > p)) (l := seq.zipIdx)).map (·.1))
    rwa [List.zipIdx_map_fst] at h1
  · unfold removeNoise
    rw [key seq 0, List.map_filterMap, List.range_eq_range']
    refine List.filterMap_congr fun i _ => ?_
    cases seq[i - 0]? <;> simp_all

/-- C105: with probability 1 all events are removed; the generator draws numbers below 1 -/
theorem C105_remove_one {g : Rng} (hg : ∀ i, g.random i < 1) (seq : List σ) : removeNoise 1 g seq = [] := by
  unfold removeNoise
  rw [List.map_eq_nil_iff, List.filter_eq_nil_iff]
  intro e _ h
  have := of_decide_eq_true h
  exact absurd this (not_lt.2 (hg e.2).le)

/-- C105 is wrong for probability 0: an event is removed if the drawn number is 0 -/
theorem C105_remove_zero_witness : removeNoise 0 ⟨fun i => if i = 1 then 0 else 1, fun _ => 0⟩ ["a", "b", "c"] = ["a", "c"] := by decide +kernel

/-! ### swapping -/

/-- swapping works on positions: it commutes with every relabelling -/
theorem swapNoise_map {ρ : Type} (f : ρ → σ) (p : Rat) (multiple : Bool) (g : Rng) : ∀ (n : Nat) (l : List ρ) (i : Nat), l.length = n →
    swapNoise p multiple g i (l.map f) = (swapNoise p multiple g i l).map f := by
  intro n
  induction n using Nat.strong_induction_on with
  | _ n ih =>
    intro l i hn
    match l with
    | [] => rw [List.map_nil, swapNoise, swapNoise] <;> simp
    | [x] => rw [List.map_cons, List.map_nil, swapNoise, swapNoise] <;> simp
    | x :: y :: l =>
      simp only [List.length_cons] at hn
      rw [List.map_cons, List.map_cons, swapNoise, swapNoise]
      split
      · split
        · have := ih (n - 1) (by omega) (x :: l) (i + 1) (by simp; omega)
          rw [List.map_cons] at this
          rw [this]; rfl
        · rw [ih (n - 2) (by omega) l (i + 1) (by omega)]; rfl
      · have := ih (n - 1) (by omega) (y :: l) (i + 1) (by simp; omega)
        rw [List.map_cons] at this
        rw [this]; rfl

theorem swap_perm (p : Rat) (multiple : Bool) (g : Rng) : ∀ (n : Nat) (l : List σ) (i : Nat), l.length = n →
    (swapNoise p multiple g i l).Perm l := by
  intro n
  induction n using Nat.strong_induction_on with
  | _ n ih =>
    intro l i hn
    match l with
    | [] => rw [swapNoise]; simp
    | [x] => rw [swapNoise]; simp
    | x :: y :: l =>
      simp only [List.length_cons] at hn
      rw [swapNoise]
      split
      · split
        · exact ((ih (n - 1) (by omega) (x :: l) (i + 1) (by simp; omega)).cons y).trans (List.Perm.swap x y l)
        · exact (((ih (n - 2) (by omega) l (i + 1) (by omega)).cons x).cons y).trans (List.Perm.swap x y l)
      · exact (ih (n - 1) (by omega) (y :: l) (i + 1) (by simp; omega)).cons x

/-- positions after the swaps without multiple swaps -/
theorem swap_near (p : Rat) (g : Rng) : ∀ (n i k : Nat), ∀ j m, (swapNoise p false g i (List.range' k n))[j]? = some m →
    m ≤ k + j + 1 ∧ k + j ≤ m + 1 := by
  intro n
  induction n using Nat.strong_induction_on with
  | _ n ih =>
    intro i k j m hj
    match n with
    | 0 =>
      rw [List.range'_zero, swapNoise] at hj
      · simp at hj
      · simp
    | 1 =>
      rw [List.range'_one, swapNoise] at hj
      · cases j <;> simp at hj; omega
      · simp
    | n + 2 =>
      rw [List.range'_succ, List.range'_succ, swapNoise] at hj
      simp only [Bool.false_eq_true, if_false] at hj
      split at hj
      · match j with
        | 0 => simp at hj; omega
        | 1 => simp at hj; omega
        | j + 2 =>
          simp only [List.getElem?_cons_succ] at hj
          have := ih n (by omega) (i + 1) (k + 1 + 1) j m hj
          omega
      · rw [← List.range'_succ] at hj
        match j with
        | 0 => simp at hj; omega
        | j + 1 =>
          simp only [List.getElem?_cons_succ] at hj
          have := ih (n + 1) (by omega) (i + 1) (k + 1) j m hj
          omega

/-- positions after the swaps with multiple swaps: the head may come from further left -/
theorem swap_multiple (p : Rat) (g : Rng) : ∀ (n i k x : Nat), x < k → ∀ j m, (swapNoise p true g i (x :: List.range' k n))[j]? = some m →
    m ≤ k + j := by
  intro n
  induction n with
  | zero =>
    intro i k x hx j m hj
    rw [List.range'_zero, swapNoise] at hj
    · cases j <;> simp at hj; omega
    · simp
  | succ n ih =>
    intro i k x hx j m hj
    rw [List.range'_succ, swapNoise] at hj
    simp only [if_true] at hj
    split at hj
    · match j with
      | 0 => simp at hj; omega
      | j + 1 =>
        simp only [List.getElem?_cons_succ] at hj
        have := ih (i + 1) (k + 1) x (by omega) j m hj
        omega
    · match j with
      | 0 => simp at hj; omega
      | j + 1 =>
        simp only [List.getElem?_cons_succ] at hj
        have := ih (i + 1) (k + 1) k (by omega) j m hj
        omega

/-- C105: swapping rearranges the events: `is` lists the former positions. Without multiple swaps, no event moves by
more than one position; with multiple swaps, no event moves to the front by more than one position. -/
theorem C105_swap (p : Rat) (multiple : Bool) (g : Rng) (seq : List σ) :
    ∃ is : List Nat, is.Perm (List.range seq.length) ∧ swapNoise p multiple g 0 seq = is.filterMap (fun i => seq[i]?) ∧
      ∀ j m, is[j]? = some m → m ≤ j + 1 ∧ (multiple = false → j ≤ m + 1) := by
  refine ⟨swapNoise p multiple g 0 (List.range seq.length), ?_, ?_, fun j m hj => ?_⟩
  · exact swap_perm p multiple g _ _ 0 rfl
  · have hperm := swap_perm p multiple g _ (List.range seq.length) 0 rfl
    cases hs : seq with
    | nil => simp [swapNoise]
    | cons d l =>
      rw [← hs]
      have h1 : seq = (List.range seq.length).map fun i => (seq[i]?).getD d := by
        apply List.ext_getElem
        · simp
        · intro i h2 h3; rw [List.getElem_map, List.getElem_range, List.getElem?_eq_getElem h2]; rfl
      have h2 := swapNoise_map (fun i => (seq[i]?).getD d) p multiple g _ (List.range seq.length) 0 rfl
      rw [← h1] at h2
      rw [h2, ← List.filterMap_eq_map]
      refine List.filterMap_congr fun i hi => ?_
      have hi := hperm.mem_iff.1 hi
      rw [List.mem_range] at hi
      simp only [Function.comp_apply]
      rw [List.getElem?_eq_getElem hi]; rfl
  · rw [List.range_eq_range'] at hj
    cases multiple with
    | false =>
      have := swap_near p g _ 0 0 j m hj
      exact ⟨by omega, fun _ => by omega⟩
    | true =>
      refine ⟨?_, fun h => (by cases h)⟩
      cases hl : seq.length with
      | zero =>
        rw [hl, List.range'_zero, swapNoise] at hj
        · simp at hj
        · simp
      | succ n =>
        rw [hl, List.range'_succ] at hj
        have := swap_multiple p g n 0 1 0 (by omega) j m hj
        omega

theorem swapNoise_where (p : Rat) (g : Rng) : ∀ (n : Nat) (l : List σ) (i : Nat), l.length ≤ n + 1 →
    swapNoise p true g i l = Spec.Noise.bubbled l ((List.range' i n).map fun k => decide (g.random k < p)) ∧
    swapNoise p false g i l = Spec.Noise.exchanged l ((List.range' i n).map fun k => decide (g.random k < p)) := by
  intro n
  induction n with
  | zero =>
    intro l i hn
    match l, hn with
    | [], _ => constructor <;> · rw [swapNoise] <;> simp [Spec.Noise.bubbled, Spec.Noise.exchanged]
    | [x], _ => constructor <;> · rw [swapNoise] <;> simp [Spec.Noise.bubbled, Spec.Noise.exchanged]
  | succ n ih =>
    intro l i hn
    match l, hn with
    | [], _ => constructor <;> · rw [swapNoise] <;> simp [Spec.Noise.bubbled, Spec.Noise.exchanged]
    | [x], _ => constructor <;> · rw [swapNoise] <;> simp [Spec.Noise.bubbled, Spec.Noise.exchanged]
    | x :: y :: l, hn =>
      simp only [List.length_cons] at hn
      rw [List.range'_succ, List.map_cons]
      constructor
      · rw [swapNoise, Spec.Noise.bubbled, (ih (x :: l) (i + 1) (by simp; omega)).1, (ih (y :: l) (i + 1) (by simp; omega)).1]
        by_cases hp : g.random i < p <;> simp [hp]
      · rw [swapNoise, Spec.Noise.exchanged, (ih l (i + 1) (by omega)).2, (ih (y :: l) (i + 1) (by simp; omega)).2]
        by_cases hp : g.random i < p <;> simp [hp]

/-- C105: neighbours change places exactly where the next drawn number is below the probability. With multiple swaps, the event
that has been moved to the right is compared with its next neighbour; without, the pair is finished. -/
theorem C105_swap_where (p : Rat) (g : Rng) (seq : List σ) :
    swapNoise p true g 0 seq = Spec.Noise.bubbled seq ((List.range seq.length).map fun k => decide (g.random k < p)) ∧
    swapNoise p false g 0 seq = Spec.Noise.exchanged seq ((List.range seq.length).map fun k => decide (g.random k < p)) := by
  rw [List.range_eq_range']
  exact swapNoise_where p g seq.length seq 0 (by omega)

/-- C105: with probability 0 nothing is swapped -/
theorem C105_swap_zero (multiple : Bool) {g : Rng} (hg : ∀ i, 0 ≤ g.random i) (seq : List σ) : ∀ i, swapNoise 0 multiple g i seq = seq := by
  induction seq with
  | nil => intro i; rw [swapNoise]; simp
  | cons x l ih =>
    intro i
    cases l with
    | nil => rw [swapNoise]; simp
    | cons y l => rw [swapNoise, if_neg (not_lt.2 (hg i)), ih]

/-! ### the loop over the instances -/

/-- C105: the noises change only the target sequences, each instance on its own -/
theorem C105_targets (f : Nat → List σ → Py (List σ)) {h : Heap (List σ)} {d : Dataset} (hn : d.instances.Nodup)
    (hf : ∀ k t, ∃ t', f k t = .ok t') :
    ∃ h', noiseAll f h d = .ok (h', d) ∧ (∀ a, a ∉ d.instances → h' a = h a) ∧
      ∀ k a, d.instances[k]? = some a → (h' a).id = (h a).id ∧ (h' a).features = (h a).features ∧ f k (h a).target = .ok (h' a).target := by
  have key : ∀ (l : List Nat) (k : Nat) (h : Heap (List σ)), l.Nodup → ∃ h',
      (l.zipIdx k).foldlM (fun h e => do
        let t ← f e.2 (h e.1).target
        return upd h e.1 { h e.1 with target := t }) h = (.ok h' : Py (Heap (List σ))) ∧ (∀ a, a ∉ l → h' a = h a) ∧
      ∀ j a, l[j]? = some a → (h' a).id = (h a).id ∧ (h' a).features = (h a).features ∧ f (k + j) (h a).target = .ok (h' a).target := by
    intro l
    induction l with
    | nil => intro k h _; exact ⟨h, rfl, fun _ _ => rfl, fun j a hj => by simp at hj⟩
    | cons b l ih =>
      intro k h hnd
      rw [List.nodup_cons] at hnd
      obtain ⟨t, ht⟩ := hf k (h b).target
      obtain ⟨h', e1, e2, e3⟩ := ih (k + 1) (upd h b { h b with target := t }) hnd.2
      refine ⟨h', ?_, fun a ha => ?_, fun j a hj => ?_⟩
      · rw [List.zipIdx_cons, List.foldlM_cons]
        simp only
        rw [ht]
        exact e1
      · rw [List.mem_cons, not_or] at ha
        rw [e2 a ha.2, upd_ne _ _ ha.1]
      · cases j with
        | zero =>
          simp at hj; subst hj
          rw [e2 b hnd.1, upd_self]
          exact ⟨rfl, rfl, ht⟩
        | succ j =>
          simp only [List.getElem?_cons_succ] at hj
          have hne : a ≠ b := fun he => hnd.1 (he ▸ List.mem_of_getElem? hj)
          have := e3 j a hj
          rw [upd_ne _ _ hne, Nat.add_assoc, Nat.add_comm 1 j] at this
          exact this
  obtain ⟨h', e1, e2, e3⟩ := key d.instances 0 h hn
  refine ⟨h', ?_, e2, fun k a hk => by have := e3 k a hk; rwa [Nat.zero_add] at this⟩
  unfold noiseAll
  rw [e1]; rfl

/-- the example: swap at every second draw -/
example : swapNoise (1/2) false ⟨fun i => if i % 2 = 0 then 0 else 1, fun _ => 0⟩ 0 ["a", "b", "c", "d", "e"] = ["b", "a", "c", "e", "d"] := by
  decide +kernel
example : swapNoise (1/2) true ⟨fun i => if i < 3 then 0 else 1, fun _ => 0⟩ 0 ["a", "b", "c", "d", "e"] = ["b", "c", "d", "a", "e"] := by
  decide +kernel
example : (addNoise ["x", "y"] (1/2) ⟨fun i => if i % 2 = 0 then 0 else 1, fun i => i / 2⟩ ["a", "b"]).toOption = some ["x", "a", "b", "y"] := by
  decide +kernel

end Prolothar.Data
