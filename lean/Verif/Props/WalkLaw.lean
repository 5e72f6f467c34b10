import Verif.Props.DfgSimulation
import Mathlib.SetTheory.Cardinal.Finite
import Mathlib.Data.Set.Card
import Mathlib.Data.Fintype.BigOperators
import Mathlib.Algebra.BigOperators.Fin
import Mathlib.Tactic.Ring
/-
Property C174: the probability of a simulated log. `random.choice` picks every option with the same probability. The sample space:
L numbers, each one of 0, ..., N-1, all N^L outcomes equally likely, where N is a multiple of the numbers of options; the i-th choice among
n options takes the option number (i-th number mod n).
-/
namespace Prolothar.Dfg
open Prolothar.Spec
variable {A : Type} [LinearOrder A]

/-- the outcome `w` as the list of numbers that are used one after the other -/
def numbersOf {L N : Nat} (w : Fin L → Fin N) : List Nat := List.ofFn fun i => (w i : Nat)

/-- `random.choice`, with the numbers of an outcome -/
def pick (l : List Nat) (_ : Nat) : Nat × List Nat := (l.headD 0, l.tail)

/-- the number of activities that can follow -/
noncomputable def outDegree (g : Graph A) (a : A) : Nat := Set.ncard { b | (view g).Edge a b }

/-- the number of options of all choices on the way along a trace -/
noncomputable def branching (g : Graph A) (starts : List A) (t : List A) : Nat := starts.length * (t.dropLast.map (outDegree g)).prod

/-! ### counting -/

/-- the number of outcomes with a property -/
noncomputable def count (L N : Nat) (P : List Nat → Prop) : Nat := Nat.card { w : Fin L → Fin N // P (numbersOf w) }

theorem count_congr {L N : Nat} {P Q : List Nat → Prop} (h : ∀ l : List Nat, l.length = L → (P l ↔ Q l)) : count L N P = count L N Q := by
  unfold count
  exact Nat.card_congr (Equiv.subtypeEquivRight fun w => h _ (by simp [numbersOf]))

/-- all outcomes -/
theorem count_true (L N : Nat) : count L N (fun _ => True) = N ^ L := by
  unfold count
  rw [Nat.card_congr (Equiv.subtypeUnivEquiv fun _ => trivial), Nat.card_eq_fintype_card]
  simp

/-- the numbers of 0, ..., N-1 with a given remainder -/
theorem card_mod {n N : Nat} (hd : n ∣ N) {i : Nat} (hi : i < n) : Nat.card { k : Fin N // (k : Nat) % n = i } * n = N := by
  obtain ⟨q, rfl⟩ := hd
  have hn : 0 < n := by omega
  have : Nat.card { k : Fin (n * q) // (k : Nat) % n = i } = q := by
    refine (Nat.card_congr (β := Fin q)
      { toFun := fun k => ⟨(k.1 : Nat) / n, by
          have := k.1.2
          exact Nat.div_lt_of_lt_mul this⟩
        invFun := fun j => ⟨⟨n * (j : Nat) + i, by
          have := j.2
          nlinarith⟩, by
          show (n * (j : Nat) + i) % n = i
          rw [Nat.mul_add_mod, Nat.mod_eq_of_lt hi]⟩
        left_inv := ?_
        right_inv := ?_ }).trans (by simp)
    · rintro ⟨k, hk⟩
      apply Subtype.ext
      apply Fin.ext
      show n * ((k : Nat) / n) + i = k
      have := Nat.div_add_mod (k : Nat) n
      omega
    · intro j
      apply Fin.ext
      show (n * (j : Nat) + i) / n = j
      rw [Nat.mul_add_div hn, Nat.div_eq_of_lt hi, Nat.add_zero]
  rw [this, Nat.mul_comm]

/-- one choice, and the rest -/
theorem count_step {L n N : Nat} (hd : n ∣ N) {i : Nat} (hi : i < n) {P Q : List Nat → Prop}
    (h : ∀ k l, P (k :: l) ↔ k % n = i ∧ Q l) : count (L + 1) N P * n = N * count L N Q := by
  have : count (L + 1) N P = Nat.card { k : Fin N // (k : Nat) % n = i } * count L N Q := by
    unfold count
    rw [← Nat.card_prod]
    refine Nat.card_congr
      { toFun := fun w => (⟨w.1 0, ?_⟩, ⟨Fin.tail w.1, ?_⟩)
        invFun := fun p => ⟨Fin.cons p.1.1 p.2.1, ?_⟩
        left_inv := ?_
        right_inv := ?_ }
    · have := w.2
      unfold numbersOf at this
      rw [List.ofFn_succ] at this
      exact ((h _ _).1 this).1
    · have := w.2
      unfold numbersOf at this
      rw [List.ofFn_succ] at this
      exact ((h _ _).1 this).2
    · unfold numbersOf
      rw [List.ofFn_succ]
      exact (h _ _).2 ⟨p.1.2, p.2.2⟩
    · rintro ⟨w, hw⟩
      apply Subtype.ext
      exact Fin.cons_self_tail w
    · rintro ⟨⟨k, hk⟩, ⟨w, hw⟩⟩
      rfl
  rw [this, Nat.mul_right_comm, card_mod hd hi]

/-! ### walks -/

/-- the result of a walk continues the path -/
theorem walk_prefix {G : Type} {g : Graph A} (h : WF g) (choose : G → Nat → Nat × G) (stops : A → Bool) : ∀ (fuel : Nat) (rng : G) (options path r : List A) (rest : G),
    walk g choose stops fuel rng options path = .ok (r, rest) → ∃ a t, r = path ++ a :: t ∧ options[(choose rng options.length).1 % options.length]? = some a := by
  intro fuel
  induction fuel with
  | zero => intro rng options path r rest hr; cases hr
  | succ fuel ih =>
    intro rng options path r rest hr
    obtain ⟨h1, h2⟩ := walk_succ h choose stops fuel rng options path
    by_cases hne : options = []
    · rw [h1 hne] at hr; cases hr
    · obtain ⟨a, ha, hidx, h3, h4, h5⟩ := h2 hne
      by_cases hk : a ∈ g.nodes.keys
      · cases hs : stops a with
        | true =>
          rw [h4 hk hs] at hr
          cases hr
          exact ⟨a, [], rfl, hidx⟩
        | false =>
          obtain ⟨l, _, _, _, l3⟩ := h5 hk hs
          rw [l3] at hr
          obtain ⟨b, t, rfl, _⟩ := ih _ _ _ _ _ hr
          exact ⟨a, b :: t, by simp, hidx⟩
      · rw [h3 hk] at hr; cases hr

theorem outDegree_eq {g : Graph A} {a : A} {l : List A} (hn : l.Nodup) (hm : ∀ b, b ∈ l ↔ Edge g a b) : outDegree g a = l.length := by
  unfold outDegree
  have : { b | (view g).Edge a b } = ((l.toFinset : Finset A) : Set A) := by
    ext b
    simp only [Set.mem_ofPred_eq, view_edge, List.coe_toFinset]
    exact (hm b).symm
  rw [this, Set.ncard_coe_finset, List.toFinset_card_of_nodup hn]

omit [LinearOrder A] in
/-- index of an element of a list without repetitions -/
theorem index_iff {l : List A} (hn : l.Nodup) {i : Nat} (hi : i < l.length) (k : Nat) :
    l[k % l.length]? = some l[i] ↔ k % l.length = i := by
  have hl : 0 < l.length := by omega
  have hk := Nat.mod_lt k hl
  rw [List.getElem?_eq_getElem hk, Option.some.injEq]
  exact hn.getElem_inj_iff

/-- the number of outcomes for which a walk gives the trace `t` and the remaining numbers have a property -/
theorem count_walk {g : Graph A} (h : WF g) (stops : A → Bool) {N : Nat} : ∀ (q : List A) (e : A) (fuel : Nat) (options path : List A) (L : Nat) (R : List Nat → Prop),
    q.length < fuel → options.Nodup → (∀ s, (q ++ [e]).head? = some s → s ∈ options) → options.length ∣ N →
    (q ++ [e]).IsChain (Edge g) → (∀ x ∈ q ++ [e], x ∈ g.nodes.keys) → stops e = true → (∀ x ∈ q, stops x = false) → (∀ x ∈ q, outDegree g x ∣ N) →
    count (q.length + 1 + L) N (fun l => ∃ rest, walk g pick stops fuel l options path = .ok (path ++ (q ++ [e]), rest) ∧ R rest) *
      (options.length * (q.map (outDegree g)).prod) = N ^ (q.length + 1) * count L N R := by
  intro q
  induction q with
  | nil =>
    intro e fuel options path L R hf hn hh hd _ hk hs _ _
    obtain ⟨fuel, rfl⟩ : ∃ f, fuel = f + 1 := ⟨fuel - 1, by omega⟩
    have he : e ∈ options := hh e rfl
    obtain ⟨i, hi, hie⟩ := List.getElem_of_mem he
    rw [List.map_nil, List.prod_nil, Nat.mul_one, List.length_nil, Nat.zero_add, Nat.pow_one, Nat.add_comm 1 L]
    refine count_step hd hi fun k l => ?_
    obtain ⟨a, _, hidx, _, h4, h5⟩ := (walk_succ h pick stops fuel (k :: l) options path).2 (List.ne_nil_of_mem he)
    constructor
    · rintro ⟨rest, hw, hR⟩
      obtain ⟨b, t, hbt, hb⟩ := walk_prefix h pick stops _ _ _ _ _ _ hw
      have hbe : b = e := by
        have := List.append_cancel_left hbt
        simp only [List.nil_append, List.cons.injEq] at this
        exact this.1.symm
      subst hbe
      rw [hb] at hidx
      obtain rfl := Option.some.inj hidx
      rw [h4 (hk _ (by simp)) hs] at hw
      cases hw
      refine ⟨?_, hR⟩
      rw [← hie] at hb
      exact (index_iff hn hi k).1 hb
    · rintro ⟨hk', hR⟩
      have hb := (index_iff hn hi k).2 hk'
      have hae : a = e := by
        have : options[k % options.length]? = some a := hidx
        rw [hb, hie] at this
        cases this
        rfl
      subst hae
      exact ⟨l, by rw [h4 (hk a (by simp)) hs]; rfl, hR⟩
  | cons b q ih =>
    intro e fuel options path L R hf hn hh hd hc hk hs hq hdeg
    obtain ⟨fuel, rfl⟩ : ∃ f, fuel = f + 1 := ⟨fuel - 1, by omega⟩
    have hbo : b ∈ options := hh b rfl
    obtain ⟨i, hi, hib⟩ := List.getElem_of_mem hbo
    rw [List.cons_append, List.isChain_cons] at hc
    have hbk := hk b (by simp)
    obtain ⟨lb, l1, l2, l3⟩ := following_ok h.toCore hbk
    have hdb := outDegree_eq l2 l3
    have hrec := ih e fuel lb (path ++ [b]) L R (by simpa using hf) l2 (fun s hs => (l3 s).2 (hc.1 s hs)) (hdb ▸ hdeg b (by simp)) hc.2
      (fun x hx => hk x (by rw [List.cons_append]; exact List.mem_cons_of_mem _ hx)) hs (fun x hx => hq x (by simp [hx])) (fun x hx => hdeg x (by simp [hx]))
    have hstep := count_step (L := q.length + 1 + L) (N := N) hd hi
      (P := fun l => ∃ rest, walk g pick stops (fuel + 1) l options path = .ok (path ++ (b :: q ++ [e]), rest) ∧ R rest)
      (Q := fun l => ∃ rest, walk g pick stops fuel l lb (path ++ [b]) = .ok ((path ++ [b]) ++ (q ++ [e]), rest) ∧ R rest) (fun k l => by
        obtain ⟨a, _, hidx, _, h4, h5⟩ := (walk_succ h pick stops fuel (k :: l) options path).2 (List.ne_nil_of_mem hbo)
        have hkey : a = b → walk g pick stops (fuel + 1) (k :: l) options path = walk g pick stops fuel l lb (path ++ [b]) := by
          rintro rfl
          obtain ⟨l', _, _, l4, l5⟩ := h5 hbk (hq a (by simp))
          obtain rfl := Except.ok.inj (l1.symm.trans l4)
          rw [l5]
          rfl
        constructor
        · rintro ⟨rest, hw, hR⟩
          obtain ⟨b', t, hbt, hb'⟩ := walk_prefix h pick stops _ _ _ _ _ _ hw
          have hbe : b' = b := by
            have := List.append_cancel_left hbt
            simp only [List.cons_append, List.cons.injEq] at this
            exact this.1.symm
          subst hbe
          rw [hb'] at hidx
          obtain rfl := Option.some.inj hidx
          refine ⟨?_, rest, ?_, hR⟩
          · rw [← hib] at hb'
            exact (index_iff hn hi k).1 hb'
          · rw [← hkey rfl, hw]
            simp
        · rintro ⟨hk', rest, hw, hR⟩
          have hb := (index_iff hn hi k).2 hk'
          have hae : a = b := by
            have : options[k % options.length]? = some a := hidx
            rw [hb, hib] at this
            cases this
            rfl
          refine ⟨rest, ?_, hR⟩
          rw [hkey hae, hw]
          simp)
    have hlen : (b :: q).length + 1 + L = q.length + 1 + L + 1 := by simp only [List.length_cons]; omega
    rw [hlen, List.map_cons, List.prod_cons, hdb, List.length_cons, Nat.pow_succ]
    calc _ = (count (q.length + 1 + L + 1) N (fun l => ∃ rest, walk g pick stops (fuel + 1) l options path = .ok (path ++ (b :: q ++ [e]), rest) ∧ R rest) *
          options.length) * (lb.length * (q.map (outDegree g)).prod) := by ring
      _ = _ := by
        rw [hstep, Nat.mul_assoc, hrec]
        ring

/-- the same for the loop over the traces -/
theorem count_walks {g : Graph A} (h : WF g) (starts stops : List A) (hn : starts.Nodup) {N : Nat} (hd : starts.length ∣ N) (fuel : Nat) : ∀ (ts : List (List A)) (L : Nat),
    (∀ t ∈ ts, t.IsChain (Edge g) ∧ (∃ s ∈ starts, t.head? = some s) ∧ (∀ x ∈ t, x ∈ g.nodes.keys) ∧ t.length ≤ fuel ∧
      (∃ q e, t = q ++ [e] ∧ e ∈ stops ∧ ∀ x ∈ q, x ∉ stops) ∧ ∀ x ∈ t.dropLast, outDegree g x ∣ N) →
    count (ts.flatten.length + L) N (fun l => walks g pick starts stops fuel ts.length l = .ok ts) * (ts.map (branching g starts)).prod = N ^ (ts.flatten.length + L)
  | [], L, _ => by
    rw [List.map_nil, List.prod_nil, Nat.mul_one, ← count_true]
    exact count_congr fun l _ => by simp [walks]
  | t :: ts, L, ht => by
    obtain ⟨hc, ⟨s, s1, s2⟩, hk, hf, ⟨q, e, rfl, he, hq⟩, hdeg⟩ := ht _ List.mem_cons_self
    rw [List.dropLast_concat] at hdeg
    have ih := count_walks h starts stops hn hd fuel ts L fun t h => ht t (List.mem_cons_of_mem _ h)
    have hw := count_walk h (fun a => decide (a ∈ stops)) (N := N) q e fuel starts [] (ts.flatten.length + L)
      (fun l => walks g pick starts stops fuel ts.length l = .ok ts) (by simp at hf; omega) hn
      (fun s' hs' => by rw [s2] at hs'; cases hs'; exact s1) hd hc hk (by simpa using he) (fun x hx => by simpa using hq x hx) hdeg
    have hlen : ((q ++ [e]) :: ts).flatten.length + L = q.length + 1 + (ts.flatten.length + L) := by simp; omega
    rw [hlen, List.map_cons, List.prod_cons]
    have hbr : branching g starts (q ++ [e]) = starts.length * (q.map (outDegree g)).prod := by
      unfold branching; rw [List.dropLast_concat]
    rw [hbr, ← Nat.mul_assoc]
    have hcongr : count (q.length + 1 + (ts.flatten.length + L)) N (fun l => walks g pick starts stops fuel ((q ++ [e]) :: ts).length l = .ok ((q ++ [e]) :: ts)) =
        count (q.length + 1 + (ts.flatten.length + L)) N (fun l => ∃ rest, walk g pick (fun a => decide (a ∈ stops)) fuel l starts [] = .ok ([] ++ (q ++ [e]), rest) ∧
          walks g pick starts stops fuel ts.length rest = .ok ts) := by
      refine count_congr fun l _ => ?_
      rw [List.length_cons, walks]
      constructor
      · intro hl
        cases hwl : walk g pick (fun a => decide (a ∈ stops)) fuel l starts [] with
        | error x => rw [hwl] at hl; cases hl
        | ok r =>
          rw [hwl, ok_bind] at hl
          cases hws : walks g pick starts stops fuel ts.length r.2 with
          | error x => rw [hws] at hl; cases hl
          | ok rest =>
            rw [hws, ok_bind] at hl
            have := Except.ok.inj hl
            simp only [List.cons.injEq] at this
            refine ⟨r.2, ?_, ?_⟩
            · rw [List.nil_append, ← this.1]
            · rw [hws, this.2]
      · rintro ⟨rest, h1, h2⟩
        rw [h1, ok_bind]
        dsimp only
        rw [h2, ok_bind]
        rfl
    rw [hcongr, hw, Nat.mul_assoc, ih, ← Nat.pow_add]

/-- C174: the probability of a simulated log is the product over its traces of the probabilities of all choices on the way: one divided by the number of start activities,
and for every activity of the trace but the last one divided by the number of its successors. The frequencies of the edges do not matter. -/
theorem C174_law {g : Graph A} (hb : Built g) (starts stops : Option (List A)) (hn : (starts.getD (sources g)).Nodup) (traces : List (List A)) (hne : traces ≠ [])
    (ht : ∀ t ∈ traces, Simulable g starts stops t) {N : Nat} (hd : (starts.getD (sources g)).length ∣ N) (hdeg : ∀ t ∈ traces, ∀ x ∈ t.dropLast, outDegree g x ∣ N)
    {fuel L : Nat} (hf : ∀ t ∈ traces, t.length ≤ fuel) (hL : traces.flatten.length ≤ L) :
    Nat.card { w : Fin L → Fin N // generateLog g pick (numbersOf w) fuel traces.length starts stops = .ok traces } *
      (traces.map (branching g (starts.getD (sources g)))).prod = N ^ L := by
  have hE : (view g).Edge = Edge g := by funext x y; rw [view_edge]
  obtain ⟨L', rfl⟩ : ∃ L', L = traces.flatten.length + L' := ⟨L - traces.flatten.length, by omega⟩
  obtain ⟨t, ht0⟩ := List.exists_mem_of_ne_nil _ hne
  obtain ⟨_, ⟨s, s1, _⟩, _, q, e, _, he, _⟩ := ht t ht0
  have key := count_walks hb.wf (starts.getD (sources g)) (stops.getD (sinks g)) hn hd fuel traces L' fun t h => by
    obtain ⟨h1, h2, h3, h4⟩ := ht t h
    rw [hE] at h1
    exact ⟨h1, h2, fun x hx => (view_node g x).1 (h3 x hx), hf t h, h4, hdeg t h⟩
  rw [← key]
  congr 1
  unfold count
  refine Nat.card_congr (Equiv.subtypeEquivRight fun w => ?_)
  unfold generateLog
  simp only
  rw [if_neg (List.ne_nil_of_mem s1), if_neg (List.ne_nil_of_mem he)]

/-- C174: for the default start activities the assumption about repetitions holds -/
theorem C174_law_default {g : Graph A} (hb : Built g) (traces : List (List A)) (hne : traces ≠ []) (ht : ∀ t ∈ traces, Simulable g none none t) {N : Nat}
    (hd : (sources g).length ∣ N) (hdeg : ∀ t ∈ traces, ∀ x ∈ t.dropLast, outDegree g x ∣ N)
    {fuel L : Nat} (hf : ∀ t ∈ traces, t.length ≤ fuel) (hL : traces.flatten.length ≤ L) :
    Nat.card { w : Fin L → Fin N // generateLog g pick (numbersOf w) fuel traces.length none none = .ok traces } *
      (traces.map (branching g (sources g))).prod = N ^ L :=
  C174_law hb none none (by
    show (sources g).Nodup
    unfold sources
    have : (g.nodes.map Prod.fst).Nodup := hb.wf.nodesWF
    exact this.sublist (List.filter_sublist.map _)) traces hne ht hd hdeg hf hL

/-! ### an example: 1 → 2, 1 → 3 (a thousand times), 2 → 3 -/

def exWalk : Graph Nat := addCount (addCount (addCount empty 1 2) 1 3 1000) 2 3

theorem exWalk_built : Built exWalk := ((Built.new.addCount 1 2 1).addCount 1 3 1000).addCount 2 3 1

theorem exWalk_degree : outDegree exWalk 1 = 2 ∧ outDegree exWalk 2 = 1 := by
  have hl : ∀ a, a ∈ exWalk.nodes.keys → ∃ l, following exWalk a = .ok l ∧ outDegree exWalk a = l.length := by
    intro a ha
    obtain ⟨l, l1, l2, l3⟩ := following_ok exWalk_built.wf.toCore ha
    exact ⟨l, l1, outDegree_eq l2 l3⟩
  have f1 : following exWalk 1 = .ok [2, 3] := by decide +kernel
  have f2 : following exWalk 2 = .ok [3] := by decide +kernel
  obtain ⟨l, l1, l2⟩ := hl 1 (by decide +kernel)
  obtain ⟨m, m1, m2⟩ := hl 2 (by decide +kernel)
  rw [f1] at l1
  rw [f2] at m1
  cases l1
  cases m1
  exact ⟨l2, m2⟩

theorem exWalk_edges {a b : Nat} (h : (exWalk.edges.get? (a, b)).isSome) : (view exWalk).Edge a b := by
  rw [view_edge]
  unfold Edge
  rw [cnt]
  obtain ⟨e, he⟩ := Option.isSome_iff_exists.1 h
  have hm : (a, b) ∈ exWalk.edges.keys := Dict.mem_keys_iff.2 ⟨e, he⟩
  have hk : exWalk.edges.keys = [(1, 2), (1, 3), (2, 3)] := by decide +kernel
  rw [hk] at hm
  simp only [List.mem_cons, Prod.mk.injEq, List.not_mem_nil, or_false] at hm
  rcases hm with ⟨rfl, rfl⟩ | ⟨rfl, rfl⟩ | ⟨rfl, rfl⟩ <;> decide +kernel

/-- the trace 1, 3 is simulated with probability 1/2, although its edge is more frequent by far: in 16 of 32 outcomes -/
example : Nat.card { w : Fin 5 → Fin 2 // generateLog exWalk pick (numbersOf w) 10 1 none none = .ok [[1, 3]] } = 16 := by
  have hsrc : sources exWalk = [1] := by decide +kernel
  have hsnk : sinks exWalk = [3] := by decide +kernel
  have h := C174_law_default (g := exWalk) exWalk_built [[1, 3]] (by simp) (fun t ht => by
    rw [List.mem_singleton] at ht
    subst ht
    refine ⟨?_, ⟨1, by show 1 ∈ sources exWalk; rw [hsrc]; simp, rfl⟩, ?_, [1], 3, rfl, by show 3 ∈ sinks exWalk; rw [hsnk]; simp, ?_⟩
    · simp only [List.isChain_cons_cons, List.isChain_singleton, and_true]
      exact exWalk_edges (by decide +kernel)
    · intro x hx
      rw [view_node]
      simp only [List.mem_cons, List.not_mem_nil, or_false] at hx
      rcases hx with rfl | rfl <;> decide +kernel
    · intro x hx
      show x ∉ sinks exWalk
      rw [hsnk]
      simp only [List.mem_singleton] at hx ⊢
      omega) (N := 2) (by rw [hsrc]; simp) (fun t ht x hx => by
    rw [List.mem_singleton] at ht
    subst ht
    have : x = 1 := by simpa using hx
    subst this
    rw [exWalk_degree.1]) (fuel := 10) (L := 5) (by simp) (by simp)
  rw [hsrc] at h
  have hbr : ([[1, 3]].map (branching exWalk [1])).prod = 2 := by
    simp [branching, exWalk_degree.1]
  rw [hbr] at h
  have h2 : Nat.card { w : Fin 5 → Fin 2 // generateLog exWalk pick (numbersOf w) 10 1 none none = .ok [[1, 3]] } * 2 = 2 ^ 5 := h
  omega

end Prolothar.Dfg
