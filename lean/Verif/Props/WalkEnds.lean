import Verif.Props.WalkLaw
import Verif.Lemmas.AlmostSure
import Mathlib.Data.Set.Finite.Lattice
/-
C179: with which probability `generate_log` returns. The sample space is that of C174.
-/
namespace Prolothar.Dfg
open Prolothar.Spec
variable {A : Type} [LinearOrder A]

/-- an activity that a simulated trace can come to: it can be reached from a start activity without passing an end activity -/
def OnTheWay (g : Graph A) (starts stops : List A) (a : A) : Prop :=
  ∃ s ∈ starts, Spec.Graph.Reach (fun x y => x ∉ stops ∧ (view g).Edge x y) s a

/-- an end activity can be reached -/
def CanEnd (g : Graph A) (stops : List A) (a : A) : Prop := ∃ e ∈ stops, Spec.Graph.Reach (view g).Edge a e

/-! ### one choice at a time -/

/-- the activities that can follow, as a list -/
def options (g : Graph A) (a : A) : List A :=
  match following g a with
  | .ok l => l
  | .error _ => []

/-- the traces that are still missing and the activities among which the next one is chosen -/
def move (g : Graph A) (starts stops : List A) {N : Nat} (s : Nat × List A) (k : Fin N) : Nat × List A :=
  match s.1 with
  | 0 => s
  | m + 1 =>
    match s.2[(k : Nat) % s.2.length]? with
    | none => s
    | some a => if a ∈ stops then (m, starts) else (m + 1, options g a)

theorem options_ok {g : Graph A} (h : WF g) {a : A} (ha : a ∈ g.nodes.keys) :
    following g a = .ok (options g a) ∧ (options g a).Nodup ∧ (∀ b, b ∈ options g a ↔ Edge g a b) ∧ (options g a).length = outDegree g a := by
  obtain ⟨l, l1, l2, l3⟩ := following_ok h.toCore ha
  have : options g a = l := by unfold options; rw [l1]
  rw [this]
  exact ⟨l1, l2, l3, (outDegree_eq l2 l3).symm⟩

/-- what can be chosen at some time -/
def Fair (g : Graph A) (starts stops : List A) (opts : List A) : Prop :=
  opts = starts ∨ ∃ a ∈ g.nodes.keys, a ∉ stops ∧ OnTheWay g starts stops a ∧ opts = options g a

section
variable {g : Graph A} {starts stops : List A} (h : WF g) (hs : ∀ s ∈ starts, s ∈ g.nodes.keys)
  (hway : ∀ a, OnTheWay g starts stops a → CanEnd g stops a)
include h hs

theorem fair_mem {opts : List A} (hf : Fair g starts stops opts) {b : A} (hb : b ∈ opts) :
    b ∈ g.nodes.keys ∧ OnTheWay g starts stops b := by
  rcases hf with rfl | ⟨a, ha, hns, ⟨s, hs', hr⟩, rfl⟩
  · exact ⟨hs b hb, b, hb, .refl⟩
  · have he := ((options_ok h ha).2.2.1 b).1 hb
    exact ⟨(he.nodes h).2, s, hs', hr.tail ⟨hns, by rw [view_edge]; exact he⟩⟩

theorem move_fair {N : Nat} {s : Nat × List A} (hf : Fair g starts stops s.2) (k : Fin N) :
    Fair g starts stops (move g starts stops s k).2 ∧ (move g starts stops s k).1 ≤ s.1 := by
  obtain ⟨m, opts⟩ := s
  cases m with
  | zero => exact ⟨hf, Nat.le_refl _⟩
  | succ m =>
    unfold move
    dsimp only
    cases ha : opts[(k : Nat) % opts.length]? with
    | none => exact ⟨hf, Nat.le_refl _⟩
    | some a =>
      dsimp only
      obtain ⟨hk, hw⟩ := fair_mem h hs hf (List.mem_of_getElem? ha)
      by_cases hst : a ∈ stops
      · rw [if_pos hst]; exact ⟨.inl rfl, Nat.le_succ _⟩
      · rw [if_neg hst]; exact ⟨.inr ⟨a, hk, hst, hw, rfl⟩, Nat.le_refl _⟩

include hway

theorem fair_ne (hne : starts ≠ []) {opts : List A} (hf : Fair g starts stops opts) : opts ≠ [] := by
  rcases hf with rfl | ⟨a, ha, hns, hw, rfl⟩
  · exact hne
  · obtain ⟨e, he, hr⟩ := hway a hw
    rcases Relation.ReflTransGen.cases_head hr with rfl | ⟨b, hab, -⟩
    · exact absurd he hns
    · rw [view_edge] at hab
      exact List.ne_nil_of_mem (((options_ok h ha).2.2.1 b).2 hab)

/-- some choices lead to the end of the trace -/
theorem reach_end {N : Nat} (hN0 : 0 < N) (hd : starts.length ∣ N) (hdeg : ∀ a, outDegree g a ≠ 0 → outDegree g a ∣ N) {b e : A} (he : e ∈ stops)
    (hr : Spec.Graph.Reach (view g).Edge b e) (m : Nat) : ∀ (opts : List A), Fair g starts stops opts → b ∈ opts →
    ∃ w : List (Fin N), w.foldl (move g starts stops) (m + 1, opts) = (m, starts) := by
  have hlen : ∀ opts : List A, Fair g starts stops opts → opts ≠ [] → opts.length ≤ N := by
    rintro opts (rfl | ⟨a, ha, _, _, rfl⟩) hne
    · exact Nat.le_of_dvd hN0 hd
    · rw [(options_ok h ha).2.2.2]
      refine Nat.le_of_dvd hN0 (hdeg a ?_)
      rw [← (options_ok h ha).2.2.2]
      exact fun h0 => hne (List.eq_nil_of_length_eq_zero h0)
  induction hr using Relation.ReflTransGen.head_induction_on with
  | refl =>
    intro opts hf hb
    obtain ⟨i, hi, hie⟩ := List.getElem_of_mem hb
    refine ⟨[⟨i, hi.trans_le (hlen opts hf (List.ne_nil_of_mem hb))⟩], ?_⟩
    simp only [List.foldl_cons, List.foldl_nil]
    unfold move
    dsimp only
    rw [Nat.mod_eq_of_lt hi, List.getElem?_eq_getElem hi, hie]
    dsimp only
    rw [if_pos he]
  | head hbc _ ih =>
    rename_i b c _
    intro opts hf hb
    obtain ⟨i, hi, hie⟩ := List.getElem_of_mem hb
    have hstep : move g starts stops (m + 1, opts) (⟨i, hi.trans_le (hlen opts hf (List.ne_nil_of_mem hb))⟩ : Fin N) =
        if b ∈ stops then (m, starts) else (m + 1, options g b) := by
      unfold move
      dsimp only
      rw [Nat.mod_eq_of_lt hi, List.getElem?_eq_getElem hi, hie]
    obtain ⟨hk, hw⟩ := fair_mem h hs hf hb
    by_cases hst : b ∈ stops
    · refine ⟨[⟨i, hi.trans_le (hlen opts hf (List.ne_nil_of_mem hb))⟩], ?_⟩
      rw [List.foldl_cons, List.foldl_nil, hstep, if_pos hst]
    · rw [view_edge] at hbc
      obtain ⟨w, hw'⟩ := ih (options g b) (.inr ⟨b, hk, hst, hw, rfl⟩) (((options_ok h hk).2.2.1 c).2 hbc)
      refine ⟨⟨i, hi.trans_le (hlen opts hf (List.ne_nil_of_mem hb))⟩ :: w, ?_⟩
      rw [List.foldl_cons, hstep, if_neg hst, hw']

theorem reach_done {N : Nat} (hN0 : 0 < N) (hd : starts.length ∣ N) (hdeg : ∀ a, outDegree g a ≠ 0 → outDegree g a ∣ N) (hne : starts ≠ []) :
    ∀ (m : Nat) (opts : List A), Fair g starts stops opts → ∃ w : List (Fin N), (w.foldl (move g starts stops) (m, opts)).1 = 0
  | 0, _, _ => ⟨[], rfl⟩
  | m + 1, opts, hf => by
    obtain ⟨b, hb⟩ := List.exists_mem_of_ne_nil _ (fair_ne h hs hway hne hf)
    obtain ⟨e, he, hr⟩ := hway b (fair_mem h hs hf hb).2
    obtain ⟨w, hw⟩ := reach_end h hs hway hN0 hd hdeg he hr m opts hf hb
    obtain ⟨w', hw'⟩ := reach_done hN0 hd hdeg hne m starts (.inl rfl)
    exact ⟨w ++ w', by rw [List.foldl_append, hw, hw']⟩

omit hway in
/-- a trace is finished by the choices that finish it -/
theorem walk_of_moves {N : Nat} (m : Nat) : ∀ (w : List (Fin N)) (opts path : List A) (fuel : Nat), Fair g starts stops opts → w.length ≤ fuel →
    (w.foldl (move g starts stops) (m + 1, opts)).1 = 0 →
    ∃ (r : List A) (w' : List (Fin N)), walk g pick (fun a => decide (a ∈ stops)) fuel (w.map Fin.val) opts path = .ok (r, w'.map Fin.val) ∧
      w'.length < w.length ∧ (w'.foldl (move g starts stops) (m, starts)).1 = 0
  | [], opts, path, fuel, _, _, h0 => absurd h0 (Nat.succ_ne_zero m)
  | k :: w, opts, path, fuel, hf, hfuel, h0 => by
    obtain ⟨fuel, rfl⟩ : ∃ f, fuel = f + 1 := ⟨fuel - 1, by simp at hfuel; omega⟩
    rw [List.foldl_cons] at h0
    by_cases hne : opts = []
    · have : move g starts stops (m + 1, opts) k = (m + 1, opts) := by
        subst hne; rfl
      rw [this] at h0
      have key : ∀ w : List (Fin N), (w.foldl (move g starts stops) (m + 1, opts)).1 ≠ 0 := by
        intro w
        induction w with
        | nil => exact Nat.succ_ne_zero m
        | cons k w ih =>
          rw [List.foldl_cons, show move g starts stops (m + 1, opts) k = (m + 1, opts) by subst hne; rfl]
          exact ih
      exact absurd h0 (key w)
    · obtain ⟨a, ha, hidx, h3, h4, h5⟩ := (walk_succ h pick (fun a => decide (a ∈ stops)) fuel ((k :: w).map Fin.val) opts path).2 hne
      have hidx : opts[(k : Nat) % opts.length]? = some a := hidx
      obtain ⟨hk, hw⟩ := fair_mem h hs hf ha
      have hstep : move g starts stops (m + 1, opts) k = if a ∈ stops then (m, starts) else (m + 1, options g a) := by
        unfold move
        dsimp only
        rw [hidx]
      rw [hstep] at h0
      by_cases hst : a ∈ stops
      · rw [if_pos hst] at h0
        exact ⟨path ++ [a], w, h4 hk (by simpa using hst), by simp, h0⟩
      · rw [if_neg hst] at h0
        obtain ⟨l, -, -, l3, l4⟩ := h5 hk (by simpa using hst)
        have hl : l = options g a := Except.ok.inj (l3.symm.trans (options_ok h hk).1)
        subst hl
        obtain ⟨r, w', q1, q2, q3⟩ := walk_of_moves m w (options g a) (path ++ [a]) fuel (.inr ⟨a, hk, hst, hw, rfl⟩)
          (by simpa using hfuel) h0
        exact ⟨r, w', by rw [l4]; exact q1, by rw [List.length_cons]; omega, q3⟩

omit hway in
theorem walks_of_moves {N : Nat} (fuel : Nat) : ∀ (m : Nat) (w : List (Fin N)), w.length ≤ fuel →
    (w.foldl (move g starts stops) (m, starts)).1 = 0 →
    ∃ ts, walks g pick starts stops fuel m (w.map Fin.val) = .ok ts
  | 0, _, _, _ => ⟨[], rfl⟩
  | m + 1, w, hf, h0 => by
    obtain ⟨r, w', q1, q2, q3⟩ := walk_of_moves h hs m w starts [] fuel (.inl rfl) hf h0
    obtain ⟨ts, hts⟩ := walks_of_moves fuel m w' (by omega) q3
    refine ⟨r :: ts, ?_⟩
    rw [walks, q1, ok_bind]
    dsimp only
    rw [hts, ok_bind]
    rfl

end

/-- C179: if an end activity can be reached from every activity that a trace can come to, then `generate_log` returns with probability 1: the
share of the outcomes of `L` choices with which it has not returned becomes arbitrarily small. -/
theorem C179_returns {g : Graph A} (hb : Built g) (starts stops : Option (List A)) (hne : starts.getD (sources g) ≠ [])
    (hs : ∀ s ∈ starts.getD (sources g), (view g).node s)
    (hway : ∀ a, OnTheWay g (starts.getD (sources g)) (stops.getD (sinks g)) a → CanEnd g (stops.getD (sinks g)) a) (n : Nat)
    {N : Nat} (hN0 : 0 < N) (hd : (starts.getD (sources g)).length ∣ N) (hdeg : ∀ a, outDegree g a ≠ 0 → outDegree g a ∣ N) {ε : ℚ} (hε : 0 < ε) :
    ∃ L₀, ∀ L, L₀ ≤ L → ∀ fuel, L ≤ fuel →
      (Nat.card { w : Fin L → Fin N // ¬ ∃ traces, generateLog g pick (numbersOf w) fuel n starts stops = .ok traces } : ℚ) ≤ ε * (N : ℚ) ^ L := by
  classical
  have h := hb.wf
  generalize hS : starts.getD (sources g) = S at *
  generalize hE : stops.getD (sinks g) = E at *
  have hs' : ∀ s ∈ S, s ∈ g.nodes.keys := fun s h => (view_node g s).1 (hs s h)
  obtain ⟨s0, hs0⟩ := List.exists_mem_of_ne_nil _ hne
  have hneE : E ≠ [] := by
    obtain ⟨e, he, -⟩ := hway s0 ⟨s0, hs0, .refl⟩
    exact List.ne_nil_of_mem he
  have hgen : ∀ fuel l, generateLog g pick l fuel n starts stops = walks g pick S E fuel n l := by
    intro fuel l
    unfold generateLog
    dsimp only
    rw [hS, hE, if_neg hne, if_neg hneE]
  have hfin : {s : Nat × List A | s.1 ≤ n ∧ Fair g S E s.2}.Finite := by
    have h1 : (Set.Iic n ×ˢ (insert S ((options g) '' {a | a ∈ g.nodes.keys}))).Finite :=
      (Set.finite_Iic n).prod (((List.finite_toSet g.nodes.keys).image _).insert _)
    refine h1.subset ?_
    rintro ⟨m, opts⟩ ⟨h1, h2⟩
    refine ⟨h1, ?_⟩
    rcases h2 with h2 | ⟨a, ha, _, _, h2⟩
    · exact .inl h2
    · exact .inr ⟨a, ha, h2.symm⟩
  have hnon : Nonempty (Fin N) := ⟨⟨0, hN0⟩⟩
  obtain ⟨L₀, hL₀⟩ := AlmostSure.misses_vanish_finite (step := move g S E (N := N)) (G := fun s => s.1 = 0)
    (R := fun s => s.1 ≤ n ∧ Fair g S E s.2)
    (fun s a hs => ⟨(move_fair h hs' hs.2 a).2.trans hs.1, (move_fair h hs' hs.2 a).1⟩)
    (fun s a hs => by
      obtain ⟨m, opts⟩ := s
      obtain rfl : m = 0 := hs
      rfl)
    hfin (fun s hs => reach_done h hs' hway hN0 hd hdeg hne s.1 s.2 hs.2) hε
  refine ⟨L₀, fun L hL fuel hfuel => ?_⟩
  have h1 := hL₀ (n, S) ⟨Nat.le_refl _, .inl rfl⟩ L hL
  rw [Fintype.card_fin] at h1
  refine le_trans ?_ h1
  rw [AlmostSure.misses_eq]
  have : Nat.card { w : Fin L → Fin N // ¬ ∃ traces, generateLog g pick (numbersOf w) fuel n starts stops = .ok traces } ≤
      Nat.card { w : Fin L → Fin N // ¬ ((List.ofFn w).foldl (move g S E) (n, S)).1 = 0 } := by
    refine Nat.card_le_card_of_injective (fun w => ⟨w.1, fun hc => w.2 ?_⟩) fun a b hab => ?_
    · obtain ⟨ts, hts⟩ := walks_of_moves h hs' fuel n (List.ofFn w.1) (by simpa using hfuel) hc
      refine ⟨ts, ?_⟩
      have hnum : numbersOf w.1 = (List.ofFn w.1).map Fin.val := by unfold numbersOf; rw [List.map_ofFn]; rfl
      rw [hgen, hnum, hts]
    · exact Subtype.ext (by have := congrArg Subtype.val hab; exact this)
  exact_mod_cast this

/-! ### if no end can be reached -/

omit [LinearOrder A] in
theorem chain_reach {r : A → A → Prop} {e : A} : ∀ (p : List A) (x : A), p.head? = some x → p.IsChain r → p.getLast? = some e → Spec.Graph.Reach r x e
  | [], _, h, _, _ => by cases h
  | [y], x, h, _, hl => by
    obtain rfl : y = x := by simpa using h
    obtain rfl : y = e := by simpa using hl
    exact .refl
  | y :: z :: p, x, h, hc, hl => by
    obtain rfl : y = x := by simpa using h
    rw [List.isChain_cons_cons] at hc
    exact .head hc.1 (chain_reach (z :: p) z rfl hc.2 (by simpa using hl))

theorem bad_walk {g : Graph A} {starts stops : List A} (h : WF g) (hs : ∀ s ∈ starts, s ∈ g.nodes.keys) {N : Nat} (hN0 : 0 < N)
    (hd : starts.length ∣ N) (hdeg : ∀ a, outDegree g a ≠ 0 → outDegree g a ∣ N) {s a : A} (ha : ¬ CanEnd g stops a)
    (hr : Spec.Graph.Reach (fun x y => x ∉ stops ∧ (view g).Edge x y) s a) : ∀ (opts : List A), Fair g starts stops opts → s ∈ opts →
    ∃ ks : List (Fin N), ∀ (l : List Nat) (fuel : Nat) (path : List A) (r : List A × List Nat),
      walk g pick (fun a => decide (a ∈ stops)) fuel (ks.map Fin.val ++ l) opts path ≠ .ok r := by
  have hlen : ∀ opts : List A, Fair g starts stops opts → opts ≠ [] → opts.length ≤ N := by
    rintro opts (rfl | ⟨a, ha, _, _, rfl⟩) hne
    · exact Nat.le_of_dvd hN0 hd
    · rw [(options_ok h ha).2.2.2]
      refine Nat.le_of_dvd hN0 (hdeg a ?_)
      rw [← (options_ok h ha).2.2.2]
      exact fun h0 => hne (List.eq_nil_of_length_eq_zero h0)
  have hround : ∀ (opts : List A), Fair g starts stops opts → ∀ (b : A), b ∈ opts → b ∉ stops → ∃ k : Fin N,
      ∀ (l : List Nat) (fuel : Nat) (path : List A),
        walk g pick (fun a => decide (a ∈ stops)) (fuel + 1) ((k : Nat) :: l) opts path =
          walk g pick (fun a => decide (a ∈ stops)) fuel l (options g b) (path ++ [b]) := by
    intro opts hf b hb hst
    obtain ⟨i, hi, hie⟩ := List.getElem_of_mem hb
    refine ⟨⟨i, hi.trans_le (hlen opts hf (List.ne_nil_of_mem hb))⟩, fun l fuel path => ?_⟩
    obtain ⟨x, hx, hidx, h3, h4, h5⟩ := (walk_succ h pick (fun a => decide (a ∈ stops)) fuel (i :: l) opts path).2 (List.ne_nil_of_mem hb)
    have hidx : opts[i % opts.length]? = some x := hidx
    rw [Nat.mod_eq_of_lt hi, List.getElem?_eq_getElem hi, hie] at hidx
    obtain rfl := Option.some.inj hidx
    obtain ⟨hk, -⟩ := fair_mem h hs hf hb
    obtain ⟨l', -, -, l3, l4⟩ := h5 hk (by simpa using hst)
    obtain rfl : l' = options g b := Except.ok.inj (l3.symm.trans (options_ok h hk).1)
    exact l4
  induction hr using Relation.ReflTransGen.head_induction_on with
  | refl =>
    intro opts hf hb
    have hst : a ∉ stops := fun hst => ha ⟨a, hst, .refl⟩
    obtain ⟨k, hk⟩ := hround opts hf a hb hst
    refine ⟨[k], fun l fuel path r hok => ?_⟩
    cases fuel with
    | zero => cases hok
    | succ fuel =>
      have hok : walk g pick (fun a => decide (a ∈ stops)) (fuel + 1) ((k : Nat) :: l) opts path = .ok r := hok
      rw [hk] at hok
      obtain ⟨q, e, -, ⟨x, hx, hhead⟩, hchain, he, -⟩ := walk_spec h pick _ _ _ _ _ hok
      have hax := ((options_ok h (fair_mem h hs hf hb).1).2.2.1 x).1 hx
      refine ha ⟨e, by simpa using he, ?_⟩
      have hE : (view g).Edge = Edge g := by funext x y; rw [view_edge]
      rw [hE]
      have hxe : Spec.Graph.Reach (Edge g) x e := chain_reach (q ++ [e]) x hhead hchain (by simp)
      exact .head hax hxe
  | head hbc _ ih =>
    rename_i b c _
    intro opts hf hb
    obtain ⟨k, hk⟩ := hround opts hf b hb hbc.1
    obtain ⟨hbk, hw⟩ := fair_mem h hs hf hb
    have hbe := hbc.2
    rw [view_edge] at hbe
    obtain ⟨ks, hks⟩ := ih (options g b) (.inr ⟨b, hbk, hbc.1, hw, rfl⟩) (((options_ok h hbk).2.2.1 c).2 hbe)
    refine ⟨k :: ks, fun l fuel path r hok => ?_⟩
    cases fuel with
    | zero => cases hok
    | succ fuel =>
      have hok : walk g pick (fun a => decide (a ∈ stops)) (fuel + 1) ((k : Nat) :: (ks.map Fin.val ++ l)) opts path = .ok r := hok
      rw [hk] at hok
      exact hks _ _ _ _ hok

/-- C179: if a trace can come to an activity from which no end activity can be reached, then `generate_log` fails to return with a positive
probability: at least one of `N ^ d` outcomes of the first `d` choices is such that it never returns, whatever is chosen afterwards and
however long one waits. -/
theorem C179_may_not_return {g : Graph A} (hb : Built g) (starts stops : Option (List A))
    (hs : ∀ s ∈ starts.getD (sources g), (view g).node s) {a : A} (hw : OnTheWay g (starts.getD (sources g)) (stops.getD (sinks g)) a)
    (ha : ¬ CanEnd g (stops.getD (sinks g)) a) (n : Nat)
    {N : Nat} (hN0 : 0 < N) (hd : (starts.getD (sources g)).length ∣ N) (hdeg : ∀ a, outDegree g a ≠ 0 → outDegree g a ∣ N) :
    ∃ d, ∀ L, d ≤ L → ∀ fuel,
      N ^ L ≤ N ^ d * Nat.card { w : Fin L → Fin N // ¬ ∃ traces, generateLog g pick (numbersOf w) fuel (n + 1) starts stops = .ok traces } := by
  obtain ⟨s, hs0, hr⟩ := hw
  obtain ⟨ks, hks⟩ := bad_walk hb.wf (fun s h => (view_node g s).1 (hs s h)) hN0 hd hdeg ha hr _ (.inl rfl) hs0
  refine ⟨ks.length, fun L hL fuel => ?_⟩
  obtain ⟨r, rfl⟩ := Nat.exists_eq_add_of_le hL
  rw [pow_add]
  refine Nat.mul_le_mul_left _ ?_
  have hcard : Nat.card (Fin r → Fin N) = N ^ r := by simp
  rw [← hcard]
  refine Nat.card_le_card_of_injective (fun v => ⟨Fin.append ks.get v, ?_⟩) fun u v huv => ?_
  · rintro ⟨ts, hts⟩
    have hnum : numbersOf (Fin.append ks.get v) = ks.map Fin.val ++ numbersOf v := by
      unfold numbersOf
      have : (fun i => ((Fin.append ks.get v i : Fin N) : Nat)) = Fin.append (fun i => ((ks.get i : Fin N) : Nat)) (fun i => (v i : Nat)) := by
        funext i
        refine Fin.addCases (fun i => ?_) (fun i => ?_) i <;> simp
      rw [this, List.ofFn_fin_append]
      congr 1
      exact List.ofFn_getElem_eq_map ks Fin.val
    unfold generateLog at hts
    dsimp only at hts
    rw [if_neg (List.ne_nil_of_mem hs0)] at hts
    split at hts
    · cases hts
    · rw [walks, hnum] at hts
      cases hwk : walk g pick (fun a => decide (a ∈ stops.getD (sinks g))) fuel (ks.map Fin.val ++ numbersOf v) (starts.getD (sources g)) [] with
      | error e => rw [hwk] at hts; cases hts
      | ok r => exact hks _ _ _ _ hwk
  · have h1 := congrArg Subtype.val huv
    have h2 : Fin.append ks.get u = Fin.append ks.get v := h1
    funext i
    have := congrFun h2 (Fin.natAdd ks.length i)
    simpa using this

/-! ### examples -/

theorem edge_keys {g : Graph Nat} {l : List (Nat × Nat)} (hk : g.edges.keys = l) {a b : Nat} (he : (view g).Edge a b) : (a, b) ∈ l := by
  rw [view_edge] at he
  rw [← hk]
  unfold Edge cnt at he
  cases h : g.edges.get? (a, b) with
  | none => rw [h] at he; simp at he
  | some e => exact Dict.mem_keys_iff.2 ⟨e, h⟩

/-- in the graph 1 → 2, 1 → 3, 2 → 3 every activity can reach the end: the hypotheses of `C179_returns` are met -/
theorem exWalk_meets : (none : Option (List Nat)).getD (sources exWalk) ≠ [] ∧ (∀ s ∈ (none : Option (List Nat)).getD (sources exWalk), (view exWalk).node s) ∧
    (∀ a, OnTheWay exWalk (sources exWalk) (sinks exWalk) a → CanEnd exWalk (sinks exWalk) a) ∧
    (sources exWalk).length ∣ 2 ∧ ∀ a, outDegree exWalk a ≠ 0 → outDegree exWalk a ∣ 2 := by
  have hsrc : sources exWalk = [1] := by decide +kernel
  have hsnk : sinks exWalk = [3] := by decide +kernel
  have hk : exWalk.edges.keys = [(1, 2), (1, 3), (2, 3)] := by decide +kernel
  rw [Option.getD_none, hsrc, hsnk]
  refine ⟨by simp, fun s hs => ?_, ?_, by simp, fun a ha => ?_⟩
  · rw [view_node]
    obtain rfl := List.mem_singleton.1 hs
    decide +kernel
  · rintro a ⟨s, hs, hr⟩
    obtain rfl := List.mem_singleton.1 hs
    have h123 : a = 1 ∨ a = 2 ∨ a = 3 := by
      rcases Relation.ReflTransGen.cases_tail hr with rfl | ⟨b, -, hb⟩
      · exact .inl rfl
      · have := edge_keys hk hb.2
        simp only [List.mem_cons, Prod.mk.injEq, List.not_mem_nil, or_false] at this
        omega
    refine ⟨3, by simp, ?_⟩
    rcases h123 with rfl | rfl | rfl
    · exact .single (exWalk_edges (by decide +kernel))
    · exact .single (exWalk_edges (by decide +kernel))
    · exact .refl
  · have hex : ∃ b, (view exWalk).Edge a b := by
      by_contra hc
      apply ha
      unfold outDegree
      have : { b | (view exWalk).Edge a b } = ∅ := Set.eq_empty_of_forall_notMem fun b hb => hc ⟨b, hb⟩
      rw [this, Set.ncard_empty]
    obtain ⟨b, hb⟩ := hex
    have := edge_keys hk hb
    simp only [List.mem_cons, Prod.mk.injEq, List.not_mem_nil, or_false] at this
    have h12 : a = 1 ∨ a = 2 := by omega
    rcases h12 with rfl | rfl
    · rw [exWalk_degree.1]
    · rw [exWalk_degree.2]; exact ⟨2, rfl⟩

/-- 1 → 2, 1 → 3, and from 3 only to 4 and back -/
def exTrap : Graph Nat := addCount (addCount (addCount (addCount empty 1 2) 1 3) 3 4) 4 3

/-- the simulation with the default arguments can be caught in the loop: the hypotheses of `C179_may_not_return` are met -/
example : Built exTrap ∧ (∀ s ∈ sources exTrap, (view exTrap).node s) ∧ OnTheWay exTrap (sources exTrap) (sinks exTrap) 3 ∧
    ¬ CanEnd exTrap (sinks exTrap) 3 := by
  have hb : Built exTrap := (((Built.new.addCount 1 2 1).addCount 1 3 1).addCount 3 4 1).addCount 4 3 1
  have hsrc : sources exTrap = [1] := by decide +kernel
  have hsnk : sinks exTrap = [2] := by decide +kernel
  have hk : exTrap.edges.keys = [(1, 2), (1, 3), (3, 4), (4, 3)] := by decide +kernel
  rw [hsrc, hsnk]
  refine ⟨hb, fun s hs => ?_, ⟨1, by simp, .single ⟨by simp, ?_⟩⟩, ?_⟩
  · rw [view_node]
    obtain rfl := List.mem_singleton.1 hs
    decide +kernel
  · rw [view_edge]
    unfold Edge
    rw [cnt]
    decide +kernel
  · rintro ⟨e, he, hr⟩
    obtain rfl := List.mem_singleton.1 he
    have key : ∀ x, Spec.Graph.Reach (view exTrap).Edge 3 x → x = 3 ∨ x = 4 := by
      intro x hx
      induction hx with
      | refl => exact .inl rfl
      | tail _ hbc ih =>
        have := edge_keys hk hbc
        simp only [List.mem_cons, Prod.mk.injEq, List.not_mem_nil, or_false] at this
        omega
    have := key 2 hr
    omega

end Prolothar.Dfg
