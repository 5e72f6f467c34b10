import Verif.Props.DfgLanguage
import Verif.Props.LtsAbstraction
/-
C214: the directly-follows graph and the transition system of last activities of a log with artificial start and end activities describe the same behaviour.
-/
set_option linter.unusedSectionVars false
set_option linter.unusedDecidableInType false
namespace Prolothar.Dfg
open Prolothar.Spec Prolothar.Spec.Dfg
open Prolothar.EventLog (Log Trace addStartActivity addEndActivity)
open Prolothar.LogStatistics (allActivities)
open Prolothar.LogModels (framed adj_pos' C160_framed)
open Prolothar.Lts (Accepts build lastAbstraction C175_last)
variable {I A V : Type} [LinearOrder A]

/-- the log with an artificial first and last event in every trace -/
def frame (log : Log I A V) (s e : A) : Log I A V := addEndActivity (addStartActivity log s) e

theorem frame_mem {log : Log I A V} {s e : A} {seq : List A} (h : seq ∈ (frame log s e).map Trace.activities) :
    ∃ t ∈ log, seq = s :: (t.activities ++ [e]) := by
  obtain ⟨t, ht, rfl⟩ := List.mem_map.1 h
  exact (framed log s e _).1 ⟨t, ht, rfl⟩

theorem chain_iff_pairs {R : A → A → Prop} {l : List A} : l.IsChain R ↔ ∀ u a b v, l = u ++ a :: b :: v → R a b := by
  constructor
  · rintro h u a b v rfl
    have := (List.isChain_append.1 h).2.1
    rw [List.isChain_cons_cons] at this
    exact this.1
  · intro h
    refine chain_of_adjacent l fun a b hab => ?_
    obtain ⟨u, v, huv⟩ := adj_pos'.1 hab
    exact h u a b v huv

theorem chain_nodes {g : Graph A} (hb : Built g) : ∀ (l : List A), l.IsChain (view g).Edge → (∀ x, l.head? = some x → (view g).node x) → ∀ x ∈ l, (view g).node x
  | [], _, _, x, hx => by cases hx
  | a :: l, hc, hh, x, hx => by
    rcases List.mem_cons.1 hx with rfl | hx
    · exact hh x rfl
    · cases l with
      | nil => cases hx
      | cons b l =>
        rw [List.isChain_cons_cons] at hc
        obtain ⟨⟨c, h⟩, hc⟩ := hc
        refine chain_nodes hb (b :: l) hc (fun y hy => ?_) x hx
        cases hy
        exact (edge_nodes hb h).2

theorem frame_spec (log : Log I A V) {s e : A} (hne : log ≠ []) (hse : s ≠ e) (hs : s ∉ allActivities log) (he : e ∉ allActivities log) (w : List A) :
    (w.IsChain (view (createFromLog (frame log s e))).Edge ∧ (∀ x ∈ w, (view (createFromLog (frame log s e))).node x) ∧
      (∃ x ∈ sources (createFromLog (frame log s e)), w.head? = some x) ∧
      ∃ q x, w = q ++ [x] ∧ x ∈ sinks (createFromLog (frame log s e)) ∧ ∀ y ∈ q, y ∉ sinks (createFromLog (frame log s e))) ↔
    Accepts (build lastAbstraction ((frame log s e).map Trace.activities)) w := by
  have hb : Built (createFromLog (frame log s e)) := .readCounts .new _
  obtain ⟨_, ce, cn⟩ := C44_counts (frame log s e)
  obtain ⟨hsrc, hsnk⟩ := (C160_framed log s e).2 hne hse hs he
  have hsrc : ∀ a, a ∈ sources (createFromLog (frame log s e)) ↔ a = s := hsrc
  have hsnk : ∀ a, a ∈ sinks (createFromLog (frame log s e)) ↔ a = e := hsnk
  have hE : ∀ a b, (view (createFromLog (frame log s e))).Edge a b ↔
      ∃ seq ∈ (frame log s e).map Trace.activities, ∃ u v, seq = u ++ a :: b :: v := by
    intro a b
    rw [ce]
    constructor
    · rintro ⟨t, ht, h⟩
      exact ⟨_, List.mem_map.2 ⟨t, ht, rfl⟩, adj_pos'.1 h⟩
    · rintro ⟨_, hm, h⟩
      obtain ⟨t, ht, rfl⟩ := List.mem_map.1 hm
      exact ⟨t, ht, adj_pos'.2 h⟩
  obtain ⟨t0, ht0⟩ := List.exists_mem_of_ne_nil log hne
  obtain ⟨f0, hf0, hf0'⟩ := (framed log s e _).2 ⟨t0, ht0, rfl⟩
  have hm0 : f0.activities ∈ (frame log s e).map Trace.activities := List.mem_map.2 ⟨f0, hf0, rfl⟩
  rw [C175_last]
  constructor
  · rintro ⟨h1, _, ⟨x, hx, h3⟩, q, y, rfl, hy, _⟩
    rw [hsrc] at hx
    rw [hsnk] at hy
    subst hx hy
    refine ⟨⟨_, hm0, by rw [h3, hf0']; rfl⟩, ⟨_, hm0, by rw [hf0', ← List.cons_append, List.getLast?_concat, List.getLast?_concat]⟩, fun u a b v hw => ?_⟩
    exact (hE a b).1 (chain_iff_pairs.1 h1 u a b v hw)
  · rintro ⟨⟨seq, m1, h1⟩, ⟨seq', m2, h2⟩, h3⟩
    obtain ⟨t1, _, rfl⟩ := frame_mem m1
    obtain ⟨t2, _, rfl⟩ := frame_mem m2
    have hc : w.IsChain (view (createFromLog (frame log s e))).Edge := chain_iff_pairs.2 fun u a b v hw => (hE a b).2 (h3 u a b v hw)
    have hhead : w.head? = some s := h1.symm
    have hlast : w.getLast? = some e := by rw [← h2, ← List.cons_append, List.getLast?_concat]
    obtain ⟨q, rfl⟩ := List.getLast?_eq_some_iff.1 hlast
    refine ⟨hc, chain_nodes hb _ hc (fun x hx => ?_), ⟨s, (hsrc s).2 rfl, hhead⟩, q, e, rfl, (hsnk e).2 rfl, fun y hy hys => ?_⟩
    · rw [hhead] at hx
      cases hx
      exact (cn s).2 ⟨f0, hf0, by rw [hf0']; simp⟩
    · rw [hsnk] at hys
      subst hys
      obtain ⟨u, v, rfl⟩ := List.append_of_mem hy
      obtain ⟨b, v', hv⟩ : ∃ b v', v ++ [y] = b :: v' := by
        cases v with
        | nil => exact ⟨_, _, rfl⟩
        | cons b v => exact ⟨_, _, rfl⟩
      obtain ⟨seq, m, u', v'', hseq⟩ := h3 u y b v' (by rw [← hv]; simp)
      obtain ⟨t, ht, rfl⟩ := frame_mem m
      have hd := congrArg List.dropLast hseq
      rw [← List.cons_append, List.dropLast_concat, List.dropLast_append_of_ne_nil (by simp)] at hd
      have : y ∈ s :: t.activities := by rw [hd]; simp
      rcases List.mem_cons.1 this with h | h
      · exact hse h.symm
      · exact he (List.mem_flatMap.2 ⟨t, ht, h⟩)

/-- C214: if a new start and a new end activity are added to every trace, the logs that can be simulated from the directly-follows graph (with the default start and
stop activities) are exactly those of which every trace is accepted by the transition system of last activities. -/
theorem C214_same_language (log : Log I A V) {s e : A} (hne : log ≠ []) (hse : s ≠ e) (hs : s ∉ allActivities log) (he : e ∉ allActivities log)
    {traces : List (List A)} (ht : traces ≠ []) :
    CanSimulate (createFromLog (addEndActivity (addStartActivity log s) e)) none none traces ↔
      ∀ w ∈ traces, Accepts (build lastAbstraction ((addEndActivity (addStartActivity log s) e).map Trace.activities)) w := by
  have hb : Built (createFromLog (frame log s e)) := .readCounts .new _
  have h := C212_exactly hb none none ht
  exact h.trans (forall₂_congr fun w _ => frame_spec log hne hse hs he w)

/-- C214: in particular the log itself can be simulated. -/
theorem C214_own_log (log : Log I A V) {s e : A} (hne : log ≠ []) (hse : s ≠ e) (hs : s ∉ allActivities log) (he : e ∉ allActivities log) :
    CanSimulate (createFromLog (addEndActivity (addStartActivity log s) e)) none none ((addEndActivity (addStartActivity log s) e).map Trace.activities) := by
  refine (C214_same_language log hne hse hs he (by simpa [addEndActivity, addStartActivity] using hne)).2 fun w hw => ?_
  rw [C175_last]
  exact ⟨⟨w, hw, rfl⟩, ⟨w, hw, rfl⟩, fun u a b v h => ⟨w, hw, u, v, h⟩⟩

/-- a log with the traces 1 2 and 3, start activity 0 and end activity 9 -/
example : exOwnLog ≠ [] ∧ (0 : Nat) ≠ 9 ∧ 0 ∉ allActivities exOwnLog ∧ 9 ∉ allActivities exOwnLog := by decide

end Prolothar.Dfg
