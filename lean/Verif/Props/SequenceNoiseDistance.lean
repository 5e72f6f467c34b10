import Verif.Props.NoiseDistance
import Verif.Props.SequenceNoise
/-
C181: how far the noise on target sequences moves a sequence.
-/
namespace Prolothar.Data
open Prolothar.Spec Prolothar.Spec.Noise Prolothar.Levenshtein Prolothar.LogNoise
variable {σ : Type} [DecidableEq σ]

omit [DecidableEq σ] in
/-- only as many strikes count as there are pairs of neighbours -/
theorem bubbled_take : ∀ (es : List σ) (bs : List Bool), bubbled es bs = bubbled es (bs.take (es.length - 1))
  | [], bs => by cases bs <;> rfl
  | [c], bs => by cases bs <;> rfl
  | c :: x :: es, [] => rfl
  | c :: x :: es, b :: bs => by
    have h1 := bubbled_take (c :: es) bs
    have h2 := bubbled_take (x :: es) bs
    simp only [List.length_cons, Nat.add_sub_cancel] at h1 h2
    simp only [List.length_cons, Nat.add_sub_cancel, List.take_succ_cons, bubbled]
    rw [← h1, ← h2]

omit [DecidableEq σ] in
theorem exchanged_take : ∀ (es : List σ) (bs : List Bool), exchanged es bs = exchanged es (bs.take (es.length - 1))
  | [], bs => by cases bs <;> rfl
  | [c], bs => by cases bs <;> rfl
  | c :: x :: es, [] => rfl
  | c :: x :: es, b :: bs => by
    have h2 := exchanged_take (x :: es) bs
    have h1 := exchanged_take es bs
    have h3 := exchanged_take es (bs.take es.length)
    simp only [List.length_cons, Nat.add_sub_cancel] at h2
    simp only [List.length_cons, Nat.add_sub_cancel, List.take_succ_cons, exchanged]
    rw [← h2, h1, h3, List.take_take, Nat.min_eq_left (Nat.sub_le _ _)]

omit [DecidableEq σ] in
/-- finished exchanges cost at most 2 each, and lose at most one common element each -/
theorem exchanged_script : ∀ (es : List σ) (bs : List Bool),
    (∃ k ≤ 2 * bs.count true, Script 1 1 1 es (exchanged es bs) k) ∧
    ∃ c : List σ, c.Sublist es ∧ c.Sublist (exchanged es bs) ∧ es.length ≤ c.length + bs.count true
  | [], bs => by
    cases bs <;> exact ⟨⟨0, by omega, .nil _⟩, [], .refl _, .refl _, by simp⟩
  | [c], bs => by
    cases bs <;> exact ⟨⟨0, by omega, .nil _⟩, [c], .refl _, .refl _, by simp⟩
  | c :: x :: es, [] => ⟨⟨0, by omega, .nil _⟩, c :: x :: es, .refl _, .refl _, by simp⟩
  | c :: x :: es, true :: bs => by
    obtain ⟨⟨k, hk, hs⟩, r, r1, r2, r3⟩ := exchanged_script es bs
    refine ⟨⟨2 + k, by simp; omega, ?_⟩, x :: r, (r1.cons_cons x).cons c, ?_, ?_⟩
    · have := Script.context [x, c] [] hs
      have := Script.trans (exchange_script c x es) (by simpa using this)
      simpa [exchanged] using this
    · simpa [exchanged] using (r2.cons c).cons_cons x
    · simp at r3 ⊢
      omega
  | c :: x :: es, false :: bs => by
    obtain ⟨⟨k, hk, hs⟩, r, r1, r2, r3⟩ := exchanged_script (x :: es) bs
    refine ⟨⟨k, by simpa using hk, ?_⟩, c :: r, r1.cons_cons c, ?_, ?_⟩
    · have := Script.context [c] [] hs
      simpa [exchanged] using this
    · simpa [exchanged] using r2.cons_cons c
    · simp at r3 ⊢
      omega

/-- C181: adding noise to a target sequence moves it by exactly the number of inserted events -/
theorem C181_sequence_add {alphabet : List σ} {p : Rat} {g : Rng} (h : alphabet ≠ []) (seq : List σ) :
    ∃ r, addNoise alphabet p g seq = .ok r ∧ distance seq r 1 1 1 = (r.length : Int) - seq.length ∧
      LCS.lengthOfCommonSubsequence seq r = seq.length := by
  obtain ⟨r, _, _, e, _, _, _, hs⟩ := C105_add (p := p) (g := g) (.inl h) seq
  have := sublist_distance hs
  exact ⟨r, e, this.1, this.2.2.1⟩

/-- C181: removing events from a target sequence moves it by exactly the number of removed events -/
theorem C181_sequence_remove (p : Rat) (g : Rng) (seq : List σ) :
    distance seq (removeNoise p g seq) 1 1 1 = (seq.length : Int) - (removeNoise p g seq).length ∧
      LCS.lengthOfCommonSubsequence seq (removeNoise p g seq) = (removeNoise p g seq).length := by
  have := sublist_distance (C105_remove p g seq).1
  exact ⟨this.2.1, this.2.2.2⟩

/-- C181: swapping moves a target sequence by at most 2 edits for every number below the probability that is drawn for one of
the pairs of neighbours, and loses at most one common event for each; both with and without multiple swaps -/
theorem C181_sequence_swap (p : Rat) (multiple : Bool) (g : Rng) (seq : List σ) :
    distance seq (swapNoise p multiple g 0 seq) 1 1 1 ≤
      2 * ((List.range (seq.length - 1)).countP fun k => decide (g.random k < p)) ∧
    (seq.length : Int) ≤ LCS.lengthOfCommonSubsequence seq (swapNoise p multiple g 0 seq) +
      (List.range (seq.length - 1)).countP fun k => decide (g.random k < p) := by
  have hc : (((List.range seq.length).map fun k => decide (g.random k < p)).take (seq.length - 1)).count true =
      (List.range (seq.length - 1)).countP fun k => decide (g.random k < p) := by
    rw [← List.map_take, List.take_range, Nat.min_eq_left (Nat.sub_le _ _), List.count, List.countP_map]
    congr 1
    funext d
    simp
  have hscript : (∃ k ≤ 2 * ((List.range (seq.length - 1)).countP fun k => decide (g.random k < p)),
        Script 1 1 1 seq (swapNoise p multiple g 0 seq) k) ∧
      ∃ c : List σ, c.Sublist seq ∧ c.Sublist (swapNoise p multiple g 0 seq) ∧
        seq.length ≤ c.length + (List.range (seq.length - 1)).countP fun k => decide (g.random k < p) := by
    rw [← hc]
    cases multiple with
    | true =>
      rw [(C105_swap_where p g seq).1, bubbled_take]
      exact bubbled_script _ _
    | false =>
      rw [(C105_swap_where p g seq).2, exchanged_take]
      exact exchanged_script _ _
  obtain ⟨⟨k, hk, hs⟩, c, c1, c2, c3⟩ := hscript
  obtain ⟨d, ed, hd⟩ := distance_spec seq (swapNoise p multiple g 0 seq) 1
  obtain ⟨m, em, -, hm⟩ := LCS.C12_length_optimal seq (swapNoise p multiple g 0 seq)
  have h1 := hd.2 _ hs
  rw [Nat.cast_one] at ed
  have h2 := hm c c1 c2
  rw [ed, em]
  omega

/-- a sequence of four events under each noise; the first and the third number strike -/
example :
    let g : Rng := ⟨fun i => if i % 2 = 0 then 0 else 9 / 10, fun _ => 0⟩
    (addNoise [7] (1 / 2) g [1, 2, 3, 4]).toOption = some [7, 1, 2, 7, 3, 4, 7] ∧ removeNoise (1 / 2) g [1, 2, 3, 4] = [2, 4] ∧
    swapNoise (1 / 2) true g 0 [1, 2, 3, 4] = [2, 1, 4, 3] ∧ distance [1, 2, 3, 4] [2, 1, 4, 3] 1 1 1 = 3 := by
  decide +kernel

end Prolothar.Data
