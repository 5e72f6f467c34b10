import Verif.Props.Noise
import Verif.Props.EditMetric
/-
C181: how far the noise moves a trace, measured by the two sequence modules: the Levenshtein distance and the longest common
subsequence.
-/
set_option linter.unusedSectionVars false
namespace Prolothar.LogNoise
open Prolothar.EventLog Prolothar.Spec Prolothar.Spec.Noise Prolothar.Levenshtein
variable {I A V G : Type} [DecidableEq A]

/-- a part of a sequence in order: the distance is the difference of the lengths, and all of the part is common -/
theorem sublist_distance {β : Type} [DecidableEq β] {s t : List β} (h : s.Sublist t) :
    distance s t 1 1 1 = (t.length : Int) - s.length ∧ distance t s 1 1 1 = (t.length : Int) - s.length ∧
      LCS.lengthOfCommonSubsequence s t = s.length ∧ LCS.lengthOfCommonSubsequence t s = s.length := by
  have hl := h.length_le
  have key : ∀ m : Nat, (∃ c : List β, c.Sublist s ∧ c.Sublist t ∧ c.length = m) → (∀ c : List β, c.Sublist s → c.Sublist t → c.length ≤ m) → m = s.length := by
    rintro m ⟨c, c1, -, c3⟩ hm
    have := hm s (.refl _) h
    have := c1.length_le
    omega
  obtain ⟨m, em, ⟨c, c1, c2, c3⟩, hm⟩ := LCS.C12_length_optimal s t
  obtain ⟨m', em', ⟨c', c1', c2', c3'⟩, hm'⟩ := LCS.C12_length_optimal t s
  have e1 := key m ⟨c, c1, c2, c3⟩ hm
  have e2 := key m' ⟨c', c2', c1', c3'⟩ (fun c a b => hm' c b a)
  have b := C159_lcs_bounds s t
  have hs := (C159_metric 1 (by omega) s t s).2.2.1
  rw [Nat.cast_one] at hs
  rw [em, e1] at b
  rw [em, em', e1, e2]
  refine ⟨?_, ?_, rfl, rfl⟩
  · omega
  · omega

/-- one exchange of neighbours costs at most 2 -/
theorem exchange_script {β : Type} (c x : β) (es : List β) : Script 1 1 1 (c :: x :: es) (x :: c :: es) 2 := by
  have h1 := (Script.nil (insC := 1) (delC := 1) (subC := 1) (c :: x :: es)).snoc (Step.delete [] (x :: es) c)
  have h2 := h1.snoc (Step.insert [x] es c)
  exact h2

/-- carrying elements along costs at most 2 for every exchange, and loses at most one common element for each -/
theorem bubbled_script {β : Type} : ∀ (es : List β) (bs : List Bool),
    (∃ k ≤ 2 * bs.count true, Script 1 1 1 es (bubbled es bs) k) ∧
    ∃ c : List β, c.Sublist es ∧ c.Sublist (bubbled es bs) ∧ es.length ≤ c.length + bs.count true
  | [], bs => by
    cases bs <;> exact ⟨⟨0, by omega, .nil _⟩, [], .refl _, .refl _, by simp⟩
  | [c], bs => by
    cases bs <;> exact ⟨⟨0, by omega, .nil _⟩, [c], .refl _, .refl _, by simp⟩
  | c :: x :: es, [] => ⟨⟨0, by omega, .nil _⟩, c :: x :: es, .refl _, .refl _, by simp⟩
  | c :: x :: es, true :: bs => by
    obtain ⟨⟨k, hk, hs⟩, r, r1, r2, r3⟩ := bubbled_script (c :: es) bs
    refine ⟨⟨2 + k, by simp; omega, ?_⟩, ?_⟩
    · have := Script.context [x] [] hs
      have := Script.trans (exchange_script c x es) (by simpa using this)
      simpa [bubbled] using this
    · cases r with
      | nil =>
        refine ⟨[], List.nil_sublist _, List.nil_sublist _, ?_⟩
        simp at r3 ⊢
        omega
      | cons y r =>
        by_cases hr : (y :: r).Sublist es
        · refine ⟨x :: y :: r, (hr.cons_cons x).cons c, ?_, ?_⟩
          · simpa [bubbled] using r2.cons_cons x
          · simp at r3 ⊢
            omega
        · refine ⟨y :: r, ?_, ?_, ?_⟩
          · exact r1.trans ((List.sublist_cons_self x es).cons_cons c)
          · simpa [bubbled] using r2.cons x
          · simp at r3 ⊢
            omega
  | c :: x :: es, false :: bs => by
    obtain ⟨⟨k, hk, hs⟩, r, r1, r2, r3⟩ := bubbled_script (x :: es) bs
    refine ⟨⟨k, by simpa using hk, ?_⟩, c :: r, r1.cons_cons c, ?_, ?_⟩
    · have := Script.context [c] [] hs
      simpa [bubbled] using this
    · simpa [bubbled] using r2.cons_cons c
    · simp at r3 ⊢
      omega

theorem map_bubbled {β γ : Type} (f : β → γ) : ∀ (es : List β) (bs : List Bool), (bubbled es bs).map f = bubbled (es.map f) bs
  | [], bs => by cases bs <;> rfl
  | [c], bs => by cases bs <;> rfl
  | c :: x :: es, [] => rfl
  | c :: x :: es, b :: bs => by
    have h1 := map_bubbled f (c :: es) bs
    have h2 := map_bubbled f (x :: es) bs
    cases b <;> simp [bubbled, h1, h2]

/-- C181: after the add noise the distance of a trace to its original is the number of inserted events, and the whole original is common to both -/
theorem C181_add (rng : G → ℚ × G) (a : A) (p : ℚ) (g : G) (log : Log I A V) :
    ∃ n log', (Noise.add a p g).apply rng log = .ok (n, log') ∧
      List.Forall₂ (fun t t' : Trace I A V =>
        distance t.activities t'.activities 1 1 1 = (t'.events.length : Int) - t.events.length ∧
        LCS.lengthOfCommonSubsequence t.activities t'.activities = t.events.length) log log' := by
  obtain ⟨n, log', e, h⟩ := C38_only_inserts rng a p g log
  refine ⟨n, log', e, h.imp fun t t' ht => ?_⟩
  have := sublist_distance (ht.2.2.1.map Event.activity)
  simp only [List.length_map] at this
  exact ⟨this.1, this.2.2.1⟩

/-- C181: after the remove noise the distance of a remaining trace to its original is the number of removed events, and all that remains
is common to both -/
theorem C181_remove (rng : G → ℚ × G) (p : ℚ) (hp : 0 < p) (g : G) (log : Log I A V) :
    ∃ n log' kept, (Noise.remove p g).apply rng log = .ok (n, log') ∧ kept.Sublist log ∧
      List.Forall₂ (fun t' t : Trace I A V => t'.id = t.id ∧
        distance t.activities t'.activities 1 1 1 = (t.events.length : Int) - t'.events.length ∧
        LCS.lengthOfCommonSubsequence t.activities t'.activities = t'.events.length) log' kept := by
  obtain ⟨n, log', e, -, kept, hk, h⟩ := C39_only_deletes rng p hp g log
  refine ⟨n, log', kept, e, hk, h.imp fun t' t ht => ?_⟩
  have := sublist_distance (ht.2.2.map Event.activity)
  simp only [List.length_map] at this
  exact ⟨ht.1, this.2.1, this.2.2.2⟩

/-- C181: after the swap noise the distance of a trace to its original is at most 2 for every number below the probability, and at most one
event less is common for every such number -/
theorem C181_swap (rng : G → ℚ × G) (p : ℚ) (hp : 0 < p) (g : G) (t : Trace I A V) :
    ∃ n t', (Noise.swap p g).apply rng [t] = .ok (n, [t']) ∧
      distance t.activities t'.activities 1 1 1 ≤ 2 * ((draws rng (t.events.length - 1) g).1.countP fun d => decide (d < p)) ∧
      t.events.length ≤ LCS.lengthOfCommonSubsequence t.activities t'.activities + (draws rng (t.events.length - 1) g).1.countP fun d => decide (d < p) := by
  refine ⟨_, _, C40_where rng p hp g t, ?_⟩
  generalize (draws rng (t.events.length - 1) g).1 = ds
  have ec : ∀ ds : List ℚ, (ds.map fun d => decide (d < p)).count true = ds.countP fun d => decide (d < p) := by
    intro ds
    rw [List.count, List.countP_map]
    congr 1
    funext d
    simp
  obtain ⟨⟨k, hk, hs⟩, c, c1, c2, c3⟩ := bubbled_script t.activities (ds.map fun d => decide (d < p))
  rw [ec] at hk c3
  have eb : ({ t with events := bubbled t.events (ds.map fun d => decide (d < p)) } : Trace I A V).activities
      = bubbled t.activities (ds.map fun d => decide (d < p)) := map_bubbled _ _ _
  rw [eb]
  obtain ⟨d, ed, hd⟩ := distance_spec t.activities (bubbled t.activities (ds.map fun d => decide (d < p))) 1
  obtain ⟨m, em, -, hm⟩ := LCS.C12_length_optimal t.activities (bubbled t.activities (ds.map fun d => decide (d < p)))
  have h1 := hd.2 _ hs
  rw [Nat.cast_one] at ed
  have h2 := hm c c1 c2
  have el : t.activities.length = t.events.length := List.length_map _
  rw [ed, em]
  omega


/-- a trace of four events under each noise, with a source that strikes exactly the first and the third number -/
example :
    let rng : ℕ → ℚ × ℕ := fun s => (if s % 2 = 0 then 0 else 9 / 10, s + 1)
    let t : Trace ℕ ℕ ℕ := ⟨0, [.new 1, .new 2, .new 3, .new 4], []⟩
    let acts := fun r : Py (Noise ℕ ℕ × Log ℕ ℕ ℕ) => r.toOption.map fun r => r.2.map Trace.activities
    acts ((Noise.add 7 (1 / 2) 0).apply rng [t]) = some [[1, 7, 2, 3, 7, 4]] ∧ distance [1, 2, 3, 4] [1, 7, 2, 3, 7, 4] 1 1 1 = 2 ∧
    acts ((Noise.remove (1 / 2) 0).apply rng [t]) = some [[2, 4]] ∧ distance [1, 2, 3, 4] [2, 4] 1 1 1 = 2 ∧
    acts ((Noise.swap (1 / 2) 0).apply rng [t]) = some [[2, 1, 4, 3]] ∧ distance [1, 2, 3, 4] [2, 1, 4, 3] 1 1 1 = 3 := by
  decide +kernel

end Prolothar.LogNoise
