import Verif.Props.Noise
import Verif.Props.LogStatistics
/-
C213: what the noise changes and does not change in filtered logs and in the statistics of logs.
-/
set_option linter.unusedSectionVars false
namespace Prolothar.LogNoise
open Prolothar.EventLog Prolothar.Spec Prolothar.Spec.Noise
open Prolothar.LogStatistics (allActivities)
variable {I A V G : Type} [DecidableEq A]

/-! ### Auxiliary -/

theorem inserted_filter (x : Event A V) (q : Event A V → Bool) (hx : q x = false) : ∀ (es : List (Event A V)) (bs : List Bool), bs.length = es.length →
    (inserted x es bs).filter q = es.filter q
  | [], [], _ => rfl
  | e :: es, b :: bs, h => by
    have ih := inserted_filter x q hx es bs (by simpa using h)
    cases b <;> simp [inserted, List.filter_cons, hx, ih]

theorem inserted_first (x : Event A V) : ∀ (es : List (Event A V)) (bs : List Bool), bs.length = es.length →
    pyGet (inserted x es bs) 0 = pyGet es 0
  | [], [], _ => rfl
  | e :: es, b :: bs, _ => by
    cases b <;> rfl

theorem map_filter_congr {log log' : Log I A V} {p : A → Bool}
    (h : List.Forall₂ (fun t t' : Trace I A V => t'.id = t.id ∧ t'.attributes = t.attributes ∧
      (t'.events.filter fun e => p e.activity) = t.events.filter fun e => p e.activity) log log') (b : Bool) :
    filterActivities log' p b = filterActivities log p b := by
  have key : (log'.map fun (t : Trace I A V) => { t with events := t.events.filter fun e => p e.activity }) =
      log.map fun (t : Trace I A V) => { t with events := t.events.filter fun e => p e.activity } := by
    induction h with
    | nil => rfl
    | cons h _ ih =>
      rw [List.map_cons, List.map_cons, ih, h.1, h.2.1, h.2.2]
  unfold filterActivities
  rw [key]

theorem start_congr {log log' : Log I A V}
    (h : List.Forall₂ (fun t t' : Trace I A V => pyGet t'.events 0 = pyGet t.events 0) log log') : startActivities log' = startActivities log := by
  unfold startActivities
  generalize ([] : List A) = s
  induction h generalizing s with
  | nil => rfl
  | cons h _ ih =>
    rw [List.foldlM_cons, List.foldlM_cons, h]
    congr 1
    funext s
    exact ih s

theorem count_congr {log log' : Log I A V} {x : A} (h : List.Forall₂ (fun t t' : Trace I A V => t'.activities.count x = t.activities.count x) log log') :
    (allActivities log').count x = (allActivities log).count x := by
  unfold allActivities
  induction h with
  | nil => rfl
  | cons h _ ih => rw [List.flatMap_cons, List.flatMap_cons, List.count_append, List.count_append, h, ih]

theorem supports_congr {log log' : Log I A V} {x : A} (h : (allActivities log').count x = (allActivities log).count x) :
    (activitySupports log').get? x = (activitySupports log).get? x := by
  rw [LogStatistics.C121_activity_supports, LogStatistics.C121_activity_supports, h]
  have : x ∈ allActivities log' ↔ x ∈ allActivities log := by
    rw [← List.count_pos_iff, ← List.count_pos_iff, h]
  simp only [this]

theorem supports_getD (log : Log I A V) (x : A) : ((activitySupports log).get? x).getD 0 = (allActivities log).count x := by
  rw [LogStatistics.C121_activity_supports]
  split
  · rfl
  · next h => rw [List.count_eq_zero.2 h]; rfl

/-! ### C213 -/

/-- C213: whatever the random numbers are, a filter that rejects the inserted activity gives the same result with and without the add noise; if no event had the
activity and no trace was empty, it gives the original log. -/
theorem C213_add_undone (rng : G → ℚ × G) (a : A) (p : ℚ) (g : G) (log : Log I A V) :
    ∃ n log', (Noise.add a p g).apply rng log = .ok (n, log') ∧
      (∀ allowed b, allowed a = false → filterActivities log' allowed b = filterActivities log allowed b) ∧
      ((∀ t ∈ log, t.events ≠ [] ∧ a ∉ t.activities) → ∀ b, filterActivities log' (fun x => decide (x ≠ a)) b = log) := by
  obtain ⟨n, log', h, hf⟩ := C38_add_activity rng a p g log
  have key : ∀ allowed b, allowed a = false → filterActivities log' allowed b = filterActivities log allowed b := by
    intro allowed b ha
    refine map_filter_congr (hf.imp ?_) b
    rintro t t' ⟨h1, h2, bs, h3, h4⟩
    exact ⟨h1, h2, by rw [h4]; exact inserted_filter _ (fun e : Event A V => allowed e.activity) ha _ _ h3⟩
  refine ⟨n, log', h, key, fun ht b => ?_⟩
  rw [key _ b (by simp)]
  have hm : (log.map fun (t : Trace I A V) => { t with events := t.events.filter fun e => decide (e.activity ≠ a) }) = log := by
    conv_rhs => rw [← List.map_id log]
    refine List.map_congr_left fun t hm => ?_
    have : (t.events.filter fun e => decide (e.activity ≠ a)) = t.events := by
      rw [List.filter_eq_self]
      intro e he
      simp only [ne_eq, decide_not, Bool.not_eq_true', decide_eq_false_iff_not]
      rintro rfl
      exact (ht t hm).2 (List.mem_map.2 ⟨e, he, rfl⟩)
    rw [this]
    rfl
  unfold filterActivities
  rw [hm]
  cases b with
  | false => rfl
  | true =>
    show log.filter _ = log
    rw [List.filter_eq_self]
    intro t hm
    simpa [List.length_pos_iff] using (ht t hm).1

/-- C213: the add noise changes neither the set of start activities nor the number of events of any other activity; it inserts at most one event per event. -/
theorem C213_add_statistics (rng : G → ℚ × G) (a : A) (p : ℚ) (g : G) (log : Log I A V) :
    ∃ n log', (Noise.add a p g).apply rng log = .ok (n, log') ∧ startActivities log' = startActivities log ∧
      (∀ x, x ≠ a → (activitySupports log').get? x = (activitySupports log).get? x) ∧
      countEvents log ≤ countEvents log' ∧ countEvents log' ≤ 2 * countEvents log := by
  obtain ⟨n, log', h, hf⟩ := C38_add_activity rng a p g log
  refine ⟨n, log', h, start_congr (hf.imp ?_), fun x hx => supports_congr (count_congr (hf.imp ?_)), ?_⟩
  · rintro t t' ⟨_, _, bs, h3, h4⟩
    rw [h4]
    exact inserted_first _ _ _ h3
  · rintro t t' ⟨_, _, bs, h3, h4⟩
    have hp := (inserted_perm (Event.new a) t.events bs h3).map Event.activity
    rw [← h4] at hp
    unfold Trace.activities
    rw [hp.count_eq, List.map_append, List.count_append, List.map_replicate, List.count_replicate]
    simp [Event.new, Ne.symm hx]
  · rw [LogStatistics.C121_count_events, LogStatistics.C121_count_events]
    unfold allActivities
    clear h
    induction hf with
    | nil => exact ⟨le_rfl, Nat.zero_le _⟩
    | @cons t t' _ _ ht _ ih =>
      obtain ⟨_, _, bs, h3, h4⟩ := ht
      have hl := (inserted_perm (Event.new a) t.events bs h3).length_eq
      rw [← h4, List.length_append, List.length_replicate] at hl
      have hc : bs.count true ≤ t.events.length := h3 ▸ List.count_le_length
      have e1 : t.activities.length = t.events.length := by simp [Trace.activities]
      have e2 : t'.activities.length = t'.events.length := by simp [Trace.activities]
      rw [List.flatMap_cons, List.flatMap_cons, List.length_append, List.length_append]
      omega

/-- C213: the remove noise raises the number of events of no activity, and brings no new activity. -/
theorem C213_remove_statistics (rng : G → ℚ × G) (p : ℚ) (hp : 0 < p) (g : G) (log : Log I A V) :
    ∃ n log', (Noise.remove p g).apply rng log = .ok (n, log') ∧
      (∀ x, ((activitySupports log').get? x).getD 0 ≤ ((activitySupports log).get? x).getD 0) ∧
      countEvents log' ≤ countEvents log ∧ log'.length ≤ log.length := by
  obtain ⟨n, log', h, hne, kept, hk, hf⟩ := C39_only_deletes rng p hp g log
  have hs : (allActivities log').Sublist (allActivities log) := by
    refine List.Sublist.trans ?_ (show (allActivities kept).Sublist (allActivities log) from ?_)
    · unfold allActivities
      clear h hk hne
      induction hf with
      | nil => exact List.Sublist.refl _
      | cons ht _ ih =>
        rw [List.flatMap_cons, List.flatMap_cons]
        exact (ht.2.2.map Event.activity).append ih
    · unfold allActivities
      exact hk.flatMap _
  refine ⟨n, log', h, fun x => ?_, ?_, hf.length_eq ▸ hk.length_le⟩
  · rw [supports_getD, supports_getD]
    exact hs.count_le x
  · rw [LogStatistics.C121_count_events, LogStatistics.C121_count_events]
    exact hs.length_le

/-- C213: the swap noise changes the number of events of no activity. -/
theorem C213_swap_statistics (rng : G → ℚ × G) (p : ℚ) (g : G) (log : Log I A V) :
    ∃ n log', (Noise.swap p g).apply rng log = .ok (n, log') ∧
      (∀ x, (activitySupports log').get? x = (activitySupports log).get? x) ∧
      countEvents log' = countEvents log ∧ log'.length = log.length := by
  obtain ⟨n, log', h, hf⟩ := C40_swap_events rng p g log
  have hc : ∀ x, (allActivities log').count x = (allActivities log).count x := fun x =>
    count_congr (hf.imp fun t t' ht => (ht.2.2.1.map Event.activity).count_eq x)
  refine ⟨n, log', h, fun x => supports_congr (hc x), ?_, hf.length_eq.symm⟩
  rw [LogStatistics.C121_count_events, LogStatistics.C121_count_events]
  exact (List.perm_iff_count.2 hc).length_eq

/-- C213: no noise, however it is combined of others, raises the number of events of an activity that it does not add, or the number of traces. -/
theorem C213_combined_statistics (rng : G → ℚ × G) (n : Noise A G) (log : Log I A V) :
    ∃ n' log', n.apply rng log = .ok (n', log') ∧
      (∀ x, x ∉ adds n → ((activitySupports log').get? x).getD 0 ≤ ((activitySupports log).get? x).getD 0) ∧ log'.length ≤ log.length := by
  obtain ⟨n', log', h, hs⟩ := apply_noisy rng n log
  obtain ⟨kept, hf, hk⟩ := List.sublistForall₂_iff.1 hs
  refine ⟨n', log', h, fun x hx => ?_, hf.length_eq ▸ hk.length_le⟩
  rw [supports_getD, supports_getD]
  refine le_trans ?_ ((show (allActivities kept).Sublist (allActivities log) from hk.flatMap _).count_le x)
  unfold allActivities
  clear h hs hk
  induction hf with
  | nil => exact le_rfl
  | cons ht _ ih =>
    obtain ⟨_, _, extra, h1, l, h2, h2'⟩ := ht
    have h3 := (h2'.map Event.activity).count_le x
    rw [(h2.map Event.activity).count_eq, List.map_append, List.count_append, List.map_map] at h3
    have h4 : (extra.map (Event.activity ∘ (Event.new : A → Event A V))).count x = 0 := by
      refine List.count_eq_zero.2 fun hm => ?_
      obtain ⟨y, hy, rfl⟩ := List.mem_map.1 hm
      exact hx (h1 y hy)
    rw [List.flatMap_cons, List.flatMap_cons, List.count_append, List.count_append]
    unfold Trace.activities at ih ⊢
    omega

/-- the trace a b c meets the conditions of `C213_add_undone`, and the noise inserts x after a and after c -/
example : (∀ t ∈ [(⟨1, es3, []⟩ : Trace Nat String Nat)], t.events ≠ [] ∧ "x" ∉ t.activities) ∧
    ∃ n, (Noise.add "x" (1/4) false).apply flip [(⟨1, es3, []⟩ : Trace Nat String Nat)]
      = .ok (n, [⟨1, [Event.new "a", Event.new "x", Event.new "b", Event.new "c", Event.new "x"], []⟩]) := by
  constructor
  · simp [es3, Trace.activities, Event.new]
  · have h := C38_where flip "x" (1/4) (by norm_num) false (⟨1, es3, []⟩ : Trace Nat String Nat)
    refine ⟨.add "x" (1/4) true, h.trans ?_⟩
    norm_num [draws, flip, es3, inserted]

end Prolothar.LogNoise
