import Verif.Props.NoiseLaw
import Verif.Props.NoiseDistance
import Mathlib.Algebra.Order.BigOperators.Group.Finset
/-
C211: the distribution and the mean of the edit distance between a log and what the noise has made of it.
-/
set_option linter.unusedSectionVars false
namespace Prolothar.LogNoise
open Prolothar.EventLog Prolothar.Spec Prolothar.Spec.Noise Prolothar.Spec.NoiseLaw Prolothar.Levenshtein
variable {I A V G : Type} [DecidableEq A]

/-- the edits between two logs with as many traces, trace by trace -/
def edits (log log' : Log I A V) : Int := (List.zipWith (fun t t' : Trace I A V => distance t.activities t'.activities 1 1 1) log log').sum

theorem edits_total {log log' : Log I A V}
    (h : List.Forall₂ (fun t t' : Trace I A V => distance t.activities t'.activities 1 1 1 = (t'.events.length : Int) - t.events.length) log log') :
    edits log log' = (total log' : Int) - total log := by
  unfold edits
  induction h with
  | nil => rfl
  | cons h _ ih =>
    rw [List.zipWith_cons_cons, List.sum_cons, ih, h, total_cons, total_cons]
    push_cast
    omega

theorem add_edits {a : A} {p : ℚ} {g : List ℚ} {log log' : Log I A V} {n : Noise A (List ℚ)}
    (h : (Noise.add a p g).apply source log = .ok (n, log')) : edits log log' = (total log' : Int) - total log := by
  obtain ⟨n2, log2, h2, hf⟩ := C181_add source a p g log
  rw [h] at h2
  cases h2
  exact edits_total (hf.imp fun _ _ c => c.1)

/-- C211: the number of edits by the add noise has a binomial distribution. -/
theorem C211_add_binomial (N : Nat) (a : A) {p : ℚ} (hp : 0 < p) (log : Log I A V) (k : Nat) :
    Nat.card { w : Outcome (total log) N // ∃ n log', (Noise.add a p (numbers w)).apply source log = .ok (n, log') ∧ edits log log' = k } =
    (total log).choose k * (below N p ^ k * (N - below N p) ^ (total log - k)) := by
  rw [← C173_add_binomial N a hp log k]
  refine Nat.card_congr (Equiv.subtypeEquivRight fun w => ?_)
  constructor
  · rintro ⟨n, log', h, hk⟩
    refine ⟨n, log', h, ?_⟩
    have := add_edits h
    omega
  · rintro ⟨n, log', h, hk⟩
    refine ⟨n, log', h, ?_⟩
    have := add_edits h
    omega

/-- C211: on average the add noise makes as many edits as the log has events, times the share ⌈p N⌉/N. -/
theorem C211_add_mean {N : Nat} (hN : 0 < N) (a : A) {p : ℚ} (hp : 0 < p) (log : Log I A V) (moved : Outcome (total log) N → Int)
    (hs : ∀ w, ∃ n log', (Noise.add a p (numbers w)).apply source log = .ok (n, log') ∧ edits log log' = moved w) :
    (∑ w, (moved w : ℚ)) / N ^ total log = total log * (below N p / N) := by
  have key : ∀ w, (moved w : ℚ) = struck (marks p w) := by
    intro w
    obtain ⟨n, log', h, ht⟩ := hs w
    have he := add_edits h
    rw [add_log source a hp, marks_numbers] at h
    have h2 := congrArg Prod.snd (Except.ok.inj h)
    dsimp only at h2
    have h3 : total log' = total log + struck (marks p w) := by rw [← h2, total_inserted _ _ _ (by simp), count_ofFn]
    have : moved w = struck (marks p w) := by omega
    rw [this]
    norm_cast
  rw [Finset.sum_congr rfl fun w _ => key w, mean_struck _ hN]

/-- what is left of a trace, as one sequence of activities: empty if the trace was removed -/
def leftOver (log : Log I A V) : List A := log.flatMap Trace.activities

theorem remove_edits {p : ℚ} (hp : 0 < p) {g : List ℚ} {t : Trace I A V} {log' : Log I A V} {n : Noise A (List ℚ)}
    (h : (Noise.remove p g).apply source [t] = .ok (n, log')) :
    distance t.activities (leftOver log') 1 1 1 = (total [t] : Int) - total log' := by
  obtain ⟨n2, log2, kept, h2, hk, hf⟩ := C181_remove source p hp g [t]
  rw [h] at h2
  cases h2
  have ht : total [t] = t.activities.length := by simp [total, Trace.activities]
  rcases List.sublist_singleton.1 hk with rfl | rfl
  · cases hf
    rw [show leftOver ([] : Log I A V) = [] from rfl, (sublist_distance (List.nil_sublist t.activities)).2.1, ht]
    simp [total]
  · cases hf with
    | cons hc hr =>
      cases hr
      rename_i t'
      rw [show leftOver [t'] = t'.activities by simp [leftOver], hc.2.1]
      simp [total]

/-- C211: the number of edits of a trace by the remove noise has a binomial distribution. -/
theorem C211_remove_binomial (N : Nat) {p : ℚ} (hp : 0 < p) (t : Trace I A V) (k : Nat) :
    Nat.card { w : Outcome (total [t]) N //
      ∃ n log', (Noise.remove p (numbers w)).apply source [t] = .ok (n, log') ∧ distance t.activities (leftOver log') 1 1 1 = k } =
    (total [t]).choose k * (below N p ^ k * (N - below N p) ^ (total [t] - k)) := by
  rw [← C173_remove_binomial N hp [t] k]
  refine Nat.card_congr (Equiv.subtypeEquivRight fun w => ?_)
  constructor
  · rintro ⟨n, log', h, hk⟩
    refine ⟨n, log', h, ?_⟩
    have := remove_edits hp h
    omega
  · rintro ⟨n, log', h, hk⟩
    refine ⟨n, log', h, ?_⟩
    have := remove_edits hp h
    omega

/-- C211: on average the remove noise moves a trace by as many edits as it has events, times the share ⌈p N⌉/N. -/
theorem C211_remove_mean {N : Nat} (hN : 0 < N) {p : ℚ} (hp : 0 < p) (t : Trace I A V) (moved : Outcome (total [t]) N → Int)
    (hs : ∀ w, ∃ n log', (Noise.remove p (numbers w)).apply source [t] = .ok (n, log') ∧ distance t.activities (leftOver log') 1 1 1 = moved w) :
    (∑ w, (moved w : ℚ)) / N ^ total [t] = t.events.length * (below N p / N) := by
  have key : ∀ w, (moved w : ℚ) = struck (marks p w) := by
    intro w
    obtain ⟨n, log', h, ht⟩ := hs w
    have he := remove_edits hp h
    rw [remove_log source hp, marks_numbers] at h
    have h2 := congrArg Prod.snd (Except.ok.inj h)
    dsimp only at h2
    have h3 := total_removed [t] (List.ofFn (marks p w)) (by simp)
    rw [count_ofFn, ← total_filter, h2] at h3
    have : moved w = struck (marks p w) := by omega
    rw [this]
    norm_cast
  rw [Finset.sum_congr rfl fun w _ => key w, mean_struck _ hN]
  simp [total]

/-- C211: on average the swap noise moves a trace by at most twice the number of its pairs of neighbours, times the share ⌈p N⌉/N. -/
theorem C211_swap_mean {N : Nat} (hN : 0 < N) {p : ℚ} (hp : 0 < p) (t : Trace I A V) (moved : Outcome (pairs [t]) N → Int)
    (hs : ∀ w, ∃ n t', (Noise.swap p (numbers w)).apply source [t] = .ok (n, [t']) ∧ distance t.activities t'.activities 1 1 1 = moved w) :
    (∑ w, (moved w : ℚ)) / N ^ pairs [t] ≤ 2 * ((t.events.length - 1 : Nat) * (below N p / N)) := by
  have hN' : (0 : ℚ) < N := by exact_mod_cast hN
  have hpairs : pairs [t] = t.events.length - 1 := by simp [pairs]
  have key : ∀ w, (moved w : ℚ) ≤ 2 * struck (marks p w) := by
    intro w
    obtain ⟨n, t', h, ht⟩ := hs w
    obtain ⟨n2, t2, h2, hd, _⟩ := C181_swap source p hp (numbers w) t
    rw [h] at h2
    cases h2
    have hlen : (numbers w).length = t.events.length - 1 := by rw [← hpairs]; simp [numbers]
    rw [draws_source _ _ (by omega), ← hlen, List.take_length] at hd
    have hc : ((numbers w).countP fun d => decide (d < p)) = struck (marks p w) := by
      rw [← count_ofFn, ← marks_numbers, List.count, List.countP_map]
      rw [draws_source _ _ (by omega), List.take_of_length_le (by omega)]
      congr 1
      funext d
      simp
    dsimp only at hd
    rw [hc, ht] at hd
    exact_mod_cast hd
  have hsum : (∑ w, (moved w : ℚ)) ≤ 2 * ∑ w : Outcome (pairs [t]) N, (struck (marks p w) : ℚ) := by
    rw [Finset.mul_sum]
    exact Finset.sum_le_sum fun w _ => key w
  calc (∑ w, (moved w : ℚ)) / N ^ pairs [t] ≤ (2 * ∑ w : Outcome (pairs [t]) N, (struck (marks p w) : ℚ)) / N ^ pairs [t] := by
        gcongr
    _ = 2 * ((∑ w : Outcome (pairs [t]) N, (struck (marks p w) : ℚ)) / N ^ pairs [t]) := by ring
    _ = _ := by rw [mean_struck _ hN, hpairs]

/-- 24 of the 64 outcomes of the add noise are one edit away from the log with the traces a b and c -/
example : Nat.card { w : Outcome (total exLawLog) 4 //
      ∃ n log', (Noise.add "x" (3 / 10) (numbers w)).apply source exLawLog = .ok (n, log') ∧ edits exLawLog log' = (1 : Nat) } = 24 := by
  have h : below 4 (3 / 10) = 2 := by decide +kernel
  rw [C211_add_binomial 4 "x" (by norm_num) exLawLog 1, h]
  rfl

/-- a trace a b c -/
def exMeanTrace : Trace Nat String Nat := ⟨1, [Event.new "a", Event.new "b", Event.new "c"], []⟩

/-- the distances in `C211_remove_mean` exist; on average 3 · 2/4 edits -/
example : ∃ moved : Outcome (total [exMeanTrace]) 4 → Int,
    (∀ w, ∃ n log', (Noise.remove (3 / 10) (numbers w)).apply source [exMeanTrace] = .ok (n, log') ∧
      distance exMeanTrace.activities (leftOver log') 1 1 1 = moved w) ∧
    (∑ w, (moved w : ℚ)) / 4 ^ 3 = 3 / 2 := by
  have hex : ∀ w : Outcome (total [exMeanTrace]) 4, ∃ k n log', (Noise.remove (3 / 10) (numbers w)).apply source [exMeanTrace] = .ok (n, log') ∧
      distance exMeanTrace.activities (leftOver log') 1 1 1 = k := by
    intro w
    obtain ⟨n, log', _, h, _⟩ := C181_remove source (3 / 10) (by norm_num) (numbers w) [exMeanTrace]
    exact ⟨_, n, log', h, rfl⟩
  choose moved hs using hex
  refine ⟨moved, hs, ?_⟩
  have h := C211_remove_mean (N := 4) (by norm_num) (by norm_num : (0 : ℚ) < 3 / 10) exMeanTrace moved hs
  have hb : below 4 (3 / 10) = 2 := by decide +kernel
  rw [hb] at h
  refine Eq.trans ?_ (h.trans ?_)
  · have : ((4 : Nat) : ℚ) ^ total [exMeanTrace] = 4 ^ 3 := by rw [show total [exMeanTrace] = 3 from rfl]; norm_num
    rw [this]
  · rw [show exMeanTrace.events.length = 3 from rfl]; norm_num

/-- the distances in `C211_swap_mean` exist; on average at most 2 · 2 · 2/4 edits -/
example : ∃ moved : Outcome (pairs [exMeanTrace]) 4 → Int,
    (∀ w, ∃ n t', (Noise.swap (3 / 10) (numbers w)).apply source [exMeanTrace] = .ok (n, [t']) ∧
      distance exMeanTrace.activities t'.activities 1 1 1 = moved w) ∧
    (∑ w, (moved w : ℚ)) / 4 ^ 2 ≤ 2 := by
  have hex : ∀ w : Outcome (pairs [exMeanTrace]) 4, ∃ k n t', (Noise.swap (3 / 10) (numbers w)).apply source [exMeanTrace] = .ok (n, [t']) ∧
      distance exMeanTrace.activities t'.activities 1 1 1 = k := by
    intro w
    obtain ⟨n, t', h, _⟩ := C181_swap source (3 / 10) (by norm_num) (numbers w) exMeanTrace
    exact ⟨_, n, t', h, rfl⟩
  choose moved hs using hex
  refine ⟨moved, hs, ?_⟩
  have h := C211_swap_mean (N := 4) (by norm_num) (by norm_num : (0 : ℚ) < 3 / 10) exMeanTrace moved hs
  have hb : below 4 (3 / 10) = 2 := by decide +kernel
  rw [hb] at h
  refine le_trans (le_of_eq ?_) (h.trans (le_of_eq ?_))
  · have : ((4 : Nat) : ℚ) ^ pairs [exMeanTrace] = 4 ^ 2 := by rw [show pairs [exMeanTrace] = 2 from rfl]; norm_num
    rw [this]
  · rw [show exMeanTrace.events.length = 3 from rfl]; norm_num

end Prolothar.LogNoise
