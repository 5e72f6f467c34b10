import Verif.Spec.NoiseLaw
import Verif.Props.Noise
import Mathlib.SetTheory.Cardinal.Finite
import Mathlib.Data.Fintype.Powerset
import Mathlib.Data.Fintype.BigOperators
import Mathlib.Algebra.BigOperators.Fin
import Mathlib.Algebra.BigOperators.Ring.Finset
import Mathlib.Algebra.Order.Floor.Ring
import Mathlib.Tactic.Ring
/-
Property C173: the noise strikes with the stated probability. The counts of outcomes are exact; the sample space is specified in
Verif/Spec/NoiseLaw.lean.
-/
namespace Prolothar.LogNoise
open Prolothar.EventLog Prolothar.Spec.Noise Prolothar.Spec.NoiseLaw
variable {I A V G : Type}

/-! ### the noise on a whole log in terms of the drawn numbers -/

theorem draws_add (rng : G → ℚ × G) : ∀ (n m : Nat) (g : G),
    draws rng (n + m) g = ((draws rng n g).1 ++ (draws rng m (draws rng n g).2).1, (draws rng m (draws rng n g).2).2)
  | 0, m, g => by simp [draws]
  | n + 1, m, g => by
    rw [Nat.add_right_comm]
    simp only [draws]
    rw [draws_add rng n m]
    simp

/-- reading from a list -/
theorem draws_source : ∀ (n : Nat) (l : List ℚ), n ≤ l.length → draws source n l = (l.take n, l.drop n)
  | 0, l, _ => by simp [draws]
  | n + 1, [], h => absurd h (by simp)
  | n + 1, x :: l, h => by
    simp only [draws, source, List.headD_cons, List.tail_cons]
    rw [draws_source n l (by simpa using h)]
    simp

/-- if the noise on a trace is `f` of the marks of the drawn numbers, so is the noise on the log -/
theorem onTraces_spread (rng : G → ℚ × G) (p : ℚ) (need : Nat → Nat) (f : List (Event A V) → List Bool → List (Event A V))
    (step : G → List (Event A V) → Py (List (Event A V) × G))
    (hs : ∀ g es, step g es = .ok (f es ((draws rng (need es.length) g).1.map fun d => decide (d < p)), (draws rng (need es.length) g).2)) :
    ∀ (log : Log I A V) (g : G), onTraces step g log =
      .ok (spread need f log ((draws rng (log.map fun t => need t.events.length).sum g).1.map fun d => decide (d < p)),
        (draws rng (log.map fun t => need t.events.length).sum g).2)
  | [], g => rfl
  | t :: ts, g => by
    simp only [onTraces, hs, spread, List.map_cons, List.sum_cons]
    rw [draws_add]
    have hl : ((draws rng (need t.events.length) g).1.map fun d => decide (d < p)).length = need t.events.length := by
      rw [List.length_map, draws_length]
    rw [List.map_append, List.take_left' hl, List.drop_left' hl]
    have := onTraces_spread rng p need f step hs ts (draws rng (need t.events.length) g).2
    show (onTraces step (draws rng (need t.events.length) g).2 ts >>= _) = _
    rw [this]
    rfl

theorem add_log (rng : G → ℚ × G) (a : A) {p : ℚ} (hp : 0 < p) (g : G) (log : Log I A V) :
    (Noise.add a p g).apply rng log = .ok (.add a p (draws rng (total log) g).2,
      spread id (inserted (Event.new a)) log ((draws rng (total log) g).1.map fun d => decide (d < p))) := by
  have := onTraces_spread (I := I) (V := V) rng p id (inserted (Event.new a)) (fun g es => .ok (addOnTrace rng a p g es))
    (fun g es => by
      rw [id, ← addOnTrace_eq]
      rfl) log g
  simp only [Noise.apply]
  rw [if_pos hp, this]
  rfl

theorem remove_log (rng : G → ℚ × G) {p : ℚ} (hp : 0 < p) (g : G) (log : Log I A V) :
    (Noise.remove p g).apply rng log = .ok (.remove p (draws rng (total log) g).2,
      (spread id removed log ((draws rng (total log) g).1.map fun d => decide (d < p))).filter fun t => decide (t.events.length > 0)) := by
  have := onTraces_spread (I := I) (A := A) (V := V) rng p id removed (fun g es => .ok (removeOnTrace rng p g es))
    (fun g es => by
      rw [id, ← removeOnTrace_eq, ← removeOnTrace_state (A := A) (V := V) rng p g es]) log g
  simp only [Noise.apply]
  rw [if_pos hp, this]
  rfl

theorem swap_log (rng : G → ℚ × G) {p : ℚ} (hp : 0 < p) (g : G) (log : Log I A V) :
    (Noise.swap p g).apply rng log = .ok (.swap p (draws rng (pairs log) g).2,
      spread (· - 1) bubbled log ((draws rng (pairs log) g).1.map fun d => decide (d < p))) := by
  have := onTraces_spread (I := I) (A := A) (V := V) rng p (· - 1) bubbled (swapOnTrace rng p)
    (fun g es => by rw [swapOnTrace_eq]) log g
  simp only [Noise.apply]
  rw [if_pos hp, this]
  rfl

/-! ### counting outcomes -/

/-- the marks of an outcome -/
def marks {m N : Nat} (p : ℚ) (w : Outcome m N) : Fin m → Bool := fun i => decide (((w i : Nat) : ℚ) / N < p)

theorem marks_numbers {m N : Nat} (p : ℚ) (w : Outcome m N) :
    ((draws source m (numbers w)).1.map fun d => decide (d < p)) = List.ofFn (marks p w) := by
  have hl : (numbers w).length = m := by simp [numbers]
  rw [draws_source m _ (by omega)]
  dsimp only
  rw [List.take_of_length_le (by omega)]
  unfold numbers marks
  rw [List.map_ofFn]
  rfl

theorem below_le (N : Nat) (p : ℚ) : below N p ≤ N := by
  unfold below
  exact (Finset.card_filter_le _ _).trans (by simp)

theorem card_notBelow (N : Nat) (p : ℚ) : (Finset.univ.filter fun k : Fin N => decide (((k : Nat) : ℚ) / N < p) = false).card = N - below N p := by
  have := Finset.card_filter_add_card_filter_not (s := (Finset.univ : Finset (Fin N))) (fun k : Fin N => ((k : Nat) : ℚ) / N < p)
  simp only [Finset.card_univ, Fintype.card_fin] at this
  unfold below
  simp only [decide_eq_false_iff_not]
  omega

/-- the outcomes with given marks -/
theorem card_marks {m : Nat} (N : Nat) (p : ℚ) (bits : Fin m → Bool) :
    (Finset.univ.filter fun w : Outcome m N => marks p w = bits).card = weight N p bits := by
  have : (Finset.univ.filter fun w : Outcome m N => marks p w = bits) =
      Fintype.piFinset fun i => Finset.univ.filter fun k : Fin N => decide (((k : Nat) : ℚ) / N < p) = bits i := by
    ext w
    simp only [Finset.mem_filter, Finset.mem_univ, true_and, Fintype.mem_piFinset]
    constructor
    · rintro rfl i; rfl
    · intro h; funext i; exact h i
  rw [this, Fintype.card_piFinset]
  unfold weight
  refine Finset.prod_congr rfl fun i _ => ?_
  cases bits i
  · exact card_notBelow N p
  · simp only [decide_eq_true_eq]
    rfl

/-- the outcomes whose marks have a property -/
theorem card_law {m : Nat} (N : Nat) (p : ℚ) (B : (Fin m → Bool) → Prop) [DecidablePred B] :
    (Finset.univ.filter fun w : Outcome m N => B (marks p w)).card = ∑ bits with B bits, weight N p bits := by
  rw [Finset.card_eq_sum_card_fiberwise (f := marks p) (t := Finset.univ.filter B)]
  · refine Finset.sum_congr rfl fun bits hb => ?_
    rw [← card_marks, Finset.filter_filter]
    congr 1
    ext w
    simp only [Finset.mem_filter, Finset.mem_univ, true_and, and_iff_right_iff_imp]
    rintro rfl
    exact (Finset.mem_filter.1 hb).2
  · intro w hw
    simpa using hw

/-- the number of marks -/
def struck {m : Nat} (bits : Fin m → Bool) : Nat := (Finset.univ.filter fun i => bits i = true).card

theorem count_eq_sum : ∀ l : List Bool, l.count true = (l.map fun b => if b then 1 else 0).sum
  | [] => rfl
  | true :: l => by simp [count_eq_sum l, Nat.add_comm]
  | false :: l => by simp [count_eq_sum l]

theorem count_ofFn {m : Nat} (bits : Fin m → Bool) : (List.ofFn bits).count true = struck bits := by
  rw [count_eq_sum, List.map_ofFn, List.sum_ofFn]
  unfold struck
  rw [Finset.card_filter]
  rfl

theorem struck_le {m : Nat} (bits : Fin m → Bool) : struck bits ≤ m := by
  unfold struck
  exact (Finset.card_filter_le _ _).trans (by simp)

theorem weight_eq {m : Nat} (N : Nat) (p : ℚ) (bits : Fin m → Bool) :
    weight N p bits = below N p ^ struck bits * (N - below N p) ^ (m - struck bits) := by
  unfold weight
  rw [Finset.prod_ite, Finset.prod_const, Finset.prod_const]
  have := Finset.card_filter_add_card_filter_not (s := (Finset.univ : Finset (Fin m))) (fun i => bits i = true)
  simp only [Finset.card_univ, Fintype.card_fin] at this
  have h2 : (Finset.univ.filter fun i => ¬ bits i = true).card = m - struck bits := by
    unfold struck; omega
  rw [h2]
  rfl

theorem card_struck (m k : Nat) : (Finset.univ.filter fun bits : Fin m → Bool => struck bits = k).card = m.choose k := by
  have : (Finset.powersetCard k (Finset.univ : Finset (Fin m))).card = m.choose k := by
    rw [Finset.card_powersetCard, Finset.card_univ, Fintype.card_fin]
  rw [← this]
  refine Finset.card_nbij' (fun bits => Finset.univ.filter fun i => bits i = true) (fun s i => decide (i ∈ s)) ?_ ?_ ?_ ?_
  · intro bits hb
    simp only [Finset.coe_filter, Set.mem_ofPred_eq, Finset.mem_univ, true_and] at hb
    simpa [struck] using hb
  · intro s hs
    simp only [Finset.coe_filter, Set.mem_ofPred_eq, Finset.mem_univ, true_and]
    simpa [struck] using hs
  · intro bits _
    funext i
    simp
  · intro s _
    ext i
    simp

theorem sum_binomial (m N : Nat) (p : ℚ) (k : Nat) : ∑ bits : Fin m → Bool with struck bits = k, weight N p bits =
    m.choose k * (below N p ^ k * (N - below N p) ^ (m - k)) := by
  rw [← card_struck, ← smul_eq_mul, ← Finset.sum_const]
  refine Finset.sum_congr rfl fun bits hb => ?_
  rw [weight_eq, (Finset.mem_filter.1 hb).2]

/-- `below N p` is the number of the k/N below p: ⌈p N⌉, up to one k/N the share p of N -/
theorem below_eq {N : Nat} (hN : 0 < N) {p : ℚ} (h1 : p ≤ 1) : below N p = ⌈p * N⌉₊ := by
  have hN' : (0 : ℚ) < N := by exact_mod_cast hN
  have hc : ⌈p * N⌉₊ ≤ N := by
    rw [Nat.ceil_le]
    nlinarith
  unfold below
  have hfilter : (Finset.univ.filter fun k : Fin N => ((k : Nat) : ℚ) / N < p) = Finset.univ.filter fun k : Fin N => (k : Nat) < ⌈p * N⌉₊ := by
    ext k
    simp only [Finset.mem_filter, Finset.mem_univ, true_and]
    rw [div_lt_iff₀ hN', Nat.lt_ceil]
  rw [hfilter]
  rw [Fin.card_filter_val_lt]
  exact min_eq_right hc

/-! ### C173 -/

/-- C173: the law of the add noise. Every set of events is struck with the probability of independent decisions with probability ⌈p N⌉/N each:
for every claim `Q` about the resulting log, the number of outcomes for which it holds is the sum over the sets of struck events for
which it holds. -/
theorem C173_add_law (N : Nat) (a : A) {p : ℚ} (hp : 0 < p) (log : Log I A V) (Q : Log I A V → Prop) [DecidablePred Q] :
    Nat.card { w : Outcome (total log) N // ∃ n log', (Noise.add a p (numbers w)).apply source log = .ok (n, log') ∧ Q log' } =
    ∑ bits : Fin (total log) → Bool with Q (spread id (inserted (Event.new a)) log (List.ofFn bits)), weight N p bits := by
  rw [← card_law N p (fun bits => Q (spread id (inserted (Event.new a)) log (List.ofFn bits))), ← Fintype.card_subtype,
    ← Nat.card_eq_fintype_card]
  refine Nat.card_congr (Equiv.subtypeEquivRight fun w => ?_)
  rw [add_log source a hp, marks_numbers]
  constructor
  · rintro ⟨n, log', h, hq⟩
    cases h
    exact hq
  · intro h
    exact ⟨_, _, rfl, h⟩

/-- C173: the law of the remove noise -/
theorem C173_remove_law (N : Nat) {p : ℚ} (hp : 0 < p) (log : Log I A V) (Q : Log I A V → Prop) [DecidablePred Q] :
    Nat.card { w : Outcome (total log) N // ∃ n log', (Noise.remove p (numbers w)).apply source log = .ok (n, log') ∧ Q log' } =
    ∑ bits : Fin (total log) → Bool with Q ((spread id removed log (List.ofFn bits)).filter fun t => decide (t.events.length > 0)), weight N p bits := by
  rw [← card_law N p (fun bits => Q ((spread id removed log (List.ofFn bits)).filter fun t => decide (t.events.length > 0))), ← Fintype.card_subtype,
    ← Nat.card_eq_fintype_card]
  refine Nat.card_congr (Equiv.subtypeEquivRight fun w => ?_)
  rw [remove_log source hp, marks_numbers]
  constructor
  · rintro ⟨n, log', h, hq⟩
    cases h
    exact hq
  · intro h
    exact ⟨_, _, rfl, h⟩

/-- C173: the law of the swap noise, with one decision per pair of neighbours -/
theorem C173_swap_law (N : Nat) {p : ℚ} (hp : 0 < p) (log : Log I A V) (Q : Log I A V → Prop) [DecidablePred Q] :
    Nat.card { w : Outcome (pairs log) N // ∃ n log', (Noise.swap p (numbers w)).apply source log = .ok (n, log') ∧ Q log' } =
    ∑ bits : Fin (pairs log) → Bool with Q (spread (· - 1) bubbled log (List.ofFn bits)), weight N p bits := by
  rw [← card_law N p (fun bits => Q (spread (· - 1) bubbled log (List.ofFn bits))), ← Fintype.card_subtype,
    ← Nat.card_eq_fintype_card]
  refine Nat.card_congr (Equiv.subtypeEquivRight fun w => ?_)
  rw [swap_log source hp, marks_numbers]
  constructor
  · rintro ⟨n, log', h, hq⟩
    cases h
    exact hq
  · intro h
    exact ⟨_, _, rfl, h⟩

/-! ### the numbers of inserted and removed events -/

theorem total_cons (t : Trace I A V) (ts : Log I A V) : total (t :: ts) = t.events.length + total ts := by simp [total]

theorem inserted_length (x : Event A V) : ∀ (es : List (Event A V)) (bs : List Bool), bs.length = es.length →
    (inserted x es bs).length = es.length + bs.count true
  | [], [], _ => rfl
  | e :: es, true :: bs, h => by
    have := inserted_length x es bs (by simpa using h)
    simp only [inserted, if_pos, List.length_cons, this, List.count_cons_self]
    omega
  | e :: es, false :: bs, h => by
    have := inserted_length x es bs (by simpa using h)
    simp only [inserted, Bool.false_eq_true, if_false, List.length_cons, this]
    simp
    omega

theorem removed_length : ∀ (es : List (Event A V)) (bs : List Bool), bs.length = es.length →
    (removed es bs).length + bs.count true = es.length
  | [], [], _ => rfl
  | e :: es, true :: bs, h => by
    have := removed_length es bs (by simpa using h)
    simp only [removed, if_pos, List.length_cons, List.count_cons_self]
    omega
  | e :: es, false :: bs, h => by
    have := removed_length es bs (by simpa using h)
    simp only [removed, Bool.false_eq_true, if_false, List.length_cons]
    simp
    omega

theorem count_take_drop (bs : List Bool) (n : Nat) : (bs.take n).count true + (bs.drop n).count true = bs.count true := by
  rw [← List.count_append, List.take_append_drop]

theorem total_inserted (x : Event A V) : ∀ (log : Log I A V) (bs : List Bool), bs.length = total log →
    total (spread id (inserted x) log bs) = total log + bs.count true
  | [], bs, h => by
    have : bs = [] := List.length_eq_zero_iff.1 h
    subst this
    rfl
  | t :: ts, bs, h => by
    rw [total_cons] at h
    rw [spread, total_cons, total_cons, id, inserted_length _ _ _ (by rw [List.length_take]; omega),
      total_inserted x ts _ (by rw [List.length_drop]; omega)]
    have := count_take_drop bs t.events.length
    omega

theorem total_removed : ∀ (log : Log I A V) (bs : List Bool), bs.length = total log →
    total (spread id removed log bs) + bs.count true = total log
  | [], bs, h => by
    have : bs = [] := List.length_eq_zero_iff.1 h
    subst this
    rfl
  | t :: ts, bs, h => by
    rw [total_cons] at h
    rw [spread, total_cons, total_cons, id]
    have h1 := removed_length t.events (bs.take t.events.length) (by rw [List.length_take]; omega)
    have h2 := total_removed ts (bs.drop t.events.length) (by rw [List.length_drop]; omega)
    have := count_take_drop bs t.events.length
    dsimp only
    omega

theorem total_filter : ∀ log : Log I A V, total (log.filter fun t => decide (t.events.length > 0)) = total log
  | [] => rfl
  | t :: ts => by
    rw [List.filter_cons, total_cons]
    split
    · rw [total_cons, total_filter ts]
    · next h =>
      rw [total_filter ts]
      simp only [gt_iff_lt, decide_eq_true_eq, not_lt, Nat.le_zero] at h
      omega

/-- C173: the number of inserted events has a binomial distribution: of the N^m outcomes for a log with m events, exactly
C(m,k) c^k (N-c)^(m-k) insert k events, with c = `below N p` -/
theorem C173_add_binomial (N : Nat) (a : A) {p : ℚ} (hp : 0 < p) (log : Log I A V) (k : Nat) :
    Nat.card { w : Outcome (total log) N //
      ∃ n log', (Noise.add a p (numbers w)).apply source log = .ok (n, log') ∧ total log' = total log + k } =
    (total log).choose k * (below N p ^ k * (N - below N p) ^ (total log - k)) := by
  rw [C173_add_law N a hp log (fun log' => total log' = total log + k), ← sum_binomial]
  refine Finset.sum_congr ?_ fun _ _ => rfl
  ext bits
  simp only [Finset.mem_filter, Finset.mem_univ, true_and]
  rw [total_inserted _ _ _ (by simp), count_ofFn]
  omega

/-- C173: so has the number of removed events -/
theorem C173_remove_binomial (N : Nat) {p : ℚ} (hp : 0 < p) (log : Log I A V) (k : Nat) :
    Nat.card { w : Outcome (total log) N //
      ∃ n log', (Noise.remove p (numbers w)).apply source log = .ok (n, log') ∧ total log' + k = total log } =
    (total log).choose k * (below N p ^ k * (N - below N p) ^ (total log - k)) := by
  rw [C173_remove_law N hp log (fun log' => total log' + k = total log), ← sum_binomial]
  refine Finset.sum_congr ?_ fun _ _ => rfl
  ext bits
  simp only [Finset.mem_filter, Finset.mem_univ, true_and]
  rw [total_filter]
  have := total_removed log (List.ofFn bits) (by simp)
  rw [count_ofFn] at this
  omega

/-- C173: nothing is left of a log with m events in exactly c^m of the N^m outcomes -/
theorem C173_remove_everything (N : Nat) {p : ℚ} (hp : 0 < p) (log : Log I A V) :
    Nat.card { w : Outcome (total log) N // ∃ n, (Noise.remove p (numbers w)).apply source log = .ok (n, []) } = below N p ^ total log := by
  have := C173_remove_binomial N hp log (total log)
  rw [Nat.choose_self, Nat.sub_self, Nat.pow_zero, Nat.mul_one, Nat.one_mul] at this
  rw [← this]
  refine Nat.card_congr (Equiv.subtypeEquivRight fun w => ?_)
  constructor
  · rintro ⟨n, h⟩
    exact ⟨n, [], h, by simp [total]⟩
  · rintro ⟨n, log', h, ht⟩
    have h0 : total log' = 0 := by omega
    cases log' with
    | nil => exact ⟨n, h⟩
    | cons t ts =>
      rw [remove_log source hp] at h
      have h2 := congrArg Prod.snd (Except.ok.inj h)
      have hmem : t ∈ (spread id removed log ((draws source (total log) (numbers w)).1.map fun d => decide (d < p))).filter
          fun t => decide (t.events.length > 0) := by
        dsimp only at h2
        rw [h2]
        simp
      have := (List.mem_filter.1 hmem).2
      rw [total_cons] at h0
      simp only [gt_iff_lt, decide_eq_true_eq] at this
      omega

/-! ### mean values -/

theorem card_mark {m : Nat} (N : Nat) (p : ℚ) (i : Fin m) :
    (Finset.univ.filter fun w : Outcome m N => marks p w i = true).card = below N p * N ^ (m - 1) := by
  have : (Finset.univ.filter fun w : Outcome m N => marks p w i = true) =
      Fintype.piFinset fun j => if j = i then Finset.univ.filter fun k : Fin N => ((k : Nat) : ℚ) / N < p else Finset.univ := by
    ext w
    simp only [Finset.mem_filter, Finset.mem_univ, true_and, Fintype.mem_piFinset, marks, decide_eq_true_eq]
    constructor
    · intro h j
      by_cases hj : j = i
      · subst hj; simpa using h
      · simp [hj]
    · intro h
      simpa using h i
  rw [this, Fintype.card_piFinset]
  have h2 : ∀ j : Fin m, (if j = i then Finset.univ.filter fun k : Fin N => ((k : Nat) : ℚ) / N < p else Finset.univ).card =
      if j = i then below N p else N := by
    intro j
    split
    · rfl
    · simp
  rw [Finset.prod_congr rfl fun j _ => h2 j, Finset.prod_ite, Finset.prod_const, Finset.prod_const, Finset.filter_eq' , if_pos (Finset.mem_univ i),
    Finset.card_singleton, pow_one, Finset.filter_ne', Finset.card_erase_of_mem (Finset.mem_univ i), Finset.card_univ, Fintype.card_fin]

theorem sum_struck (m N : Nat) (p : ℚ) : ∑ w : Outcome m N, struck (marks p w) = m * (below N p * N ^ (m - 1)) := by
  unfold struck
  simp only [Finset.card_filter]
  rw [Finset.sum_comm]
  have : ∀ i : Fin m, (∑ w : Outcome m N, if marks p w i = true then 1 else 0) = below N p * N ^ (m - 1) := by
    intro i
    rw [← Finset.card_filter, card_mark]
  rw [Finset.sum_congr rfl fun i _ => this i, Finset.sum_const, Finset.card_univ, Fintype.card_fin, smul_eq_mul]

theorem mean_struck (m : Nat) {N : Nat} (hN : 0 < N) (p : ℚ) :
    (∑ w : Outcome m N, (struck (marks p w) : ℚ)) / N ^ m = m * (below N p / N) := by
  have hN' : (N : ℚ) ≠ 0 := by exact_mod_cast hN.ne'
  rw [← Nat.cast_sum, sum_struck]
  cases m with
  | zero => simp
  | succ m =>
    rw [Nat.add_sub_cancel]
    push_cast
    rw [pow_succ]
    field_simp

/-- C173: on average, over all outcomes, the add noise inserts the share ⌈p N⌉/N of the number of events; `size w` is the number of events
after the noise with the outcome `w` -/
theorem C173_add_mean {N : Nat} (hN : 0 < N) (a : A) {p : ℚ} (hp : 0 < p) (log : Log I A V) (size : Outcome (total log) N → Nat)
    (hs : ∀ w, ∃ n log', (Noise.add a p (numbers w)).apply source log = .ok (n, log') ∧ total log' = size w) :
    (∑ w, (size w : ℚ)) / N ^ total log = total log * (1 + below N p / N) := by
  have hN' : (N : ℚ) ≠ 0 := by exact_mod_cast hN.ne'
  have key : ∀ w, (size w : ℚ) = total log + struck (marks p w) := by
    intro w
    obtain ⟨n, log', h, ht⟩ := hs w
    rw [add_log source a hp, marks_numbers] at h
    have h2 := congrArg Prod.snd (Except.ok.inj h)
    dsimp only at h2
    rw [← ht, ← h2, total_inserted _ _ _ (by simp), count_ofFn]
    push_cast
    rfl
  rw [Finset.sum_congr rfl fun w _ => key w, Finset.sum_add_distrib, add_div, mean_struck _ hN, Finset.sum_const, Finset.card_univ, Fintype.card_pi]
  simp only [Fintype.card_fin, Finset.prod_const, Finset.card_univ, nsmul_eq_mul, Nat.cast_pow]
  field_simp

/-- C173: and the remove noise removes that share -/
theorem C173_remove_mean {N : Nat} (hN : 0 < N) {p : ℚ} (hp : 0 < p) (log : Log I A V) (size : Outcome (total log) N → Nat)
    (hs : ∀ w, ∃ n log', (Noise.remove p (numbers w)).apply source log = .ok (n, log') ∧ total log' = size w) :
    (∑ w, (size w : ℚ)) / N ^ total log = total log * (1 - below N p / N) := by
  have hN' : (N : ℚ) ≠ 0 := by exact_mod_cast hN.ne'
  have key : ∀ w, (size w : ℚ) = total log - struck (marks p w) := by
    intro w
    obtain ⟨n, log', h, ht⟩ := hs w
    rw [remove_log source hp, marks_numbers] at h
    have h2 := congrArg Prod.snd (Except.ok.inj h)
    dsimp only at h2
    have h3 := total_removed log (List.ofFn (marks p w)) (by simp)
    rw [count_ofFn] at h3
    rw [← ht, ← h2, total_filter, eq_sub_iff_add_eq]
    exact_mod_cast h3
  rw [Finset.sum_congr rfl fun w _ => key w, Finset.sum_sub_distrib, sub_div, mean_struck _ hN, Finset.sum_const, Finset.card_univ, Fintype.card_pi]
  simp only [Fintype.card_fin, Finset.prod_const, Finset.card_univ, nsmul_eq_mul, Nat.cast_pow]
  field_simp

/-- C173: the share is the given probability, rounded up to a multiple of 1/N -/
theorem C173_share {N : Nat} (hN : 0 < N) {p : ℚ} (hp : 0 < p) (h1 : p ≤ 1) :
    p ≤ below N p / N ∧ (below N p : ℚ) / N < p + 1 / N ∧ (∀ k : Nat, p = k / N → (below N p : ℚ) / N = p) := by
  have hN' : (0 : ℚ) < N := by exact_mod_cast hN
  rw [below_eq hN h1]
  refine ⟨?_, ?_, ?_⟩
  · rw [le_div_iff₀ hN']
    exact Nat.le_ceil _
  · rw [div_lt_iff₀ hN', add_mul, one_div, inv_mul_cancel₀ hN'.ne']
    exact Nat.ceil_lt_add_one (by positivity)
  · rintro k rfl
    rw [div_mul_cancel₀ _ hN'.ne', Nat.ceil_natCast]

/-! ### logs that are not changed by the swap noise -/

theorem bubbled_eq_self : ∀ (es : List (Event A V)) (bs : List Bool), bs.length = es.length - 1 → es.Nodup →
    (bubbled es bs = es ↔ bs.count true = 0)
  | [], bs, h, _ => by
    have : bs = [] := List.length_eq_zero_iff.1 h
    subst this
    simp [bubbled]
  | [e], bs, h, _ => by
    have : bs = [] := List.length_eq_zero_iff.1 h
    subst this
    simp [bubbled]
  | c :: x :: es, [], h, _ => by simp at h
  | c :: x :: es, true :: bs, h, hn => by
    have : x ≠ c := by
      rintro rfl
      simp at hn
    simp [bubbled, this]
  | c :: x :: es, false :: bs, h, hn => by
    have := bubbled_eq_self (x :: es) bs (by simpa using h) (List.nodup_cons.1 hn).2
    simp only [bubbled, Bool.false_eq_true, if_false, List.cons.injEq, true_and, this]
    simp

theorem spread_bubbled_eq_self : ∀ (log : Log I A V) (bs : List Bool), bs.length = pairs log → (∀ t ∈ log, t.events.Nodup) →
    (spread (· - 1) bubbled log bs = log ↔ bs.count true = 0)
  | [], bs, h, _ => by
    have : bs = [] := List.length_eq_zero_iff.1 h
    subst this
    simp [spread]
  | t :: ts, bs, h, hn => by
    have hp : pairs (t :: ts) = (t.events.length - 1) + pairs ts := by simp [pairs]
    rw [hp] at h
    have h1 := bubbled_eq_self t.events (bs.take (t.events.length - 1)) (by rw [List.length_take]; omega) (hn t (by simp))
    have h2 := spread_bubbled_eq_self ts (bs.drop (t.events.length - 1)) (by rw [List.length_drop]; omega) (fun u hu => hn u (by simp [hu]))
    have h3 := count_take_drop bs (t.events.length - 1)
    rw [spread, List.cons.injEq, h2]
    have : ({ t with events := bubbled t.events (bs.take (t.events.length - 1)) } = t) ↔ bubbled t.events (bs.take (t.events.length - 1)) = t.events := by
      constructor
      · intro h; exact congrArg Trace.events h
      · intro h; rw [h]
    rw [this, h1]
    omega

/-- C173: a log whose traces have no equal events is not changed by the swap noise in exactly (N-c)^m of the N^m outcomes, where m is the number of
pairs of neighbours -/
theorem C173_swap_nothing (N : Nat) {p : ℚ} (hp : 0 < p) (log : Log I A V) (hn : ∀ t ∈ log, t.events.Nodup) :
    Nat.card { w : Outcome (pairs log) N // ∃ n, (Noise.swap p (numbers w)).apply source log = .ok (n, log) } = (N - below N p) ^ pairs log := by
  classical
  have h1 := C173_swap_law N hp log (fun log' => log' = log)
  have h2 := sum_binomial (pairs log) N p 0
  rw [Nat.choose_zero_right, pow_zero, Nat.one_mul, Nat.one_mul, Nat.sub_zero] at h2
  rw [← h2]
  refine Eq.trans ?_ (h1.trans ?_)
  · refine Nat.card_congr (Equiv.subtypeEquivRight fun w => ?_)
    constructor
    · rintro ⟨n, h⟩; exact ⟨n, log, h, rfl⟩
    · rintro ⟨n, _, h, rfl⟩; exact ⟨n, h⟩
  · refine Finset.sum_congr ?_ fun _ _ => rfl
    ext bits
    simp only [Finset.mem_filter, Finset.mem_univ, true_and]
    rw [spread_bubbled_eq_self log _ (by simp) hn, count_ofFn]

/-! ### examples -/

/-- a log with two traces: a b, and c -/
def exLawLog : Log Nat String Nat := [⟨1, [Event.new "a", Event.new "b"], []⟩, ⟨2, [Event.new "c"], []⟩]

/-- with the numbers 0, 1/4, 1/2, 3/4 and probability 3/10, two of the four numbers are below -/
example : below 4 (3 / 10) = 2 := by decide +kernel

/-- 24 of the 64 outcomes remove exactly one of the three events, 8 remove all -/
example : Nat.card { w : Outcome (total exLawLog) 4 //
      ∃ n log', (Noise.remove (3 / 10) (numbers w)).apply source exLawLog = .ok (n, log') ∧ total log' + 1 = total exLawLog } = 24 ∧
    Nat.card { w : Outcome (total exLawLog) 4 // ∃ n, (Noise.remove (3 / 10) (numbers w)).apply source exLawLog = .ok (n, []) } = 8 := by
  have h : below 4 (3 / 10) = 2 := by decide +kernel
  constructor
  · rw [C173_remove_binomial 4 (by norm_num) exLawLog 1, h]
    rfl
  · rw [C173_remove_everything 4 (by norm_num) exLawLog, h]
    rfl

/-- the sizes in `C173_add_mean` exist; on average 3 · (1 + 2/4) events are left -/
example : ∃ size : Outcome (total exLawLog) 4 → Nat,
    (∀ w, ∃ n log', (Noise.add "x" (3 / 10) (numbers w)).apply source exLawLog = .ok (n, log') ∧ total log' = size w) ∧
    (∑ w, (size w : ℚ)) / 4 ^ 3 = 9 / 2 := by
  have hex : ∀ w : Outcome (total exLawLog) 4, ∃ k n log', (Noise.add "x" (3 / 10) (numbers w)).apply source exLawLog = .ok (n, log') ∧ total log' = k := by
    intro w
    obtain ⟨n, log', h, _⟩ := C38_only_inserts source "x" (3 / 10) (numbers w) exLawLog
    exact ⟨_, n, log', h, rfl⟩
  choose size hs using hex
  refine ⟨size, hs, ?_⟩
  have h := C173_add_mean (N := 4) (by norm_num) "x" (by norm_num : (0 : ℚ) < 3 / 10) exLawLog size hs
  have hb : below 4 (3 / 10) = 2 := by decide +kernel
  have ht : total exLawLog = 3 := rfl
  rw [hb] at h
  refine Eq.trans ?_ (h.trans ?_)
  · have : ((4 : Nat) : ℚ) ^ total exLawLog = 4 ^ 3 := by rw [ht]; norm_num
    rw [this]
  · rw [ht]; norm_num

/-- with the one pair of neighbours, two of four outcomes change nothing -/
example : Nat.card { w : Outcome (pairs exLawLog) 4 // ∃ n, (Noise.swap (3 / 10) (numbers w)).apply source exLawLog = .ok (n, exLawLog) } = 2 := by
  have h : below 4 (3 / 10) = 2 := by decide +kernel
  rw [C173_swap_nothing 4 (by norm_num) exLawLog (by decide), h]
  rfl

end Prolothar.LogNoise
