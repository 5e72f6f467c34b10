import Verif.Lemmas.EventLogJoin
import Verif.Lemmas.EventLogEq
import Mathlib.Data.Rat.Floor
import Mathlib.Algebra.Order.Field.Basic
import Mathlib.Tactic.Linarith
set_option linter.unusedSimpArgs false
set_option linter.unusedVariables false
set_option linter.unusedSectionVars false
/-! Event logs: cutting, filtering, counting, joining, splitting, serialising, comparing. -/
namespace Prolothar.EventLog
open Prolothar.Spec.EventLog
variable {I A V : Type}

/-! ### C29 cutting -/

/-- the events from the first start event on; only the last event if there is no start event -/
def fromStart (S : A → Bool) (es : List (Event A V)) : List (Event A V) :=
  if es.any (fun e => S e.activity) then es.dropWhile (fun e => !S e.activity)
  else es.drop (es.length - 1)

/-- C29: `cut_traces` with start and end activities replaces every trace by its events from the first
start event to the last end event thereafter and drops the traces of which nothing is left. -/
theorem C29_cut_traces (log : Log I A V) (S E : A → Bool) :
    cutTraces log (some S) (some E)
      = (log.map fun (t : Trace I A V) =>
          { t with events := (fromStart S t.events).rdropWhile fun e => !E e.activity }).filter
        fun t => !t.events.isEmpty := by
  unfold cutTraces
  simp only [List.map_map]
  have h1 : (fun t : Trace I A V => decide (t.events.length > 0)) = fun t => !t.events.isEmpty := by
    funext t; cases t.events <;> simp
  rw [h1]
  congr 1
  apply List.map_congr_left
  intro t _
  simp only [Function.comp]
  unfold fromStart
  rw [← sliceFrom_first t S]
  congr 1
  exact sliceTo_last (⟨t.id, sliceFrom t.events (firstIndexOfMatching t S), t.attributes⟩ : Trace I A V) E

/-- C29: only start activities given. -/
theorem C29_cut_start (log : Log I A V) (S : A → Bool) :
    cutTraces log (some S) none
      = (log.map fun (t : Trace I A V) => { t with events := fromStart S t.events }).filter
        fun t => !t.events.isEmpty := by
  unfold cutTraces
  have h1 : (fun t : Trace I A V => decide (t.events.length > 0)) = fun t => !t.events.isEmpty := by
    funext t; cases t.events <;> simp
  simp only [h1]
  congr 1
  apply List.map_congr_left
  intro t _
  rw [sliceFrom_first t S]; rfl

/-- C29: only end activities given. -/
theorem C29_cut_end (log : Log I A V) (E : A → Bool) :
    cutTraces log none (some E)
      = (log.map fun (t : Trace I A V) =>
          { t with events := t.events.rdropWhile fun e => !E e.activity }).filter
        fun t => !t.events.isEmpty := by
  unfold cutTraces
  have h1 : (fun t : Trace I A V => decide (t.events.length > 0)) = fun t => !t.events.isEmpty := by
    funext t; cases t.events <;> simp
  simp only [h1]
  congr 1
  apply List.map_congr_left
  intro t _
  rw [sliceTo_last t E]

/-- C29: nothing given, only empty traces are dropped. -/
theorem C29_cut_nothing (log : Log I A V) :
    cutTraces log none none = log.filter fun t => !t.events.isEmpty := by
  unfold cutTraces
  have h1 : (fun t : Trace I A V => decide (t.events.length > 0)) = fun t => !t.events.isEmpty := by
    funext t; cases t.events <;> simp
  simp only [h1]

/-- C29: the meaning of the window. For a trace whose events split as `pre`, a start event `s`, `mid`,
an end event `e`, `post`, with no start event in `pre` and no end event in `post`, the result is the
trace with the window from `s` to `e`. -/
theorem C29_window (t : Trace I A V) (S E : A → Bool) (pre mid post : List (Event A V))
    (s e : Event A V) (ht : t.events = pre ++ (s :: mid ++ [e]) ++ post)
    (hpre : ∀ x ∈ pre, S x.activity = false) (hs : S s.activity = true)
    (he : E e.activity = true) (hpost : ∀ x ∈ post, E x.activity = false) :
    cutTraces [t] (some S) (some E) = [{ t with events := s :: mid ++ [e] }] := by
  have h1 : fromStart S t.events = (s :: mid ++ [e]) ++ post := by
    unfold fromStart
    rw [if_pos (by rw [ht, List.any_eq_true]; exact ⟨s, by simp, hs⟩), ht, List.append_assoc,
      List.dropWhile_append_of_pos (fun x hx => by simp [hpre x hx])]
    simp [hs]
  have h2 : ((s :: mid ++ [e]) ++ post).rdropWhile (fun x => !E x.activity) = s :: mid ++ [e] := by
    unfold List.rdropWhile
    rw [List.reverse_append, List.dropWhile_append_of_pos (fun x hx => by
      simp [hpost x (by simpa using hx)])]
    simp [he]
  rw [C29_cut_traces, List.map_singleton, h1, h2]
  rfl

/-- C29: if the first and only start event is also the last end event, it alone is kept. -/
theorem C29_window_single (t : Trace I A V) (S E : A → Bool) (pre post : List (Event A V))
    (s : Event A V) (ht : t.events = pre ++ s :: post)
    (hpre : ∀ x ∈ pre, S x.activity = false) (hs : S s.activity = true)
    (he : E s.activity = true) (hpost : ∀ x ∈ post, E x.activity = false) :
    cutTraces [t] (some S) (some E) = [{ t with events := [s] }] := by
  have h1 : fromStart S t.events = s :: post := by
    unfold fromStart
    rw [if_pos (by rw [ht, List.any_eq_true]; exact ⟨s, by simp, hs⟩), ht,
      List.dropWhile_append_of_pos (fun x hx => by simp [hpre x hx])]
    simp [hs]
  have h2 : (s :: post).rdropWhile (fun x => !E x.activity) = [s] := by
    unfold List.rdropWhile
    rw [List.reverse_cons, List.dropWhile_append_of_pos (fun x hx => by
      simp [hpost x (by simpa using hx)])]
    simp [he]
  rw [C29_cut_traces]
  simp [h1, h2]

/-- C29: a trace without end event at or after its first start event is dropped. -/
theorem C29_dropped (t : Trace I A V) (S E : A → Bool) (pre post : List (Event A V))
    (s : Event A V) (ht : t.events = pre ++ s :: post)
    (hpre : ∀ x ∈ pre, S x.activity = false) (hs : S s.activity = true)
    (hpost : ∀ x ∈ s :: post, E x.activity = false) :
    cutTraces [t] (some S) (some E) = [] := by
  have h1 : fromStart S t.events = s :: post := by
    unfold fromStart
    rw [if_pos (by rw [ht, List.any_eq_true]; exact ⟨s, by simp, hs⟩), ht,
      List.dropWhile_append_of_pos (fun x hx => by simp [hpre x hx])]
    simp [hs]
  have h2 : (s :: post).rdropWhile (fun x => !E x.activity) = [] := by
    rw [List.rdropWhile_eq_nil_iff]
    intro x hx
    simp [hpost x hx]
  rw [C29_cut_traces]
  simp [h1, h2]

/-- C29, disagreement: a trace without any start event is not dropped: its last event is kept, if
that is an end event. -/
theorem C29_no_start_event (t : Trace I A V) (S E : A → Bool) (pre : List (Event A V)) (e : Event A V)
    (ht : t.events = pre ++ [e]) (hS : ∀ x ∈ t.events, S x.activity = false)
    (he : E e.activity = true) :
    cutTraces [t] (some S) (some E) = [{ t with events := [e] }] := by
  have h1 : fromStart S t.events = [e] := by
    unfold fromStart
    rw [if_neg (by
      intro hc
      obtain ⟨x, hx, hc⟩ := List.any_eq_true.1 hc
      rw [hS x hx] at hc; cases hc), ht]
    simp
  rw [C29_cut_traces]
  have h2 : [e].rdropWhile (fun x => !E x.activity) = [e] := by simp [List.rdropWhile, he]
  simp [h1, h2]

def ev (a : String) : Event String Nat := Event.new a

example : cutTraces [(⟨7, [ev "x", ev "a", ev "y", ev "e", ev "z", ev "e", ev "q"], []⟩ : Trace Nat String Nat)]
    (some (· == "a")) (some (· == "e"))
    = [⟨7, [ev "a", ev "y", ev "e", ev "z", ev "e"], []⟩] :=
  C29_window _ _ _ [ev "x"] [ev "y", ev "e", ev "z"] [ev "q"] (ev "a") (ev "e") rfl
    (by decide) (by decide) (by decide) (by decide)
example : cutTraces [(⟨7, [ev "x", ev "e"], []⟩ : Trace Nat String Nat)]
    (some (· == "a")) (some (· == "e")) = [⟨7, [ev "e"], []⟩] :=
  C29_no_start_event _ _ _ [ev "x"] (ev "e") rfl (by decide) (by decide)

/-! ### C30 filtering -/

/-- C30: with `remove_empty_traces` the result's traces are, in order, those original traces that
have an allowed event, each with exactly its allowed events in order; id and attributes are kept. -/
theorem C30_filter_activities (log : Log I A V) (p : A → Bool) :
    filterActivities log p true
      = (log.filter fun t => t.events.any fun e => p e.activity).map fun (t : Trace I A V) =>
          { t with events := t.events.filter fun e => p e.activity } := by
  unfold filterActivities
  simp only [if_true, List.filter_map]
  congr 1
  apply List.filter_congr
  intro t _
  simp only [Function.comp]
  rw [Bool.eq_iff_iff, decide_eq_true_eq, gt_iff_lt, List.length_pos_iff_exists_mem, List.any_eq_true]
  simp [List.mem_filter]

/-- C30: without `remove_empty_traces` no trace is removed. -/
theorem C30_filter_keep_empty (log : Log I A V) (p : A → Bool) :
    filterActivities log p false
      = log.map fun (t : Trace I A V) => { t with events := t.events.filter fun e => p e.activity } := rfl

/-- C30: all remaining activities are allowed and no trace is empty. -/
theorem C30_no_forbidden_event (log : Log I A V) (p : A → Bool) :
    ∀ t ∈ filterActivities log p true, t.events ≠ [] ∧ ∀ e ∈ t.events, p e.activity = true := by
  rw [C30_filter_activities]
  intro t ht
  obtain ⟨u, hu, rfl⟩ := List.mem_map.1 ht
  rw [List.mem_filter] at hu
  obtain ⟨e, he, hp⟩ := List.any_eq_true.1 hu.2
  refine ⟨List.ne_nil_of_mem (List.mem_filter.2 ⟨he, hp⟩), fun e' he' => (List.mem_filter.1 he').2⟩

/-- C30: filtering twice is filtering by both conditions; in particular it is idempotent. -/
theorem C30_filter_twice (log : Log I A V) (p q : A → Bool) (b : Bool) :
    filterActivities (filterActivities log p b) q b = filterActivities log (fun a => p a && q a) b := by
  cases b with
  | false =>
    simp only [C30_filter_keep_empty, List.map_map]
    apply List.map_congr_left
    intro t _
    simp [List.filter_filter, Bool.and_comm]
  | true =>
    simp only [C30_filter_activities, List.filter_map, List.map_map, List.filter_filter]
    have h1 : ∀ t : Trace I A V, (t.events.any (fun e => p e.activity) &&
        ((fun t : Trace I A V => t.events.any fun e => q e.activity) ∘
          fun t : Trace I A V => ({ t with events := t.events.filter fun e => p e.activity } : Trace I A V)) t)
        = t.events.any fun e => p e.activity && q e.activity := by
      intro t
      simp only [Function.comp]
      rw [Bool.eq_iff_iff]
      simp only [Bool.and_eq_true, List.any_eq_true, List.mem_filter]
      constructor
      · rintro ⟨_, e, he, hq⟩; exact ⟨e, he.1, he.2, hq⟩
      · rintro ⟨e, he, hp, hq⟩; exact ⟨⟨e, he, hp⟩, e, ⟨he, hp⟩, hq⟩
    have h2 : ∀ t : Trace I A V, (((fun t : Trace I A V => t.events.any fun e => q e.activity) ∘
          fun t : Trace I A V => ({ t with events := t.events.filter fun e => p e.activity } : Trace I A V)) t
          && t.events.any (fun e => p e.activity))
        = t.events.any fun e => p e.activity && q e.activity := by
      intro t; rw [Bool.and_comm]; exact h1 t
    simp only [h1, h2]
    apply List.map_congr_left
    intro t _
    simp [List.filter_filter, Bool.and_comm]

theorem C30_idempotent (log : Log I A V) (p : A → Bool) (b : Bool) :
    filterActivities (filterActivities log p b) p b = filterActivities log p b := by
  rw [C30_filter_twice]; simp

example : filterActivities [(⟨1, [ev "a", ev "b", ev "a"], []⟩ : Trace Nat String Nat), ⟨2, [ev "b"], []⟩]
    (· == "a") true = [⟨1, [ev "a", ev "a"], []⟩] := by
  rw [C30_filter_activities]; rfl

/-! ### C31 counting -/
section
variable [DecidableEq A]

/-- C31: the count of the pair `(a, b)` is the number of events with activity `b` that have an
earlier event with activity `a` in the same trace. The result has an entry for exactly the pairs of
activities of the log. -/
theorem C31_count_follows (log : Log I A V) (a b : A) :
    (countFollows log).get? (a, b)
      = if (∃ t ∈ log, a ∈ t.activities) ∧ (∃ t ∈ log, b ∈ t.activities)
        then some (log.map fun t => followCount a b t.activities).sum else none := by
  unfold countFollows
  simp only
  rw [fill]
  obtain ⟨h1, h2⟩ := countLog log ([] : Dict (A × A) Nat)
  have h1 := h1 a b
  have h2 := h2 a b
  generalize log.foldl (fun c t => (t.events.foldl countStep (c, [])).1) [] = c at *
  simp only [mem_activitySet]
  have h0 : val ([] : Dict (A × A) Nat) (a, b) = 0 := rfl
  rw [h0, Nat.zero_add] at h1
  rw [← h1]
  unfold val
  cases hc : Dict.get? c (a, b) with
  | none => simp only [Option.getD_none]
  | some v =>
    simp only [Option.getD_some]
    rcases h2 (by rw [hc]; rfl) with h | h
    · cases h
    · rw [if_pos h]

/-- C31: this is the documented number of occurrences of `a, ?, b` without `a` in between. -/
theorem C31_documented_count (log : Log I A V) (a b : A) (ha : ∃ t ∈ log, a ∈ t.activities)
    (hb : ∃ t ∈ log, b ∈ t.activities) :
    (countFollows log).get? (a, b) = some (log.map fun t => documentedCount a b t.activities).sum := by
  rw [C31_count_follows, if_pos ⟨ha, hb⟩]
  simp only [followCount_eq_documented]

example : (countFollows [(⟨1, [ev "a", ev "b", ev "a", ev "b", ev "b"], []⟩ : Trace Nat String Nat)]).get? ("a", "b")
    = some 3 := by
  rw [C31_count_follows, if_pos (by decide)]; decide

/-! ### C32 first occurrences -/

/-- C32: the result has the same traces in order; in each the events are exactly the first
occurrences of the activities, in their original order. -/
theorem C32_keep_first (log : Log I A V) :
    List.Forall₂ (fun t t' : Trace I A V => t'.id = t.id ∧ t'.attributes = t.attributes ∧
        t'.events.Sublist t.events ∧ t'.activities.Nodup ∧
        (∀ a, a ∈ t'.activities ↔ a ∈ t.activities) ∧
        ∀ e ∈ t'.events, ∃ pre post, t.events = pre ++ e :: post ∧
          e.activity ∉ pre.map Event.activity)
      log (keepFirst log) := by
  unfold keepFirst
  rw [List.forall₂_map_right_iff, List.forall₂_same]
  intro t _
  obtain ⟨h1, h2, h3, h4⟩ := firsts_spec [] t.events
  refine ⟨rfl, rfl, h1, h2, fun a => ?_, h4⟩
  have := h3 a
  rw [and_iff_left (by simp)] at this
  exact this

theorem C32_idempotent (log : Log I A V) : keepFirst (keepFirst log) = keepFirst log := by
  unfold keepFirst
  rw [List.map_map]
  apply List.map_congr_left
  intro t _
  simp only [Function.comp]
  congr 1
  exact firsts_of_nodup [] _ (firsts_spec [] t.events).2.1 (by simp)

example : keepFirst [(⟨1, [ev "a", ev "b", ev "a", ev "c", ev "b"], []⟩ : Trace Nat String Nat)]
    = [⟨1, [ev "a", ev "b", ev "c"], []⟩] := by decide

/-! ### C33 artificial activities -/

/-- C33: every trace gets the new event in front, the rest is untouched; dropping the first event
of every trace restores the log. -/
theorem C33_add_start (log : Log I A V) (a : A) :
    (∀ t ∈ addStartActivity log a, ∃ u ∈ log, t.activities = a :: u.activities) ∧
    (addStartActivity log a).map (fun (t : Trace I A V) => { t with events := t.events.tail }) = log := by
  unfold addStartActivity
  constructor
  · intro t ht
    obtain ⟨u, hu, rfl⟩ := List.mem_map.1 ht
    exact ⟨u, hu, rfl⟩
  · rw [List.map_map]; exact List.map_id _

/-- C33: every trace gets the new event at its end; dropping the last event of every trace restores
the log. -/
theorem C33_add_end (log : Log I A V) (a : A) :
    (∀ t ∈ addEndActivity log a, ∃ u ∈ log, t.activities = u.activities ++ [a]) ∧
    (addEndActivity log a).map (fun (t : Trace I A V) => { t with events := t.events.dropLast }) = log := by
  unfold addEndActivity
  constructor
  · intro t ht
    obtain ⟨u, hu, rfl⟩ := List.mem_map.1 ht
    exact ⟨u, hu, by simp [Trace.activities, Event.new]⟩
  · rw [List.map_map]
    conv_rhs => rw [← List.map_id log]
    apply List.map_congr_left
    intro t _
    simp [Function.comp]

theorem startActivities_foldl (log : Log I A V) (s : List A) (h : ∀ t ∈ log, t.events ≠ []) :
    ∃ r, log.foldlM (fun s t => do let e ← pyGet t.events 0; return setAdd s e.activity) s
        = (.ok r : Py (List A)) ∧
      ∀ a, a ∈ r ↔ a ∈ s ∨ ∃ t ∈ log, ∃ e, t.events.head? = some e ∧ e.activity = a := by
  induction log generalizing s with
  | nil => exact ⟨s, rfl, by simp⟩
  | cons t ts ih =>
    cases hev : t.events with
    | nil => exact absurd hev (h t (by simp))
    | cons e es =>
      obtain ⟨r, h1, h2⟩ := ih (setAdd s e.activity) fun u hu => h u (by simp [hu])
      refine ⟨r, ?_, fun a => ?_⟩
      · rw [List.foldlM_cons, hev]; exact h1
      · rw [h2, mem_setAdd]
        simp [hev, or_assoc, eq_comm]

theorem endActivities_foldl (log : Log I A V) (s : List A) (h : ∀ t ∈ log, t.events ≠ []) :
    ∃ r, log.foldlM (fun s t => do let e ← pyGet t.events (-1); return setAdd s e.activity) s
        = (.ok r : Py (List A)) ∧
      ∀ a, a ∈ r ↔ a ∈ s ∨ ∃ t ∈ log, ∃ e, t.events.getLast? = some e ∧ e.activity = a := by
  induction log generalizing s with
  | nil => exact ⟨s, rfl, by simp⟩
  | cons t ts ih =>
    have hne := h t (by simp)
    obtain ⟨e, he⟩ : ∃ e, t.events.getLast? = some e := ⟨_, List.getLast?_eq_some_getLast hne⟩
    have hlen := List.length_pos_iff.2 hne
    have hget : pyGet t.events (-1) = .ok e := by
      rw [List.getLast?_eq_getElem?] at he
      unfold pyGet
      simp only [show (-1 : Int) < 0 by decide, if_true]
      rw [if_neg (by omega),
        show ((-1 : Int) + t.events.length).toNat = t.events.length - 1 by omega, he]
    obtain ⟨r, h1, h2⟩ := ih (setAdd s e.activity) fun u hu => h u (by simp [hu])
    refine ⟨r, ?_, fun a => ?_⟩
    · rw [List.foldlM_cons, hget]; exact h1
    · rw [h2, mem_setAdd]
      simp [he, or_assoc, eq_comm]

/-- C33: on logs without empty traces the set of start (end) activities consists of exactly the
activities of the first (last) events. -/
theorem C33_start_activities (log : Log I A V) (h : ∀ t ∈ log, t.events ≠ []) :
    ∃ r, startActivities log = .ok r ∧
      ∀ a, a ∈ r ↔ ∃ t ∈ log, ∃ e, t.events.head? = some e ∧ e.activity = a := by
  obtain ⟨r, h1, h2⟩ := startActivities_foldl log [] h
  exact ⟨r, h1, fun a => by rw [h2]; simp⟩

theorem C33_end_activities (log : Log I A V) (h : ∀ t ∈ log, t.events ≠ []) :
    ∃ r, endActivities log = .ok r ∧
      ∀ a, a ∈ r ↔ ∃ t ∈ log, ∃ e, t.events.getLast? = some e ∧ e.activity = a := by
  obtain ⟨r, h1, h2⟩ := endActivities_foldl log [] h
  exact ⟨r, h1, fun a => by rw [h2]; simp⟩

/-- C33: after the framing the artificial activity is the only start (end) activity. -/
theorem C33_framed_start (log : Log I A V) (a : A) (hl : log ≠ []) :
    ∃ r, startActivities (addStartActivity log a) = .ok r ∧ ∀ b, b ∈ r ↔ b = a := by
  obtain ⟨r, h1, h2⟩ := C33_start_activities (addStartActivity log a) (by
    intro t ht; obtain ⟨u, _, rfl⟩ := List.mem_map.1 ht; simp)
  refine ⟨r, h1, fun b => ?_⟩
  rw [h2]
  constructor
  · rintro ⟨t, ht, e, he, rfl⟩
    obtain ⟨u, _, rfl⟩ := List.mem_map.1 ht
    simp at he; subst he; rfl
  · rintro rfl
    obtain ⟨t, ht⟩ := List.exists_mem_of_ne_nil _ hl
    exact ⟨_, List.mem_map.2 ⟨t, ht, rfl⟩, Event.new b, rfl, rfl⟩

theorem C33_framed_end (log : Log I A V) (a : A) (hl : log ≠ []) :
    ∃ r, endActivities (addEndActivity log a) = .ok r ∧ ∀ b, b ∈ r ↔ b = a := by
  obtain ⟨r, h1, h2⟩ := C33_end_activities (addEndActivity log a) (by
    intro t ht; obtain ⟨u, _, rfl⟩ := List.mem_map.1 ht; simp)
  refine ⟨r, h1, fun b => ?_⟩
  rw [h2]
  constructor
  · rintro ⟨t, ht, e, he, rfl⟩
    obtain ⟨u, _, rfl⟩ := List.mem_map.1 ht
    simp at he; subst he; rfl
  · rintro rfl
    obtain ⟨t, ht⟩ := List.exists_mem_of_ne_nil _ hl
    exact ⟨_, List.mem_map.2 ⟨t, ht, rfl⟩, Event.new b, by simp, rfl⟩

example : addEndActivity (addStartActivity [(⟨1, [ev "a"], []⟩ : Trace Nat String Nat)] "S") "E"
    = [⟨1, [ev "S", ev "a", ev "E"], []⟩] := by decide

/-! ### C34 joining -/

theorem mapM_ok_forall₂ {β γ : Type} {f : β → Py γ} {l : List β} {r : List γ}
    (h : l.mapM f = .ok r) : List.Forall₂ (fun x y => f x = .ok y) l r := by
  induction l generalizing r with
  | nil => rw [List.mapM_nil] at h; cases h; exact .nil
  | cons x xs ih =>
    rw [List.mapM_cons] at h
    cases hx : f x with
    | error e =>
      rw [hx] at h
      have h : Except.error (α := List γ) e = .ok r := h
      cases h
    | ok y =>
      rw [hx] at h
      cases hxs : xs.mapM f with
      | error e =>
        rw [hxs] at h
        have h : Except.error (α := List γ) e = .ok r := h
        cases h
      | ok ys =>
        rw [hxs] at h
        have h : Except.ok (ε := PyErr) (y :: ys) = .ok r := h
        cases h
        exact .cons hx (ih hxs)

theorem forall₂_mapM {β γ : Type} {f : β → Py γ} {l : List β} {r : List γ}
    (h : List.Forall₂ (fun x y => f x = .ok y) l r) : l.mapM f = .ok r := by
  induction h with
  | nil => rfl
  | cons h1 _ ih => rw [List.mapM_cons, h1, ih]; rfl

variable [DecidableEq V]

/-- C34: joining splits each trace into runs of events with equal activity and replaces every run by
one event (`Joined`: unchanged if the run is a single event, otherwise last end date, first start
date, duration recomputed, other attributes of the first event). Adjacent events of the result have
different activities unless the activity is blacklisted. Ids and attributes of the traces are kept. -/
theorem C34_join (args : JoinArgs A V) (log log' : Log I A V)
    (h : joinSuccessive args log = .ok log') :
    List.Forall₂ (fun t t' : Trace I A V => t'.id = t.id ∧ t'.attributes = t.attributes ∧
        (∃ runs, t.events = runs.flatten ∧ List.Forall₂ (Joined args) runs t'.events) ∧
        t'.activities.IsChain fun a b => a ≠ b ∨ args.blacklist b = true)
      log log' := by
  refine (mapM_ok_forall₂ h).imp ?_
  intro t t' ht
  cases hj : joinTrace args t.events with
  | error e =>
    simp only [hj] at ht
    have ht : Except.error (α := Trace I A V) e = .ok t' := ht
    cases ht
  | ok es =>
    simp only [hj] at ht
    have ht : Except.ok (ε := PyErr) ({ t with events := es } : Trace I A V) = .ok t' := ht
    cases ht
    unfold joinTrace at hj
    cases hev : t.events with
    | nil => rw [hev] at hj; cases hj
    | cons e rest =>
      simp only [hev] at hj
      cases hf : rest.foldlM (joinStep args) ([], e) with
      | error er =>
        simp only [hf] at hj
        have hj : Except.error (α := List (Event A V)) er = .ok es := hj
        cases hj
      | ok st =>
        simp only [hf] at hj
        have hj : Except.ok (ε := PyErr) (st.1 ++ [st.2]) = .ok es := hj
        cases hj
        obtain ⟨gs, h1, h2, h3⟩ := joinFold_ok (gs := []) (st := ([], e)) .nil
          (joined_single args e) (by simp) hf
        exact ⟨rfl, rfl, ⟨gs, by simpa using h2, h1⟩, h3⟩

/-- C34: the activity sequence of the result is the run-compressed original: repeating each activity
of the result at least once gives back the original sequence. With an empty blacklist no two adjacent
activities are equal. -/
theorem C34_run_compressed (args : JoinArgs A V) (log log' : Log I A V)
    (h : joinSuccessive args log = .ok log') (hb : ∀ a, args.blacklist a = false) :
    List.Forall₂ (fun t t' : Trace I A V => Expands t'.activities t.activities ∧
        t'.activities.IsChain (· ≠ ·)) log log' := by
  refine (C34_join args log log' h).imp ?_
  rintro t t' ⟨_, _, ⟨runs, h1, h2⟩, h3⟩
  refine ⟨?_, ?_⟩
  · have := joined_expands h2
    unfold Trace.activities; rw [h1]; exact this
  · refine h3.imp ?_
    rintro a b (h | h)
    · exact h
    · rw [hb] at h; cases h

/-- C34: the join succeeds if no trace is empty, the configured time attributes are present
everywhere, and (with `raise_error_on_different_attributes`) successive events that are to be joined
agree on the other attributes. -/
theorem C34_succeeds (args : JoinArgs A V) (log : Log I A V) (hne : ∀ t ∈ log, t.events ≠ [])
    (hp : ∀ t ∈ log, ∀ e ∈ t.events, Present args e)
    (hc : ∀ t ∈ log, t.events.IsChain fun a b => a.activity = b.activity →
      args.blacklist b.activity = false → Compatible args a b) :
    ∃ log', joinSuccessive args log = .ok log' := by
  induction log with
  | nil => exact ⟨[], rfl⟩
  | cons t ts ih =>
    obtain ⟨ts', h1⟩ := ih (fun u hu => hne u (by simp [hu])) (fun u hu => hp u (by simp [hu]))
      (fun u hu => hc u (by simp [hu]))
    cases hev : t.events with
    | nil => exact absurd hev (hne t (by simp))
    | cons e es =>
      have hpt := hp t (by simp)
      have hct := hc t (by simp)
      rw [hev] at hpt hct
      obtain ⟨st, hst⟩ := joinFold_succeeds (st := ([], e)) (fun x hx => hpt x (by simp [hx])) hct
        (hpt e (by simp)) (fun _ _ _ => rfl) rfl
      refine ⟨({ t with events := st.1 ++ [st.2] } : Trace I A V) :: ts', ?_⟩
      unfold joinSuccessive at h1 ⊢
      rw [List.mapM_cons, h1]
      simp only [joinTrace, hev, hst]
      rfl

/-- C34: empty traces raise IndexError. -/
theorem C34_empty_trace (args : JoinArgs A V) (t : Trace I A V) (ts : Log I A V) (h : t.events = []) :
    joinSuccessive args (t :: ts) = .error .index := by
  unfold joinSuccessive
  rw [List.mapM_cons]
  simp only [joinTrace, h]
  rfl
end

def jev (a : String) (s e d : Nat) : Event String Nat := ⟨a, [("s", s), ("e", e), ("d", d)], none⟩
def jargs : JoinArgs String Nat :=
  { startdate := some "s", enddate := some "e", duration := some "d", sub := (· - ·), add := (· + ·) }
example : joinSuccessive jargs [(⟨1, [jev "a" 0 2 2, jev "a" 3 5 2, jev "b" 6 7 1, jev "a" 8 9 1], []⟩ : Trace Nat String Nat)]
    = .ok [⟨1, [jev "a" 0 5 5, jev "b" 6 7 1, jev "a" 8 9 1], []⟩] := by decide
example : joinSuccessive { jargs with startdate := none } [(⟨1, [jev "a" 0 2 2, jev "a" 3 5 2], []⟩ : Trace Nat String Nat)]
    = .error .value := by decide

/-! ### C35 splitting -/

/-- C35: whatever permutation the shuffle produces, train and test log together hold exactly the
traces of the log, and the train log has `⌊n (1 - p)⌋` of the `n` traces. -/
theorem C35_train_test_split (shuffle : Log I A V → Log I A V) (hs : ∀ l, (shuffle l).Perm l)
    (log : Log I A V) (p : ℚ) (h0 : 0 ≤ p) (h1 : p ≤ 1) :
    ∃ train test, trainTestSplit shuffle log p = .ok (train, test) ∧
      (train ++ test).Perm log ∧ (train.length : ℤ) = ⌊(log.length : ℚ) * (1 - p)⌋ ∧
      train.length + test.length = log.length := by
  unfold trainTestSplit
  rw [if_pos ⟨h0, h1⟩]
  refine ⟨_, _, rfl, ?_, ?_, ?_⟩
  · rw [List.take_append_drop]; exact hs log
  · have hl : (shuffle log).length = log.length := (hs log).length_eq
    have h2 : (0:ℚ) ≤ (log.length : ℚ) * (1 - p) := mul_nonneg (Nat.cast_nonneg _) (by linarith)
    have h3 : (log.length : ℚ) * (1 - p) ≤ log.length := by
      have : (0:ℚ) ≤ (log.length : ℚ) * p := mul_nonneg (Nat.cast_nonneg _) h0
      linarith
    have h4 : 0 ≤ ⌊(log.length : ℚ) * (1 - p)⌋ := Int.floor_nonneg.2 h2
    have h5 : ⌊(log.length : ℚ) * (1 - p)⌋ ≤ (log.length : ℤ) := by
      have := Int.floor_mono h3
      rwa [Int.floor_natCast] at this
    rw [List.length_take, hl]
    omega
  · rw [← List.length_append, List.take_append_drop]; exact (hs log).length_eq

/-- C35: proportions outside [0, 1] are rejected. -/
theorem C35_invalid_proportion (shuffle : Log I A V → Log I A V) (log : Log I A V) (p : ℚ)
    (h : p < 0 ∨ 1 < p) : trainTestSplit shuffle log p = .error .value := by
  unfold trainTestSplit
  rw [if_neg]
  rintro ⟨h0, h1⟩
  rcases h with h | h
  · exact absurd h (not_lt.2 h0)
  · exact absurd h (not_lt.2 h1)

example : ∃ train test, trainTestSplit List.reverse
      [(⟨1, [ev "a"], []⟩ : Trace Nat String Nat), ⟨2, [ev "b"], []⟩, ⟨3, [ev "b"], []⟩] (1/3) = .ok (train, test) ∧
    (train ++ test).Perm [(⟨1, [ev "a"], []⟩ : Trace Nat String Nat), ⟨2, [ev "b"], []⟩, ⟨3, [ev "b"], []⟩] := by
  obtain ⟨a, b, h, h', _⟩ := C35_train_test_split List.reverse (fun l => l.reverse_perm)
    [(⟨1, [ev "a"], []⟩ : Trace Nat String Nat), ⟨2, [ev "b"], []⟩, ⟨3, [ev "b"], []⟩] (1/3)
    (by norm_num) (by norm_num)
  exact ⟨a, b, h, h'⟩

theorem foldSizes_sum_aux (m r q : Nat) :
    ((List.range m).map fun i => if i < r then q + 1 else q).sum = m * q + min m r := by
  induction m with
  | zero => simp
  | succ m ih =>
    rw [List.range_succ, List.map_append, List.sum_append, ih, Nat.succ_mul]
    simp only [List.map_cons, List.map_nil, List.sum_cons, List.sum_nil]
    split <;> omega

theorem foldSizes_sum (n k : Nat) (hk : 0 < k) : (foldSizes n k).sum = n := by
  unfold foldSizes
  rw [foldSizes_sum_aux]
  have h1 := Nat.mod_lt n hk
  have h2 := Nat.div_add_mod n k
  rw [Nat.min_eq_right (by omega)]
  omega

theorem foldLoop_spec (log : Log I A V) (sizes : List Nat) (start : Nat)
    (h : start + sizes.sum ≤ log.length) :
    (foldLoop log sizes start).map (fun p => p.2.length) = sizes ∧
    ((foldLoop log sizes start).map Prod.snd).flatten = (log.drop start).take sizes.sum ∧
    ∀ p ∈ foldLoop log sizes start, (p.1 ++ p.2).Perm log ∧ p.1.Sublist log ∧ p.2 <:+: log := by
  induction sizes generalizing start with
  | nil => simp [foldLoop]
  | cons s ss ih =>
    simp only [List.sum_cons] at h
    obtain ⟨h1, h2, h3⟩ := ih (start + s) (by omega)
    have hsplit : log = log.take start ++ ((log.drop start).take s ++ log.drop (start + s)) := by
      conv_lhs => rw [← List.take_append_drop start log, ← List.take_append_drop s (log.drop start),
        List.drop_drop]
    refine ⟨?_, ?_, ?_⟩
    · simp only [foldLoop, List.map_cons, h1, List.length_take, List.length_drop]
      congr 1
      omega
    · simp only [foldLoop, List.map_cons, List.flatten_cons, h2, List.sum_cons]
      rw [← List.drop_drop, List.take_add]
    · intro p hp
      simp only [foldLoop, List.mem_cons] at hp
      rcases hp with rfl | hp
      · refine ⟨?_, ?_, ?_⟩
        · simp only
          conv_rhs => rw [hsplit]
          rw [List.append_assoc]
          exact List.Perm.append_left _ List.perm_append_comm
        · simp only
          conv_rhs => rw [hsplit]
          exact List.Sublist.append (List.Sublist.refl _) (List.sublist_append_right _ _)
        · exact (List.take_prefix _ _).isInfix.trans (List.drop_suffix _ _).isInfix
      · exact h3 p hp

/-- C35: `k_folds` yields `k` pairs; the test logs, one after the other, are the log, so every trace
is tested exactly once; in every pair train and test log together are the log, in order; the sizes
of the test logs differ by at most one. -/
theorem C35_k_folds (log : Log I A V) (k : Nat) (h2 : 2 ≤ k) (hn : k ≤ log.length) :
    ∃ folds, kFolds log k = .ok folds ∧ folds.length = k ∧
      (folds.map Prod.snd).flatten = log ∧
      (∀ p ∈ folds, (p.1 ++ p.2).Perm log ∧ p.1.Sublist log ∧ p.2 <:+: log) ∧
      ∀ p ∈ folds, p.2.length = log.length / k ∨ p.2.length = log.length / k + 1 := by
  unfold kFolds
  rw [if_neg (by omega), if_neg (by omega), Int.toNat_natCast]
  have hsum := foldSizes_sum log.length k (by omega)
  obtain ⟨h3, h4, h5⟩ := foldLoop_spec log (foldSizes log.length k) 0 (by omega)
  refine ⟨_, rfl, ?_, ?_, h5, ?_⟩
  · have := congrArg List.length h3
    simpa [foldSizes] using this
  · rw [h4, hsum]; simp
  · intro p hp
    have : p.2.length ∈ foldSizes log.length k := by
      rw [← h3]; exact List.mem_map.2 ⟨p, hp, rfl⟩
    unfold foldSizes at this
    obtain ⟨i, _, hi⟩ := List.mem_map.1 this
    split at hi
    · exact .inr hi.symm
    · exact .inl hi.symm

/-- C35: fewer than two folds or more folds than traces are rejected. -/
theorem C35_invalid_folds (log : Log I A V) (k : ℤ) (h : k < 2 ∨ log.length < k) :
    kFolds log k = .error .value := by
  unfold kFolds
  by_cases h2 : k < 2
  · rw [if_pos h2]
  · rw [if_neg h2, if_pos]
    rcases h with h | h
    · exact absurd h h2
    · exact h


/-! ### C36 serialisation -/

theorem fromSimple_aux (l : List (List A)) (n : Nat) (h : ∀ x ∈ l, x ≠ []) :
    (l.zipIdx n).mapM (fun p => Trace.new (V := V) p.2 (p.1.map Event.new) [])
      = .ok ((l.zipIdx n).map fun p => (⟨p.2, p.1.map Event.new, []⟩ : Trace Nat A V)) := by
  apply forall₂_mapM
  rw [List.forall₂_map_right_iff, List.forall₂_same]
  rintro ⟨x, i⟩ hx
  have hne := h x (by
    have := List.mem_zipIdx_iff_le_and_getElem?_sub.1 hx
    exact List.mem_of_getElem? this.2)
  unfold Trace.new
  rw [if_neg]
  simpa using hne

/-- C36: a log created from non-empty activity lists has these activity lists, and its trace ids are
0, 1, 2, ... -/
theorem C36_simple_round_trip (l : List (List A)) (h : ∀ x ∈ l, x ≠ []) :
    ∃ log : Log Nat A V, fromSimple l = .ok log ∧ toSimple log = l ∧
      log.map Trace.id = List.range l.length := by
  refine ⟨_, fromSimple_aux l 0 h, ?_, ?_⟩
  · unfold toSimple
    rw [List.map_map]
    have : ((fun t : Trace Nat A V => t.events.map Event.activity) ∘
        fun p : List A × Nat => (⟨p.2, p.1.map Event.new, []⟩ : Trace Nat A V)) = Prod.fst := by
      funext p
      simp only [Function.comp, List.map_map]
      exact List.map_id _
    rw [this, List.zipIdx_map_fst]
  · rw [List.map_map]
    have : ((Trace.id : Trace Nat A V → Nat) ∘
        fun p : List A × Nat => (⟨p.2, p.1.map Event.new, []⟩ : Trace Nat A V)) = Prod.snd := rfl
    rw [this, List.zipIdx_map_snd, List.range_eq_range']

theorem mapM_error {β γ : Type} {f : β → Py γ} {l : List β} {e : PyErr}
    (h1 : ∀ x ∈ l, (∃ y, f x = .ok y) ∨ f x = .error e) (h2 : ∃ x ∈ l, f x = .error e) :
    l.mapM f = .error e := by
  induction l with
  | nil => obtain ⟨x, hx, _⟩ := h2; cases hx
  | cons x xs ih =>
    rw [List.mapM_cons]
    rcases h1 x (by simp) with ⟨y, hy⟩ | hx
    · rw [hy]
      have : xs.mapM f = .error e := ih (fun z hz => h1 z (by simp [hz])) (by
        obtain ⟨z, hz, he⟩ := h2
        rcases List.mem_cons.1 hz with rfl | hz
        · rw [hy] at he; cases he
        · exact ⟨z, hz, he⟩)
      rw [this]; rfl
    · rw [hx]; rfl

/-- C36: an empty activity list is rejected with ValueError. -/
theorem C36_simple_empty_trace (l : List (List A)) (h : [] ∈ l) :
    (fromSimple l : Py (Log Nat A V)) = .error .value := by
  apply mapM_error
  · intro p _
    unfold Trace.new
    split
    · exact .inr rfl
    · exact .inl ⟨_, rfl⟩
  · obtain ⟨i, hi, hx⟩ := List.mem_iff_getElem.1 h
    refine ⟨([], i), ?_, rfl⟩
    rw [List.mem_zipIdx_iff_getElem?, List.getElem?_eq_getElem hi, hx]

/-- C36: the dictionary form of a log without empty traces restores ids, attributes and the events'
activities and attributes; only the transition ids are lost. -/
theorem C36_dict_round_trip (log : Log I A V) (h : ∀ t ∈ log, t.events ≠ []) :
    fromDict (toDict log)
      = .ok (log.map fun (t : Trace I A V) =>
          { t with events := t.events.map fun e => { e with transition := none } }) := by
  unfold fromDict toDict
  apply forall₂_mapM
  rw [List.forall₂_map_left_iff, List.forall₂_map_right_iff, List.forall₂_same]
  intro t ht
  unfold Trace.ofDict Trace.toDict Trace.new
  rw [if_neg (by simpa using h t ht)]
  simp only [List.map_map]
  rfl

/-- C36: a log with an empty trace cannot be restored from its dictionary form. -/
theorem C36_dict_empty_trace (log : Log I A V) (h : ∃ t ∈ log, t.events = []) :
    fromDict (toDict log) = .error .value := by
  unfold fromDict toDict
  apply mapM_error
  · intro d _
    unfold Trace.ofDict Trace.new
    split
    · exact .inr rfl
    · exact .inl ⟨_, rfl⟩
  · obtain ⟨t, ht, he⟩ := h
    refine ⟨_, List.mem_map.2 ⟨t, ht, rfl⟩, ?_⟩
    simp [Trace.ofDict, Trace.toDict, Trace.new, he]

example : ∃ log : Log Nat String Nat, fromSimple [["a", "b"], ["c"]] = .ok log ∧
    toSimple log = [["a", "b"], ["c"]] := by
  obtain ⟨l, h, h', _⟩ := C36_simple_round_trip (V := Nat) [["a", "b"], ["c"]] (by decide)
  exact ⟨l, h, h'⟩
example : fromDict (toDict [(⟨5, [⟨"a", [("x", 1)], some "t"⟩], [("y", 2)]⟩ : Trace Nat String Nat)])
    = .ok [⟨5, [⟨"a", [("x", 1)], none⟩], [("y", 2)]⟩] := by
  rw [C36_dict_round_trip _ (by decide)]; rfl

/-! ### C37 equality -/

/-- C37: two logs are equal iff the traces of one can be reordered so that they are pairwise the
same: same hash of the id, equal trace attributes, and equal events in order. -/
theorem C37_log_equality (hash : I → Int) (l m : Log I A V) :
    LogEq hash l m ↔ ∃ m', m'.Perm m ∧ List.Forall₂
      (fun t u : Trace I A V => hash t.id = hash u.id ∧
        (∀ k, t.attributes.get? k = u.attributes.get? k) ∧
        List.Forall₂ (fun a b : Event A V => a.activity = b.activity ∧
          a.transition = b.transition ∧ ∀ k, a.attributes.get? k = b.attributes.get? k)
          t.events u.events) l m' := by
  rw [logEq_iff_perm]
  apply exists_congr
  intro m'
  apply and_congr_right'
  have : (fun t u : Trace I A V => hash t.id = hash u.id ∧
        (∀ k, t.attributes.get? k = u.attributes.get? k) ∧
        List.Forall₂ (fun a b : Event A V => a.activity = b.activity ∧
          a.transition = b.transition ∧ ∀ k, a.attributes.get? k = b.attributes.get? k)
          t.events u.events) = SameKey hash := by
    funext t u
    unfold SameKey Trace.Eq
    apply propext
    constructor
    · rintro ⟨h1, h2, h3⟩; exact ⟨h1, h3, h2⟩
    · rintro ⟨h1, h3, h2⟩; exact ⟨h1, h2, h3⟩
  rw [this]

/-- C37: log equality is an equivalence relation. -/
theorem C37_equivalence (hash : I → Int) : Equivalence (LogEq (A := A) (V := V) hash) where
  refl l := (logEq_iff l l).2 fun _ => rfl
  symm h := (logEq_iff _ _).2 fun t => ((logEq_iff _ _).1 h t).symm
  trans h h' := (logEq_iff _ _).2 fun t => ((logEq_iff _ _).1 h t).trans ((logEq_iff _ _).1 h' t)

/-- C37: the order of the traces does not matter. -/
theorem C37_order_irrelevant (hash : I → Int) (l m : Log I A V) (h : l.Perm m) : LogEq hash l m :=
  (logEq_iff l m).2 fun _ => multiplicity_perm h _

/-- C37: logs with the same traces but different trace ids differ, although the traces compare
equal. -/
theorem C37_ids_matter (hash : I → Int) (t : Trace I A V) (i : I) (h : hash i ≠ hash t.id) :
    Trace.Eq t { t with id := i } ∧ ¬ LogEq hash [t] [{ t with id := i }] := by
  refine ⟨Trace.Eq.refl t, ?_⟩
  rw [logEq_iff_perm]
  rintro ⟨m', h1, h2⟩
  rw [List.perm_singleton.1 h1] at h2
  cases h2 with
  | cons h3 _ => exact h h3.1.symm

example : LogEq (fun i : Nat => (i : Int)) [(⟨1, [ev "a"], []⟩ : Trace Nat String Nat), ⟨2, [ev "b"], []⟩]
    [⟨2, [ev "b"], []⟩, ⟨1, [ev "a"], []⟩] := C37_order_irrelevant _ _ _ (List.Perm.swap ..)

end Prolothar.EventLog
