import Verif.Model.Noise
import Verif.Spec.Noise
import Mathlib.Data.List.Forall2
import Mathlib.Data.List.Perm.Subperm
import Mathlib.Tactic.Linarith
set_option linter.unusedSimpArgs false
set_option linter.unusedVariables false
set_option linter.unusedSectionVars false
/-! Log noise: insertion, deletion, swaps and their combinations under every random source. -/
namespace Prolothar.LogNoise
open Prolothar.EventLog Prolothar.Spec.Noise
variable {I A V G : Type}

theorem draws_length (rng : G → ℚ × G) (n : Nat) (g : G) : (draws rng n g).1.length = n := by
  induction n generalizing g with
  | zero => rfl
  | succ n ih => simp [draws, ih]

theorem addFold (a : A) (p : ℚ) (es : List (Event A V)) (ds : List ℚ) (acc : List (Event A V))
    (h : ds.length = es.length) :
    (es.zip ds).foldl (fun acc x =>
      let acc := acc ++ [x.1]
      if x.2 < p then acc ++ [Event.new a] else acc) acc
      = acc ++ inserted (Event.new a) es (ds.map fun d => decide (d < p)) := by
  induction es generalizing ds acc with
  | nil => cases ds <;> simp [inserted]
  | cons e es ih =>
    cases ds with
    | nil => simp at h
    | cons d ds =>
      rw [List.zip_cons_cons, List.foldl_cons, ih _ _ (by simpa using h)]
      by_cases hd : d < p
      · simp [inserted, hd]
      · simp [inserted, hd]

theorem addOnTrace_eq (rng : G → ℚ × G) (a : A) (p : ℚ) (g : G) (es : List (Event A V)) :
    (addOnTrace rng a p g es).1
      = inserted (Event.new a) es ((draws rng es.length g).1.map fun d => decide (d < p)) := by
  unfold addOnTrace
  simp only
  rw [addFold _ _ _ _ _ (draws_length ..)]
  rfl

theorem removeOnTrace_eq (rng : G → ℚ × G) (p : ℚ) (g : G) (es : List (Event A V)) :
    (removeOnTrace rng p g es).1
      = removed es ((draws rng es.length g).1.map fun d => decide (d < p)) := by
  induction es generalizing g with
  | nil => rfl
  | cons e es ih =>
    simp only [removeOnTrace, List.length_cons, draws, List.map_cons, removed, ih]
    by_cases h : (rng g).1 < p
    · rw [if_neg (by simpa using h)]; simp [h]
    · rw [if_pos (by simpa using h)]; simp [h]

theorem removeOnTrace_state (rng : G → ℚ × G) (p : ℚ) (g : G) (es : List (Event A V)) :
    (removeOnTrace rng p g es).2 = (draws rng es.length g).2 := by
  induction es generalizing g with
  | nil => rfl
  | cons e es ih => simp only [removeOnTrace, List.length_cons, draws, ih]

theorem swapAt_eq (done rest : List (Event A V)) (c x : Event A V) :
    swapAt (done ++ c :: x :: rest) done.length = .ok (done ++ x :: c :: rest) := by
  unfold swapAt
  have h1 : (done ++ c :: x :: rest)[done.length + 1]? = some x := by
    rw [List.getElem?_append_right (by omega)]; simp
  have h2 : (done ++ c :: x :: rest)[done.length]? = some c := by
    rw [List.getElem?_append_right (by omega)]; simp
  rw [pyGet_ofNat h1, pyGet_ofNat h2]
  show (pySet (done ++ c :: x :: rest) done.length x >>= fun es => pySet es (done.length + 1) c) = _
  unfold pySet
  rw [if_pos (by simp)]
  show (if _ then _ else _) = _
  rw [if_pos (by simp)]
  simp [List.set_append]

theorem swapFold (rng : G → ℚ × G) (p : ℚ) (rest : List (Event A V)) (c : Event A V)
    (done : List (Event A V)) (g : G) :
    (List.range' done.length rest.length).foldlM (swapStep rng p) (done ++ c :: rest, g)
      = .ok (done ++ bubbled (c :: rest) ((draws rng rest.length g).1.map fun d => decide (d < p)), (draws rng rest.length g).2) := by
  induction rest generalizing c done g with
  | nil => rfl
  | cons x rest ih =>
    rw [List.length_cons, List.range'_succ, List.foldlM_cons]
    unfold swapStep
    simp only [draws, List.map_cons]
    by_cases h : (rng g).1 < p
    · rw [if_pos h, swapAt_eq]
      have hg := ih c (done ++ [x]) (rng g).2
      rw [List.length_append, List.length_singleton] at hg
      simp only [List.append_assoc, List.singleton_append] at hg
      simp only [bubbled, h, decide_true, if_true]
      exact hg
    · rw [if_neg h]
      have hg := ih x (done ++ [c]) (rng g).2
      rw [List.length_append, List.length_singleton] at hg
      simp only [List.append_assoc, List.singleton_append] at hg
      simp only [bubbled, h, decide_false]
      exact hg

theorem swapOnTrace_eq (rng : G → ℚ × G) (p : ℚ) (g : G) (es : List (Event A V)) :
    swapOnTrace rng p g es
      = .ok (bubbled es ((draws rng (es.length - 1) g).1.map fun d => decide (d < p)), (draws rng (es.length - 1) g).2) := by
  unfold swapOnTrace
  cases es with
  | nil => rfl
  | cons c rest =>
    have h := swapFold rng p rest c [] g
    rw [List.range_eq_range']
    simpa using h

theorem inserted_sublist (x : Event A V) (es : List (Event A V)) (bs : List Bool)
    (h : bs.length = es.length) : es.Sublist (inserted x es bs) := by
  induction es generalizing bs with
  | nil => simp
  | cons e es ih =>
    cases bs with
    | nil => simp at h
    | cons b bs =>
      have := ih bs (by simpa using h)
      cases b
      · exact this.cons_cons e
      · exact (this.cons x).cons_cons e

theorem inserted_perm (x : Event A V) (es : List (Event A V)) (bs : List Bool)
    (h : bs.length = es.length) :
    (inserted x es bs).Perm (es ++ List.replicate (bs.count true) x) := by
  induction es generalizing bs with
  | nil => cases bs with
    | nil => simp [inserted]
    | cons b bs => simp at h
  | cons e es ih =>
    cases bs with
    | nil => simp at h
    | cons b bs =>
      have := ih bs (by simpa using h)
      cases b
      · simpa [inserted] using this
      · simp only [inserted, if_true, List.count_cons_self, List.replicate_succ, List.cons_append]
        exact (((this.cons x).trans List.perm_middle.symm)).cons e

theorem inserted_none (x : Event A V) (es : List (Event A V)) (bs : List Bool)
    (h : bs.length = es.length) (hb : ∀ b ∈ bs, b = false) : inserted x es bs = es := by
  induction es generalizing bs with
  | nil => cases bs <;> rfl
  | cons e es ih =>
    cases bs with
    | nil => simp at h
    | cons b bs =>
      rw [hb b (by simp)]
      simp only [inserted, Bool.false_eq_true, if_false]
      rw [ih bs (by simpa using h) fun b hb' => hb b (by simp [hb'])]

theorem removed_sublist (es : List (Event A V)) (bs : List Bool) : (removed es bs).Sublist es := by
  induction es generalizing bs with
  | nil => cases bs <;> simp [removed]
  | cons e es ih =>
    cases bs with
    | nil => simp [removed]
    | cons b bs =>
      cases b
      · exact (ih bs).cons_cons e
      · exact (ih bs).cons e

theorem bubbled_perm (es : List (Event A V)) (bs : List Bool) : (bubbled es bs).Perm es := by
  induction bs generalizing es with
  | nil =>
    cases es with
    | nil => exact .refl _
    | cons c es => cases es <;> exact .refl _
  | cons b bs ih =>
    cases es with
    | nil => exact .refl _
    | cons c es =>
      cases es with
      | nil => exact .refl _
      | cons x es =>
        cases b
        · exact (ih (x :: es)).cons c
        · exact ((ih (c :: es)).cons x).trans (.swap ..)

theorem onTraces_pure (f : G → List (Event A V) → List (Event A V) × G) (g : G) (log : Log I A V) :
    ∃ r, onTraces (fun g es => .ok (f g es)) g log = .ok r ∧
      List.Forall₂ (fun t t' : Trace I A V => t'.id = t.id ∧ t'.attributes = t.attributes ∧
        ∃ g, t'.events = (f g t.events).1) log r.1 := by
  induction log generalizing g with
  | nil => exact ⟨_, rfl, .nil⟩
  | cons t ts ih =>
    obtain ⟨r, h1, h2⟩ := ih (f g t.events).2
    refine ⟨({ t with events := (f g t.events).1 } :: r.1, r.2), ?_, .cons ⟨rfl, rfl, g, rfl⟩ h2⟩
    unfold onTraces
    show (onTraces (fun g es => .ok (f g es)) (f g t.events).2 ts >>= _) = _
    rw [h1]
    rfl

theorem onTraces_swap (rng : G → ℚ × G) (p : ℚ) (g : G) (log : Log I A V) :
    ∃ r, onTraces (swapOnTrace rng p) g log = .ok r ∧
      List.Forall₂ (fun t t' : Trace I A V => t'.id = t.id ∧ t'.attributes = t.attributes ∧
        ∃ g, t'.events = bubbled t.events
          ((draws rng (t.events.length - 1) g).1.map fun d => decide (d < p))) log r.1 := by
  induction log generalizing g with
  | nil => exact ⟨_, rfl, .nil⟩
  | cons t ts ih =>
    have hg := swapOnTrace_eq rng p g t.events
    generalize (draws rng (t.events.length - 1) g).2 = g' at hg
    obtain ⟨r, h1, h2⟩ := ih g'
    refine ⟨(({ t with events := bubbled t.events ((draws rng (t.events.length - 1) g).1.map fun d => decide (d < p)) } : Trace I A V) :: r.1, r.2), ?_, .cons ⟨rfl, rfl, g, rfl⟩ h2⟩
    unfold onTraces
    rw [hg]
    show (onTraces (swapOnTrace rng p) g' ts >>= _) = _
    rw [h1]
    rfl

/-! ### C38 -/

/-- C38: the add noise keeps all traces and in each all events in order; after some of the events it
inserts one event with the given activity. -/
theorem C38_add_activity (rng : G → ℚ × G) (a : A) (p : ℚ) (g : G) (log : Log I A V) :
    ∃ n log', (Noise.add a p g).apply rng log = .ok (n, log') ∧
      List.Forall₂ (fun t t' : Trace I A V => t'.id = t.id ∧ t'.attributes = t.attributes ∧
        ∃ struck : List Bool, struck.length = t.events.length ∧
          t'.events = inserted (Event.new a) t.events struck) log log' := by
  by_cases hp : p > 0
  · obtain ⟨r, h1, h2⟩ := onTraces_pure (I := I) (fun g es => addOnTrace (V := V) rng a p g es) g log
    refine ⟨.add a p r.2, r.1, ?_, h2.imp ?_⟩
    · simp only [Noise.apply]
      rw [if_pos hp, h1]; rfl
    · rintro t t' ⟨h3, h4, g', h5⟩
      exact ⟨h3, h4, _, by rw [List.length_map, draws_length], h5.trans (addOnTrace_eq ..)⟩
  · refine ⟨.add a p g, log, ?_, ?_⟩
    · simp only [Noise.apply]; rw [if_neg hp]
    · rw [List.forall₂_same]
      intro t _
      exact ⟨rfl, rfl, List.replicate t.events.length false, by simp,
        (inserted_none _ _ _ (by simp) (fun b hb => (List.mem_replicate.1 hb).2)).symm⟩

/-- C38: hence the original events are a subsequence, and all other events have the given activity
and no attributes. -/
theorem C38_only_inserts (rng : G → ℚ × G) (a : A) (p : ℚ) (g : G) (log : Log I A V) :
    ∃ n log', (Noise.add a p g).apply rng log = .ok (n, log') ∧
      List.Forall₂ (fun t t' : Trace I A V => t'.id = t.id ∧ t'.attributes = t.attributes ∧
        t.events.Sublist t'.events ∧
        ∃ k ≤ t.events.length, t'.events.Perm (t.events ++ List.replicate k (Event.new a))) log log' := by
  obtain ⟨n, log', h1, h2⟩ := C38_add_activity rng a p g log
  refine ⟨n, log', h1, h2.imp ?_⟩
  rintro t t' ⟨h3, h4, bs, h5, h6⟩
  refine ⟨h3, h4, h6 ▸ inserted_sublist _ _ _ h5, bs.count true, h5 ▸ List.count_le_length, ?_⟩
  rw [h6]; exact inserted_perm _ _ _ h5

/-- C38: an event is inserted exactly where the drawn number is smaller than the probability; one number is drawn per event, and
the next use of the noise continues with the numbers after these. -/
theorem C38_where (rng : G → ℚ × G) (a : A) (p : ℚ) (hp : 0 < p) (g : G) (t : Trace I A V) :
    (Noise.add a p g).apply rng [t] = .ok (.add a p (draws rng t.events.length g).2,
      [{ t with events := inserted (Event.new a) t.events ((draws rng t.events.length g).1.map fun d => decide (d < p)) }]) := by
  simp only [Noise.apply]
  rw [if_pos hp, ← addOnTrace_eq]
  rfl

/-- C38: with probability 0 nothing changes. -/
theorem C38_zero (rng : G → ℚ × G) (a : A) (g : G) (log : Log I A V) :
    (Noise.add a 0 g).apply rng log = .ok (.add a 0 g, log) := by
  simp [Noise.apply]

/-- C38: exactly the probabilities in [0, 1) are accepted. -/
theorem C38_probability (a : A) (p : ℚ) (g : G) :
    Noise.mkAdd a p g = if 0 ≤ p ∧ p < 1 then .ok (.add a p g) else .error .value := by
  unfold Noise.mkAdd
  by_cases h : 0 ≤ p ∧ p < 1
  · rw [if_pos h, if_neg]; rintro (h' | h') <;> linarith [h.1, h.2]
  · rw [if_neg h, if_pos]
    by_contra hc
    rw [not_or] at hc
    exact h ⟨not_lt.1 hc.1, not_le.1 hc.2⟩

/-! ### C39 -/

/-- C39: the remove noise deletes events; traces of which nothing is left are dropped; the remaining
traces stay in order. `kept` are the original traces behind the traces of the result. -/
theorem C39_remove_events (rng : G → ℚ × G) (p : ℚ) (hp : 0 < p) (g : G) (log : Log I A V) :
    ∃ n log', (Noise.remove p g).apply rng log = .ok (n, log') ∧
      (∀ t ∈ log', t.events ≠ []) ∧
      ∃ struck : List (List Bool), List.Forall₂ (fun (t : Trace I A V) bs => bs.length = t.events.length) log struck ∧
        log' = (List.zipWith (fun (t : Trace I A V) bs => { t with events := removed t.events bs }) log struck).filter
          fun t => !t.events.isEmpty := by
  obtain ⟨r, h1, h2⟩ := onTraces_pure (I := I) (fun g es => removeOnTrace (V := V) (A := A) rng p g es) g log
  refine ⟨.remove p r.2, r.1.filter fun t => decide (t.events.length > 0), ?_, ?_, ?_⟩
  · simp only [Noise.apply]
    rw [if_pos hp, h1]; rfl
  · intro t ht
    rw [List.mem_filter] at ht
    have := ht.2
    rw [decide_eq_true_eq] at this
    exact List.length_pos_iff.1 this
  · have : ∃ struck : List (List Bool), List.Forall₂ (fun (t : Trace I A V) bs => bs.length = t.events.length) log struck ∧
        r.1 = List.zipWith (fun (t : Trace I A V) bs => { t with events := removed t.events bs }) log struck := by
      generalize r.1 = l at h2
      clear h1
      induction h2 with
      | nil => exact ⟨[], .nil, rfl⟩
      | @cons t t' l l' h _ ih =>
        obtain ⟨struck, h3, h4⟩ := ih
        obtain ⟨e1, e2, g', e3⟩ := h
        refine ⟨_ :: struck, .cons (?_ : ((draws rng t.events.length g').1.map fun d => decide (d < p)).length = _) h3, ?_⟩
        · rw [List.length_map, draws_length]
        · rw [List.zipWith_cons_cons, h4]
          congr 1
          rw [removeOnTrace_eq] at e3
          cases t'; cases t
          simp_all
    obtain ⟨struck, h3, h4⟩ := this
    refine ⟨struck, h3, ?_⟩
    rw [← h4]
    apply List.filter_congr
    intro t _
    cases t.events <;> simp

/-- C39: hence every remaining trace is a non-empty subsequence of an original trace, with the same
id and attributes, in the original order of the traces. -/
theorem C39_only_deletes (rng : G → ℚ × G) (p : ℚ) (hp : 0 < p) (g : G) (log : Log I A V) :
    ∃ n log', (Noise.remove p g).apply rng log = .ok (n, log') ∧
      (∀ t ∈ log', t.events ≠ []) ∧
      ∃ kept, kept.Sublist log ∧ List.Forall₂ (fun t' t : Trace I A V =>
        t'.id = t.id ∧ t'.attributes = t.attributes ∧ t'.events.Sublist t.events) log' kept := by
  obtain ⟨n, log', h1, h2, struck, h3, h4⟩ := C39_remove_events rng p hp g log
  refine ⟨n, log', h1, h2, ?_⟩
  rw [h4]
  clear h1 h2 h4
  induction h3 with
  | nil => exact ⟨[], .slnil, .nil⟩
  | @cons t bs log struck h _ ih =>
    obtain ⟨kept, k1, k2⟩ := ih
    rw [List.zipWith_cons_cons, List.filter_cons]
    split
    · exact ⟨t :: kept, k1.cons_cons t, .cons ⟨rfl, rfl, removed_sublist _ _⟩ k2⟩
    · exact ⟨kept, k1.cons t, k2⟩

/-- C39: an event is removed exactly if the number drawn for it is smaller than the probability; one number is drawn per event,
and the next use of the noise continues with the numbers after these. -/
theorem C39_where (rng : G → ℚ × G) (p : ℚ) (hp : 0 < p) (g : G) (t : Trace I A V) :
    (Noise.remove p g).apply rng [t] = .ok (.remove p (draws rng t.events.length g).2,
      [({ t with events := removed t.events ((draws rng t.events.length g).1.map fun d => decide (d < p)) } : Trace I A V)].filter
        fun t => !t.events.isEmpty) := by
  simp only [Noise.apply]
  rw [if_pos hp, ← removeOnTrace_eq, ← removeOnTrace_state (A := A) (V := V) rng p g t.events]
  show Except.ok (_, List.filter _ _) = _
  congr 3
  funext t
  cases t.events <;> simp

/-- C39: with probability 0 nothing changes (not even empty traces are dropped). -/
theorem C39_zero (rng : G → ℚ × G) (g : G) (log : Log I A V) :
    (Noise.remove (A := A) 0 g).apply rng log = .ok (.remove 0 g, log) := by
  simp [Noise.apply]

theorem C39_probability (p : ℚ) (g : G) :
    (Noise.mkRemove p g : Py (Noise A G)) = if 0 ≤ p ∧ p < 1 then .ok (.remove p g) else .error .value := by
  unfold Noise.mkRemove
  by_cases h : 0 ≤ p ∧ p < 1
  · rw [if_pos h, if_neg]; rintro (h' | h') <;> linarith [h.1, h.2]
  · rw [if_neg h, if_pos]
    by_contra hc
    rw [not_or] at hc
    exact h ⟨not_lt.1 hc.1, not_le.1 hc.2⟩

/-! ### C40 -/

/-- C40: the swap noise never fails and rearranges the events of each trace by swaps of neighbours
from left to right; no event changes its trace. -/
theorem C40_swap_events (rng : G → ℚ × G) (p : ℚ) (g : G) (log : Log I A V) :
    ∃ n log', (Noise.swap p g).apply rng log = .ok (n, log') ∧
      List.Forall₂ (fun t t' : Trace I A V => t'.id = t.id ∧ t'.attributes = t.attributes ∧
        t'.events.Perm t.events ∧ ∃ struck : List Bool, struck.length = t.events.length - 1 ∧
          t'.events = bubbled t.events struck) log log' := by
  by_cases hp : p > 0
  · obtain ⟨r, h1, h2⟩ := onTraces_swap rng p g log
    refine ⟨.swap p r.2, r.1, ?_, h2.imp ?_⟩
    · simp only [Noise.apply]
      rw [if_pos hp, h1]; rfl
    · rintro t t' ⟨h3, h4, g', h5⟩
      exact ⟨h3, h4, h5 ▸ bubbled_perm _ _, _, by rw [List.length_map, draws_length], h5⟩
  · refine ⟨.swap p g, log, ?_, ?_⟩
    · simp only [Noise.apply]; rw [if_neg hp]
    · rw [List.forall₂_same]
      intro t _
      refine ⟨rfl, rfl, .refl _, List.replicate (t.events.length - 1) false, by simp, ?_⟩
      generalize t.events = es
      induction es with
      | nil => rfl
      | cons c es ih =>
        cases es with
        | nil => rfl
        | cons x es =>
          simp only [List.length_cons, Nat.add_sub_cancel, List.replicate_succ, bubbled,
            Bool.false_eq_true, if_false]
          simp only [List.length_cons, Nat.add_sub_cancel] at ih
          rw [← ih]

/-- C40: the swaps happen exactly where the drawn number is smaller than the probability; one number is drawn per pair of
neighbours, and the next use of the noise continues with the numbers after these. -/
theorem C40_where (rng : G → ℚ × G) (p : ℚ) (hp : 0 < p) (g : G) (t : Trace I A V) :
    (Noise.swap p g).apply rng [t] = .ok (.swap p (draws rng (t.events.length - 1) g).2,
      [{ t with events := bubbled t.events ((draws rng (t.events.length - 1) g).1.map fun d => decide (d < p)) }]) := by
  have h := swapOnTrace_eq rng p g t.events
  simp only [Noise.apply]
  rw [if_pos hp]
  simp only [onTraces, h]
  rfl

/-- C40: with probability 0 nothing changes. -/
theorem C40_zero (rng : G → ℚ × G) (g : G) (log : Log I A V) :
    (Noise.swap (A := A) 0 g).apply rng log = .ok (.swap 0 g, log) := by
  simp [Noise.apply]

theorem C40_probability (p : ℚ) (g : G) :
    (Noise.mkSwap p g : Py (Noise A G)) = if 0 ≤ p ∧ p < 1 then .ok (.swap p g) else .error .value := by
  unfold Noise.mkSwap
  by_cases h : 0 ≤ p ∧ p < 1
  · rw [if_pos h, if_neg]; rintro (h' | h') <;> linarith [h.1, h.2]
  · rw [if_neg h, if_pos]
    by_contra hc
    rw [not_or] at hc
    exact h ⟨not_lt.1 hc.1, not_le.1 hc.2⟩

/-! ### C80 combinations -/

mutual
/-- the activities a noise may add -/
def adds : Noise A G → List A
  | .add a _ _ => [a]
  | .remove _ _ => []
  | .swap _ _ => []
  | .combined l => addsAll l
def addsAll : List (Noise A G) → List A
  | [] => []
  | n :: ns => adds n ++ addsAll ns
end

/-- `t'` has the id and attributes of `t` and only events of `t`, each at most as often as in `t`,
apart from events with activities of `acts` -/
def NoisyVersion (acts : List A) (t' t : Trace I A V) : Prop :=
  t'.id = t.id ∧ t'.attributes = t.attributes ∧
  ∃ extra : List A, (∀ a ∈ extra, a ∈ acts) ∧ t'.events.Subperm (t.events ++ extra.map Event.new)

theorem NoisyVersion.trans {l m : List A} {t u w : Trace I A V} (h : NoisyVersion l t u)
    (h' : NoisyVersion m u w) : NoisyVersion (m ++ l) t w := by
  obtain ⟨a1, a2, e, a3, a4⟩ := h
  obtain ⟨b1, b2, f, b3, b4⟩ := h'
  refine ⟨a1.trans b1, a2.trans b2, f ++ e, ?_, ?_⟩
  · intro a ha
    rcases List.mem_append.1 ha with ha | ha
    · exact List.mem_append.2 (.inl (b3 a ha))
    · exact List.mem_append.2 (.inr (a3 a ha))
  · refine a4.trans ?_
    rw [List.map_append, ← List.append_assoc]
    exact b4.append (List.Subperm.refl _)

theorem sublistForall₂_comp {R S T : Trace I A V → Trace I A V → Prop}
    (h : ∀ a b c, R a b → S b c → T a c) {l m n : Log I A V}
    (h1 : List.SublistForall₂ R l m) (h2 : List.SublistForall₂ S m n) : List.SublistForall₂ T l n := by
  induction h2 generalizing l with
  | nil => cases h1; exact .nil
  | cons hs _ ih =>
    cases h1 with
    | nil => exact .nil
    | cons hr h1 => exact .cons (h _ _ _ hr hs) (ih h1)
    | cons_right h1 => exact .cons_right (ih h1)
  | cons_right _ ih => exact .cons_right (ih h1)

theorem forall₂_sublistForall₂ {R : Trace I A V → Trace I A V → Prop} {l m : Log I A V}
    (h : List.Forall₂ R m l) : List.SublistForall₂ (fun a b => R b a) l m := by
  induction h with
  | nil => exact .nil
  | cons h _ ih => exact .cons h ih

theorem sublistForall₂_refl {R : Trace I A V → Trace I A V → Prop} (h : ∀ t, R t t) (l : Log I A V) :
    List.SublistForall₂ R l l := by
  induction l with
  | nil => exact .nil
  | cons t l ih => exact .cons (h t) ih

theorem sublistForall₂_imp {R S : Trace I A V → Trace I A V → Prop} (h : ∀ a b, R a b → S a b)
    {l m : Log I A V} (hl : List.SublistForall₂ R l m) : List.SublistForall₂ S l m := by
  induction hl with
  | nil => exact .nil
  | cons hr _ ih => exact .cons (h _ _ hr) ih
  | cons_right _ ih => exact .cons_right ih

mutual
theorem apply_noisy (rng : G → ℚ × G) : (n : Noise A G) → (log : Log I A V) →
    ∃ n' log', n.apply rng log = .ok (n', log') ∧ List.SublistForall₂ (NoisyVersion (adds n)) log' log
  | .add a p g, log => by
    obtain ⟨n, log', h1, h2⟩ := C38_only_inserts rng a p g log
    refine ⟨n, log', h1, forall₂_sublistForall₂ (R := fun t t' => NoisyVersion [a] t' t) (h2.imp ?_)⟩
    rintro t t' ⟨h3, h4, _, k, _, h6⟩
    refine ⟨h3, h4, List.replicate k a, fun x hx => by simp [(List.mem_replicate.1 hx).2], ?_⟩
    rw [List.map_replicate]; exact h6.subperm
  | .remove p g, log => by
    by_cases hp : 0 < p
    · obtain ⟨n, log', h1, _, kept, h3, h4⟩ := C39_only_deletes rng p hp g log
      refine ⟨n, log', h1, List.sublistForall₂_iff.2 ⟨kept, h4.imp ?_, h3⟩⟩
      rintro t' t ⟨h5, h6, h7⟩
      exact ⟨h5, h6, [], by simp, by simpa using h7.subperm⟩
    · refine ⟨.remove p g, log, by simp only [Noise.apply]; rw [if_neg hp], sublistForall₂_refl ?_ _⟩
      intro t; exact ⟨rfl, rfl, [], by simp, by simpa using List.Subperm.refl _⟩
  | .swap p g, log => by
    obtain ⟨n, log', h1, h2⟩ := C40_swap_events rng p g log
    refine ⟨n, log', h1, forall₂_sublistForall₂ (R := fun t t' => NoisyVersion [] t' t) (h2.imp ?_)⟩
    rintro t t' ⟨h3, h4, h5, _⟩
    exact ⟨h3, h4, [], by simp, by simpa using h5.subperm⟩
  | .combined l, log => by
    obtain ⟨l', log', h1, h2⟩ := applyAll_noisy rng l log
    refine ⟨.combined l', log', ?_, h2⟩
    simp only [Noise.apply]
    rw [h1]; rfl
theorem applyAll_noisy (rng : G → ℚ × G) : (l : List (Noise A G)) → (log : Log I A V) →
    ∃ l' log', Noise.applyAll rng l log = .ok (l', log') ∧
      List.SublistForall₂ (NoisyVersion (addsAll l)) log' log
  | [], log => by
    refine ⟨[], log, rfl, sublistForall₂_refl ?_ _⟩
    intro t; exact ⟨rfl, rfl, [], by simp, by simpa using List.Subperm.refl _⟩
  | n :: ns, log => by
    obtain ⟨n', log1, h1, h2⟩ := apply_noisy rng n log
    obtain ⟨ns', log2, h3, h4⟩ := applyAll_noisy rng ns log1
    refine ⟨n' :: ns', log2, ?_, sublistForall₂_comp (fun a b c => NoisyVersion.trans) h4 h2⟩
    simp only [Noise.applyAll]
    rw [h1]
    show (Noise.applyAll rng ns log1 >>= _) = _
    rw [h3]; rfl
end

/-- C80: every (also nested) combination of noises terminates without error, and every trace of the
result is a noisy version of an original trace: same id and attributes, only original events (each at
most as often as before) apart from added activities; the order of the traces is kept. -/
theorem C80_combined_noise (rng : G → ℚ × G) (n : Noise A G) (log : Log I A V) :
    ∃ n' log', n.apply rng log = .ok (n', log') ∧
      ∃ kept, List.Forall₂ (NoisyVersion (adds n)) log' kept ∧ kept.Sublist log := by
  obtain ⟨n', log', h1, h2⟩ := apply_noisy rng n log
  exact ⟨n', log', h1, List.sublistForall₂_iff.1 h2⟩

/-- C80: a combination applies its parts in the given order. -/
theorem C80_in_order (rng : G → ℚ × G) (l m : List (Noise A G)) (log : Log I A V) :
    ∃ l' m' log1 log2, (Noise.combined l).apply rng log = .ok (.combined l', log1) ∧
      (Noise.combined m).apply rng log1 = .ok (.combined m', log2) ∧
      (Noise.combined (l ++ m)).apply rng log = .ok (.combined (l' ++ m'), log2) := by
  simp only [Noise.apply]
  induction l generalizing log with
  | nil =>
    obtain ⟨m', log2, h, _⟩ := applyAll_noisy rng m log
    refine ⟨[], m', log, log2, rfl, ?_, ?_⟩
    · rw [h]; rfl
    · rw [List.nil_append, h]; rfl
  | cons n l ih =>
    obtain ⟨n', log0, h1, _⟩ := apply_noisy rng n log
    obtain ⟨l', m', log1, log2, h2, h3, h4⟩ := ih log0
    refine ⟨n' :: l', m', log1, log2, ?_, h3, ?_⟩
    · simp only [Noise.applyAll]
      obtain ⟨l2, log3, h5, _⟩ := applyAll_noisy rng l log0
      rw [h1]
      rw [h5] at h2
      have h2 : Except.ok (ε := PyErr) (Noise.combined l2, log3) = .ok (.combined l', log1) := h2
      cases h2
      show ((Noise.applyAll rng l log0 >>= _) >>= _) = _
      rw [h5]; rfl
    · simp only [List.cons_append, Noise.applyAll]
      obtain ⟨l2, log3, h5, _⟩ := applyAll_noisy rng (l ++ m) log0
      rw [h1]
      rw [h5] at h4
      have h4 : Except.ok (ε := PyErr) (Noise.combined l2, log3) = .ok (.combined (l' ++ m'), log2) := h4
      cases h4
      show ((Noise.applyAll rng (l ++ m) log0 >>= _) >>= _) = _
      rw [h5]; rfl

theorem onTraces_append (f : G → List (Event A V) → Py (List (Event A V) × G)) (g : G) (l m : Log I A V) :
    onTraces f g (l ++ m) = (onTraces f g l).bind fun r => (onTraces f r.2 m).bind fun s => .ok (r.1 ++ s.1, s.2) := by
  induction l generalizing g with
  | nil => cases h : onTraces f g m <;> simp [onTraces, Except.bind, h]
  | cons t l ih =>
    simp only [List.cons_append, onTraces, bind]
    cases hf : f g t.events with
    | error e => rfl
    | ok r =>
      simp only [Except.bind]
      rw [ih]
      cases h1 : onTraces f r.2 l with
      | error e => rfl
      | ok s =>
        simp only [Except.bind, pure, Except.pure]
        cases h2 : onTraces f s.2 m <;> rfl

mutual
theorem apply_stream (rng : G → ℚ × G) : (n : Noise A G) → (l m : Log I A V) →
    ∃ n1 n2 l' m', n.apply rng l = .ok (n1, l') ∧ n1.apply rng m = .ok (n2, m') ∧ n.apply rng (l ++ m) = .ok (n2, l' ++ m')
  | .add a p g, l, m => by
    simp only [Noise.apply]
    by_cases hp : p > 0
    · obtain ⟨r, h1, _⟩ := onTraces_pure (I := I) (fun g es => addOnTrace (V := V) rng a p g es) g l
      obtain ⟨s, h2, _⟩ := onTraces_pure (I := I) (fun g es => addOnTrace (V := V) rng a p g es) r.2 m
      refine ⟨.add a p r.2, .add a p s.2, r.1, s.1, by rw [if_pos hp, h1]; rfl, ?_, ?_⟩
      · simp only [Noise.apply]; rw [if_pos hp, h2]; rfl
      · rw [if_pos hp, onTraces_append, h1]; simp only [Except.bind]; rw [h2]; rfl
    · exact ⟨.add a p g, .add a p g, l, m, by rw [if_neg hp], by simp only [Noise.apply]; rw [if_neg hp], by rw [if_neg hp]⟩
  | .remove p g, l, m => by
    simp only [Noise.apply]
    by_cases hp : p > 0
    · obtain ⟨r, h1, _⟩ := onTraces_pure (I := I) (fun g es => removeOnTrace (V := V) (A := A) rng p g es) g l
      obtain ⟨s, h2, _⟩ := onTraces_pure (I := I) (fun g es => removeOnTrace (V := V) (A := A) rng p g es) r.2 m
      refine ⟨.remove p r.2, .remove p s.2, r.1.filter (fun t => decide (t.events.length > 0)), s.1.filter (fun t => decide (t.events.length > 0)), by rw [if_pos hp, h1]; rfl, ?_, ?_⟩
      · simp only [Noise.apply]; rw [if_pos hp, h2]; rfl
      · rw [if_pos hp, onTraces_append, h1]; simp only [Except.bind]; rw [h2]
        show Except.ok (_, List.filter _ (_ ++ _)) = _
        rw [List.filter_append]
    · exact ⟨.remove p g, .remove p g, l, m, by rw [if_neg hp], by simp only [Noise.apply]; rw [if_neg hp], by rw [if_neg hp]⟩
  | .swap p g, l, m => by
    simp only [Noise.apply]
    by_cases hp : p > 0
    · obtain ⟨r, h1, _⟩ := onTraces_swap rng p g l
      obtain ⟨s, h2, _⟩ := onTraces_swap rng p r.2 m
      refine ⟨.swap p r.2, .swap p s.2, r.1, s.1, by rw [if_pos hp, h1]; rfl, ?_, ?_⟩
      · simp only [Noise.apply]; rw [if_pos hp, h2]; rfl
      · rw [if_pos hp, onTraces_append, h1]; simp only [Except.bind]; rw [h2]; rfl
    · exact ⟨.swap p g, .swap p g, l, m, by rw [if_neg hp], by simp only [Noise.apply]; rw [if_neg hp], by rw [if_neg hp]⟩
  | .combined ns, l, m => by
    obtain ⟨k1, k2, l', m', h1, h2, h3⟩ := applyAll_stream rng ns l m
    refine ⟨.combined k1, .combined k2, l', m', ?_, ?_, ?_⟩
    · simp only [Noise.apply]; rw [h1]; rfl
    · simp only [Noise.apply]; rw [h2]; rfl
    · simp only [Noise.apply]; rw [h3]; rfl
theorem applyAll_stream (rng : G → ℚ × G) : (ns : List (Noise A G)) → (l m : Log I A V) →
    ∃ k1 k2 l' m', Noise.applyAll rng ns l = .ok (k1, l') ∧ Noise.applyAll rng k1 m = .ok (k2, m') ∧
      Noise.applyAll rng ns (l ++ m) = .ok (k2, l' ++ m')
  | [], l, m => ⟨[], [], l, m, rfl, rfl, rfl⟩
  | n :: ns, l, m => by
    obtain ⟨n1, n2, l1, m1, h1, h2, h3⟩ := apply_stream rng n l m
    obtain ⟨k1, k2, l2, m2, h4, h5, h6⟩ := applyAll_stream rng ns l1 m1
    refine ⟨n1 :: k1, n2 :: k2, l2, m2, ?_, ?_, ?_⟩
    · simp only [Noise.applyAll]; rw [h1]; simp only [bind, Except.bind]; rw [h4]; rfl
    · simp only [Noise.applyAll]; rw [h2]; simp only [bind, Except.bind]; rw [h5]; rfl
    · simp only [Noise.applyAll]; rw [h3]; simp only [bind, Except.bind]; rw [h6]; rfl
end

/-- C80: the random numbers are used one after the other, also from trace to trace and from log to log: applying a noise to a log
that consists of two parts is the same as applying it to the first part and then, as it is afterwards, to the second part. Together
with C38, C39 and C40 for single traces, this fixes what happens to every log. -/
theorem C80_stream (rng : G → ℚ × G) (n : Noise A G) (l m : Log I A V) :
    ∃ n1 n2 l' m', n.apply rng l = .ok (n1, l') ∧ n1.apply rng m = .ok (n2, m') ∧ n.apply rng (l ++ m) = .ok (n2, l' ++ m') :=
  apply_stream rng n l m

/-- C80: the empty combination is rejected. -/
theorem C80_empty_rejected (l : List (Noise A G)) :
    Noise.mkCombined l = if l = [] then .error .value else .ok (.combined l) := by
  unfold Noise.mkCombined
  cases l <;> rfl

/-- example source: 0, 1/2, 0, 1/2, ... -/
def flip : Bool → ℚ × Bool := fun b => (if b then 1/2 else 0, !b)
def es3 : List (Event String Nat) := [Event.new "a", Event.new "b", Event.new "c"]

example : (draws flip 3 false).1.map (fun d => decide (d < 1/4)) = [true, false, true] := by
  norm_num [draws, flip]
example : ∃ n, (Noise.add "x" (1/4) false).apply flip [(⟨1, es3, []⟩ : Trace Nat String Nat)]
    = .ok (n, [⟨1, [Event.new "a", Event.new "x", Event.new "b", Event.new "c", Event.new "x"], []⟩]) := by
  have h := C38_where flip "x" (1/4) (by norm_num) false (⟨1, es3, []⟩ : Trace Nat String Nat)
  refine ⟨.add "x" (1/4) true, h.trans ?_⟩
  norm_num [draws, flip, es3, inserted]
example : ∃ n, (Noise.remove (A := String) (1/4) false).apply flip [(⟨1, es3, []⟩ : Trace Nat String Nat)]
    = .ok (n, [⟨1, [Event.new "b"], []⟩]) := by
  have h := C39_where flip (1/4) (by norm_num) false (⟨1, es3, []⟩ : Trace Nat String Nat)
  refine ⟨.remove (1/4) true, h.trans ?_⟩
  norm_num [draws, flip, es3, removed]
example : ∃ n, (Noise.swap (A := String) (1/4) false).apply flip [(⟨1, es3, []⟩ : Trace Nat String Nat)]
    = .ok (n, [⟨1, [Event.new "b", Event.new "a", Event.new "c"], []⟩]) := by
  have h := C40_where flip (1/4) (by norm_num) false (⟨1, es3, []⟩ : Trace Nat String Nat)
  refine ⟨.swap (1/4) false, h.trans ?_⟩
  norm_num [draws, flip, es3, bubbled]
/-- a nested combination -/
example : adds (Noise.combined [.add "x" (1/4) false, .combined [.swap (1/2) true, .add "y" 0 true]])
    = ["x", "y"] := rfl

end Prolothar.LogNoise
