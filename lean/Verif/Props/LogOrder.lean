import Verif.Props.LogModels
import Verif.Props.DfgQueries
/-
Models and statistics of an event log do not depend on the order of its traces: C161.
-/
namespace Prolothar.LogModels
open Prolothar.EventLog (Log Event Trace countEvents activitySupports countFollows)
open Prolothar.Dfg (createFromLog eventuallyFollows getCount view Built graphEq)
open Prolothar.Spec.Dfg Prolothar.Spec.Graph
open Prolothar.LogStatistics (allActivities traceStatistics variantStatistics)
open Prolothar.Spec.PrefixTree (At prefixCount)

section
variable {I A V : Type} [LinearOrder A] {log log' : Log I A V}

theorem exists_perm {α : Type} {l l' : List α} (h : l.Perm l') (p : α → Prop) : (∃ t ∈ l, p t) ↔ ∃ t ∈ l', p t :=
  ⟨fun ⟨t, ht, hp⟩ => ⟨t, h.subset ht, hp⟩, fun ⟨t, ht, hp⟩ => ⟨t, h.symm.subset ht, hp⟩⟩

/-- the count of an edge from the two queries that C44 describes -/
theorem count_of {g : Dfg.Graph A} (hb : Built g) (a b : A) [Decidable ((view g).Edge a b)] :
    (view g).count a b = if (view g).Edge a b then some (getCount g a b) else none := by
  rw [(Dfg.C43_queries hb a).2.2 b]
  split
  · next h => obtain ⟨c, h⟩ := h; rw [h]; rfl
  · next h =>
    cases hc : (view g).count a b with
    | none => rfl
    | some c => exact absurd ⟨c, hc⟩ h

/-- C161: reading the same traces in another order gives an equal directly-follows graph and an equal eventually-follows graph. -/
theorem C161_graphs (h : log.Perm log') :
    graphEq (createFromLog log) (createFromLog log') = true ∧ graphEq (eventuallyFollows log) (eventuallyFollows log') = true := by
  classical
  constructor
  · have hb : Built (createFromLog log) := .readCounts .new _
    have hb' : Built (createFromLog log') := .readCounts .new _
    obtain ⟨hc, he, hn⟩ := Dfg.C44_counts log
    obtain ⟨hc', he', hn'⟩ := Dfg.C44_counts log'
    rw [Dfg.C123_equality hb hb']
    refine ⟨fun a => by rw [hn, hn', exists_perm h], fun a b => ?_⟩
    rw [count_of hb, count_of hb', hc, hc']
    simp only [he, he', exists_perm h]
    rw [(h.map _).sum_eq]
  · have hb : Built (eventuallyFollows log) := .eventually _
    have hb' : Built (eventuallyFollows log') := .eventually _
    rw [Dfg.C123_equality hb hb']
    refine ⟨fun a => ?_, fun a b => ?_⟩
    · rw [(Dfg.C82_eventually_follows log a a).2.2, (Dfg.C82_eventually_follows log' a a).2.2, exists_perm h]
    · rw [count_of hb, count_of hb']
      simp only [(Dfg.C82_eventually_follows log a b).1, (Dfg.C82_eventually_follows log' a b).1, (Dfg.C82_eventually_follows log a b).2.1,
        (Dfg.C82_eventually_follows log' a b).2.1, exists_perm h]
      rw [(h.filter _).length_eq]

/-- C161: appending the same sequences in another order gives a prefix tree with the same nodes, counts and order of the nodes; the
level-order traversal yields the same symbols and counts. -/
theorem C161_prefix_tree {seqs seqs' : List (List A)} (h : seqs.Perm seqs') {t t' : PrefixTree.Tree A}
    (ht : PrefixTree.build seqs = .ok t) (ht' : PrefixTree.build seqs' = .ok t') :
    (∀ w c, (∃ n, At t w n ∧ n.count = c) ↔ ∃ n, At t' w n ∧ n.count = c) ∧
    ∃ N r r', (∀ fuel ≥ N, PrefixTree.levelOrder fuel t = .ok r ∧ PrefixTree.levelOrder fuel t' = .ok r') ∧
      r.map (fun c => (c.1, c.2.count)) = r'.map (fun c => (c.1, c.2.count)) := by
  obtain ⟨_, h1, hat⟩ := PrefixTree.C52_counts seqs
  obtain ⟨_, h1', hat'⟩ := PrefixTree.C52_counts seqs'
  rw [ht, Except.ok.injEq] at h1
  rw [ht', Except.ok.injEq] at h1'
  subst h1 h1'
  have hp : ∀ w, prefixCount seqs w = prefixCount seqs' w := fun w => (h.filter _).length_eq
  constructor
  · intro w c
    constructor
    · rintro ⟨n, hn, rfl⟩
      obtain ⟨n', hn'⟩ := (hat' w).1.2 (by rw [← hp]; exact (hat w).1.1 ⟨n, hn⟩)
      exact ⟨n', hn', by rw [(hat w).2 n hn, (hat' w).2 n' hn', hp]⟩
    · rintro ⟨n, hn, rfl⟩
      obtain ⟨n', hn'⟩ := (hat w).1.2 (by rw [hp]; exact (hat' w).1.1 ⟨n, hn⟩)
      exact ⟨n', hn', by rw [(hat w).2 n' hn', (hat' w).2 n hn, hp]⟩
  · obtain ⟨N, r, hr, ws, hl, hi, hm, hs⟩ := PrefixTree.C86_level_order seqs ht
    obtain ⟨N', r', hr', ws', hl', hi', hm', hs'⟩ := PrefixTree.C86_level_order seqs' ht'
    refine ⟨max N N', r, r', fun fuel hf => ⟨hr fuel (by omega), hr' fuel (by omega)⟩, ?_⟩
    have hws : ws = ws' := by
      have hirr : ∀ {l : List (List A)}, l.Pairwise (fun u v => u.length < v.length ∨ (u.length = v.length ∧ v < u)) → l.Nodup := by
        intro l hl
        refine hl.imp fun {u v} huv => ?_
        rintro rfl
        rcases huv with h | ⟨_, h⟩
        · omega
        · exact lt_irrefl _ h
      refine List.Perm.eq_of_pairwise (le := fun u v => u.length < v.length ∨ (u.length = v.length ∧ v < u)) ?_ hs hs' ?_
      · rintro a b _ _ (h | ⟨h, h2⟩) (h' | ⟨h', h3⟩)
        · omega
        · omega
        · omega
        · exact absurd h2 (lt_asymm h3)
      · refine (List.perm_ext_iff_of_nodup (hirr hs) (hirr hs')).2 fun w => ?_
        rw [hm, hm', exists_perm h]
    subst hws
    refine List.ext_getElem? fun i => ?_
    rw [List.getElem?_map, List.getElem?_map]
    by_cases hlt : i < ws.length
    · obtain ⟨a1, a2⟩ := hi i _ _ (List.getElem?_eq_getElem hlt) (List.getElem?_eq_getElem (hl ▸ hlt))
      obtain ⟨b1, b2⟩ := hi' i _ _ (List.getElem?_eq_getElem hlt) (List.getElem?_eq_getElem (hl' ▸ hlt))
      rw [List.getElem?_eq_getElem (hl ▸ hlt), List.getElem?_eq_getElem (hl' ▸ hlt)]
      simp only [Option.map_some, Option.some.injEq, Prod.mk.injEq]
      exact ⟨Option.some.inj (a2.symm.trans b2), by rw [(hat _).2 _ a1, (hat' _).2 _ b1, hp]⟩
    · rw [List.getElem?_eq_none (by omega), List.getElem?_eq_none (by omega)]

/-- C161 (disagreement): the node ids do depend on the order. -/
theorem C161_ids : ∃ t t' n n', PrefixTree.build [[1], [2]] = .ok t ∧ PrefixTree.build [[2], [1]] = .ok t' ∧
    At t [1] n ∧ At t' [1] n' ∧ n.id ≠ n'.id := by
  refine ⟨_, _, _, _, rfl, rfl, .child (List.mem_cons_of_mem _ (List.mem_cons_self ..)) (.root _),
    .child (List.mem_cons_of_mem _ (List.mem_cons_self ..)) (.root _), ?_⟩
  decide

/-- C161: for a deterministic abstraction, the transition system does not depend on the order of the added sequences. -/
theorem C161_transition_system {S : Type} [DecidableEq S] {f : List A → S} (hf : Spec.Lts.Compositional f) {seqs seqs' : List (List A)} (h : seqs.Perm seqs') :
    let m := Lts.build f seqs
    let m' := Lts.build f seqs'
    (∀ x, x ∈ m.states ↔ x ∈ m'.states) ∧ (∀ x, x ∈ m.starts ↔ x ∈ m'.starts) ∧ (∀ x, x ∈ m.ends ↔ x ∈ m'.ends) ∧
    (∀ x e, Lts.answer m x e = Lts.answer m' x e) ∧
    Lts.nrOfStates m = Lts.nrOfStates m' ∧ Lts.nrOfTransitions m = Lts.nrOfTransitions m' := by
  intro m m'
  obtain ⟨a1, a2, a3, a4, _⟩ := Lts.C54_states f seqs
  obtain ⟨b1, b2, b3, b4, _⟩ := Lts.C54_states f seqs'
  have hst : ∀ x, x ∈ m.states ↔ x ∈ m'.states := fun x => by rw [a1, b1, exists_perm h]
  have hans : ∀ x e, Lts.answer m x e = Lts.answer m' x e := by
    intro x e
    refine Option.ext fun y => ?_
    rw [Lts.C54_exact hf, Lts.C54_exact hf]
    exact exists_perm h _
  have hne : seqs ≠ [] ↔ seqs' ≠ [] := not_congr ⟨fun e => by subst e; exact h.nil_eq.symm, fun e => by subst e; exact h.eq_nil⟩
  obtain ⟨t1, t2, t3, _⟩ := Lts.C88_iterator f seqs
  obtain ⟨u1, u2, u3, _⟩ := Lts.C88_iterator f seqs'
  refine ⟨hst, fun x => by rw [a2, b2, hne], fun x => by rw [a3, b3, exists_perm h], hans, ?_, ?_⟩
  · exact ((List.perm_ext_iff_of_nodup a4 b4).2 hst).length_eq
  · show Lts.nrOfTransitions (Lts.build _ _) = Lts.nrOfTransitions (Lts.build _ _)
    rw [t3, u3]
    refine ((List.perm_ext_iff_of_nodup t1 u1).2 ?_).length_eq
    rintro ⟨x, e, y⟩
    rw [t2, u2]
    exact Eq.congr (hans x e) rfl

/-- C161 (disagreement): for other abstractions, such as `last_n_abstraction` with a negative number, the order matters. -/
theorem C161_order_matters :
    Lts.answer (Lts.build (Lts.lastNAbstraction (-1)) [[1, 2], [2]]) [] 2 ≠ Lts.answer (Lts.build (Lts.lastNAbstraction (-1)) [[2], [1, 2]]) [] 2 := by
  decide

/-- C161: the statistics of a log do not depend on the order of its traces; the variant table has the same rows. -/
theorem C161_statistics (h : log.Perm log') :
    countEvents log = countEvents log' ∧ (∀ a, (activitySupports log).get? a = (activitySupports log').get? a) ∧
    (∀ a b, (countFollows log).get? (a, b) = (countFollows log').get? (a, b)) ∧
    traceStatistics log = traceStatistics log' ∧
    ∀ name : A → List Char, (variantStatistics name log).Perm (variantStatistics name log') := by
  have hall : (allActivities log).Perm (allActivities log') := h.flatMap_right _
  refine ⟨?_, fun a => ?_, fun a b => ?_, ?_, fun name => ?_⟩
  · rw [LogStatistics.C121_count_events, LogStatistics.C121_count_events, hall.length_eq]
  · rw [LogStatistics.C121_activity_supports, LogStatistics.C121_activity_supports, hall.count_eq]
    simp only [hall.mem_iff]
  · rw [EventLog.C31_count_follows, EventLog.C31_count_follows, (h.map _).sum_eq]
    simp only [exists_perm h]
  · by_cases hl : log = []
    · subst hl; rw [h.nil_eq]
    · have hl' : log' ≠ [] := fun e => by subst e; exact hl h.eq_nil
      obtain ⟨s, h1, h2, h3, ⟨t1, m1, e1⟩, h4, ⟨t2, m2, e2⟩, h5, h6⟩ := LogStatistics.C121_trace_statistics log hl
      obtain ⟨s', h1', h2', h3', ⟨t1', m1', e1'⟩, h4', ⟨t2', m2', e2'⟩, h5', h6'⟩ := LogStatistics.C121_trace_statistics log' hl'
      rw [h1, h1']
      congr 1
      have q1 := h4 t1' (h.symm.subset m1')
      have q2 := h4' t1 (h.subset m1)
      have q3 := h5 t2' (h.symm.subset m2')
      have q4 := h5' t2 (h.subset m2)
      have hset : (log.map Trace.activities).toFinset = (log'.map Trace.activities).toFinset := List.toFinset_eq_of_perm _ _ (h.map _)
      have hsum : (log.map fun t => (t.events.length : ℚ)).sum = (log'.map fun t => (t.events.length : ℚ)).sum := (h.map _).sum_eq
      cases s
      cases s'
      simp only [LogStatistics.TraceStats.mk.injEq] at *
      refine ⟨by rw [h2, h2', h.length_eq], by rw [h3, h3', hset], by omega, by rw [h6, h6', hsum, h.length_eq], by omega⟩
  · obtain ⟨vs, n1, m1, e1, _⟩ := LogStatistics.C121_variants name log
    obtain ⟨vs', n1', m1', e1', _⟩ := LogStatistics.C121_variants name log'
    have hv : vs.Perm vs' := (List.perm_ext_iff_of_nodup n1 n1').2 fun v => by rw [m1, m1', exists_perm h]
    rw [e1, e1']
    have : ∀ v, (log.filter fun t => t.activities = v).length = (log'.filter fun t => t.activities = v).length := fun v => (h.filter _).length_eq
    simp only [this]
    exact hv.map _

-- two orders of the sample log
example : sample.Perm sample.reverse ∧ sample ≠ sample.reverse := ⟨(List.reverse_perm _).symm, by decide +kernel⟩

end
end Prolothar.LogModels
