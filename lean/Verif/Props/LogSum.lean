import Verif.Props.LogOrder
import Verif.Props.LogAlgebra
/-
C168: reading two logs one after the other: the models and statistics of the concatenation of two logs are the sums and
unions of those of the parts, and preprocessing the concatenation is preprocessing the parts.
-/
namespace Prolothar.LogModels
open Prolothar.EventLog (Log Event Trace countEvents activitySupports countFollows cutTraces filterActivities keepFirst addStartActivity
  addEndActivity joinSuccessive JoinArgs)
open Prolothar.Dfg (createFromLog eventuallyFollows getCount view Built graphEq)
open Prolothar.Spec.Dfg Prolothar.Spec.Graph
open Prolothar.LogStatistics (allActivities traceStatistics variantStatistics)
open Prolothar.Spec.PrefixTree (At prefixCount)

section
variable {I A V : Type} [LinearOrder A]

theorem exists_append {α : Type} (l l' : List α) (p : α → Prop) : (∃ t ∈ l ++ l', p t) ↔ (∃ t ∈ l, p t) ∨ ∃ t ∈ l', p t := by
  simp only [List.mem_append, or_and_right, exists_or]

/-- C168: the directly-follows graph and the eventually-follows graph of the concatenation of two logs have the nodes and
edges of both graphs, and the counts are added. -/
theorem C168_graphs (log log' : Log I A V) (a b : A) :
    getCount (createFromLog (log ++ log')) a b = getCount (createFromLog log) a b + getCount (createFromLog log') a b ∧
    ((view (createFromLog (log ++ log'))).Edge a b ↔ (view (createFromLog log)).Edge a b ∨ (view (createFromLog log')).Edge a b) ∧
    ((view (createFromLog (log ++ log'))).node a ↔ (view (createFromLog log)).node a ∨ (view (createFromLog log')).node a) ∧
    getCount (eventuallyFollows (log ++ log')) a b = getCount (eventuallyFollows log) a b + getCount (eventuallyFollows log') a b ∧
    ((view (eventuallyFollows (log ++ log'))).Edge a b ↔ (view (eventuallyFollows log)).Edge a b ∨ (view (eventuallyFollows log')).Edge a b) ∧
    ((view (eventuallyFollows (log ++ log'))).node a ↔ (view (eventuallyFollows log)).node a ∨ (view (eventuallyFollows log')).node a) := by
  obtain ⟨c0, e0, n0⟩ := Dfg.C44_counts (log ++ log')
  obtain ⟨c1, e1, n1⟩ := Dfg.C44_counts log
  obtain ⟨c2, e2, n2⟩ := Dfg.C44_counts log'
  obtain ⟨f0, g0, m0⟩ := Dfg.C82_eventually_follows (log ++ log') a b
  obtain ⟨f1, g1, m1⟩ := Dfg.C82_eventually_follows log a b
  obtain ⟨f2, g2, m2⟩ := Dfg.C82_eventually_follows log' a b
  refine ⟨?_, ?_, ?_, ?_, ?_, ?_⟩
  · rw [c0, c1, c2, List.map_append, List.sum_append]; push_cast; rfl
  · rw [e0, e1, e2, exists_append]
  · rw [n0, n1, n2, exists_append]
  · rw [f0, f1, f2, List.filter_append, List.length_append]; push_cast; rfl
  · rw [g0, g1, g2, exists_append]
  · rw [m0, m1, m2, exists_append]

/-- C168: the prefix tree of all sequences has the nodes of both trees, and the count of a node is the sum of its counts in
the two trees. -/
theorem C168_prefix_tree {seqs seqs' : List (List A)} {t t1 t2 : PrefixTree.Tree A} (ht : PrefixTree.build (seqs ++ seqs') = .ok t)
    (ht1 : PrefixTree.build seqs = .ok t1) (ht2 : PrefixTree.build seqs' = .ok t2) (w : List A) :
    ((∃ n, At t w n) ↔ (∃ n, At t1 w n) ∨ ∃ n, At t2 w n) ∧
    ∀ n, At t w n →
      (∀ n1 n2, At t1 w n1 → At t2 w n2 → n.count = n1.count + n2.count) ∧
      (∀ n1, At t1 w n1 → (¬ ∃ n2, At t2 w n2) → n.count = n1.count) ∧
      (∀ n2, At t2 w n2 → (¬ ∃ n1, At t1 w n1) → n.count = n2.count) := by
  obtain ⟨_, h, hat⟩ := PrefixTree.C52_counts (seqs ++ seqs')
  obtain ⟨_, h1, hat1⟩ := PrefixTree.C52_counts seqs
  obtain ⟨_, h2, hat2⟩ := PrefixTree.C52_counts seqs'
  rw [ht, Except.ok.injEq] at h
  rw [ht1, Except.ok.injEq] at h1
  rw [ht2, Except.ok.injEq] at h2
  subst h h1 h2
  have hp : prefixCount (seqs ++ seqs') w = prefixCount seqs w + prefixCount seqs' w := by
    unfold prefixCount; rw [List.filter_append, List.length_append]
  refine ⟨?_, fun n hn => ⟨fun n1 n2 hn1 hn2 => ?_, fun n1 hn1 hno => ?_, fun n2 hn2 hno => ?_⟩⟩
  · rw [(hat w).1, (hat1 w).1, (hat2 w).1, hp]
    constructor
    · rintro (h | h)
      · exact .inl (.inl h)
      · by_cases h' : 0 < prefixCount seqs w
        · exact .inl (.inr h')
        · exact .inr (.inr (by omega))
    · rintro ((h | h) | (h | h))
      · exact .inl h
      · exact .inr (by omega)
      · exact .inl h
      · exact .inr (by omega)
  · rw [(hat w).2 n hn, (hat1 w).2 n1 hn1, (hat2 w).2 n2 hn2, hp]
  · rw [(hat2 w).1, not_or] at hno
    rw [(hat w).2 n hn, (hat1 w).2 n1 hn1, hp]
    omega
  · rw [(hat1 w).1, not_or] at hno
    rw [(hat w).2 n hn, (hat2 w).2 n2 hn2, hp]
    omega

/-- C168: for a deterministic abstraction the transition system of all sequences has the states, start states, end states and
transitions of both systems. In particular the transitions of the two systems never contradict each other. -/
theorem C168_transition_system {S : Type} [DecidableEq S] {f : List A → S} (hf : Spec.Lts.Compositional f) (seqs seqs' : List (List A)) :
    let m := Lts.build f (seqs ++ seqs')
    let m1 := Lts.build f seqs
    let m2 := Lts.build f seqs'
    (∀ x, x ∈ m.states ↔ x ∈ m1.states ∨ x ∈ m2.states) ∧ (∀ x, x ∈ m.starts ↔ x ∈ m1.starts ∨ x ∈ m2.starts) ∧
    (∀ x, x ∈ m.ends ↔ x ∈ m1.ends ∨ x ∈ m2.ends) ∧
    ∀ x e y, Lts.answer m x e = some y ↔ Lts.answer m1 x e = some y ∨ Lts.answer m2 x e = some y := by
  intro m m1 m2
  obtain ⟨a1, a2, a3, -⟩ := Lts.C54_states f (seqs ++ seqs')
  obtain ⟨b1, b2, b3, -⟩ := Lts.C54_states f seqs
  obtain ⟨c1, c2, c3, -⟩ := Lts.C54_states f seqs'
  refine ⟨fun x => by rw [a1, b1, c1, exists_append], fun x => ?_, fun x => by rw [a3, b3, c3, exists_append], fun x e y => ?_⟩
  · rw [a2, b2, c2, ← or_and_right]
    cases seqs <;> simp
  · rw [Lts.C54_exact hf, Lts.C54_exact hf, Lts.C54_exact hf]
    exact exists_append _ _ _

/-- C168: numbers of events, supports of activities and follow counts are added. -/
theorem C168_statistics (log log' : Log I A V) :
    countEvents (log ++ log') = countEvents log + countEvents log' ∧
    (∀ a, ((activitySupports (log ++ log')).get? a).getD 0 =
      ((activitySupports log).get? a).getD 0 + ((activitySupports log').get? a).getD 0) ∧
    (∀ a b, ((countFollows (log ++ log')).get? (a, b)).getD 0 =
      ((countFollows log).get? (a, b)).getD 0 + ((countFollows log').get? (a, b)).getD 0) := by
  have hall : allActivities (log ++ log') = allActivities log ++ allActivities log' := List.flatMap_append
  refine ⟨?_, fun a => ?_, fun a b => ?_⟩
  · rw [LogStatistics.C121_count_events, LogStatistics.C121_count_events, LogStatistics.C121_count_events, hall, List.length_append]
  · have key : ∀ l : Log I A V, ((activitySupports l).get? a).getD 0 = (allActivities l).count a := by
      intro l
      rw [LogStatistics.C121_activity_supports]
      split
      · rfl
      · next h => rw [List.count_eq_zero_of_not_mem h]; rfl
    rw [key, key, key, hall, List.count_append]
  · have key : ∀ l : Log I A V, ((countFollows l).get? (a, b)).getD 0 = (l.map fun t => Spec.EventLog.followCount a b t.activities).sum := by
      intro l
      rw [EventLog.C31_count_follows]
      split
      · rfl
      · next h =>
        symm
        show _ = 0
        rw [List.sum_eq_zero_iff]
        intro n hn
        obtain ⟨t, ht, rfl⟩ := List.mem_map.1 hn
        show Spec.EventLog.followCount a b t.activities = 0
        unfold Spec.EventLog.followCount
        rw [Finset.card_eq_zero, Finset.filter_eq_empty_iff]
        rintro j - ⟨hb, i, -, ha⟩
        exact h ⟨⟨t, ht, List.mem_of_getElem? ha⟩, ⟨t, ht, List.mem_of_getElem? hb⟩⟩
    rw [key, key, key, List.map_append, List.sum_append]

/-- C168: preprocessing two logs and concatenating them is the same as preprocessing the concatenation. -/
theorem C168_preprocessing (log log' : Log I A V) :
    (∀ S E, cutTraces (log ++ log') S E = cutTraces log S E ++ cutTraces log' S E) ∧
    (∀ p b, filterActivities (log ++ log') p b = filterActivities log p b ++ filterActivities log' p b) ∧
    keepFirst (log ++ log') = keepFirst log ++ keepFirst log' ∧
    (∀ a, addStartActivity (log ++ log') a = addStartActivity log a ++ addStartActivity log' a) ∧
    (∀ a, addEndActivity (log ++ log') a = addEndActivity log a ++ addEndActivity log' a) := by
  refine ⟨fun S E => ?_, fun p b => ?_, List.map_append, fun a => List.map_append, fun a => List.map_append⟩
  · cases S <;> cases E <;> simp [cutTraces]
  · cases b <;> simp [filterActivities]

/-- C168: the same for joining, provided that both logs can be joined; conversely, if the concatenation can be joined, so can
both logs. -/
theorem C168_join [DecidableEq V] (args : JoinArgs A V) (log log' : Log I A V) :
    (∀ r r', joinSuccessive args log = .ok r → joinSuccessive args log' = .ok r' → joinSuccessive args (log ++ log') = .ok (r ++ r')) ∧
    ∀ q, joinSuccessive args (log ++ log') = .ok q → ∃ r r', q = r ++ r' ∧ joinSuccessive args log = .ok r ∧ joinSuccessive args log' = .ok r' := by
  unfold joinSuccessive
  constructor
  · intro r r' h h'
    exact EventLog.forall₂_mapM (List.rel_append (EventLog.mapM_ok_forall₂ h) (EventLog.mapM_ok_forall₂ h'))
  · intro q h
    have hf := EventLog.mapM_ok_forall₂ h
    refine ⟨q.take log.length, q.drop log.length, (List.take_append_drop _ _).symm, EventLog.forall₂_mapM ?_, EventLog.forall₂_mapM ?_⟩
    · have := List.forall₂_take log.length hf
      rwa [List.take_left] at this
    · have := List.forall₂_drop log.length hf
      rwa [List.drop_left] at this

/-- C168: reading a second log into the graph of the first one gives exactly the graph of the concatenation. -/
theorem C168_read_more (log log' : Log I A V) : Dfg.readCounts (createFromLog log) log' = createFromLog (log ++ log') := by
  unfold createFromLog Dfg.readCounts
  rw [List.foldl_append]

/-- C168: however the traces are shuffled, the directly-follows counts of train and test log add up to those of the log; the same
holds for train and test log of every fold, and the counts of the test logs of all folds add up to those of the log. -/
theorem C168_splits (log : Log I A V) :
    (∀ (shuffle : Log I A V → Log I A V), (∀ l, (shuffle l).Perm l) → ∀ (p : ℚ) (train test : Log I A V),
      EventLog.trainTestSplit shuffle log p = .ok (train, test) → ∀ a b,
        getCount (createFromLog train) a b + getCount (createFromLog test) a b = getCount (createFromLog log) a b) ∧
    ∀ (k : Nat) (folds : List (Log I A V × Log I A V)), EventLog.kFolds log k = .ok folds → ∀ a b,
      (∀ f ∈ folds, getCount (createFromLog f.1) a b + getCount (createFromLog f.2) a b = getCount (createFromLog log) a b) ∧
      (folds.map fun f => getCount (createFromLog f.2) a b).sum = getCount (createFromLog log) a b := by
  have hperm : ∀ {l l' : Log I A V} (a b : A), l.Perm l' → getCount (createFromLog l) a b = getCount (createFromLog l') a b := by
    intro l l' a b h
    rw [(Dfg.C44_counts l).1, (Dfg.C44_counts l').1, (h.map _).sum_eq]
  constructor
  · intro shuffle hs p train test h a b
    rw [← (C168_graphs train test a b).1]
    refine hperm a b ?_
    by_cases hp : 0 ≤ p ∧ p ≤ 1
    · obtain ⟨tr, te, h1, h2, -⟩ := EventLog.C35_train_test_split shuffle hs log p hp.1 hp.2
      rw [h, Except.ok.injEq, Prod.mk.injEq] at h1
      rw [h1.1, h1.2]; exact h2
    · rw [EventLog.C35_invalid_proportion shuffle log p (by rcases not_and_or.1 hp with h | h
                                                            · exact .inl (not_le.1 h)
                                                            · exact .inr (not_le.1 h))] at h
      cases h
  · intro k folds h a b
    by_cases hk : 2 ≤ k ∧ k ≤ log.length
    · obtain ⟨fs, h1, -, h3, h4, -⟩ := EventLog.C35_k_folds log k hk.1 hk.2
      rw [h, Except.ok.injEq] at h1
      subst h1
      refine ⟨fun f hf => ?_, ?_⟩
      · rw [← (C168_graphs f.1 f.2 a b).1]
        exact hperm a b (h4 f hf).1
      · rw [← h3]
        clear h h3 h4
        induction folds with
        | nil => rw [(Dfg.C44_counts _).1]; rfl
        | cons f fs ih =>
          rw [List.map_cons, List.sum_cons, List.map_cons, List.flatten_cons, (C168_graphs _ _ a b).1, ih]
    · rw [EventLog.C35_invalid_folds log k (by omega)] at h
      cases h

-- two parts of the sample log
example : sample = sample.take 1 ++ sample.drop 1 ∧ sample.take 1 ≠ [] ∧ sample.drop 1 ≠ [] := by decide +kernel

end
end Prolothar.LogModels
