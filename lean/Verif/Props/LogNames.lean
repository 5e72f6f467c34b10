import Verif.Props.LogOrder
import Verif.Props.BoyerMoore
import Verif.Props.Levenshtein
import Verif.Props.LCS
import Verif.Props.Patterns
import Verif.Props.SuffixTree
/-
The names of the activities do not matter: C162.
-/
namespace Prolothar.LogNames
open Prolothar.EventLog (Log Event Trace countEvents activitySupports countFollows)
open Prolothar.Dfg (createFromLog eventuallyFollows getCount view Built)
open Prolothar.Spec Prolothar.Spec.Dfg
open Prolothar.LogStatistics (allActivities traceStatistics)
open Prolothar.Spec.PrefixTree (At prefixCount)

section
variable {α β : Type} [DecidableEq α] [DecidableEq β] {f : α → β}

omit [DecidableEq α] [DecidableEq β] in
theorem occursAt_map (hf : Function.Injective f) (s l : List α) (i : Nat) : OccursAt (s.map f) (l.map f) i ↔ OccursAt s l i := by
  constructor
  · rintro ⟨a, b, h, rfl⟩
    rw [List.append_assoc, List.map_eq_append_iff] at h
    obtain ⟨a', c, rfl, rfl, h⟩ := h
    rw [List.map_eq_append_iff] at h
    obtain ⟨s', b', rfl, h, rfl⟩ := h
    rw [List.map_inj_right hf] at h
    subst h
    exact ⟨a', b', by simp, by simp⟩
  · rintro ⟨a, b, h, rfl⟩
    exact ⟨a.map f, b.map f, by simp [h], by simp⟩

/-- C162: the searches give the same positions for renamed lists. -/
theorem C162_search (hf : Function.Injective f) (l s : List α) :
    BoyerMoore.search (l.map f) (s.map f) = BoyerMoore.search l s ∧ BoyerMoore.searchAll (l.map f) (s.map f) = BoyerMoore.searchAll l s := by
  constructor
  · rcases BoyerMoore.C01_search_returns_first_occurrence l s with ⟨i, h1, h2, h3⟩ | ⟨h1, h2⟩
    · rw [h1, (BoyerMoore.C01_search_result_iff (l.map f) (s.map f)).1 i]
      exact ⟨(occursAt_map hf ..).2 h2, fun q hq h => h3 q hq ((occursAt_map hf ..).1 h)⟩
    · rw [h1, (BoyerMoore.C01_search_result_iff (l.map f) (s.map f)).2]
      exact fun q h => h2 q ((occursAt_map hf ..).1 h)
  · obtain ⟨r, h1, h2, h3⟩ := BoyerMoore.C03_searchAll_sound_complete l s
    obtain ⟨r', h1', h2', h3'⟩ := BoyerMoore.C03_searchAll_sound_complete (l.map f) (s.map f)
    rw [h1, h1', Except.ok.injEq]
    have hn : ∀ {l : List Nat}, l.Pairwise (· < ·) → l.Nodup := fun h => h.imp fun h => Nat.ne_of_lt h
    refine List.Perm.eq_of_pairwise (le := (· < ·)) (fun a b _ _ h h' => by omega) h2' h2 ?_
    refine (List.perm_ext_iff_of_nodup (hn h2') (hn h2)).2 fun i => ?_
    rw [h3, h3', occursAt_map hf]

omit [DecidableEq α] [DecidableEq β] in
theorem getElem?_map_eq (hf : Function.Injective f) (x y : List α) (i j : Nat) : ((x.map f)[i]? = (y.map f)[j]?) ↔ x[i]? = y[j]? := by
  rw [List.getElem?_map, List.getElem?_map]
  exact (Option.map_injective hf).eq_iff

theorem lcsMatrix_map (hf : Function.Injective f) (x y : List α) : LCS.lcsMatrix (x.map f) (y.map f) = LCS.lcsMatrix x y := by
  unfold LCS.lcsMatrix
  rw [List.length_map, List.length_map]
  congr 1
  funext i j C
  unfold LCS.body
  simp only [getElem?_map_eq hf]

omit [DecidableEq α] [DecidableEq β] in
theorem pyGet_map (x : List α) (i : Int) : pyGet (x.map f) i = (pyGet x i).map f := by
  unfold pyGet
  simp only [List.length_map, List.getElem?_map]
  generalize (if i < 0 then i + (x.length : Int) else i) = k
  split
  · rfl
  · cases x[k.toNat]? <;> rfl

/-- C162: length and alignment of the longest common subsequence are the same for renamed sequences. -/
theorem C162_lcs (hf : Function.Injective f) (x y : List α) : LCS.lcsWithBacktrace (x.map f) (y.map f) = LCS.lcsWithBacktrace x y := by
  have key : ∀ (C : Grid.Matrix) (n i j : Nat) (bt : List (Nat × Nat)), i + j ≤ n →
      LCS.backtraceLoop (x.map f) (y.map f) C i j bt = LCS.backtraceLoop x y C i j bt := by
    intro C n
    induction n with
    | zero =>
      intro i j bt h
      obtain rfl : i = 0 := by omega
      unfold LCS.backtraceLoop; rfl
    | succ n ih =>
      intro i j bt h
      rcases i with _ | i
      · unfold LCS.backtraceLoop; rfl
      rcases j with _ | j
      · unfold LCS.backtraceLoop; rfl
      rw [LCS.backtraceLoop, LCS.backtraceLoop, pyGet_map, pyGet_map]
      cases pyGet x (i : Int) with
      | error e => rfl
      | ok a =>
        cases pyGet y (j : Int) with
        | error e => rfl
        | ok b =>
          show (if f a = f b then _ else _) = if a = b then _ else _
          simp only [hf.eq_iff, ih i j _ (by omega), ih i (j + 1) _ (by omega), ih (i + 1) j _ (by omega)]
  unfold LCS.lcsWithBacktrace
  rw [lcsMatrix_map hf, List.length_map, List.length_map]
  dsimp only
  rw [key _ (x.length + y.length) _ _ _ (Nat.le_refl _)]

/-- C162: distance and edit operations are the same for renamed sequences, for all costs, and the call returns for the one if and only if it
returns for the other. -/
theorem C162_levenshtein (hf : Function.Injective f) (fuel : Nat) (s1 s2 : List α) (ci cd cs : Int) :
    Levenshtein.levenshteinWithBacktrace fuel (s1.map f) (s2.map f) ci cd cs = Levenshtein.levenshteinWithBacktrace fuel s1 s2 ci cd cs := by
  have hM : Levenshtein.costMatrix (s1.map f) (s2.map f) ci cd cs = Levenshtein.costMatrix s1 s2 ci cd cs := by
    unfold Levenshtein.costMatrix
    rw [List.length_map, List.length_map]
    congr 1
    funext i j C
    unfold Levenshtein.body
    simp only [ne_eq, getElem?_map_eq hf]
  unfold Levenshtein.levenshteinWithBacktrace Levenshtein.backtrace
  rw [hM, List.length_map, List.length_map]

omit [DecidableEq α] [DecidableEq β] in
theorem occursAt_of_map {s : List β} {l : List α} {i : Nat} (h : OccursAt s (l.map f) i) : ∃ w : List α, s = w.map f := by
  obtain ⟨a, b, h, _⟩ := h
  rw [List.append_assoc, List.map_eq_append_iff] at h
  obtain ⟨a', c, -, -, h⟩ := h
  rw [List.map_eq_append_iff] at h
  obtain ⟨s', b', -, h, -⟩ := h
  exact ⟨s', h.symm⟩

omit [DecidableEq α] [DecidableEq β] in
theorem power_map (u : List α) (k : Nat) : power (u.map f) k = (power u k).map f := by
  simp [power, List.map_flatten]

omit [DecidableEq α] [DecidableEq β] in
theorem primitive_map (hf : Function.Injective f) (w : List α) : Primitive (w.map f) ↔ Primitive w := by
  unfold Primitive
  refine not_congr ⟨?_, ?_⟩
  · rintro ⟨u, k, hk, h⟩
    obtain ⟨k, rfl⟩ : ∃ m, k = m + 2 := ⟨k - 2, by omega⟩
    obtain ⟨u', hu⟩ : ∃ u' : List α, u = u'.map f := by
      have h' := h
      unfold power at h'
      rw [List.replicate_succ, List.flatten_cons, List.map_eq_append_iff] at h'
      obtain ⟨u', c, -, rfl, -⟩ := h'
      exact ⟨u', rfl⟩
    subst hu
    rw [power_map, List.map_inj_right hf] at h
    exact ⟨u', _, hk, h⟩
  · rintro ⟨u, k, hk, rfl⟩
    exact ⟨u.map f, k, hk, (power_map u k).symm⟩

omit [DecidableEq α] [DecidableEq β] in
/-- two results are the same words up to the names and the order -/
theorem perm_of_mem (hf : Function.Injective f) {r : List (List α)} {r' : List (List β)} (hn : r.Nodup) (hn' : r'.Nodup)
    (h : ∀ w, w.map f ∈ r' ↔ w ∈ r) (h' : ∀ x ∈ r', ∃ w : List α, x = w.map f) : r'.Perm (r.map (List.map f)) := by
  refine (List.perm_ext_iff_of_nodup hn' (hn.map (List.map_injective_iff.2 hf))).2 fun x => ?_
  rw [List.mem_map]
  constructor
  · intro hx
    obtain ⟨w, rfl⟩ := h' x hx
    exact ⟨w, (h w).1 hx, rfl⟩
  · rintro ⟨w, hw, rfl⟩
    exact (h w).2 hw

/-- C162: the tandem repeats and the maximal and super maximal repeats of a renamed sequence are the renamed repeats of the sequence. -/
theorem C162_repeats (hf : Function.Injective f) (seq : List α) :
    (∀ (rnd : Int → Int), (∀ k : Nat, k ≤ 2 ^ 53 → rnd k = k) → ∀ fuel minLen maxLen, seq.length ≤ 2 ^ 54 → seq.length < fuel → 1 ≤ minLen →
      ∃ r r', Patterns.findPrimitive rnd fuel seq minLen maxLen = .ok r ∧ Patterns.findPrimitive rnd fuel (seq.map f) minLen maxLen = .ok r' ∧
        r'.Perm (r.map (List.map f))) ∧
    (∀ dollar minLength, seq ≠ [] → dollar ∉ seq →
      ∃ r r', SuffixTree.findMaximal dollar (fun _ _ => false) seq minLength = .ok r ∧
        SuffixTree.findMaximal (f dollar) (fun _ _ => false) (seq.map f) minLength = .ok r' ∧ r'.Perm (r.map (List.map f))) ∧
    (∀ dollar minLength, seq ≠ [] → dollar ∉ seq →
      ∃ r r', SuffixTree.findSuperMaximal dollar (fun _ _ => false) seq minLength = .ok r ∧
        SuffixTree.findSuperMaximal (f dollar) (fun _ _ => false) (seq.map f) minLength = .ok r' ∧ r'.Perm (r.map (List.map f))) := by
  have hd' : ∀ {dollar : α}, dollar ∉ seq → f dollar ∉ seq.map f := by
    intro dollar hd h
    obtain ⟨x, hx, he⟩ := List.mem_map.1 h
    exact hd (hf he ▸ hx)
  have hne' : seq ≠ [] → seq.map f ≠ [] := fun h h' => h (List.map_eq_nil_iff.1 h')
  have hnil : ∀ w : List α, w.map f ≠ [] ↔ w ≠ [] := fun w => not_congr List.map_eq_nil_iff
  have hrep : ∀ w : List α, Repeated (w.map f) (seq.map f) ↔ Repeated w seq := by
    intro w
    simp only [Repeated, occursAt_map hf]
  have hrep' : ∀ {x : List β}, Repeated x (seq.map f) → ∃ w : List α, x = w.map f := fun h => by
    obtain ⟨i, j, _, h, _⟩ := h
    exact occursAt_of_map h
  refine ⟨?_, ?_, ?_⟩
  · intro rnd hr fuel minLen maxLen hmax hfu hmin
    obtain ⟨r, h1, hn, hm⟩ := Patterns.C90_tandem_repeats rnd hr seq hmax fuel hfu minLen hmin maxLen
    obtain ⟨r', h1', hn', hm'⟩ := Patterns.C90_tandem_repeats rnd hr (seq.map f) (by simpa using hmax) fuel (by simpa using hfu) minLen hmin maxLen
    refine ⟨r, r', h1, h1', perm_of_mem hf hn hn' (fun w => ?_) fun x hx => ?_⟩
    · rw [hm, hm', List.length_map, List.length_map, primitive_map hf, ← List.map_append]
      simp only [Occurs, occursAt_map hf]
    · obtain ⟨_, _, _, i, hi⟩ := (hm' x).1 hx
      obtain ⟨w, hw⟩ := occursAt_of_map hi
      rw [List.append_eq_map_iff] at hw
      obtain ⟨w1, _, _, h, _⟩ := hw
      exact ⟨w1, h.symm⟩
  · intro dollar minLength hne hd
    obtain ⟨r, h1, hn, hm⟩ := SuffixTree.C94_maximal_repeats dollar hne hd minLength
    obtain ⟨r', h1', hn', hm'⟩ := SuffixTree.C94_maximal_repeats (f dollar) (hne' hne) (hd' hd) minLength
    refine ⟨r, r', h1, h1', perm_of_mem hf hn hn' (fun w => ?_) fun x hx => ?_⟩
    · rw [hm, hm', List.length_map, hnil]
      simp only [RightMaximal, occursAt_map hf, List.length_map, ne_eq, getElem?_map_eq hf]
    · obtain ⟨_, _, i, j, hi, _⟩ := (hm' x).1 hx
      exact occursAt_of_map hi
  · intro dollar minLength hne hd
    obtain ⟨r, h1, hn, _, hm⟩ := SuffixTree.C95_super_maximal_repeats dollar hne hd minLength
    obtain ⟨r', h1', hn', _, hm'⟩ := SuffixTree.C95_super_maximal_repeats (f dollar) (hne' hne) (hd' hd) minLength
    refine ⟨r, r', h1, h1', perm_of_mem hf hn hn' (fun w => ?_) fun x hx => hrep' ((hm' x).1 hx).2.2.1⟩
    rw [hm, hm', List.length_map, hnil, hrep]
    refine and_congr_right fun _ => and_congr_right fun _ => and_congr_right fun _ => ⟨fun h v hv ⟨a, b, e⟩ hc => ?_, fun h v hv ⟨a, b, e⟩ hc => ?_⟩
    · refine h (v.map f) (fun e => hv ((List.map_inj_right hf).1 e)) ⟨a.map f, b.map f, by simp [e]⟩ ((hrep v).2 hc)
    · obtain ⟨v', rfl⟩ := hrep' hc
      rw [List.append_assoc, List.map_eq_append_iff] at e
      obtain ⟨a', c, rfl, rfl, e⟩ := e
      rw [List.map_eq_append_iff] at e
      obtain ⟨w', b', rfl, e, rfl⟩ := e
      rw [List.map_inj_right hf] at e
      subst e
      exact h _ (fun e => hv (by rw [e])) ⟨a', b', by simp⟩ ((hrep _).1 hc)
end

section
variable {I A B V : Type} [LinearOrder A] [LinearOrder B] {f : A → B}

/-- the log with other activity names; everything else is kept -/
def rename (f : A → B) (log : Log I A V) : Log I B V :=
  log.map fun t => ⟨t.id, t.events.map fun e => ⟨f e.activity, e.attributes, e.transition⟩, t.attributes⟩

omit [LinearOrder A] [LinearOrder B] in
theorem activities_rename (t : Trace I A V) :
    Trace.activities (⟨t.id, t.events.map fun e => ⟨f e.activity, e.attributes, e.transition⟩, t.attributes⟩ : Trace I B V) = t.activities.map f := by
  simp only [Trace.activities, List.map_map]
  rfl

omit [LinearOrder A] [LinearOrder B] in
theorem exists_rename (log : Log I A V) (p : List B → Prop) : (∃ t ∈ rename f log, p t.activities) ↔ ∃ t ∈ log, p (t.activities.map f) := by
  unfold rename
  constructor
  · rintro ⟨t, ht, h⟩
    obtain ⟨u, hu, rfl⟩ := List.mem_map.1 ht
    rw [activities_rename] at h
    exact ⟨u, hu, h⟩
  · rintro ⟨t, ht, h⟩
    exact ⟨_, List.mem_map.2 ⟨t, ht, rfl⟩, by rw [activities_rename]; exact h⟩

omit [LinearOrder A] [LinearOrder B] in
theorem map_rename {γ : Type} (log : Log I A V) (g : List B → γ) : ((rename f log).map fun t => g t.activities) = log.map fun t => g (t.activities.map f) := by
  unfold rename
  rw [List.map_map]
  refine List.map_congr_left fun t _ => ?_
  rw [Function.comp, activities_rename]

omit [LinearOrder A] [LinearOrder B] in
theorem map_getElem?_eq (hf : Function.Injective f) (l : List A) (i : Nat) (a : A) : (l.map f)[i]? = some (f a) ↔ l[i]? = some a := by
  rw [List.getElem?_map, ← Option.map_some]
  exact (Option.map_injective hf).eq_iff

theorem adjacentCount_map (hf : Function.Injective f) (a b : A) (l : List A) : adjacentCount (f a) (f b) (l.map f) = adjacentCount a b l := by
  unfold adjacentCount
  simp only [List.length_map, map_getElem?_eq hf]

omit [LinearOrder A] [LinearOrder B] in
theorem firstBefore_map (hf : Function.Injective f) (a b : A) (l : List A) : FirstBefore (f a) (f b) (l.map f) ↔ FirstBefore a b l := by
  unfold FirstBefore
  simp only [map_getElem?_eq hf, ne_eq]

omit [LinearOrder A] [LinearOrder B] in
theorem mem_map_inj (hf : Function.Injective f) (a : A) (l : List A) : f a ∈ l.map f ↔ a ∈ l := List.mem_map_of_injective hf

/-- the second graph is the first one with renamed nodes -/
def Renamed (f : A → B) (G : Digraph A) (G' : Digraph B) : Prop :=
  (∀ x, G'.node x ↔ ∃ a, f a = x ∧ G.node a) ∧ (∀ a b, G'.count (f a) (f b) = G.count a b) ∧
  ∀ x y, G'.Edge x y → ∃ a b, f a = x ∧ f b = y

/-- C162: the directly-follows graph and the eventually-follows graph of a renamed log are the renamed graphs of the log. -/
theorem C162_graphs (hf : Function.Injective f) (log : Log I A V) :
    Renamed f (view (createFromLog log)) (view (createFromLog (rename f log))) ∧
    Renamed f (view (eventuallyFollows log)) (view (eventuallyFollows (rename f log))) := by
  classical
  constructor
  · have hb : Built (createFromLog log) := .readCounts .new _
    have hb' : Built (createFromLog (rename f log)) := .readCounts .new _
    obtain ⟨hc, he, hn⟩ := Dfg.C44_counts log
    obtain ⟨hc', he', hn'⟩ := Dfg.C44_counts (rename f log)
    have hnode : ∀ x, (view (createFromLog (rename f log))).node x ↔ ∃ a, f a = x ∧ (view (createFromLog log)).node a := by
      intro x
      rw [hn', exists_rename log (fun l => x ∈ l)]
      simp only [List.mem_map, hn]
      constructor
      · rintro ⟨t, ht, a, ha, rfl⟩; exact ⟨a, rfl, t, ht, ha⟩
      · rintro ⟨a, rfl, t, ht, ha⟩; exact ⟨t, ht, a, ha, rfl⟩
    refine ⟨hnode, fun a b => ?_, fun x y h => ?_⟩
    · rw [LogModels.count_of hb, LogModels.count_of hb', hc, hc', map_rename log (adjacentCount (f a) (f b))]
      simp only [he, he', exists_rename log (fun l => 0 < adjacentCount (f a) (f b) l), adjacentCount_map hf]
    · rw [he', exists_rename log (fun l => 0 < adjacentCount x y l)] at h
      obtain ⟨t, _, h⟩ := h
      obtain ⟨i, hi⟩ := Finset.card_pos.1 h
      rw [Finset.mem_filter, List.getElem?_map, List.getElem?_map, Option.map_eq_some_iff, Option.map_eq_some_iff] at hi
      obtain ⟨_, ⟨a, _, ha⟩, b, _, hb⟩ := hi
      exact ⟨a, b, ha, hb⟩
  · have hb : Built (eventuallyFollows log) := .eventually _
    have hb' : Built (eventuallyFollows (rename f log)) := .eventually _
    refine ⟨fun x => ?_, fun a b => ?_, fun x y h => ?_⟩
    · rw [(Dfg.C82_eventually_follows (rename f log) x x).2.2, exists_rename log (fun l => x ∈ l ∧ ∃ c ∈ l, c ≠ x)]
      have hnode := fun a => (Dfg.C82_eventually_follows log a a).2.2
      simp only [hnode]
      constructor
      · rintro ⟨t, ht, hx, c, hcm, hne⟩
        obtain ⟨a, ha, rfl⟩ := List.mem_map.1 hx
        obtain ⟨d, hd, rfl⟩ := List.mem_map.1 hcm
        exact ⟨a, rfl, t, ht, ha, d, hd, fun e => hne (by rw [e])⟩
      · rintro ⟨a, rfl, t, ht, ha, d, hd, hne⟩
        exact ⟨t, ht, List.mem_map.2 ⟨a, ha, rfl⟩, f d, List.mem_map.2 ⟨d, hd, rfl⟩, fun e => hne (hf e)⟩
    · rw [LogModels.count_of hb, LogModels.count_of hb', (Dfg.C82_eventually_follows log a b).1, (Dfg.C82_eventually_follows (rename f log) (f a) (f b)).1]
      simp only [(Dfg.C82_eventually_follows log a b).2.1, (Dfg.C82_eventually_follows (rename f log) (f a) (f b)).2.1,
        exists_rename log (fun l => FirstBefore (f a) (f b) l), firstBefore_map hf]
      congr 3
      unfold rename
      rw [List.filter_map, List.length_map]
      congr 2
      funext t
      rw [Function.comp, activities_rename]
      exact decide_eq_decide.2 (firstBefore_map hf a b _)
    · rw [(Dfg.C82_eventually_follows (rename f log) x y).2.1, exists_rename log (fun l => FirstBefore x y l)] at h
      obtain ⟨t, _, i, j, _, hi, hj, _⟩ := h
      rw [List.getElem?_map, Option.map_eq_some_iff] at hi hj
      obtain ⟨a, _, ha⟩ := hi
      obtain ⟨b, _, hb⟩ := hj
      exact ⟨a, b, ha, hb⟩

omit [LinearOrder A] [LinearOrder B] in
theorem prefix_map (hf : Function.Injective f) (w s : List A) : w.map f <+: s.map f ↔ w <+: s := by
  constructor
  · rintro ⟨c, h⟩
    rw [eq_comm, List.map_eq_append_iff] at h
    obtain ⟨w', c', rfl, h, rfl⟩ := h
    rw [List.map_inj_right hf] at h
    subst h
    exact ⟨c', rfl⟩
  · rintro ⟨c, rfl⟩
    exact ⟨c.map f, by simp⟩

/-- C162: the prefix tree of renamed sequences has the renamed words of the prefix tree, with the same counts. -/
theorem C162_prefix_tree (hf : Function.Injective f) (seqs : List (List A)) :
    ∃ t t', PrefixTree.build seqs = .ok t ∧ PrefixTree.build (seqs.map (List.map f)) = .ok t' ∧
      (∀ w c, (∃ n, At t' (w.map f) n ∧ n.count = c) ↔ ∃ n, At t w n ∧ n.count = c) ∧
      ∀ x n, At t' x n → ∃ w : List A, x = w.map f := by
  obtain ⟨t, h1, hat⟩ := PrefixTree.C52_counts seqs
  obtain ⟨t', h1', hat'⟩ := PrefixTree.C52_counts (seqs.map (List.map f))
  have hp : ∀ w, prefixCount (seqs.map (List.map f)) (w.map f) = prefixCount seqs w := by
    intro w
    unfold prefixCount
    rw [List.filter_map, List.length_map]
    congr 2
    funext s
    simp only [Function.comp, prefix_map hf]
  refine ⟨t, t', h1, h1', fun w c => ?_, fun x n hn => ?_⟩
  · constructor
    · rintro ⟨n, hn, rfl⟩
      obtain ⟨n', hn'⟩ := (hat w).1.2 (by rw [← hp, ← List.map_eq_nil_iff (f := f)]; exact (hat' _).1.1 ⟨n, hn⟩)
      exact ⟨n', hn', by rw [(hat w).2 n' hn', (hat' _).2 n hn, hp]⟩
    · rintro ⟨n, hn, rfl⟩
      obtain ⟨n', hn'⟩ := (hat' (w.map f)).1.2 (by rw [hp, List.map_eq_nil_iff]; exact (hat _).1.1 ⟨n, hn⟩)
      exact ⟨n', hn', by rw [(hat w).2 n hn, (hat' _).2 n' hn', hp]⟩
  · rcases (hat' x).1.1 ⟨n, hn⟩ with rfl | h
    · exact ⟨[], rfl⟩
    · obtain ⟨s, hs⟩ := List.exists_mem_of_length_pos h
      rw [List.mem_filter, List.mem_map, decide_eq_true_eq] at hs
      obtain ⟨⟨s', _, rfl⟩, c, hc⟩ := hs
      rw [eq_comm, List.map_eq_append_iff] at hc
      obtain ⟨w, c', -, hw, -⟩ := hc
      exact ⟨w, hw.symm⟩

/-- C162 (disagreement): the order of the nodes depends on the names: after exchanging the names 1 and 2 the level-order traversal is not the renamed
traversal. -/
theorem C162_order_by_name : ∃ t t', PrefixTree.build [[1], [2]] = .ok t ∧ PrefixTree.build ([[1], [2]].map (List.map (3 - ·))) = .ok t' ∧
    (PrefixTree.levelOrder 10 t).map (fun r => r.map (·.1)) = .ok [2, 1] ∧
    (PrefixTree.levelOrder 10 t').map (fun r => r.map (·.1)) = .ok [2, 1] := by
  refine ⟨_, _, rfl, rfl, ?_, ?_⟩ <;> decide +kernel

/-- C162: if an abstraction of renamed sequences is the renamed abstraction (by `g`), the transition system of renamed sequences is the renamed
transition system. -/
theorem C162_transition_system {S T : Type} [DecidableEq S] [DecidableEq T] {g : S → T} (hf : Function.Injective f) (hg : Function.Injective g)
    {ab : List A → S} {ab' : List B → T} (hab : ∀ w, ab' (w.map f) = g (ab w)) (hc : Spec.Lts.Compositional ab) (hc' : Spec.Lts.Compositional ab')
    (seqs : List (List A)) :
    let m := Lts.build ab seqs
    let m' := Lts.build ab' (seqs.map (List.map f))
    (∀ x, x ∈ m'.states ↔ x ∈ m.states.map g) ∧ (∀ x, x ∈ m'.starts ↔ x ∈ m.starts.map g) ∧ (∀ x, x ∈ m'.ends ↔ x ∈ m.ends.map g) ∧
    (∀ s e, Lts.answer m' (g s) (f e) = (Lts.answer m s e).map g) ∧
    ∀ x y z, Lts.answer m' x y = some z → ∃ s e, x = g s ∧ y = f e := by
  intro m m'
  obtain ⟨a1, a2, a3, _⟩ := Lts.C54_states ab seqs
  obtain ⟨b1, b2, b3, _⟩ := Lts.C54_states ab' (seqs.map (List.map f))
  have hstep : ∀ {x y z}, Spec.Lts.Step ab' (seqs.map (List.map f)) x y z → ∃ s e s', x = g s ∧ y = f e ∧ z = g s' ∧ Spec.Lts.Step ab seqs s e s' := by
    rintro x y z ⟨q, hq, p, hp, rfl, rfl⟩
    obtain ⟨seq, hs, rfl⟩ := List.mem_map.1 hq
    have hp' := hp
    obtain ⟨c, h⟩ := hp
    rw [eq_comm, List.map_eq_append_iff] at h
    obtain ⟨w, c', -, h, -⟩ := h
    rw [List.map_eq_append_iff] at h
    obtain ⟨p', e', rfl, rfl, h⟩ := h
    rw [List.map_eq_singleton_iff] at h
    obtain ⟨e, rfl, rfl⟩ := h
    have e1 : p'.map f ++ [f e] = (p' ++ [e]).map f := by simp
    rw [e1, prefix_map hf] at hp'
    exact ⟨ab p', e, ab (p' ++ [e]), hab p', rfl, by rw [e1, hab], seq, hs, p', hp', rfl, rfl⟩
  refine ⟨fun x => ?_, fun x => ?_, fun x => ?_, fun s e => ?_, fun x y z h => ?_⟩
  · rw [b1, List.mem_map]
    constructor
    · rintro ⟨q, hq, p, hp, rfl⟩
      obtain ⟨seq, hs, rfl⟩ := List.mem_map.1 hq
      have hp' := hp
      obtain ⟨c, h⟩ := hp
      rw [eq_comm, List.map_eq_append_iff] at h
      obtain ⟨w, c', -, rfl, -⟩ := h
      exact ⟨ab w, (a1 _).2 ⟨seq, hs, w, (prefix_map hf w seq).1 hp', rfl⟩, (hab w).symm⟩
    · rintro ⟨s, hs, rfl⟩
      obtain ⟨seq, hq, w, hw, rfl⟩ := (a1 _).1 hs
      exact ⟨seq.map f, List.mem_map.2 ⟨seq, hq, rfl⟩, w.map f, (prefix_map hf w seq).2 hw, (hab w).symm⟩
  · rw [b2, List.mem_map]
    have hab0 : ab' [] = g (ab []) := hab []
    constructor
    · rintro ⟨hne, rfl⟩
      exact ⟨ab [], (a2 _).2 ⟨fun e => hne (by rw [e]; rfl), rfl⟩, hab0.symm⟩
    · rintro ⟨s, hs, rfl⟩
      obtain ⟨hne, rfl⟩ := (a2 _).1 hs
      exact ⟨fun e => hne (List.map_eq_nil_iff.1 e), hab0.symm⟩
  · rw [b3, List.mem_map]
    constructor
    · rintro ⟨q, hq, rfl⟩
      obtain ⟨seq, hs, rfl⟩ := List.mem_map.1 hq
      exact ⟨ab seq, (a3 _).2 ⟨seq, hs, rfl⟩, (hab seq).symm⟩
    · rintro ⟨s, hs, rfl⟩
      obtain ⟨seq, hq, rfl⟩ := (a3 _).1 hs
      exact ⟨seq.map f, List.mem_map.2 ⟨seq, hq, rfl⟩, (hab seq).symm⟩
  · refine Option.ext fun z => ?_
    rw [Lts.C54_exact hc', Option.map_eq_some_iff]
    simp only [m, Lts.C54_exact hc]
    constructor
    · intro h
      obtain ⟨s1, e1, s', h1, h2, h3, h4⟩ := hstep h
      rw [hg h1, hf h2]
      exact ⟨s', h4, h3.symm⟩
    · rintro ⟨s', ⟨seq, hs, p, hp, rfl, rfl⟩, rfl⟩
      refine ⟨seq.map f, List.mem_map.2 ⟨seq, hs, rfl⟩, p.map f, ?_, hab p, ?_⟩
      · have := (prefix_map hf _ _).2 hp
        simpa using this
      · rw [← hab]; simp
  · obtain ⟨s, e, _, h1, h2, _⟩ := hstep ((Lts.C54_exact hc' _ _ _ _).1 h)
    exact ⟨s, e, h1, h2⟩

/-- C162: the statistics of a renamed log are those of the log. -/
theorem C162_statistics (hf : Function.Injective f) (log : Log I A V) :
    countEvents (rename f log) = countEvents log ∧
    (∀ a, (activitySupports (rename f log)).get? (f a) = (activitySupports log).get? a) ∧
    (∀ a b, (countFollows (rename f log)).get? (f a, f b) = (countFollows log).get? (a, b)) ∧
    traceStatistics (rename f log) = traceStatistics log := by
  have hall : allActivities (rename f log) = (allActivities log).map f := by
    unfold allActivities rename
    rw [List.flatMap_map, List.map_flatMap]
    refine List.flatMap_congr fun t _ => ?_
    rw [activities_rename]
  refine ⟨?_, fun a => ?_, fun a b => ?_, ?_⟩
  · rw [LogStatistics.C121_count_events, LogStatistics.C121_count_events, hall, List.length_map]
  · rw [LogStatistics.C121_activity_supports, LogStatistics.C121_activity_supports, hall, List.count_map_of_injective _ _ hf]
    simp only [mem_map_inj hf]
  · have hfc : ∀ l : List A, EventLog.followCount (f a) (f b) (l.map f) = EventLog.followCount a b l := by
      intro l
      unfold EventLog.followCount
      simp only [List.length_map, map_getElem?_eq hf]
    rw [EventLog.C31_count_follows, EventLog.C31_count_follows, map_rename log (EventLog.followCount (f a) (f b))]
    simp only [exists_rename log (fun l => f a ∈ l), exists_rename log (fun l => f b ∈ l), mem_map_inj hf, hfc]
  · have hset : ∀ (l acc : List (List A)),
        (l.map (List.map f)).foldl EventLog.setAdd (acc.map (List.map f)) = (l.foldl EventLog.setAdd acc).map (List.map f) := by
      intro l
      induction l with
      | nil => intro acc; rfl
      | cons v l ih =>
        intro acc
        rw [List.map_cons, List.foldl_cons, List.foldl_cons, ← ih]
        congr 1
        unfold EventLog.setAdd
        have hm : v.map f ∈ acc.map (List.map f) ↔ v ∈ acc := List.mem_map_of_injective (List.map_injective_iff.2 hf)
        by_cases hv : v ∈ acc
        · rw [if_pos hv, if_pos (hm.2 hv)]
        · rw [if_neg hv, if_neg (fun h => hv (hm.1 h))]; simp
    have hlen : ((rename f log).map fun t => (t.events.length : ℚ)) = log.map fun t => (t.events.length : ℚ) := by
      unfold rename
      rw [List.map_map]
      refine List.map_congr_left fun t _ => ?_
      simp
    have hact : (rename f log).map Trace.activities = (log.map Trace.activities).map (List.map f) := by
      rw [List.map_map]
      exact map_rename (f := f) log id
    have hv := hset (log.map Trace.activities) []
    unfold traceStatistics
    rw [hlen, hact, ← List.map_nil (f := List.map f), hv]
    simp [rename]

-- the sample log with other names
example : (rename (· + 10) LogModels.sample).map Trace.activities = LogModels.sample.map fun t => t.activities.map (· + 10) := by decide +kernel

example : Spec.Lts.Compositional (Lts.setAbstraction : List Nat → Finset Nat) ∧
    ∀ w : List Nat, Lts.setAbstraction (w.map (· + 10)) = (Lts.setAbstraction w).image (· + 10) := by
  refine ⟨Lts.C54_abstractions.1, fun w => ?_⟩
  ext x
  simp [Lts.setAbstraction]

end
end Prolothar.LogNames
