import Verif.Model.ActivityKMedoid
import Verif.Spec.ActivityKMedoid
import Verif.Props.Dfg
import Verif.Props.Clustering
import Verif.Props.FuzzyTermination
import Verif.Lemmas.Transformer
/-
C137: k-medoid clustering of activities.
-/
namespace Prolothar.ActivityKMedoid
open Prolothar.EventLog
open Prolothar.Dfg (Graph createFromLog getCount)
open Prolothar.Clustering (pyMaxInt pyMaxInt_ok)
open Prolothar.Spec.Dfg (adjacentCount)
open Prolothar.Spec.ActivityKMedoid (follows MaxFollows)

variable {I A V : Type} [DecidableEq A]

/-- the activities of the traces -/
def seqs (log : Log I A V) : List (List A) := log.map Trace.activities

theorem follows_seqs (log : Log I A V) (a b : A) : follows (seqs log) a b = (log.map fun t => adjacentCount a b t.activities).sum := by
  unfold follows seqs; rw [List.map_map]; rfl

theorem follows_pos (log : Log I A V) (a b : A) : 0 < follows (seqs log) a b ↔ ∃ t ∈ log, 0 < adjacentCount a b t.activities := by
  rw [follows_seqs, Nat.pos_iff_ne_zero, Ne, List.sum_eq_zero_iff]
  simp [Nat.pos_iff_ne_zero]

/-- the counts are the numbers of occurrences of the pairs that occur -/
theorem mem_edgeCounts (log : Log I A V) (c : Int) :
    c ∈ edgeCounts (createFromLog log) ↔ ∃ a b, 0 < follows (seqs log) a b ∧ c = follows (seqs log) a b := by
  obtain ⟨h1, h2, h3⟩ := Dfg.readCounts_ok log (Dfg.empty_wf (A := A))
  have hcnt : ∀ a b c, Dfg.cnt (createFromLog log) a b = some c ↔ 0 < follows (seqs log) a b ∧ c = follows (seqs log) a b := by
    intro a b c
    unfold createFromLog
    rw [h3, follows_pos, follows_seqs]
    have he : Dfg.cnt (Dfg.empty : Graph A) a b = none := rfl
    rw [he]
    split
    · rename_i hh
      simp only [Option.some.injEq, Option.getD_none, zero_add]
      exact ⟨fun h => ⟨hh, h.symm⟩, fun h => h.2.symm⟩
    · rename_i hh
      simp [hh]
  have hobj : edgeCounts (createFromLog log) = (Dfg.objs (createFromLog log)).map Dfg.EdgeObj.count := by
    unfold edgeCounts Dfg.objs
    rw [List.map_filterMap]
  rw [hobj, List.mem_map]
  constructor
  · rintro ⟨o, ho, rfl⟩
    exact ⟨o.start, o.stop, (hcnt _ _ _).1 ((Dfg.mem_objs h1.toCore o).1 ho)⟩
  · rintro ⟨a, b, hab⟩
    exact ⟨⟨a, b, c⟩, (Dfg.mem_objs h1.toCore _).2 ((hcnt _ _ _).2 hab), rfl⟩

theorem getCount_follows (log : Log I A V) (a b : A) : getCount (createFromLog log) a b = (follows (seqs log) a b : Nat) := by
  obtain ⟨h1, h2, h3⟩ := Dfg.readCounts_ok log (Dfg.empty_wf (A := A))
  rw [Dfg.getCount_eq]
  unfold createFromLog
  rw [h3, show Dfg.cnt (Dfg.empty : Graph A) a b = none from rfl]
  split
  · rw [follows_seqs]; simp
  · rename_i hh
    rw [← follows_pos] at hh
    have : follows (seqs log) a b = 0 := by omega
    rw [this]; rfl

theorem adjacent_pos {acts : List A} : (∃ a b, 0 < adjacentCount a b acts) ↔ 2 ≤ acts.length := by
  constructor
  · rintro ⟨a, b, h⟩
    unfold adjacentCount at h
    obtain ⟨i, hi⟩ := Finset.card_pos.1 h
    rw [Finset.mem_filter] at hi
    have := (List.getElem?_eq_some_iff.1 hi.2.2).1
    omega
  · intro h
    refine ⟨acts[0], acts[1], Finset.card_pos.2 ⟨0, Finset.mem_filter.2 ⟨Finset.mem_range.2 (by omega), ?_, ?_⟩⟩⟩
    · exact List.getElem?_eq_getElem _
    · exact List.getElem?_eq_getElem _

/-- C137: the constructor needs a trace with at least two events, otherwise it raises ValueError. The dissimilarity of two activities
is one minus their similarity: 1 for the same activity, otherwise (number of times they follow each other in any order + 1) divided
by (2 * the largest number of times any pair of activities is consecutive + 1). -/
theorem C137_init (acts : List A) (log : Log I A V) :
    ((∀ t ∈ log, t.activities.length < 2) → init acts log = .error .value) ∧
    ((∃ t ∈ log, 2 ≤ t.activities.length) → ∃ s M, init acts log = .ok s ∧ s.activities = acts ∧ 0 < M ∧ MaxFollows (seqs log) M ∧
      ∀ a b, dissimilarity s a b = 1 - Spec.ActivityKMedoid.similarity (seqs log) M a b) := by
  constructor
  · intro h
    have hnil : edgeCounts (createFromLog log) = [] := by
      rw [List.eq_nil_iff_forall_not_mem]
      intro c hc
      obtain ⟨a, b, hp, _⟩ := (mem_edgeCounts log c).1 hc
      obtain ⟨t, ht, hpos⟩ := (follows_pos log a b).1 hp
      have := adjacent_pos.1 ⟨a, b, hpos⟩
      have := h t ht
      omega
    unfold init
    rw [hnil]; rfl
  · rintro ⟨t, ht, hlen⟩
    obtain ⟨a, b, hab⟩ := adjacent_pos.2 hlen
    have hp := (follows_pos log a b).2 ⟨t, ht, hab⟩
    have hm := (mem_edgeCounts log _).2 ⟨a, b, hp, rfl⟩
    obtain ⟨m, h1, h2, h3⟩ := pyMaxInt_ok (List.ne_nil_of_mem hm)
    obtain ⟨x, y, hxy, rfl⟩ := (mem_edgeCounts log m).1 h2
    refine ⟨⟨acts, createFromLog log, follows (seqs log) x y⟩, follows (seqs log) x y, ?_, rfl, hxy, ⟨⟨x, y, rfl⟩, fun a' b' => ?_⟩, fun a' b' => ?_⟩
    · unfold init; rw [h1]; rfl
    · by_cases h0 : 0 < follows (seqs log) a' b'
      · have := h3 _ ((mem_edgeCounts log _).2 ⟨a', b', h0, rfl⟩)
        omega
      · omega
    · unfold dissimilarity similarity Spec.ActivityKMedoid.similarity
      simp only [getCount_follows]
      congr 2
      push_cast
      ring

/-- C137: the dissimilarity is a symmetric number from 0 (included) to 1 (excluded). It is 0 exactly for equal activities and for
activities that follow each other, in both directions, as often as the most frequent pair. -/
theorem C137_dissimilarity {log : Log I A V} {acts : List A} {s : State A} {M : Nat} (hi : init acts log = .ok s) (hM : MaxFollows (seqs log) M)
    (a b : A) : dissimilarity s a b = dissimilarity s b a ∧ 0 ≤ dissimilarity s a b ∧ dissimilarity s a b < 1 ∧
    (dissimilarity s a b = 0 ↔ a = b ∨ (follows (seqs log) a b = M ∧ follows (seqs log) b a = M)) := by
  obtain ⟨s', M', h1, _, _, h4, h5⟩ : ∃ s M, init acts log = .ok s ∧ s.activities = acts ∧ 0 < M ∧ MaxFollows (seqs log) M ∧
      ∀ a b, dissimilarity s a b = 1 - Spec.ActivityKMedoid.similarity (seqs log) M a b := by
    by_cases hex : ∃ t ∈ log, 2 ≤ t.activities.length
    · exact (C137_init acts log).2 hex
    · have := (C137_init acts log).1 (fun t ht => by by_contra hc; exact hex ⟨t, ht, by omega⟩)
      rw [hi] at this; cases this
  rw [hi] at h1; cases h1
  have hMM : M' = M := by
    obtain ⟨⟨x, y, hxy⟩, hle⟩ := hM
    obtain ⟨⟨x', y', hxy'⟩, hle'⟩ := h4
    have := hle x' y'; have := hle' x y; omega
  subst hMM
  simp only [h5, Spec.ActivityKMedoid.similarity]
  have hab := h4.2 a b
  have hba := h4.2 b a
  have hpos : (0 : Rat) < ((2 * M' + 1 : Nat) : Rat) := by exact_mod_cast Nat.succ_pos _
  by_cases he : a = b
  · subst he; simp
  · have he' : ¬ b = a := fun h => he h.symm
    simp only [he, he', if_false, false_or]
    have hle : ((follows (seqs log) a b + follows (seqs log) b a + 1 : Nat) : Rat) / ((2 * M' + 1 : Nat) : Rat) ≤ 1 := by
      rw [div_le_one hpos]; exact_mod_cast (by omega)
    have hgt : 0 < ((follows (seqs log) a b + follows (seqs log) b a + 1 : Nat) : Rat) / ((2 * M' + 1 : Nat) : Rat) :=
      div_pos (by exact_mod_cast Nat.succ_pos _) hpos
    refine ⟨by rw [Nat.add_comm (follows (seqs log) b a)], by linarith, by linarith, ?_⟩
    rw [sub_eq_zero, eq_comm, div_eq_one_iff_eq hpos.ne', Nat.cast_inj]
    omega

/-! ### memberships -/

theorem put_new {β : Type} {d : Dict A β} {a : A} {x : β} (h : a ∉ d.keys) : d.put a x = d ++ [(a, x)] := by
  induction d with
  | nil => rfl
  | cons p d ih =>
    obtain ⟨k, v⟩ := p
    have hk : k ≠ a := fun e => h (by subst e; simp [Dict.keys])
    have ht : a ∉ Dict.keys d := fun hm => h (List.mem_cons_of_mem _ hm)
    simp only [Dict.put, hk, if_false, List.cons_append]
    rw [ih ht]

theorem memberDict_eq {β : Type} {acts : List A} {membership : List β} (hn : acts.Nodup) (hl : membership.length = acts.length) :
    memberDict acts membership = .ok (acts.zip membership) := by
  have key : ∀ (rest pre : List A) (mp mr : List β), pre.length = mp.length → rest.length = mr.length → (pre ++ rest).Nodup →
      (rest.zipIdx pre.length).foldlM (fun (d : Dict A β) (e : A × Nat) => (do let x ← pyGet (mp ++ mr) e.2; pure (d.put e.1 x) : Py (Dict A β))) (pre.zip mp) =
        .ok ((pre ++ rest).zip (mp ++ mr)) := by
    intro rest
    induction rest with
    | nil =>
      intro pre mp mr h1 h2 _
      cases mr with
      | nil => simp only [List.append_nil]; rfl
      | cons x mr => cases h2
    | cons a rest ih =>
      intro pre mp mr h1 h2 hn
      cases mr with
      | nil => cases h2
      | cons x mr =>
        rw [List.zipIdx_cons, List.foldlM_cons]
        have hg : pyGet (mp ++ x :: mr) (pre.length : Int) = .ok x := pyGet_ofNat (by rw [h1]; simp)
        have hnot : a ∉ Dict.keys (pre.zip mp) := by
          intro hm
          unfold Dict.keys at hm
          rw [List.map_fst_zip (by omega)] at hm
          exact (List.nodup_append.1 hn).2.2 a hm a (by simp) rfl
        simp only [hg, bind, Except.bind, pure, Except.pure]
        rw [put_new hnot]
        have hz : pre.zip mp ++ [(a, x)] = (pre ++ [a]).zip (mp ++ [x]) := by
          rw [List.zip_append h1]; rfl
        rw [hz]
        have := ih (pre ++ [a]) (mp ++ [x]) mr (by simp [h1]) (by simpa using h2) (by simpa using hn)
        rw [List.append_assoc, List.append_assoc] at this
        rw [List.length_append] at this
        exact this
  exact key acts [] [] membership rfl hl.symm hn

theorem zip_get? {β : Type} {acts : List A} {membership : List β} (hn : acts.Nodup) (hl : membership.length = acts.length) (a : A) (x : β) :
    Dict.get? (acts.zip membership) a = some x ↔ ∃ p : Nat, acts[p]? = some a ∧ membership[p]? = some x := by
  have hwf : (Dict.keys (acts.zip membership)).Nodup := by
    unfold Dict.keys; rw [List.map_fst_zip (by omega)]; exact hn
  constructor
  · intro h
    obtain ⟨p, hp⟩ := List.getElem?_of_mem (Dict.mem_of_get? h)
    rw [List.getElem?_zip_eq_some] at hp
    exact ⟨p, hp⟩
  · rintro ⟨p, h1, h2⟩
    exact Dict.get?_of_mem hwf (List.mem_of_getElem? (List.getElem?_zip_eq_some.2 ⟨h1, h2⟩))

omit [DecidableEq A] in
theorem zip_keys {β : Type} {acts : List A} {membership : List β} (hl : membership.length = acts.length) :
    Dict.keys (acts.zip membership) = acts := by
  unfold Dict.keys; rw [List.map_fst_zip (by omega)]

/-- C137: hard clustering. All activities of the log and nothing else get a cluster number. There are as many medoids as requested,
all of them activities, and every activity is in the first of the clusters whose medoid is the least dissimilar to it. -/
theorem C137_hard {log : Log I A V} {acts : List A} {s : State A} (hi : init acts log = .ok s) (ha : acts.Perm (activitySet log))
    (k : Nat) (hk0 : 0 < k) (hk : k ≤ acts.length) (shuffled : List Nat) (hs : shuffled.Perm (List.range acts.length))
    (fuel : Nat) (hfuel : k * acts.length < fuel) :
    ∃ d medoids, clusterHard s (some k) shuffled fuel = .ok (d, medoids) ∧
      (∀ a, a ∈ d.keys ↔ ∃ t ∈ log, a ∈ t.activities) ∧ medoids.length = k ∧ (∀ m ∈ medoids, ∃ t ∈ log, m ∈ t.activities) ∧
      ∀ a i, d.get? a = some i → ∃ m, medoids[i]? = some m ∧
        (∀ m' ∈ medoids, dissimilarity s m a ≤ dissimilarity s m' a) ∧ ∀ (j : Nat) m', j < i → medoids[j]? = some m' → dissimilarity s m a < dissimilarity s m' a := by
  have hsa : s.activities = acts := by
    unfold init at hi
    cases hp : pyMaxInt (edgeCounts (createFromLog log)) with
    | error e => rw [hp] at hi; cases hi
    | ok m => rw [hp] at hi; cases hi; rfl
  have hn : acts.Nodup := ha.nodup_iff.2 (nodup_activitySet log)
  have hmem : ∀ a, a ∈ acts ↔ ∃ t ∈ log, a ∈ t.activities := fun a => by rw [ha.mem_iff, mem_activitySet]
  obtain ⟨labels, centers, h1, h2, h3, h4, h5, _⟩ := KMedoid.C68_cluster List.sum (dissimilarity s) true acts k hk0 hk shuffled hs fuel hfuel
  have hc : centers.mapM (fun i : Nat => pyGet acts (i : Int)) = .ok (centers.map fun i => acts.getD i (acts[0]'(by omega))) :=
    Prolothar.Data.mapM_ok_map fun i hi => pyGet_ofNat (by
      rw [List.getD_eq_getElem?_getD, List.getElem?_eq_getElem (h3 i hi)]; rfl)
  have hget : ∀ i ∈ centers, acts[i]? = some (acts.getD i (acts[0]'(by omega))) := fun i hi => by
    rw [List.getD_eq_getElem?_getD, List.getElem?_eq_getElem (h3 i hi)]; rfl
  refine ⟨acts.zip labels, centers.map fun i => acts.getD i (acts[0]'(by omega)), ?_, fun a => ?_, by simpa using h2, fun m hm => ?_, fun a i hai => ?_⟩
  · unfold clusterHard
    rw [hsa, h1]
    simp only [bind, Except.bind]
    rw [memberDict_eq hn h4]
    simp only []
    rw [hc]; rfl
  · rw [zip_keys h4, hmem]
  · obtain ⟨i, hi', rfl⟩ := List.mem_map.1 hm
    exact (hmem _).1 (List.mem_of_getElem? (hget i hi'))
  · obtain ⟨p, hp1, hp2⟩ := (zip_get? hn h4 a i).1 hai
    obtain ⟨c, hc1, hc2, hc3⟩ := h5 p i hp2
    have hd : ∀ z ∈ centers, KMedoid.dist (dissimilarity s) acts p z = dissimilarity s (acts.getD z (acts[0]'(by omega))) a := by
      intro z hz
      unfold KMedoid.dist
      rw [hget z hz, hp1]
    have hcm := List.mem_of_getElem? hc1
    refine ⟨_, by rw [List.getElem?_map, hc1]; rfl, fun m' hm' => ?_, fun j m' hj hm' => ?_⟩
    · obtain ⟨z, hz, rfl⟩ := List.mem_map.1 hm'
      obtain ⟨j, hj⟩ := List.getElem?_of_mem hz
      have := hc2 j z hj
      rw [if_pos rfl, hd c hcm, hd z hz] at this
      exact this
    · rw [List.getElem?_map, Option.map_eq_some_iff] at hm'
      obtain ⟨z, hz, rfl⟩ := hm'
      have := hc3 j z hj hz
      rw [if_pos rfl, hd c hcm, hd z (List.mem_of_getElem? hz)] at this
      exact this

/-- C137: if no two different activities follow each other in both directions as often as the most frequent pair, then the medoids
are different and every medoid is in its own cluster, so no cluster is empty. -/
theorem C137_own_cluster {log : Log I A V} {acts : List A} {s : State A} {M : Nat} (hi : init acts log = .ok s) (hM : MaxFollows (seqs log) M)
    (ha : acts.Perm (activitySet log)) (hsep : ∀ a b, a ≠ b → ¬ (follows (seqs log) a b = M ∧ follows (seqs log) b a = M))
    (k : Nat) (hk0 : 0 < k) (hk : k ≤ acts.length) (shuffled : List Nat) (hs : shuffled.Perm (List.range acts.length))
    (fuel : Nat) (hfuel : k * acts.length < fuel) :
    ∃ d medoids, clusterHard s (some k) shuffled fuel = .ok (d, medoids) ∧ medoids.Nodup ∧
      ∀ (i : Nat) m, medoids[i]? = some m → d.get? m = some i := by
  have hsa : s.activities = acts := by
    unfold init at hi
    cases hp : pyMaxInt (edgeCounts (createFromLog log)) with
    | error e => rw [hp] at hi; cases hi
    | ok m => rw [hp] at hi; cases hi; rfl
  have hn : acts.Nodup := ha.nodup_iff.2 (nodup_activitySet log)
  obtain ⟨labels, centers, h1, _, h3, h4, _⟩ := KMedoid.C68_cluster List.sum (dissimilarity s) true acts k hk0 hk shuffled hs fuel hfuel
  obtain ⟨labels', centers', h1', hnd, hown⟩ := KMedoid.C68_clusters_nonempty List.sum (dissimilarity s) acts
    (fun x _ => ((C137_dissimilarity hi hM x x).2.2.2).2 (.inl rfl))
    (fun p q x y hx hy hpq => by
      have hxy : x ≠ y := by
        rintro rfl
        have hp := (List.getElem?_eq_some_iff.1 hx).1
        exact hpq ((List.getElem?_inj hp hn).1 (hx.trans hy.symm))
      obtain ⟨_, g1, _, g2⟩ := C137_dissimilarity hi hM x y
      refine lt_of_le_of_ne g1 fun h0 => ?_
      rcases g2.1 h0.symm with h | h
      · exact hxy h
      · exact hsep x y hxy h) k hk0 hk shuffled hs fuel hfuel
  rw [h1] at h1'; cases h1'
  have hget : ∀ i ∈ centers, acts[i]? = some (acts.getD i (acts[0]'(by omega))) := fun i hi => by
    rw [List.getD_eq_getElem?_getD, List.getElem?_eq_getElem (h3 i hi)]; rfl
  have hc : centers.mapM (fun i : Nat => pyGet acts (i : Int)) = .ok (centers.map fun i => acts.getD i (acts[0]'(by omega))) :=
    Prolothar.Data.mapM_ok_map fun i hi => pyGet_ofNat (hget i hi)
  refine ⟨acts.zip labels, centers.map fun i => acts.getD i (acts[0]'(by omega)), ?_, ?_, fun i m him => ?_⟩
  · unfold clusterHard
    rw [hsa, h1]
    simp only [bind, Except.bind]
    rw [memberDict_eq hn h4]
    simp only []
    rw [hc]; rfl
  · refine (List.nodup_map_iff_inj_on hnd).2 fun x hx y hy hxy => ?_
    have := (hget x hx).trans ((congrArg some hxy).trans (hget y hy).symm)
    exact (List.getElem?_inj (h3 x hx) hn).1 this
  · rw [List.getElem?_map, Option.map_eq_some_iff] at him
    obtain ⟨z, hz, rfl⟩ := him
    exact (zip_get? hn h4 _ i).2 ⟨z, hget z (List.mem_of_getElem? hz), hown i z hz⟩

/-- the log with the traces ab and ba -/
def exLog : Log Nat Nat Nat := [⟨0, [⟨1, [], none⟩, ⟨2, [], none⟩], []⟩, ⟨1, [⟨2, [], none⟩, ⟨1, [], none⟩], []⟩]

/-- C137: otherwise a cluster can be empty: in the log with the traces ab and ba both activities have dissimilarity 0, and with two
clusters both are in the first one. -/
theorem C137_empty_cluster : (do let s ← init [1, 2] exLog; clusterHard s (some 2) [0, 1] 5) = .ok ([(1, 0), (2, 0)], [1, 2]) := by
  decide +kernel

/-- C137: the requested number of clusters must be positive and at most the number of activities. -/
theorem C137_number {log : Log I A V} {acts : List A} {s : State A} (hi : init acts log = .ok s) (k : Int) (hk : k ≤ 0 ∨ acts.length < k)
    (shuffled : List Nat) (fuel : Nat) :
    clusterHard s (some k) shuffled fuel = .error .value ∧ clusterFuzzy s (some k) shuffled fuel = .error .value := by
  have hsa : s.activities = acts := by
    unfold init at hi
    cases hp : pyMaxInt (edgeCounts (createFromLog log)) with
    | error e => rw [hp] at hi; cases hi
    | ok m => rw [hp] at hi; cases hi; rfl
  have hsel : KMedoid.selectCenters s.activities.length (some k) shuffled = .error .value := by
    rw [hsa]
    unfold KMedoid.selectCenters
    simp only [Option.getD_some]
    by_cases h : k ≤ 0
    · rw [if_pos h]
    · rw [if_neg h, if_pos (by omega)]
  constructor
  · unfold clusterHard KMedoid.cluster; rw [hsel]; rfl
  · unfold clusterFuzzy FuzzyKMedoid.cluster; rw [hsel]; rfl

/-- C137: fuzzy clustering terminates. All activities of the log and nothing else get memberships, one positive number per medoid,
which sum up to 1 and are proportional to exp(-10 * dissimilarity to the medoid). -/
theorem C137_fuzzy {log : Log I A V} {acts : List A} {s : State A} (hi : init acts log = .ok s) (ha : acts.Perm (activitySet log))
    (k : Nat) (hk0 : 0 < k) (hk : k ≤ acts.length) (shuffled : List Nat) (hs : shuffled.Perm (List.range acts.length))
    (fuel : Nat) (hfuel : acts.length ^ k + 2 ≤ fuel) :
    ∃ d medoids, clusterFuzzy s (some k) shuffled fuel = .ok (d, medoids) ∧
      (∀ a, a ∈ d.keys ↔ ∃ t ∈ log, a ∈ t.activities) ∧ medoids.length = k ∧ (∀ m ∈ medoids, ∃ t ∈ log, m ∈ t.activities) ∧
      ∀ a row, d.get? a = some row → row.length = k ∧ (∀ v ∈ row, 0 < v) ∧ row.sum = 1 ∧
        ∃ z : ℝ, ∀ (j : Nat) m, medoids[j]? = some m → row[j]? = some (Real.exp (-10 * ((dissimilarity s m a : Rat) : ℝ)) / z) := by
  have hsa : s.activities = acts := by
    unfold init at hi
    cases hp : pyMaxInt (edgeCounts (createFromLog log)) with
    | error e => rw [hp] at hi; cases hi
    | ok m => rw [hp] at hi; cases hi; rfl
  have hn : acts.Nodup := ha.nodup_iff.2 (nodup_activitySet log)
  have hmem : ∀ a, a ∈ acts ↔ ∃ t ∈ log, a ∈ t.activities := fun a => by rw [ha.mem_iff, mem_activitySet]
  obtain ⟨u, centers, h1⟩ := FuzzyKMedoid.C69_terminates (1 / 10) (by norm_num) (fun a b => ((dissimilarity s a b : Rat) : ℝ)) acts k hk0 hk shuffled hs
    fuel hfuel
  obtain ⟨h2, h3, h4, h5⟩ := FuzzyKMedoid.C69_result (1 / 10) (fun a b => ((dissimilarity s a b : Rat) : ℝ)) acts k hk0 shuffled hs fuel h1
  have hget : ∀ i ∈ centers, acts[i]? = some (acts.getD i (acts[0]'(by omega))) := fun i hi => by
    rw [List.getD_eq_getElem?_getD, List.getElem?_eq_getElem (h3 i hi)]; rfl
  have hc : centers.mapM (fun i : Nat => pyGet acts (i : Int)) = .ok (centers.map fun i => acts.getD i (acts[0]'(by omega))) :=
    Prolothar.Data.mapM_ok_map fun i hi => pyGet_ofNat (hget i hi)
  refine ⟨acts.zip u, centers.map fun i => acts.getD i (acts[0]'(by omega)), ?_, fun a => ?_, by simpa using h2, fun m hm => ?_, fun a row har => ?_⟩
  · unfold clusterFuzzy
    rw [hsa, h1]
    simp only [bind, Except.bind]
    rw [memberDict_eq hn h4]
    simp only []
    rw [hc]; rfl
  · rw [zip_keys h4, hmem]
  · obtain ⟨i, hi', rfl⟩ := List.mem_map.1 hm
    exact (hmem _).1 (List.mem_of_getElem? (hget i hi'))
  · obtain ⟨p, hp1, hp2⟩ := (zip_get? hn h4 a row).1 har
    obtain ⟨g1, g2, g3, g4⟩ := h5 p a row hp1 hp2
    refine ⟨g1, fun v hv => (g2 v hv).1, g3, (centers.map fun t => Real.exp (-((acts.map fun o => ((dissimilarity s o a : Rat) : ℝ)).getD t 0) / (1 / 10))).sum, fun j m hj => ?_⟩
    rw [List.getElem?_map, Option.map_eq_some_iff] at hj
    obtain ⟨z, hz, rfl⟩ := hj
    rw [g4 j z _ hz (hget z (List.mem_of_getElem? hz))]
    congr 3
    ring

example : (do
    let s ← init [1, 2, 3] [(⟨0, [⟨1, [], none⟩, ⟨2, [], none⟩, ⟨3, [], none⟩, ⟨1, [], none⟩, ⟨2, [], none⟩], []⟩ : Trace Nat Nat Nat)]
    clusterHard s (some 2) [2, 0, 1] 7) = .ok ([(1, 1), (2, 1), (3, 0)], [3, 1]) := by decide +kernel

end Prolothar.ActivityKMedoid
