import Verif.Model.TraceClustering
import Verif.Spec.TraceClustering
import Verif.Props.Clustering
import Mathlib.Tactic.Linarith
import Mathlib.Tactic.Ring
import Mathlib.Tactic.NormNum
/-
C140: clustering of traces by their activities.
-/
namespace Prolothar.Clustering
open Prolothar.EventLog
variable {I A V R : Type}

/-- C140: whatever encoder and algorithm are used, if the algorithm returns one label per trace of a non-empty log, every trace is in
exactly one cluster or an outlier; cluster `k` has the traces with label `k`, in the order of the log. -/
theorem C140_partition (encode : Log I A V → Py (List R)) (algorithm : List R → Py (List Int)) (log : Log I A V) (hne : log ≠ [])
    {matrix : List R} {labels : List Int} (he : encode log = .ok matrix) (ha : algorithm matrix = .ok labels) (hl : labels.length = log.length) :
    ∃ clusters outliers, vectorCluster encode algorithm log = .ok (clusters, outliers) ∧ (clusters.flatten ++ outliers).Perm log ∧
      ∀ (k : Nat) c, clusters[k]? = some c → c = ((log.zip labels).filter fun e => decide (e.2 = (k : Int))).map (·.1) := by
  have hln : labels ≠ [] := by
    rintro rfl
    exact hne (List.length_eq_zero_iff.mp hl.symm)
  obtain ⟨cs, os, h1, h2⟩ := C70_partition (instances := log) hln hl.symm
  obtain ⟨cs', os', h3, h4, h5⟩ := C70_decode (instances := log) hln
  rw [h1] at h3
  cases h3
  refine ⟨cs, os, ?_, h2, ?_⟩
  · unfold vectorCluster
    rw [he]
    show (algorithm matrix >>= _) = _
    rw [ha]
    exact h1
  · intro k c hc
    rw [h4 k] at hc
    split at hc
    · exact (Option.some.inj hc).symm
    · cases hc

/-- C140: an exception of the encoder or of the algorithm is passed on; no labels (an empty log) raise ValueError. -/
theorem C140_errors (encode : Log I A V → Py (List R)) (algorithm : List R → Py (List Int)) (log : Log I A V) :
    (∀ e, encode log = .error e → vectorCluster encode algorithm log = .error e) ∧
    (∀ matrix e, encode log = .ok matrix → algorithm matrix = .error e → vectorCluster encode algorithm log = .error e) ∧
    (∀ matrix, encode log = .ok matrix → algorithm matrix = .ok [] → vectorCluster encode algorithm log = .error .value) := by
  unfold vectorCluster
  refine ⟨?_, ?_, ?_⟩
  · intro e h; rw [h]; rfl
  · intro m e h h'
    rw [h]
    show (algorithm m >>= _) = _
    rw [h']; rfl
  · intro m h h'
    rw [h]
    show (algorithm m >>= _) = _
    rw [h']; rfl

variable [DecidableEq A]

/-- the one-hot row of a trace -/
def oneHot (acts : List A) (t : Trace I A V) : List Nat := acts.map fun a => if ∃ e ∈ t.events, e.activity = a then 1 else 0

omit [DecidableEq A] in
theorem mem_activities {t : Trace I A V} {a : A} : a ∈ t.activities ↔ ∃ e ∈ t.events, e.activity = a := by
  unfold Trace.activities
  exact List.mem_map

/-- C140: the squared distance of the rows of two traces is the number of activities that occur in exactly one of them. It does not
depend on the order of the columns. -/
theorem C140_distance (acts : List A) (t u : Trace I A V) :
    sqDist (oneHot acts t) (oneHot acts u) = ((acts.filter fun a => decide ¬(a ∈ t.activities ↔ a ∈ u.activities)).length : Int) ∧
    ∀ acts', acts.Perm acts' → sqDist (oneHot acts t) (oneHot acts u) = sqDist (oneHot acts' t) (oneHot acts' u) := by
  have key : ∀ acts : List A, sqDist (oneHot acts t) (oneHot acts u) =
      ((acts.filter fun a => decide ¬(a ∈ t.activities ↔ a ∈ u.activities)).length : Int) := by
    intro acts
    unfold sqDist oneHot
    simp only [← mem_activities]
    induction acts with
    | nil => rfl
    | cons a acts ih =>
      simp only [List.map_cons, List.zip_cons_cons, List.sum_cons, ih, List.filter_cons]
      by_cases h1 : a ∈ t.activities <;> by_cases h2 : a ∈ u.activities <;> simp [h1, h2] <;> ring
  refine ⟨key acts, fun acts' hp => ?_⟩
  rw [key acts, key acts', (hp.filter _).length_eq]

theorem near_iff {log : Log I A V} {acts : List A} (ha : ∀ a, a ∈ acts ↔ ∃ t ∈ log, a ∈ t.activities) {eps : Rat} (h0 : 0 ≤ eps) (h1 : eps < 1)
    (i j : Nat) : Near eps (log.map (oneHot acts)) i j ↔ ∃ t u, log[i]? = some t ∧ log[j]? = some u ∧ SameActivities t u := by
  unfold Near
  simp only [List.getElem?_map]
  have key : ∀ t u, t ∈ log → u ∈ log → ((sqDist (oneHot acts t) (oneHot acts u) : Rat) ≤ eps ^ 2 ↔ SameActivities t u) := by
    intro t u ht hu
    rw [(C140_distance acts t u).1]
    have he : eps ^ 2 < 1 := by nlinarith
    constructor
    · intro h a
      have : (acts.filter fun a => decide ¬(a ∈ t.activities ↔ a ∈ u.activities)).length = 0 := by
        by_contra hc
        have h2 : 1 ≤ (acts.filter fun a => decide ¬(a ∈ t.activities ↔ a ∈ u.activities)).length := by omega
        have h3 : (1 : Rat) ≤ (((acts.filter fun a => decide ¬(a ∈ t.activities ↔ a ∈ u.activities)).length : Int) : Rat) := by exact_mod_cast h2
        linarith
      rw [List.length_eq_zero_iff, List.filter_eq_nil_iff] at this
      by_contra hc
      have hmem : a ∈ acts := by
        rw [ha]
        by_cases h4 : a ∈ t.activities
        · exact ⟨t, ht, h4⟩
        · exact ⟨u, hu, by tauto⟩
      have := this a hmem
      simp only [decide_eq_true_eq, not_not] at this
      exact hc this
    · intro h
      have : (acts.filter fun a => decide ¬(a ∈ t.activities ↔ a ∈ u.activities)) = [] := by
        rw [List.filter_eq_nil_iff]
        intro a _
        simp [h a]
      rw [this]
      simpa using sq_nonneg eps
  constructor
  · rintro ⟨x, y, hx, hy, hd⟩
    rw [Option.map_eq_some_iff] at hx hy
    obtain ⟨t, ht, rfl⟩ := hx
    obtain ⟨u, hu, rfl⟩ := hy
    exact ⟨t, u, ht, hu, (key t u (List.mem_of_getElem? ht) (List.mem_of_getElem? hu)).mp hd⟩
  · rintro ⟨t, u, ht, hu, hs⟩
    exact ⟨_, _, by rw [ht]; rfl, by rw [hu]; rfl, (key t u (List.mem_of_getElem? ht) (List.mem_of_getElem? hu)).mpr hs⟩

omit [DecidableEq A] in
theorem SameActivities.refl (t : Trace I A V) : SameActivities t t := fun _ => Iff.rfl
omit [DecidableEq A] in
theorem SameActivities.symm {t u : Trace I A V} (h : SameActivities t u) : SameActivities u t := fun a => (h a).symm
omit [DecidableEq A] in
theorem SameActivities.trans {t u v : Trace I A V} (h : SameActivities t u) (h' : SameActivities u v) : SameActivities t v :=
  fun a => (h a).trans (h' a)

open Classical in
/-- the traces of the log with the same activities as `t` -/
noncomputable def variantOf (log : Log I A V) (t : Trace I A V) : Log I A V := log.filter fun u => decide (SameActivities t u)

theorem variantOf_congr (log : Log I A V) {t u : Trace I A V} (h : SameActivities t u) : variantOf log t = variantOf log u := by
  unfold variantOf
  apply List.filter_congr
  intro v _
  congr 1
  exact propext ⟨fun h' => h.symm.trans h', fun h' => h.trans h'⟩

open Classical in
theorem index_count {α : Type} (l : List α) (P : α → Prop) (js : List Nat) (hn : js.Nodup) (h : ∀ j ∈ js, ∃ x, l[j]? = some x ∧ P x) :
    js.length ≤ (l.filter fun x => decide (P x)).length := by
  have h1 : (l.filter fun x => decide (P x)).length = ((List.range l.length).filter fun j => decide (∃ x, l[j]? = some x ∧ P x)).length := by
    clear h hn
    induction l using List.reverseRecOn with
    | nil => rfl
    | append_singleton l x ih =>
      rw [List.filter_append, List.length_append, ih, List.length_append, List.length_singleton, List.range_succ, List.filter_append, List.length_append]
      congr 1
      · congr 1
        apply List.filter_congr
        intro j hj
        rw [List.mem_range] at hj
        rw [List.getElem?_append_left hj]
      · by_cases hp : P x <;> simp [hp]
  rw [h1]
  refine (List.subperm_of_subset hn ?_).length_le
  intro j hj
  obtain ⟨x, hx, hp⟩ := h j hj
  rw [List.mem_filter, List.mem_range]
  exact ⟨(List.getElem?_eq_some_iff.mp hx).1, by simpa using ⟨x, hx, hp⟩⟩

open Classical in
theorem index_exists {α : Type} (l : List α) (P : α → Prop) : ∃ js : List Nat, js.Nodup ∧ js.length = (l.filter fun x => decide (P x)).length ∧
    ∀ j ∈ js, ∃ x, l[j]? = some x ∧ P x := by
  induction l using List.reverseRecOn with
  | nil => exact ⟨[], List.nodup_nil, rfl, by simp⟩
  | append_singleton l x ih =>
    obtain ⟨js, h1, h2, h3⟩ := ih
    have hlt : ∀ j ∈ js, j < l.length := by
      intro j hj
      obtain ⟨y, hy, _⟩ := h3 j hj
      exact (List.getElem?_eq_some_iff.mp hy).1
    by_cases hp : P x
    · refine ⟨l.length :: js, ?_, by simp [hp, h2], ?_⟩
      · rw [List.nodup_cons]
        exact ⟨fun hm => Nat.lt_irrefl _ (hlt _ hm), h1⟩
      · intro j hj
        rcases List.mem_cons.mp hj with rfl | hj
        · exact ⟨x, by simp, hp⟩
        · obtain ⟨y, hy, hpy⟩ := h3 j hj
          exact ⟨y, by rw [List.getElem?_append_left (hlt j hj)]; exact hy, hpy⟩
    · refine ⟨js, h1, by simp [hp, h2], ?_⟩
      intro j hj
      obtain ⟨y, hy, hpy⟩ := h3 j hj
      exact ⟨y, by rw [List.getElem?_append_left (hlt j hj)]; exact hy, hpy⟩

theorem core_iff {log : Log I A V} {acts : List A} (ha : ∀ a, a ∈ acts ↔ ∃ t ∈ log, a ∈ t.activities) {eps : Rat} (h0 : 0 ≤ eps) (h1 : eps < 1)
    (n i : Nat) (t : Trace I A V) (ht : log[i]? = some t) : Core eps n (log.map (oneHot acts)) i ↔ n ≤ (variantOf log t).length := by
  unfold Core variantOf
  constructor
  · rintro ⟨js, hn, hle, hnear⟩
    refine le_trans hle (index_count log _ js hn fun j hj => ?_)
    obtain ⟨t', u, ht', hu, hs⟩ := (near_iff ha h0 h1 i j).mp (hnear j hj)
    rw [ht] at ht'; cases ht'
    exact ⟨u, hu, hs⟩
  · intro hle
    obtain ⟨js, hn, hlen, hjs⟩ := index_exists log (SameActivities t)
    refine ⟨js, hn, by rw [hlen]; exact hle, fun j hj => ?_⟩
    obtain ⟨u, hu, hs⟩ := hjs j hj
    exact (near_iff ha h0 h1 i j).mpr ⟨t, u, ht, hu, hs⟩

theorem filter_zip {α β : Type} (l : List α) (m : List β) (P : β → Bool) (Q : α → Bool) (hl : m.length = l.length)
    (h : ∀ (i : Nat) x y, l[i]? = some x → m[i]? = some y → P y = Q x) : ((l.zip m).filter fun e => P e.2).map (·.1) = l.filter Q := by
  induction l generalizing m with
  | nil => rfl
  | cons x l ih =>
    match m, hl with
    | y :: m, hl =>
      have h1 := h 0 x y rfl rfl
      have h2 := ih m (by simpa using hl) fun i x' y' hx hy => h (i + 1) x' y' (by simpa using hx) (by simpa using hy)
      rw [List.zip_cons_cons, List.filter_cons, List.filter_cons]
      simp only [h1]
      cases Q x <;> simp [h2]

open Classical in
/-- C140: DBSCAN on the one-hot encoding with an epsilon below 1 (the default is 0.5): every cluster consists of all traces of the log
with the same activities, in the order of the log, and has at least `minPts` (5 by default) traces; two clusters have different
activities; outliers are exactly the traces that share their activities with fewer than `minPts` traces (themselves included). The
result does not depend on the order of the columns. -/
theorem C140_dbscan (acts : List A) (log : Log I A V) (hne : log ≠ []) (hn : acts.Nodup) (ha : ∀ a, a ∈ acts ↔ ∃ t ∈ log, a ∈ t.activities)
    (eps : Rat) (h0 : 0 ≤ eps) (h1 : eps < 1) (minPts : Nat) (algorithm : List (List Nat) → Py (List Int))
    (halg : ∀ rows, encodeLog acts log = .ok rows → ∃ labels, algorithm rows = .ok labels ∧ Dbscan eps minPts rows labels) :
    ∃ clusters outliers, oneHotCluster acts algorithm log = .ok (clusters, outliers) ∧
      (∀ c ∈ clusters, ∃ t ∈ log, c = log.filter (fun u => decide (SameActivities t u)) ∧ minPts ≤ c.length) ∧
      (∀ t ∈ log, minPts ≤ (log.filter fun u => decide (SameActivities t u)).length →
        (log.filter fun u => decide (SameActivities t u)) ∈ clusters) ∧
      clusters.Pairwise (fun c d => ∀ t ∈ c, ∀ u ∈ d, ¬ SameActivities t u) ∧
      outliers = log.filter fun t => decide ((log.filter fun u => decide (SameActivities t u)).length < minPts) := by
  have henc : encodeLog acts log = .ok (log.map (oneHot acts)) :=
    C107_encode log hn fun a => by simp only [ha, mem_activities]
  obtain ⟨labels, hal, hd⟩ := halg _ henc
  have hlen : labels.length = log.length := by rw [hd.length, List.length_map]
  obtain ⟨cs, os, e1, e2, e3⟩ := C140_partition (encodeLog acts) algorithm log hne henc hal hlen
  have hln : labels ≠ [] := by
    rintro rfl
    exact hne (List.length_eq_zero_iff.mp hlen.symm)
  obtain ⟨cs', os', e4, e5, e6⟩ := C70_decode (instances := log) hln
  have e7 : decodeLabels log labels = .ok (cs, os) := by
    have := e1
    unfold vectorCluster at this
    rw [henc] at this
    change (algorithm _ >>= _) = _ at this
    rw [hal] at this
    exact this
  rw [e7] at e4
  cases e4
  clear e7
  -- labels of traces
  have hpos : ∀ (i : Nat) t a, log[i]? = some t → labels[i]? = some a → (0 ≤ a ↔ minPts ≤ (variantOf log t).length) := by
    intro i t a ht hla
    constructor
    · intro h
      obtain ⟨j, hc, hnear, hj⟩ := hd.labelled i a hla h
      obtain ⟨t', u, ht', hu, hs⟩ := (near_iff ha h0 h1 i j).mp hnear
      rw [ht] at ht'; cases ht'
      rw [core_iff ha h0 h1 minPts j u hu] at hc
      rw [variantOf_congr log hs]; exact hc
    · intro h
      exact hd.core i a hla ((core_iff ha h0 h1 minPts i t ht).mpr h)
  have heq : ∀ (i j : Nat) t u a b, log[i]? = some t → log[j]? = some u → labels[i]? = some a → labels[j]? = some b → 0 ≤ a →
      (b = a ↔ SameActivities t u) := by
    intro i j t u a b ht hu hla hlb h
    have hci := (core_iff ha h0 h1 minPts i t ht).mpr ((hpos i t a ht hla).mp h)
    constructor
    · intro hab
      have hcj := (core_iff ha h0 h1 minPts j u hu).mpr ((hpos j u b hu hlb).mp (hab ▸ h))
      have hchain := (hd.connected i j a b hla hlb hci hcj).mp hab.symm
      clear hcj hlb hab b
      induction hchain generalizing u with
      | refl => rw [ht] at hu; cases hu; exact .refl _
      | tail _ hstep ih =>
        obtain ⟨v, u', hv, hu', hs⟩ := (near_iff ha h0 h1 _ _).mp hstep.2.2
        rw [hu] at hu'; cases hu'
        exact (ih v hv).trans hs
    · intro hs
      have hcj := (core_iff ha h0 h1 minPts j u hu).mpr (by rw [← variantOf_congr log hs]; exact (hpos i t a ht hla).mp h)
      refine ((hd.connected i j a b hla hlb hci hcj).mpr (.single ⟨hci, hcj, ?_⟩)).symm
      exact (near_iff ha h0 h1 i j).mpr ⟨t, u, ht, hu, hs⟩
  have hex : ∀ (i : Nat), i < log.length → ∃ a, labels[i]? = some a := fun i hi =>
    ⟨labels[i]'(by omega), List.getElem?_eq_getElem (by omega)⟩
  have hex' : ∀ (i : Nat) a, labels[i]? = some a → ∃ t, log[i]? = some t := fun i a h =>
    ⟨log[i]'(by have := (List.getElem?_eq_some_iff.mp h).1; omega), List.getElem?_eq_getElem _⟩
  have hcl : ∀ (i : Nat) t a, log[i]? = some t → labels[i]? = some a → 0 ≤ a →
      ((log.zip labels).filter fun e => decide (e.2 = a)).map (·.1) = log.filter fun u => decide (SameActivities t u) := by
    intro i t a ht hla h
    refine filter_zip log labels (fun b => decide (b = a)) _ hlen fun j u b hu hlb => ?_
    have := heq i j t u a b ht hu hla hlb h
    simp only [this]
  have hget : ∀ (k : Nat) c, cs[k]? = some c → ∃ (i : Nat) (t : Trace I A V), log[i]? = some t ∧ labels[i]? = some (k : Int) ∧
      c = log.filter fun u => decide (SameActivities t u) := by
    intro k c hc
    have h2 := e3 k c hc
    rw [e5 k] at hc
    split at hc
    · rename_i h3
      obtain ⟨a, ham, hka⟩ := h3
      have hmem := hd.gapless a k ham (by omega) hka
      obtain ⟨i, hi⟩ := List.getElem?_of_mem hmem
      obtain ⟨t, ht⟩ := hex' i _ hi
      exact ⟨i, t, ht, hi, by rw [h2]; exact hcl i t k ht hi (by omega)⟩
    · cases hc
  refine ⟨cs, os, e1, ?_, ?_, ?_, ?_⟩
  · intro c hc
    obtain ⟨k, hk⟩ := List.getElem?_of_mem hc
    obtain ⟨i, t, ht, hi, rfl⟩ := hget k c hk
    exact ⟨t, List.mem_of_getElem? ht, rfl, (hpos i t k ht hi).mp (by omega)⟩
  · intro t ht hc
    obtain ⟨i, hi⟩ := List.getElem?_of_mem ht
    obtain ⟨a, hla⟩ := hex i (List.getElem?_eq_some_iff.mp hi).1
    have hge := (hpos i t a hi hla).mpr hc
    obtain ⟨k, rfl⟩ := Int.eq_ofNat_of_zero_le hge
    have h2 := e5 k
    rw [if_pos ⟨(k : Int), List.mem_of_getElem? hla, le_refl _⟩, hcl i t k hi hla hge] at h2
    exact List.mem_of_getElem? h2
  · rw [List.pairwise_iff_getElem]
    intro k m hk hm hkm t ht u hu hs
    obtain ⟨i, t', ht', hi, hc⟩ := hget k _ (List.getElem?_eq_getElem hk)
    obtain ⟨j, u', hu', hj, hc'⟩ := hget m _ (List.getElem?_eq_getElem hm)
    rw [hc] at ht
    rw [hc'] at hu
    have h3 : SameActivities t' t := by simpa using (List.mem_filter.mp ht).2
    have h4 : SameActivities u' u := by simpa using (List.mem_filter.mp hu).2
    have := (heq i j t' u' k m ht' hu' hi hj (by omega)).mpr ((h3.trans hs).trans h4.symm)
    omega
  · rw [e6]
    refine filter_zip log labels (fun b => decide (b < 0)) _ hlen fun i t a ht hla => ?_
    have := hpos i t a ht hla
    unfold variantOf at this
    apply decide_eq_decide.mpr
    rw [← not_le, this, not_le]

/-! ### the sequence graph transform -/

omit [DecidableEq A] in
/-- C140: dropping the columns that are 0 everywhere keeps one row per trace and all distances between rows. -/
theorem C140_sgt (sgt : List (Nat × List A) → Py (Nat × List (List Rat))) (log : Log I A V) {width : Nat} {rows : List (List Rat)}
    (hs : sgt ((log.map Trace.activities).zipIdx.map fun e => (e.2, e.1)) = .ok (width, rows)) (hlen : rows.length = log.length)
    (hw : ∀ r ∈ rows, r.length = width) :
    sgtEncode false sgt log = .ok rows ∧
    ∃ rows', sgtEncode true sgt log = .ok rows' ∧ rows'.length = log.length ∧
      ∀ (i j : Nat) (r s r' s' : List Rat), rows[i]? = some r → rows[j]? = some s → rows'[i]? = some r' → rows'[j]? = some s' →
        ((r'.zip s').map fun e => (e.1 - e.2) ^ 2).sum = ((r.zip s).map fun e => (e.1 - e.2) ^ 2).sum := by
  have h1 : ∀ b, sgtEncode b sgt log = if b then .ok (rows.map fun r => (nonZeroColumns width rows).map fun j => r.getD j 0) else .ok rows := by
    intro b
    unfold sgtEncode
    rw [hs]
    cases b <;> rfl
  refine ⟨h1 false, _, h1 true, by simpa using hlen, ?_⟩
  intro i j r s r' s' hr hs' hr' hs''
  rw [List.getElem?_map, hr] at hr'
  rw [List.getElem?_map, hs'] at hs''
  cases hr'
  cases hs''
  have hrl := hw r (List.mem_of_getElem? hr)
  have hsl := hw s (List.mem_of_getElem? hs')
  have hz : ∀ js : List Nat, ((js.map fun j => r.getD j 0).zip (js.map fun j => s.getD j 0)).map (fun e => (e.1 - e.2) ^ 2) =
      js.map fun j => (r.getD j 0 - s.getD j 0) ^ 2 := by
    intro js
    induction js with
    | nil => rfl
    | cons j js ih => simp only [List.map_cons, List.zip_cons_cons, ih]
  have hfull : ∀ q : List Rat, q.length = width → q = (List.range width).map fun j => q.getD j 0 := by
    intro q hq
    apply List.ext_getElem?
    intro j
    by_cases hj : j < width
    · rw [List.getElem?_map, List.getElem?_range hj, List.getElem?_eq_getElem (by omega)]
      simp [List.getD, List.getElem?_eq_getElem (by omega : j < q.length)]
    · rw [List.getElem?_eq_none (by omega), List.getElem?_eq_none (by simp; omega)]
  have hright : ((r.zip s).map fun e => (e.1 - e.2) ^ 2) = (List.range width).map fun j => (r.getD j 0 - s.getD j 0) ^ 2 := by
    rw [← hz, ← hfull r hrl, ← hfull s hsl]
  rw [hz, hright]
  unfold nonZeroColumns
  generalize List.range width = js
  induction js with
  | nil => rfl
  | cons k js ih =>
    rw [List.filter_cons]
    split
    · rw [List.map_cons, List.map_cons, List.sum_cons, List.sum_cons, ih]
    · rename_i hk
      rw [List.map_cons, List.sum_cons, ih]
      have : ∀ q ∈ rows, q.getD k 0 = 0 := by
        intro q hq
        by_contra hc
        exact hk (List.any_eq_true.mpr ⟨q, hq, by simpa using hc⟩)
      rw [this r (List.mem_of_getElem? hr), this s (List.mem_of_getElem? hs')]
      simp

/-! ### the hypotheses are met -/

def exTrace (i : Nat) (a : String) : Trace Nat String Unit := ⟨i, [⟨a, [], none⟩], []⟩
def exLog : Log Nat String Unit := [exTrace 0 "a", exTrace 1 "b", exTrace 2 "a"]

theorem exDbscan : Dbscan (1 / 2) 2 (exLog.map (oneHot ["a", "b"])) [0, -1, 0] := by
  have ha : ∀ a, a ∈ ["a", "b"] ↔ ∃ t ∈ exLog, a ∈ t.activities := by
    intro a
    simp only [exLog, exTrace, Trace.activities, List.mem_cons, List.not_mem_nil, or_false, exists_eq_or_imp, exists_eq_left, List.map_cons, List.map_nil]
    tauto
  have hlog : ∀ (i : Nat) t, exLog[i]? = some t → t = exTrace 0 "a" ∧ i = 0 ∨ t = exTrace 1 "b" ∧ i = 1 ∨ t = exTrace 2 "a" ∧ i = 2 := by
    intro i t h
    match i, h with
    | 0, h => exact .inl ⟨by simpa [exLog] using h.symm, rfl⟩
    | 1, h => exact .inr (.inl ⟨by simpa [exLog] using h.symm, rfl⟩)
    | 2, h => exact .inr (.inr ⟨by simpa [exLog] using h.symm, rfl⟩)
    | _ + 3, h => simp [exLog] at h
  have hsame : ∀ i a j b, SameActivities (exTrace i a) (exTrace j b) ↔ a = b := by
    intro i a j b
    simp only [SameActivities, exTrace, Trace.activities, List.map_cons, List.map_nil, List.mem_singleton]
    exact ⟨fun h => (h a).mp rfl, fun h c => by rw [h]⟩
  have hnear : ∀ i j, Near (1 / 2) (exLog.map (oneHot ["a", "b"])) i j ↔ (i = 1 ∧ j = 1) ∨ ((i = 0 ∨ i = 2) ∧ (j = 0 ∨ j = 2)) := by
    intro i j
    rw [near_iff ha (by norm_num) (by norm_num)]
    constructor
    · rintro ⟨t, u, ht, hu, hs⟩
      rcases hlog i t ht with ⟨rfl, hi⟩ | ⟨rfl, hi⟩ | ⟨rfl, hi⟩ <;> rcases hlog j u hu with ⟨rfl, hj⟩ | ⟨rfl, hj⟩ | ⟨rfl, hj⟩ <;>
        rw [hsame] at hs <;> first | tauto | exact absurd hs (by decide)
    · rintro (⟨rfl, rfl⟩ | ⟨rfl | rfl, rfl | rfl⟩) <;> exact ⟨_, _, rfl, rfl, by rw [hsame]⟩
  have hcore : ∀ i, Core (1 / 2) 2 (exLog.map (oneHot ["a", "b"])) i ↔ i = 0 ∨ i = 2 := by
    intro i
    unfold Core
    simp only [hnear]
    constructor
    · rintro ⟨js, hn, hle, h⟩
      by_contra hc
      push Not at hc
      have h1 : ∀ j ∈ js, j = 1 := by
        intro j hj
        rcases h j hj with h | h
        · exact h.2
        · exact absurd h.1 (by tauto)
      match js, hn, hle, h1 with
      | a :: b :: js, hn, _, h1 =>
        have h2 := h1 a (by simp)
        have h3 := h1 b (by simp)
        rw [h2, h3] at hn
        simp at hn
    · intro hi
      exact ⟨[0, 2], by decide, by decide, fun j hj => .inr ⟨hi, by simpa using hj⟩⟩
  have hlab : ∀ (i : Nat) (a : Int), ([0, -1, 0] : List Int)[i]? = some a → (i = 0 ∨ i = 2) ∧ a = 0 ∨ i = 1 ∧ a = -1 := by
    intro i a h
    match i, h with
    | 0, h => exact .inl ⟨.inl rfl, by simpa using h.symm⟩
    | 1, h => exact .inr ⟨rfl, by simpa using h.symm⟩
    | 2, h => exact .inl ⟨.inr rfl, by simpa using h.symm⟩
    | _ + 3, h => simp at h
  refine ⟨rfl, ?_, ?_, ?_, ?_⟩
  · intro i a hi hc
    rw [hcore] at hc
    rcases hlab i a hi with h | h
    · omega
    · omega
  · intro i j a b hi hj hci hcj
    rw [hcore] at hci hcj
    have h1 : a = 0 := by rcases hlab i a hi with h | h <;> omega
    have h2 : b = 0 := by rcases hlab j b hj with h | h <;> omega
    refine ⟨fun _ => .single ⟨(hcore i).mpr hci, (hcore j).mpr hcj, (hnear i j).mpr (.inr ⟨hci, hcj⟩)⟩, fun _ => by rw [h1, h2]⟩
  · intro i a hi h
    rcases hlab i a hi with ⟨h1, rfl⟩ | h1
    · exact ⟨i, (hcore i).mpr h1, (hnear i i).mpr (.inr ⟨h1, h1⟩), hi⟩
    · omega
  · intro a k ham h1 h2
    have : a = 0 ∨ a = -1 := by simpa [or_comm, or_assoc] using ham
    have : k = 0 := by omega
    subst this; simp

example : ∃ clusters outliers, oneHotCluster ["a", "b"] (fun _ => .ok [0, -1, 0]) exLog = .ok (clusters, outliers) ∧ clusters.length = 1 ∧
    outliers = [exTrace 1 "b"] ∧ Dbscan (1 / 2) 2 (exLog.map (oneHot ["a", "b"])) [0, -1, 0] :=
  ⟨[[exTrace 0 "a", exTrace 2 "a"]], [exTrace 1 "b"], rfl, rfl, rfl, exDbscan⟩

end Prolothar.Clustering
