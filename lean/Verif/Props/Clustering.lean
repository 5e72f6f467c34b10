import Verif.Model.Clustering
import Verif.Props.EventLog
/-
C70: decoding label vectors. C107: one-hot encoding of traces.
-/
namespace Prolothar.Clustering
open Prolothar.EventLog

variable {α : Type}

theorem foldl_maxInt (l : List Int) : ∀ x, (l.foldl (fun m v => if m < v then v else m) x = x ∨ l.foldl (fun m v => if m < v then v else m) x ∈ l) ∧
    (x ≤ l.foldl (fun m v => if m < v then v else m) x ∧ ∀ y ∈ l, y ≤ l.foldl (fun m v => if m < v then v else m) x) := by
  induction l with
  | nil => intro x; simp
  | cons z l ih =>
    intro x
    rw [List.foldl_cons]
    obtain ⟨h1, h2, h3⟩ := ih (if x < z then z else x)
    refine ⟨?_, ?_, ?_⟩
    · rcases h1 with h1 | h1
      · rw [h1]; split <;> simp
      · exact .inr (List.mem_cons_of_mem _ h1)
    · refine le_trans ?_ h2
      split <;> omega
    · intro y hy
      rcases List.mem_cons.1 hy with rfl | hy
      · refine le_trans ?_ h2
        split <;> omega
      · exact h3 y hy

theorem pyMaxInt_ok {l : List Int} (h : l ≠ []) : ∃ m, pyMaxInt l = .ok m ∧ m ∈ l ∧ ∀ x ∈ l, x ≤ m := by
  cases l with
  | nil => exact absurd rfl h
  | cons x l =>
    obtain ⟨h1, h2, h3⟩ := foldl_maxInt l x
    refine ⟨_, rfl, ?_, ?_⟩
    · rcases h1 with h1 | h1
      · rw [h1]; simp
      · exact List.mem_cons_of_mem _ h1
    · intro y hy
      rcases List.mem_cons.1 hy with rfl | hy
      · exact h2
      · exact h3 y hy

theorem decode_loop : ∀ (l : List (α × Int)) (cs : List (List α)) (os : List α), (∀ e ∈ l, e.2 < cs.length) →
    ∃ cs' os', l.foldlM decodeStep (cs, os) = .ok (cs', os') ∧ cs'.length = cs.length ∧
      (∀ k : Nat, k < cs.length → cs'[k]? = (cs[k]?).map fun c => c ++ (l.filter fun e => decide (e.2 = (k : Int))).map (·.1)) ∧
      os' = os ++ (l.filter fun e => decide (e.2 < 0)).map (·.1)
  | [], cs, os, _ => ⟨cs, os, rfl, rfl, fun k hk => by simp, by simp⟩
  | (x, i) :: l, cs, os, h => by
    have hi := h (x, i) (by simp)
    simp only at hi
    rw [List.foldlM_cons]
    by_cases hneg : i < 0
    · obtain ⟨cs', os', e1, e2, e3, e4⟩ := decode_loop l cs (os ++ [x]) fun e he => h e (List.mem_cons_of_mem _ he)
      refine ⟨cs', os', ?_, e2, fun k hk => ?_, ?_⟩
      · unfold decodeStep; rw [if_pos hneg]; exact e1
      · rw [e3 k hk, List.filter_cons_of_neg (by simp only [decide_eq_true_eq]; omega)]
      · rw [e4, List.filter_cons_of_pos (by simpa using hneg)]; simp
    · have hlt : i.toNat < cs.length := by omega
      obtain ⟨cs', os', e1, e2, e3, e4⟩ := decode_loop l (cs.modify i.toNat (· ++ [x])) os fun e he => by
        rw [List.length_modify]; exact h e (List.mem_cons_of_mem _ he)
      rw [List.length_modify] at e2 e3
      refine ⟨cs', os', ?_, e2, fun k hk => ?_, ?_⟩
      · unfold decodeStep; rw [if_neg hneg, if_pos hlt]; exact e1
      · rw [e3 k hk, List.getElem?_modify]
        by_cases hki : i.toNat = k
        · rw [List.filter_cons_of_pos (by simp only [decide_eq_true_eq]; omega)]
          cases cs[k]? <;> simp [hki]
        · rw [List.filter_cons_of_neg (by simp only [decide_eq_true_eq]; omega)]
          cases cs[k]? <;> simp [hki]
      · rw [e4, List.filter_cons_of_neg (by simpa using hneg)]

/-- C70: cluster `k` consists of the instances with label `k`, in order, and the outliers are the instances with a
negative label, in order; there are as many clusters as the largest label plus one. -/
theorem C70_decode {instances : List α} {labels : List Int} (hne : labels ≠ []) :
    ∃ clusters outliers, decodeLabels instances labels = .ok (clusters, outliers) ∧
      (∀ k : Nat, clusters[k]? = if ∃ l ∈ labels, (k : Int) ≤ l then
        some (((instances.zip labels).filter fun e => decide (e.2 = (k : Int))).map (·.1)) else none) ∧
      outliers = ((instances.zip labels).filter fun e => decide (e.2 < 0)).map (·.1) := by
  obtain ⟨m, h1, h2, h3⟩ := pyMaxInt_ok hne
  obtain ⟨cs, os, e1, e2, e3, e4⟩ := decode_loop (instances.zip labels) (List.replicate (m + 1).toNat []) [] (by
    intro e he
    have := h3 e.2 (List.of_mem_zip (a := e.1) (b := e.2) he).2
    rw [List.length_replicate]; omega)
  rw [List.length_replicate] at e2 e3
  refine ⟨cs, os, by unfold decodeLabels; rw [h1]; exact e1, fun k => ?_, by rw [e4]; rfl⟩
  by_cases hk : k < (m + 1).toNat
  · rw [if_pos ⟨m, h2, by omega⟩, e3 k hk, List.getElem?_replicate, if_pos hk]; simp
  · rw [if_neg (by rintro ⟨l, hl, hkl⟩; have := h3 l hl; omega), List.getElem?_eq_none (by omega)]

/-- C70: if there is a label for every instance, every instance is in exactly one cluster or an outlier -/
theorem C70_partition {instances : List α} {labels : List Int} (hne : labels ≠ []) (hl : instances.length = labels.length) :
    ∃ clusters outliers, decodeLabels instances labels = .ok (clusters, outliers) ∧ (clusters.flatten ++ outliers).Perm instances := by
  have key : ∀ (l : List (α × Int)) (cs : List (List α)) (os : List α) cs' os', l.foldlM decodeStep (cs, os) = .ok (cs', os') →
      (cs'.flatten ++ os').Perm (cs.flatten ++ os ++ l.map (·.1)) := by
    intro l
    induction l with
    | nil => intro cs os cs' os' h; cases h; simp
    | cons e l ih =>
      intro cs os cs' os' h
      rw [List.foldlM_cons] at h
      unfold decodeStep at h
      split at h
      · have := ih _ _ _ _ h
        simpa using this
      · split at h
        · next hlt =>
          have h4 := ih _ _ _ _ h
          refine h4.trans ?_
          have hmod : ∀ (cs : List (List α)) (i : Nat), i < cs.length → (cs.modify i (· ++ [e.1])).flatten.Perm (cs.flatten ++ [e.1]) := by
            intro cs
            induction cs with
            | nil => intro i hi; simp at hi
            | cons c cs ihc =>
              intro i hi
              cases i with
              | zero =>
                simp only [List.modify_zero_cons, List.flatten_cons, List.append_assoc]
                exact List.Perm.append_left c List.perm_append_comm
              | succ i =>
                simp only [List.modify_succ_cons, List.flatten_cons, List.append_assoc]
                exact List.Perm.append_left c (ihc i (by simpa using hi))
          simp only [List.map_cons]
          have h5 : ((cs.modify e.2.toNat (· ++ [e.1])).flatten ++ os).Perm (cs.flatten ++ os ++ [e.1]) := by
            refine ((hmod cs _ hlt).append_right os).trans ?_
            simp only [List.append_assoc]
            exact List.Perm.append_left _ List.perm_append_comm
          have h6 := h5.append_right (l.map (·.1))
          simpa using h6
        · cases h
  obtain ⟨cs, os, e1, _⟩ := C70_decode (instances := instances) hne
  refine ⟨cs, os, e1, ?_⟩
  obtain ⟨m, h1, _⟩ := pyMaxInt_ok hne
  unfold decodeLabels at e1
  rw [h1] at e1
  have := key _ _ _ _ _ e1
  rw [List.flatten_replicate_nil, List.nil_append, List.nil_append, List.map_fst_zip (by omega)] at this
  exact this

/-- C70: an empty label vector (an empty log) raises a ValueError -/
theorem C70_empty (instances : List α) : decodeLabels instances [] = .error .value := rfl

example : (decodeLabels ["a", "b", "c", "d"] [1, -1, 0, 1]).toOption = some ([["c"], ["a", "d"]], ["b"]) := by rfl

/-! ### C107 -/

variable {I A V : Type} [DecidableEq A]

theorem encoderDict_spec {acts : List A} (hn : acts.Nodup) : (encoderDict acts).length = acts.length ∧
    ∀ a, (encoderDict acts).get? a = if a ∈ acts then some (acts.idxOf a) else none := by
  have key : ∀ (l : List A) (k : Nat) (m : Dict A Nat), l.Nodup → (∀ a ∈ l, a ∉ m.keys) →
      (((l.zipIdx k).foldl (fun m e => m.put e.1 e.2) m).length = m.length + l.length) ∧
      ∀ a, ((l.zipIdx k).foldl (fun (m : Dict A Nat) e => m.put e.1 e.2) m).get? a = if a ∈ l then some (k + l.idxOf a) else m.get? a := by
    intro l
    induction l with
    | nil => intro k m _ _; simp
    | cons x l ih =>
      intro k m hnd hm
      rw [List.nodup_cons] at hnd
      have hx : x ∉ m.keys := hm x (by simp)
      have hlen : (m.put x k).length = m.length + 1 := by
        have := congrArg List.length (Dict.keys_put m x k)
        rw [if_neg hx] at this
        simpa [Dict.keys] using this
      obtain ⟨h1, h2⟩ := ih (k + 1) (m.put x k) hnd.2 (fun a ha => by
        rw [Dict.mem_keys_put]
        rintro (h | h)
        · exact hnd.1 (h ▸ ha)
        · exact hm a (List.mem_cons_of_mem _ ha) h)
      rw [List.zipIdx_cons, List.foldl_cons]
      refine ⟨by rw [h1, hlen]; simp only [List.length_cons]; omega, fun a => ?_⟩
      rw [h2 a]
      by_cases hax : a = x
      · subst hax
        rw [if_neg hnd.1, Dict.get?_put_self, if_pos (by simp)]
        simp
      · by_cases hal : a ∈ l
        · rw [if_pos hal, if_pos (List.mem_cons_of_mem _ hal), List.idxOf_cons_ne _ (Ne.symm hax)]
          congr 1; omega
        · rw [if_neg hal, if_neg (by simp [hax, hal]), Dict.get?_put_of_ne _ _ (Ne.symm hax)]
  obtain ⟨h1, h2⟩ := key acts 0 [] hn (by simp [Dict.keys])
  unfold encoderDict
  refine ⟨by rw [h1]; simp, fun a => ?_⟩
  rw [h2 a]
  simp only [Nat.zero_add]
  rfl

theorem encodeTrace_spec {acts : List A} (hn : acts.Nodup) {trace : List A} (ht : ∀ a ∈ trace, a ∈ acts) :
    encodeTrace (encoderDict acts) trace = .ok (acts.map fun a => if a ∈ trace then 1 else 0) := by
  obtain ⟨h1, h2⟩ := encoderDict_spec hn
  have key : ∀ (l done : List A), (∀ a ∈ l, a ∈ acts) →
      l.foldlM (fun row a => do let i ← (encoderDict acts).getItem a; pySet row i 1) (acts.map fun a => if a ∈ done then 1 else 0) =
        (.ok (acts.map fun a => if a ∈ done ++ l then 1 else 0) : Py (List Nat)) := by
    intro l
    induction l with
    | nil => intro done _; simp only [List.append_nil]; rfl
    | cons a l ih =>
      intro done hl
      have ha := hl a (by simp)
      have hlt : acts.idxOf a < acts.length := List.idxOf_lt_length_of_mem ha
      rw [List.foldlM_cons]
      have e1 : (encoderDict acts).getItem a = .ok (acts.idxOf a) := by
        unfold Dict.getItem; rw [h2 a, if_pos ha]
      have e2 : pySet (acts.map fun a => if a ∈ done then 1 else 0) (acts.idxOf a : Nat) 1 =
          (.ok (acts.map fun b => if b ∈ done ++ [a] then 1 else 0) : Py (List Nat)) := by
        simp only [pySet, List.length_map]
        rw [if_pos (by omega)]
        congr 1
        apply List.ext_getElem
        · simp
        · intro i hi1 hi2
          rw [List.length_map] at hi2
          rw [List.getElem_set, List.getElem_map, List.getElem_map]
          by_cases hia : acts.idxOf a = i
          · subst hia
            rw [if_pos rfl, List.getElem_idxOf]; simp
          · have hne : acts[i] ≠ a := by
              intro he
              apply hia
              rw [← he]
              exact hn.idxOf_getElem i hi2
            rw [if_neg hia]
            simp [hne]
      have e3 : (do let i ← (encoderDict acts).getItem a; pySet (acts.map fun a => if a ∈ done then 1 else 0) i 1) =
          (.ok (acts.map fun b => if b ∈ done ++ [a] then 1 else 0) : Py (List Nat)) := by
        rw [e1]; exact e2
      rw [e3]
      have e4 := ih (done ++ [a]) fun b hb => hl b (List.mem_cons_of_mem _ hb)
      rw [List.append_assoc] at e4
      exact e4
  have h3 := key trace [] ht
  unfold encodeTrace
  rw [h1]
  have : (acts.map fun a => if a ∈ ([] : List A) then 1 else 0) = List.replicate acts.length 0 := by simp
  rw [this] at h3
  simpa using h3

/-- C107: for every iteration order of the activity set, the matrix has one row per trace and one column per activity,
with a one exactly where the activity occurs in the trace -/
theorem C107_encode (log : Log I A V) {acts : List A} (hn : acts.Nodup) (ha : ∀ a, a ∈ acts ↔ ∃ t ∈ log, ∃ e ∈ t.events, e.activity = a) :
    encodeLog acts log = .ok (log.map fun t => acts.map fun a => if ∃ e ∈ t.events, e.activity = a then 1 else 0) := by
  unfold encodeLog
  have : ∀ l : Log I A V, (∀ t ∈ l, t ∈ log) → (l.map Trace.activities).mapM (encodeTrace (encoderDict acts)) =
      .ok (l.map fun t => acts.map fun a => if ∃ e ∈ t.events, e.activity = a then 1 else 0) := by
    intro l
    induction l with
    | nil => intro _; rfl
    | cons t l ih =>
      intro hl
      have h1 := encodeTrace_spec (acts := acts) (trace := t.activities) hn (by
        intro a h
        obtain ⟨e, he, rfl⟩ := List.mem_map.1 h
        exact (ha _).2 ⟨t, hl t (by simp), e, he, rfl⟩)
      rw [List.map_cons, List.mapM_cons, h1, ih fun t ht => hl t (List.mem_cons_of_mem _ ht)]
      simp only [Trace.activities, List.mem_map]
      rfl
  exact this log fun _ h => h

/-- C107: two traces have the same row exactly if the same activities occur in them -/
theorem C107_same_row {acts : List A} {t u : Trace I A V} (ht : ∀ e ∈ t.events, e.activity ∈ acts) (hu : ∀ e ∈ u.events, e.activity ∈ acts) :
    (acts.map fun a => if ∃ e ∈ t.events, e.activity = a then 1 else 0) = (acts.map fun a => if ∃ e ∈ u.events, e.activity = a then 1 else 0) ↔
      ∀ a, (∃ e ∈ t.events, e.activity = a) ↔ ∃ e ∈ u.events, e.activity = a := by
  constructor
  · intro h a
    have hh : ∀ a ∈ acts, (if ∃ e ∈ t.events, e.activity = a then 1 else 0) = if ∃ e ∈ u.events, e.activity = a then 1 else 0 := List.map_inj_left.1 h
    constructor
    · rintro ⟨e, he, rfl⟩
      by_contra hne
      have := hh _ (ht e he)
      rw [if_pos ⟨e, he, rfl⟩, if_neg hne] at this
      cases this
    · rintro ⟨e, he, rfl⟩
      by_contra hne
      have := hh _ (hu e he)
      rw [if_neg hne, if_pos ⟨e, he, rfl⟩] at this
      cases this
  · intro h
    refine List.map_congr_left fun a _ => ?_
    simp only [h a]

example : (encodeLog ["b", "a", "c"] ([⟨0, [⟨"a", [], none⟩, ⟨"b", [], none⟩, ⟨"a", [], none⟩], []⟩, ⟨1, [⟨"c", [], none⟩], []⟩] : Log Nat String Unit)).toOption =
    some [[1, 1, 0], [0, 0, 1]] := by rfl

end Prolothar.Clustering
