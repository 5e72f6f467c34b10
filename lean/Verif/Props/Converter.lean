import Verif.Model.Converter
import Verif.Props.TargetDatasets
import Verif.Lemmas.EventLog
/-
C138: conversion of datasets with target sequences to event logs.
-/
namespace Prolothar.Converter
open Prolothar.Data Prolothar.Spec.Data
open Prolothar.EventLog (Event Trace Log activitySet mem_activitySet)

theorem seq_consistent {h : Heap (List String)} {d : SeqDs} (hr : SeqHistory h d) : Consistent h d.base :=
  (history_inv (τ := List String) (D := SeqDs) (new := SeqDs.new) (base := SeqDs.base) (setBase := fun d b => { d with base := b })
    (add := SeqDs.addInstance) (fun _ _ => True) (fun _ _ => rfl) (fun _ _ => rfl)
    (fun h d a d' he => by
      unfold SeqDs.addInstance at he
      cases hb : d.base.addInstance h a with
      | error e => rw [hb] at he; cases he
      | ok b => rw [hb] at he; cases he; rfl)
    (fun _ _ => trivial) (fun _ _ _ h => h) (fun _ _ _ _ _ h _ => h) hr).1

theorem convert_loop (h : Heap (List String)) : ∀ (l : List Nat) (log : List TraceRef), (∀ a ∈ l, (h a).target ≠ []) →
    l.foldlM (convertStep h) log = .ok (log ++ l.map fun a => ⟨(h a).id, (h a).target.map Event.new, a⟩)
  | [], log, _ => by simp [pure, Except.pure]
  | a :: l, log, hl => by
    have hs : convertStep h log a = .ok (log ++ [⟨(h a).id, (h a).target.map Event.new, a⟩]) := by
      unfold convertStep
      rw [if_neg (by simpa using hl a (by simp))]
    rw [List.foldlM_cons, hs]
    simp only [bind, Except.bind]
    rw [convert_loop h l _ fun b hb => hl b (List.mem_cons_of_mem _ hb)]
    simp

/-- C138: every instance becomes one trace, in the same order: its id, one event without attributes per symbol of the target sequence,
and its features as attributes. The ids of the traces are different, and the activities of the log are the symbols of the dataset. -/
theorem C138_convert {h : Heap (List String)} {d : SeqDs} (hr : SeqHistory h d) (hne : ∀ a ∈ d.base.instances, (h a).target ≠ []) :
    ∃ l, convert h d = .ok l ∧
      view h l = d.base.instances.map (fun a => ⟨(h a).id, (h a).target.map fun x => ⟨x, [], none⟩, (h a).features⟩) ∧
      ((view h l).map Trace.id).Nodup ∧ (activitySet (view h l)).Perm d.symbols := by
  have hv : view h (d.base.instances.map fun a => ⟨(h a).id, (h a).target.map Event.new, a⟩) =
      d.base.instances.map (fun a => ⟨(h a).id, (h a).target.map fun x => ⟨x, [], none⟩, (h a).features⟩) := by
    unfold view
    rw [List.map_map]
    rfl
  refine ⟨_, convert_loop h d.base.instances [] hne, hv, ?_, ?_⟩
  · rw [List.nil_append, hv, List.map_map]
    exact (seq_consistent hr).ids
  · obtain ⟨s1, s2⟩ := C125_symbols hr
    refine (List.perm_ext_iff_of_nodup (EventLog.nodup_activitySet _) s1).2 fun x => ?_
    rw [mem_activitySet, s2, List.nil_append, hv]
    constructor
    · rintro ⟨t, ht, hx⟩
      obtain ⟨a, ha, rfl⟩ := List.mem_map.1 ht
      refine ⟨a, ha, ?_⟩
      simpa [Trace.activities] using hx
    · rintro ⟨a, ha, hx⟩
      exact ⟨_, List.mem_map_of_mem ha, by simpa [Trace.activities] using hx⟩

/-- C138: an instance with an empty target sequence makes the conversion fail with ValueError. -/
theorem C138_empty_sequence (h : Heap (List String)) (d : SeqDs) (a : Nat) (ha : a ∈ d.base.instances) (he : (h a).target = []) :
    convert h d = .error .value := by
  unfold convert
  generalize d.base.instances = l at ha
  generalize ([] : List TraceRef) = log
  induction l generalizing log with
  | nil => cases ha
  | cons b l ih =>
    rw [List.foldlM_cons]
    by_cases hb : (h b).target = []
    · have : convertStep h log b = .error .value := by simp [convertStep, hb]
      rw [this]; rfl
    · have hs : convertStep h log b = .ok (log ++ [⟨(h b).id, (h b).target.map Event.new, b⟩]) := by
        unfold convertStep
        rw [if_neg (by simpa using hb)]
      rw [hs]
      rcases List.mem_cons.1 ha with rfl | ha
      · exact absurd he hb
      · exact ih ha _

/-- C138: the log and the dataset share the features: after any later change of the dataset's instances the traces show the new features
(but the old id and the old sequence), and assigning to an attribute of a trace assigns to the feature of its instance. -/
theorem C138_shared {h : Heap (List String)} {d : SeqDs} {l : List TraceRef} (hc : convert h d = .ok l) :
    (∀ h' : Heap (List String), (view h' l).map Trace.attributes = d.base.instances.map fun a => (h' a).features) ∧
    (∀ h' : Heap (List String), (view h' l).map Trace.id = d.base.instances.map fun a => (h a).id) ∧
    ∀ t ∈ l, ∀ k v, t.attributes ∈ d.base.instances ∧ (setTraceAttribute h t k v t.attributes).features.get? k = some v := by
  have hne : ∀ a ∈ d.base.instances, (h a).target ≠ [] := by
    intro a ha he
    rw [C138_empty_sequence h d a ha he] at hc; cases hc
  unfold convert at hc
  rw [convert_loop h _ _ hne] at hc
  cases hc
  refine ⟨fun h' => ?_, fun h' => ?_, fun t ht k v => ⟨?_, ?_⟩⟩
  · unfold view; rw [List.nil_append, List.map_map, List.map_map]; rfl
  · unfold view; rw [List.nil_append, List.map_map, List.map_map]; rfl
  · rw [List.nil_append] at ht
    obtain ⟨a, ha, rfl⟩ := List.mem_map.1 ht
    exact ha
  · unfold setTraceAttribute
    rw [upd_self]
    exact Dict.get?_put_self _ _ _

/-- C138, deviation: adding an attribute to a trace of the converted log makes the dataset inconsistent: its instance has a feature that
is no attribute of the dataset. -/
theorem C138_breaks_dataset : ∃ d l t, SeqHistory exSeqHeap d ∧ convert exSeqHeap d = .ok l ∧ t ∈ l ∧
    ¬ Consistent (setTraceAttribute exSeqHeap t "cluster" (.num 1)) d.base := by
  obtain ⟨d, h1, h2, h3⟩ := exSeq_history
  have hne : ∀ a ∈ d.base.instances, (exSeqHeap a).target ≠ [] := by
    rw [h3]; decide
  refine ⟨d, _, ⟨.str "i", ["a", "b"].map Event.new, 0⟩, h2, convert_loop exSeqHeap _ _ hne, ?_, fun hc => ?_⟩
  · rw [h3]; decide
  · have h0 : 0 ∈ d.base.instances := by rw [h3]; decide
    have hk : "cluster" ∈ d.base.attrs.keys := by
      rw [← (hc.features 0 h0).2]
      simp [setTraceAttribute, Dict.mem_keys_put]
    have := (seq_consistent h2).features 0 h0
    rw [← this.2] at hk
    revert hk
    decide

example : (exSeq.toOption.bind fun d => (convert exSeqHeap d).toOption.map fun l => (view exSeqHeap l).map Trace.activities) =
    some [["a", "b"], ["c"], ["b"], ["c"]] := by decide +kernel

end Prolothar.Converter
