import Verif.Lemmas.PetriRuns
import Verif.Props.PetriWf
import Verif.Props.PetriPrune
/-
C145: the behaviour of the nets built by `transform_to_workflow_net`.
-/
namespace Prolothar.Petri
open Prolothar.Spec.Petri

/-- the firing sequences of `n` from the marking `μ` whose visible transitions are `σ` can end in `ν` -/
def Ends (h : Heap) (n : Net) (μ : String → Int) (σ : List String) (ν : String → Int) : Prop :=
  ∃ ts, Run n.pre n.post (Allowed h n) μ ts ν ∧ ts.filter n.visible = σ

def arcsOf (h : Heap) (n : Net) : Arcs String String := ⟨n.pre, n.post, Allowed h n⟩

theorem grown_extends {h : Heap} {f : String → List String × List String} {g : String → String × String} {l : List String} {n n' : Net} {s : String}
    (hf : ∀ p, f p = ([(g p).1], [(g p).2])) (hg : Grown f l (withPlace n s) n') :
    Extends n'.visible (l.map g) (arcsOf h n) (arcsOf h n') ∧ ∀ ts : List String, (∀ t ∈ ts, t ∈ n.transitions) → ts.filter n'.visible = ts.filter n.visible := by
  obtain ⟨-, -, -, -, ts, e5, e6, e7, e8⟩ := hg
  have hmem : ∀ x ∈ ts, Allowed h n' x := fun x hx => by
    refine ⟨by rw [e5]; simp [hx], ?_⟩
    rw [(e7 x hx).2.1]
    simp [Guard.accept]
  refine ⟨⟨?_, ?_, ?_⟩, ?_⟩
  · rintro t ⟨ht, ha⟩
    obtain ⟨a1, a2, a3, a4, a5⟩ := e6 t ht
    exact ⟨⟨by rw [e5]; exact List.mem_append_left _ ht, by rw [a3]; exact ha⟩, a1, a2⟩
  · rintro t ⟨ht, ha⟩
    rw [e5] at ht
    rcases List.mem_append.1 ht with ht | ht
    · obtain ⟨a1, a2, a3, a4, a5⟩ := e6 t ht
      exact .inl ⟨ht, by rw [a3] at ha; exact ha⟩
    · obtain ⟨a1, a2, p, hp, a3, a4⟩ := e7 t ht
      rw [hf] at a3 a4
      exact .inr ⟨a1, g p, List.mem_map.2 ⟨p, hp, rfl⟩, a3, a4⟩
  · intro e he
    obtain ⟨p, hp, rfl⟩ := List.mem_map.1 he
    obtain ⟨x, hx, a3, a4⟩ := e8 p hp
    rw [hf] at a3 a4
    exact ⟨x, hmem x hx, (e7 x hx).1, a3, a4⟩
  · intro us hus
    exact List.filter_congr fun t ht => (e6 t (hus t ht)).2.2.2.1

theorem source_step {n m : Net} (hw : n.WF) (h : Heap) (hm : (if n.sourceSink.1.length > 1 then newSource n n.sourceSink.1 else .ok n) = .ok m)
    {μ ν : String → Int} (h0 : 0 ≤ μ (",".intercalate n.sourceSink.1)) {σ : List String} :
    Ends h m μ σ ν ↔ ∃ (dl : List String) (ν0 : String → Int), (∀ p ∈ dl, p ∈ n.sourceSink.1) ∧ (n.sourceSink.1.length ≤ 1 → dl = []) ∧
      (dl.length : Int) ≤ μ (",".intercalate n.sourceSink.1) ∧ Ends h n (fun p => μ p + dl.count p) σ ν0 ∧
      ν = fun p => ν0 p - if p = ",".intercalate n.sourceSink.1 then (dl.length : Int) else 0 := by
  split at hm
  · next hlen =>
    obtain ⟨hs, -, hg⟩ := newSource_grown hw hm
    obtain ⟨hx, hfil⟩ := grown_extends (h := h) (g := fun p => (",".intercalate n.sourceSink.1, p)) (fun p => rfl) hg
    have hfresh : ∀ t, (arcsOf h n).ok t → ",".intercalate n.sourceSink.1 ∉ (arcsOf h n).pre t ∧ ",".intercalate n.sourceSink.1 ∉ (arcsOf h n).post t :=
      fun t ht => ⟨fun hc => hs ((hw.pre t ht.1).2 _ hc), fun hc => hs ((hw.post t ht.1).2 _ hc)⟩
    have hS : ",".intercalate n.sourceSink.1 ∉ n.sourceSink.1 := fun hc => by
      obtain ⟨⟨t, ht, hpt⟩, -⟩ := mem_source.1 hc
      exact hs ((hw.pre t ht).2 _ hpt)
    constructor
    · rintro ⟨ts, hr, rfl⟩
      obtain ⟨dl, ts0, ν0, k1, k2, k3, k4, k5⟩ := source_forward hx hfresh hS hr
      refine ⟨dl, ν0, k1, fun hc => absurd hlen (by omega), ?_, ⟨ts0, k3, ?_⟩, k5⟩
      · rcases k2 with rfl | k2
        · simpa using h0
        · exact k2
      · rw [← hfil ts0 fun t ht => (k3.ok t ht).1]; exact k4
    · rintro ⟨dl, ν0, k1, -, k2, ⟨ts0, k3, rfl⟩, rfl⟩
      obtain ⟨ts, r1, r2⟩ := source_backward hx hfresh hS dl k1 (.inr k2) k3
      exact ⟨ts, r1, r2.trans (hfil ts0 fun t ht => (k3.ok t ht).1)⟩
  · next hlen =>
    obtain rfl := Except.ok.inj hm
    constructor
    · intro hr
      exact ⟨[], ν, by simp, fun _ => rfl, by simpa using h0, by simpa using hr, by funext p; simp⟩
    · rintro ⟨dl, ν0, -, k1, -, k3, rfl⟩
      obtain rfl := k1 (by omega)
      simpa using k3

theorem sink_step {n m : Net} {S : List String} (hw : n.WF) (hSn : ∀ p ∈ S, IsSink n.transitions n.pre n.post p) (h : Heap)
    (hm : (if S.length > 1 then newSink n S else .ok n) = .ok m) {μ ν : String → Int} (h0 : ∀ p, 0 ≤ μ p) {σ : List String} :
    Ends h m μ σ ν ↔ ∃ (el : List String) (ν0 : String → Int), (∀ p ∈ el, p ∈ S) ∧ (S.length ≤ 1 → el = []) ∧
      Ends h n μ σ ν0 ∧ (∀ p, (el.count p : Int) ≤ ν0 p) ∧
      ν = fun p => ν0 p - el.count p + if p = ",".intercalate S then (el.length : Int) else 0 := by
  split at hm
  · next hlen =>
    obtain ⟨hs, -, hg⟩ := newSink_grown hw hm
    obtain ⟨hx, hfil⟩ := grown_extends (h := h) (g := fun p => (p, ",".intercalate S)) (fun p => rfl) hg
    have hfresh : ∀ t, (arcsOf h n).ok t → ",".intercalate S ∉ (arcsOf h n).pre t ∧ ",".intercalate S ∉ (arcsOf h n).post t :=
      fun t ht => ⟨fun hc => hs ((hw.pre t ht.1).2 _ hc), fun hc => hs ((hw.post t ht.1).2 _ hc)⟩
    have hS : ",".intercalate S ∉ S := fun hc => by
      obtain ⟨⟨t, ht, hpt⟩, -⟩ := hSn _ hc
      exact hs ((hw.post t ht).2 _ hpt)
    constructor
    · rintro ⟨ts, hr, rfl⟩
      obtain ⟨el, ts0, ν0, k1, k3, k4, k5⟩ := sink_forward hx hfresh hS (fun t ht p hp hc => (hSn p hp).2 ⟨t, ht.1, hc⟩) hr
      refine ⟨el, ν0, k1, fun hc => absurd hlen (by omega), ⟨ts0, k3, ?_⟩, ?_, k5⟩
      · rw [← hfil ts0 fun t ht => (k3.ok t ht).1]; exact k4
      · intro p
        by_cases hp : p ∈ el
        · have hne : p ≠ ",".intercalate S := by rintro rfl; exact hS (k1 _ hp)
          have := hr.nonneg h0 p
          rw [k5] at this
          simp only [if_neg hne] at this
          omega
        · rw [List.count_eq_zero.2 hp]
          exact k3.nonneg h0 p
    · rintro ⟨el, ν0, k1, -, ⟨ts0, k3, rfl⟩, k4, rfl⟩
      obtain ⟨ts, r1, r2⟩ := sink_backward hx hS el k1 k4 (Run.lift hx.same k3)
      exact ⟨ts, r1, r2.trans (hfil ts0 fun t ht => (k3.ok t ht).1)⟩
  · next hlen =>
    obtain rfl := Except.ok.inj hm
    constructor
    · intro hr
      refine ⟨[], ν, by simp, fun _ => rfl, hr, ?_, by funext p; simp⟩
      obtain ⟨ts, hr, -⟩ := hr
      simpa using hr.nonneg h0
    · rintro ⟨el, ν0, -, k1, k3, -, rfl⟩
      obtain rfl := k1 (by omega)
      simpa using k3

theorem source_step_sink {n m : Net} (hw : n.WF) (hm : (if n.sourceSink.1.length > 1 then newSource n n.sourceSink.1 else .ok n) = .ok m) :
    m.WF ∧ ∀ p, IsSink n.transitions n.pre n.post p → IsSink m.transitions m.pre m.post p := by
  split at hm
  · obtain ⟨hs, hwm, hg⟩ := newSource_grown hw hm
    refine ⟨hwm, fun p => ?_⟩
    unfold IsSink
    rw [(hg.arcs p).1, (hg.arcs p).2]
    rintro ⟨ha, hb⟩
    refine ⟨.inl ha, ?_⟩
    rintro (hc | ⟨q, hq, hp⟩)
    · exact hb hc
    · simp only [List.mem_singleton] at hp
      obtain ⟨t, ht, hpt⟩ := ha
      exact hs (hp ▸ (hw.post t ht).2 _ hpt)
  · obtain rfl := Except.ok.inj hm
    exact ⟨hw, fun p hp => hp⟩

/-- C145: the behaviour of the transformed net, exactly. From a marking `μ` a firing sequence with the visible transitions `σ` can
end in `ν` iff there are sources `starts` (with repetitions, none if there is only one source) and sinks `ends` (none if there is
only one sink), such that: as many tokens as there are `starts` are taken from the new source, each is put on its source; the
original net goes from there to `ν0` with the same visible transitions; the tokens of `ends` are moved to the new sink. -/
theorem C145_runs {n n' : Net} (hw : n.WF) (hn : toWorkflow n = .ok n') (h : Heap) (μ : String → Int) (h0 : ∀ p, 0 ≤ μ p)
    (σ : List String) (ν : String → Int) :
    Ends h n' μ σ ν ↔ ∃ (starts ends : List String) (ν0 : String → Int),
      (∀ p ∈ starts, p ∈ n.sourceSink.1) ∧ (n.sourceSink.1.length ≤ 1 → starts = []) ∧
      (∀ p ∈ ends, p ∈ n.sourceSink.2) ∧ (n.sourceSink.2.length ≤ 1 → ends = []) ∧
      (starts.length : Int) ≤ μ (",".intercalate n.sourceSink.1) ∧
      Ends h n (fun p => μ p + starts.count p) σ ν0 ∧
      (∀ p ∈ ends, (ends.count p : Int) ≤ ν0 p) ∧
      ν = fun p => ν0 p - (if p = ",".intercalate n.sourceSink.1 then (starts.length : Int) else 0) - ends.count p
        + (if p = ",".intercalate n.sourceSink.2 then (ends.length : Int) else 0) := by
  rw [toWorkflow_eq] at hn
  obtain ⟨m, hm, hn'⟩ := bind_eq_ok hn
  obtain ⟨hwm, hsk⟩ := source_step_sink hw hm
  have hSm : ∀ p ∈ n.sourceSink.2, IsSink m.transitions m.pre m.post p := fun p hp => hsk p (mem_sink.1 hp)
  rw [sink_step hwm hSm h hn' h0]
  -- the sinks are not the new source
  have hne : n.sourceSink.1.length > 1 → ∀ p ∈ n.sourceSink.2, p ≠ ",".intercalate n.sourceSink.1 := by
    rintro hlen p hp rfl
    rw [if_pos hlen] at hm
    obtain ⟨⟨t, ht, hpt⟩, -⟩ := mem_sink.1 hp
    exact (newSource_grown hw hm).1 ((hw.post t ht).2 _ hpt)
  constructor
  · rintro ⟨el, ν1, k1, k2, k3, k4, rfl⟩
    obtain ⟨dl, ν0, l1, l2, l3, l4, rfl⟩ := (source_step hw h hm (h0 _)).1 k3
    refine ⟨dl, el, ν0, l1, l2, k1, k2, l3, l4, ?_, rfl⟩
    intro p hp
    have := k4 p
    simp only at this
    split at this <;> omega
  · rintro ⟨dl, el, ν0, l1, l2, k1, k2, l3, l4, k4, rfl⟩
    have hE := (source_step (ν := fun p => ν0 p - if p = ",".intercalate n.sourceSink.1 then (dl.length : Int) else 0) hw h hm (h0 _)).2
      ⟨dl, ν0, l1, l2, l3, l4, rfl⟩
    refine ⟨el, _, k1, k2, hE, ?_, rfl⟩
    intro p
    by_cases hp : p ∈ el
    · have := k4 p hp
      by_cases hlen : n.sourceSink.1.length > 1
      · simp only [if_neg (hne hlen p (k1 p hp))]; omega
      · obtain rfl := l2 (by omega)
        simp only [List.length_nil, Nat.cast_zero, ite_self]; omega
    · rw [List.count_eq_zero.2 hp]
      obtain ⟨ts, hr, -⟩ := hE
      exact hr.nonneg h0 p

theorem trace_iff {h : Heap} {n : Net} {μ : String → Int} {σ : List String} :
    Trace n.pre n.post (Allowed h n) n.visible μ σ ↔ ∃ ν, Ends h n μ σ ν :=
  ⟨fun ⟨ts, ν, h1, h2⟩ => ⟨ν, ts, h1, h2⟩, fun ⟨ν, ts, h1, h2⟩ => ⟨ts, ν, h1, h2⟩⟩

/-- C145: the traces of the transformed net: tokens of the new source are distributed over the sources, the rest is a trace
of the original net. -/
theorem C145_traces {n n' : Net} (hw : n.WF) (hn : toWorkflow n = .ok n') (h : Heap) (μ : String → Int) (h0 : ∀ p, 0 ≤ μ p)
    (σ : List String) :
    Trace n'.pre n'.post (Allowed h n') n'.visible μ σ ↔ ∃ starts : List String,
      (∀ p ∈ starts, p ∈ n.sourceSink.1) ∧ (n.sourceSink.1.length ≤ 1 → starts = []) ∧
      (starts.length : Int) ≤ μ (",".intercalate n.sourceSink.1) ∧
      Trace n.pre n.post (Allowed h n) n.visible (fun p => μ p + starts.count p) σ := by
  rw [trace_iff]
  constructor
  · rintro ⟨ν, hν⟩
    obtain ⟨dl, el, ν0, k1, k2, -, -, k3, k4, -⟩ := (C145_runs hw hn h μ h0 σ ν).1 hν
    exact ⟨dl, k1, k2, k3, trace_iff.2 ⟨ν0, k4⟩⟩
  · rintro ⟨dl, k1, k2, k3, k4⟩
    obtain ⟨ν0, k4⟩ := trace_iff.1 k4
    exact ⟨_, (C145_runs hw hn h μ h0 σ _).2 ⟨dl, [], ν0, k1, k2, by simp, fun _ => rfl, k3, k4, by simp, rfl⟩⟩

/-- C145: as long as nobody puts a token on the new source - `transform_to_workflow_net` does not - the traces are those of the
original net. -/
theorem C145_unmarked {n n' : Net} (hw : n.WF) (hn : toWorkflow n = .ok n') (h : Heap) (μ : String → Int) (h0 : ∀ p, 0 ≤ μ p)
    (hs : n.sourceSink.1.length ≤ 1 ∨ μ (",".intercalate n.sourceSink.1) = 0) (σ : List String) :
    Trace n'.pre n'.post (Allowed h n') n'.visible μ σ ↔ Trace n.pre n.post (Allowed h n) n.visible μ σ := by
  rw [C145_traces hw hn h μ h0]
  constructor
  · rintro ⟨dl, -, k2, k3, k4⟩
    have : dl = [] := by
      rcases hs with hs | hs
      · exact k2 hs
      · rw [hs] at k3; exact List.eq_nil_of_length_eq_zero (by omega)
    subst this
    simpa using k4
  · intro hT
    exact ⟨[], by simp, fun _ => rfl, by simpa using h0 _, by simpa using hT⟩

/-- C145: with one token on the new source of a net with several sources, and no other token, the traces are those of the
original net with one token on one of its sources: the new source chooses between the sources. -/
theorem C145_choice {n n' : Net} (hw : n.WF) (hn : toWorkflow n = .ok n') (h : Heap) (hl : 1 < n.sourceSink.1.length) (σ : List String) :
    Trace n'.pre n'.post (Allowed h n') n'.visible (fun p => if p = ",".intercalate n.sourceSink.1 then 1 else 0) σ ↔
      ∃ s, IsSource n.transitions n.pre n.post s ∧ Trace n.pre n.post (Allowed h n) n.visible (fun p => if p = s then 1 else 0) σ := by
  rw [C145_traces hw hn h _ fun p => by split <;> omega]
  have hs : ",".intercalate n.sourceSink.1 ∉ n.places := by
    rw [toWorkflow_eq, if_pos hl] at hn
    obtain ⟨m, hm, -⟩ := bind_eq_ok hn
    exact (newSource_grown hw hm).1
  have hfresh : ∀ t, Allowed h n t → ∀ p ∈ n.pre t, p ≠ ",".intercalate n.sourceSink.1 := by
    rintro t ht p hp rfl
    exact hs ((hw.pre t ht.1).2 _ hp)
  constructor
  · rintro ⟨dl, k1, -, k3, ts, ν, k4, rfl⟩
    rw [if_pos rfl] at k3
    rcases dl with _ | ⟨q, _ | ⟨q', dl⟩⟩
    · obtain ⟨q, hq⟩ := List.exists_mem_of_length_pos (show 0 < n.sourceSink.1.length by omega)
      refine ⟨q, mem_source.1 hq, ts, fun p => ν p + ((if p = q then 1 else 0) - if p = ",".intercalate n.sourceSink.1 then 1 else 0), ?_, rfl⟩
      · convert k4.add (fun p => (if p = q then 1 else 0) - if p = ",".intercalate n.sourceSink.1 then 1 else 0) (by
          intro t ht p hp
          simp only [if_neg (hfresh t ht p hp)]
          split <;> omega) using 2 with p
        simp
    · refine ⟨q, mem_source.1 (k1 q (by simp)), ts, fun p => ν p + (- if p = ",".intercalate n.sourceSink.1 then 1 else 0), ?_, rfl⟩
      · convert k4.add (fun p => - if p = ",".intercalate n.sourceSink.1 then 1 else 0) (by
          intro t ht p hp
          simp only [if_neg (hfresh t ht p hp)]
          omega) using 2 with p
        rw [List.count_singleton]
        by_cases hp : p = q
        · subst hp; simp
        · simp [hp, Ne.symm hp]
    · simp only [List.length_cons] at k3
      push_cast at k3
      omega
  · rintro ⟨q, hq, ts, ν, k4, rfl⟩
    refine ⟨[q], by simpa using mem_source.2 hq, fun hc => absurd hl (by omega), by simp, ts,
      fun p => ν p + (if p = ",".intercalate n.sourceSink.1 then 1 else 0), ?_, rfl⟩
    convert k4.add (fun p => if p = ",".intercalate n.sourceSink.1 then 1 else 0) (by
      intro t ht p hp
      simp only [if_neg (hfresh t ht p hp)]
      omega) using 2 with p
    rw [List.count_singleton]
    by_cases hp : p = q
    · subst hp; simp; split <;> omega
    · simp [hp, Ne.symm hp]

/-- the transformed example net -/
def exWorkflow : Net := (toWorkflow exTwoSources).toOption.getD Net.empty

theorem exWorkflow_eq : toWorkflow exTwoSources = .ok exWorkflow := by
  have h : (toWorkflow exTwoSources).toOption.isSome = true := by decide
  unfold exWorkflow
  cases ht : toWorkflow exTwoSources with
  | ok m => rfl
  | error e => rw [ht] at h; cases h

theorem exTwoSources_wf : exTwoSources.WF := by
  refine ⟨by decide, by decide, by decide, by decide, ?_⟩
  intro p hp
  have hp' : p = "a" ∨ p = "b" ∨ p = "c" := by simpa [exTwoSources, exNet] using hp
  rcases hp' with rfl | rfl | rfl <;>
  · refine ⟨by decide, fun t => ?_⟩
    constructor
    · intro h
      simp [exTwoSources, exNet] at h <;> (subst h; decide)
    · rintro ⟨h, h'⟩
      have ht : t = "t" := by simpa [exTwoSources, exNet] using h
      subst ht
      first | decide | exact absurd h' (by decide)

/-- C145: a workflow net that is started with one token on its source therefore loses behaviour if a transition needs tokens on
two of the original sources. In the example, the transition `t` consumes from the two sources `a` and `b`: the original net with a
token on each source can fire it, the transformed net with a token on the new source has only the empty trace. -/
theorem C145_synchronised (h : Heap) :
    Trace exTwoSources.pre exTwoSources.post (Allowed h exTwoSources) exTwoSources.visible (fun p => if p = "a" ∨ p = "b" then 1 else 0) ["t"] ∧
    ∀ σ, Trace exWorkflow.pre exWorkflow.post (Allowed h exWorkflow) exWorkflow.visible (fun p => if p = "a,b" then 1 else 0) σ ↔ σ = [] := by
  constructor
  · exact ⟨["t"], _, Run.single ⟨by decide, by simp [exTwoSources, exNet, Net.empty, Guard.accept]⟩ (by unfold Enabled; decide), by decide⟩
  · intro σ
    have hc := C145_choice exTwoSources_wf exWorkflow_eq h (by decide) σ
    have hj : ",".intercalate exTwoSources.sourceSink.1 = "a,b" := by decide
    rw [hj] at hc
    rw [hc]
    have hnil : ∀ (s : String) (ts : List String) (ν : String → Int), Run exTwoSources.pre exTwoSources.post (Allowed h exTwoSources)
        (fun p => if p = s then 1 else 0) ts ν → ts = [] ∧ ν = fun p => if p = s then 1 else 0 := by
      intro s ts ν hr
      induction hr with
      | nil => exact ⟨rfl, rfl⟩
      | @snoc ts ν t _ ho he ih =>
        obtain ⟨rfl, rfl⟩ := ih
        have ht : t = "t" := by simpa [exTwoSources, exNet] using ho.1
        subst ht
        have h1 := he "a" (by decide)
        have h2 := he "b" (by decide)
        by_cases hs : "a" = s
        · subst hs; simp at h2
        · simp [hs] at h1
    constructor
    · rintro ⟨s, -, ts, ν, hr, rfl⟩
      rw [(hnil s ts ν hr).1]; rfl
    · rintro rfl
      refine ⟨"a", mem_source.1 (by decide), [], _, .nil, rfl⟩

/-- the hypotheses of the theorems above are met by the example -/
example : exTwoSources.WF ∧ toWorkflow exTwoSources = .ok exWorkflow ∧ 1 < exTwoSources.sourceSink.1.length ∧
    exTwoSources.sourceSink.1.length ≤ 2 := ⟨exTwoSources_wf, exWorkflow_eq, by decide, by decide⟩

end Prolothar.Petri
