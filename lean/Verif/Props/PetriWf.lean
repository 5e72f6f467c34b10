import Verif.Lemmas.PetriWf
import Verif.Props.Petri
/-
C99: source and sink places, workflow nets.
-/
namespace Prolothar.Petri
open Prolothar.Spec.Petri

/-- C99: `get_source_sink_places` returns exactly the places that are only consumed from and the places that are
only produced on, each once. -/
theorem C99_source_sink (n : Net) :
    n.sourceSink.1.Nodup ∧ n.sourceSink.2.Nodup ∧
    (∀ p, p ∈ n.sourceSink.1 ↔ IsSource n.transitions n.pre n.post p) ∧
    ∀ p, p ∈ n.sourceSink.2 ↔ IsSink n.transitions n.pre n.post p :=
  ⟨nodup_source n, nodup_sink n, fun _ => mem_source, fun _ => mem_sink⟩

/-- C99: `is_workflow_net` holds iff the net has exactly one source and exactly one sink; two places are then
guaranteed. -/
theorem C99_is_workflow {n : Net} (hw : n.WF) :
    n.isWorkflow = true ↔
      (∃ s, ∀ p, IsSource n.transitions n.pre n.post p ↔ p = s) ∧ ∃ s, ∀ p, IsSink n.transitions n.pre n.post p ↔ p = s := by
  unfold Net.isWorkflow
  rw [Bool.and_eq_true, Bool.and_eq_true, decide_eq_true_eq, decide_eq_true_eq, decide_eq_true_eq,
    length_one_iff (nodup_source n), length_one_iff (nodup_sink n)]
  simp only [mem_source, mem_sink]
  constructor
  · rintro ⟨⟨_, h1⟩, h2⟩; exact ⟨h1, h2⟩
  · rintro ⟨⟨s, hs⟩, e, he⟩
    refine ⟨⟨?_, s, hs⟩, e, he⟩
    obtain ⟨⟨t, ht, hst⟩, hs2⟩ := (hs s).2 rfl
    obtain ⟨⟨u, hu, heu⟩, he2⟩ := (he e).2 rfl
    have hne : s ≠ e := by rintro rfl; exact hs2 ⟨u, hu, heu⟩
    have := (List.subperm_of_subset (l₁ := [s, e]) (l₂ := n.places) (by simp [hne]) (by
      intro x hx
      simp only [List.mem_cons, List.not_mem_nil, or_false] at hx
      rcases hx with rfl | rfl
      · exact (hw.pre t ht).2 _ hst
      · exact (hw.post u hu).2 _ heu)).length_le
    simpa using this

theorem toWorkflow_eq (n : Net) : toWorkflow n =
    ((if n.sourceSink.1.length > 1 then newSource n n.sourceSink.1 else .ok n) >>= fun m =>
      if n.sourceSink.2.length > 1 then newSink m n.sourceSink.2 else .ok m) := by
  unfold toWorkflow
  by_cases h : n.sourceSink.1.length > 1
  · simp [h]
  · simp [h]

/-- the effect of one of the two steps on everything that existed before -/
theorem grown_old {f : String → List String × List String} {l : List String} {n n' : Net} {s : String}
    (hs : s ∉ n.places) (hf : ∀ q, ∃ a b, f q = ([a], [b])) (h : Grown f l (withPlace n s) n') :
    n.places <+: n'.places ∧ n.transitions <+: n'.transitions ∧ n'.vars = n.vars ∧
    (∀ p ∈ n.places, n'.tokens p = n.tokens p ∧ n'.placeLabel p = n.placeLabel p) ∧
    (∀ p ∈ n'.places, p ∉ n.places → n'.tokens p = 0) ∧
    (∀ t ∈ n.transitions, n'.pre t = n.pre t ∧ n'.post t = n.post t ∧ n'.guard t = n.guard t ∧ n'.visible t = n.visible t ∧
      n'.transLabel t = n.transLabel t) ∧
    ∀ t ∈ n'.transitions, t ∉ n.transitions → n'.visible t = false ∧ n'.guard t = .always ∧ ∃ a b, n'.pre t = [a] ∧ n'.post t = [b] := by
  obtain ⟨e1, e2, e3, e4, ts, e5, e6, e7, e8⟩ := h
  refine ⟨⟨[s], e1.symm⟩, ⟨ts, e5.symm⟩, e3, ?_, ?_, e6, ?_⟩
  · intro p hp
    have hne : p ≠ s := by rintro rfl; exact hs hp
    rw [e2, e4]
    exact ⟨upd_ne _ _ hne, upd_ne _ _ hne⟩
  · intro p hp hn
    rw [e1] at hp
    rcases List.mem_append.1 hp with hp | hp
    · exact absurd hp hn
    · rw [List.mem_singleton] at hp
      subst hp
      rw [e2]; exact upd_self _ _ _
  · intro t ht hn
    rw [e5] at ht
    rcases List.mem_append.1 ht with ht | ht
    · exact absurd ht hn
    · obtain ⟨h1, h2, q, _, h3, h4⟩ := e7 t ht
      obtain ⟨a, b, hab⟩ := hf q
      rw [hab] at h3 h4
      exact ⟨h1, h2, a, b, h3, h4⟩

/-- C99: if `transform_to_workflow_net` succeeds on a net that has at least one source and one sink, the result
is a workflow net. Nothing that existed before is changed, the new places are empty and the new transitions are
invisible, unguarded and connect one place to another. (The method works on a copy of the net, see C98.) -/
theorem C99_transform {n n' : Net} (hw : n.WF)
    (h1 : ∃ p, IsSource n.transitions n.pre n.post p) (h2 : ∃ p, IsSink n.transitions n.pre n.post p)
    (h : toWorkflow n = .ok n') :
    n'.WF ∧ n'.isWorkflow = true ∧
    n.places <+: n'.places ∧ n.transitions <+: n'.transitions ∧ n'.vars = n.vars ∧
    (∀ p ∈ n.places, n'.tokens p = n.tokens p ∧ n'.placeLabel p = n.placeLabel p) ∧
    (∀ p ∈ n'.places, p ∉ n.places → n'.tokens p = 0) ∧
    (∀ t ∈ n.transitions, n'.pre t = n.pre t ∧ n'.post t = n.post t ∧ n'.guard t = n.guard t ∧ n'.visible t = n.visible t ∧
      n'.transLabel t = n.transLabel t) ∧
    ∀ t ∈ n'.transitions, t ∉ n.transitions → n'.visible t = false ∧ n'.guard t = .always ∧ ∃ a b, n'.pre t = [a] ∧ n'.post t = [b] := by
  rw [toWorkflow_eq] at h
  obtain ⟨m, hm, hn'⟩ := bind_eq_ok h
  -- first step
  have step1 : m.WF ∧ (∃ s, ∀ p, IsSource m.transitions m.pre m.post p ↔ p = s) ∧
      (∀ p, IsSink m.transitions m.pre m.post p ↔ IsSink n.transitions n.pre n.post p) ∧
      n.places <+: m.places ∧ n.transitions <+: m.transitions ∧ m.vars = n.vars ∧
      (∀ p ∈ n.places, m.tokens p = n.tokens p ∧ m.placeLabel p = n.placeLabel p) ∧
      (∀ p ∈ m.places, p ∉ n.places → m.tokens p = 0) ∧
      (∀ t ∈ n.transitions, m.pre t = n.pre t ∧ m.post t = n.post t ∧ m.guard t = n.guard t ∧ m.visible t = n.visible t ∧
        m.transLabel t = n.transLabel t) ∧
      ∀ t ∈ m.transitions, t ∉ n.transitions → m.visible t = false ∧ m.guard t = .always ∧ ∃ a b, m.pre t = [a] ∧ m.post t = [b] := by
    split at hm
    · next hlen =>
      obtain ⟨hs, hwm, hg⟩ := newSource_grown hw hm
      refine ⟨hwm, ⟨",".intercalate n.sourceSink.1, ?_⟩, ?_, grown_old hs (fun _ => ⟨_, _, rfl⟩) hg⟩
      · intro p
        unfold IsSource
        rw [(hg.arcs p).1, (hg.arcs p).2]
        show (((∃ t ∈ n.transitions, p ∈ n.pre t) ∨ _) ∧ ¬ ((∃ t ∈ n.transitions, p ∈ n.post t) ∨ _)) ↔ _
        constructor
        · rintro ⟨ha | ⟨q, _, hq⟩, hb⟩
          · exact absurd (.inr ⟨p, mem_source.2 ⟨ha, fun hc => hb (.inl hc)⟩, by simp⟩) hb
          · simpa using hq
        · rintro rfl
          obtain ⟨p0, hp0⟩ := h1
          refine ⟨.inr ⟨p0, mem_source.2 hp0, by simp⟩, ?_⟩
          rintro (⟨t, ht, hp⟩ | ⟨q, hq, hp⟩)
          · exact hs ((hw.post t ht).2 _ hp)
          · simp only [List.mem_singleton] at hp
            obtain ⟨⟨t, ht, hqt⟩, _⟩ := mem_source.1 hq
            exact hs (hp ▸ (hw.pre t ht).2 _ hqt)
      · intro p
        unfold IsSink
        rw [(hg.arcs p).1, (hg.arcs p).2]
        show (((∃ t ∈ n.transitions, p ∈ n.post t) ∨ _) ∧ ¬ ((∃ t ∈ n.transitions, p ∈ n.pre t) ∨ _)) ↔ _
        constructor
        · rintro ⟨ha | ⟨q, hq, hpq⟩, hb⟩
          · exact ⟨ha, fun hc => hb (.inl hc)⟩
          · simp only [List.mem_singleton] at hpq
            subst hpq
            exact absurd (.inl (mem_source.1 hq).1) hb
        · rintro ⟨ha, hb⟩
          refine ⟨.inl ha, ?_⟩
          rintro (hc | ⟨q, hq, hp⟩)
          · exact hb hc
          · simp only [List.mem_singleton] at hp
            obtain ⟨t, ht, hpt⟩ := ha
            exact hs (hp ▸ (hw.post t ht).2 _ hpt)
    · next hlen =>
      obtain rfl := Except.ok.inj hm
      refine ⟨hw, ?_, fun p => Iff.rfl, List.prefix_rfl, List.prefix_rfl, rfl, fun _ _ => ⟨rfl, rfl⟩, fun p hp hn => absurd hp hn,
        fun _ _ => ⟨rfl, rfl, rfl, rfl, rfl⟩, fun t ht hn => absurd ht hn⟩
      have hl1 : n.sourceSink.1.length = 1 := by
        obtain ⟨p, hp⟩ := h1
        have := List.length_pos_of_mem (mem_source.2 hp)
        omega
      obtain ⟨s, hs⟩ := (length_one_iff (nodup_source n)).1 hl1
      exact ⟨s, fun p => mem_source.symm.trans (hs p)⟩
  obtain ⟨mw, msrc, msink, old⟩ := step1
  have sinkEq : ∀ p, p ∈ n.sourceSink.2 ↔ IsSink m.transitions m.pre m.post p := fun p => mem_sink.trans (msink p).symm
  split at hn'
  · next hlen =>
    obtain ⟨hs, hwm, hg⟩ := newSink_grown mw hn'
    have new := grown_old hs (fun _ => ⟨_, _, rfl⟩) hg
    obtain ⟨src, hsrc⟩ := msrc
    refine ⟨hwm, (C99_is_workflow hwm).2 ⟨⟨src, ?_⟩, ",".intercalate n.sourceSink.2, ?_⟩, ?_⟩
    · intro p
      rw [← hsrc p]
      unfold IsSource
      rw [(hg.arcs p).1, (hg.arcs p).2]
      show (((∃ t ∈ m.transitions, p ∈ m.pre t) ∨ _) ∧ ¬ ((∃ t ∈ m.transitions, p ∈ m.post t) ∨ _)) ↔ _
      constructor
      · rintro ⟨ha | ⟨q, hq, hpq⟩, hb⟩
        · exact ⟨ha, fun hc => hb (.inl hc)⟩
        · simp only [List.mem_singleton] at hpq
          subst hpq
          exact absurd (.inl ((sinkEq _).1 hq).1) hb
      · rintro ⟨ha, hb⟩
        refine ⟨.inl ha, ?_⟩
        rintro (hc | ⟨q, hq, hp⟩)
        · exact hb hc
        · simp only [List.mem_singleton] at hp
          obtain ⟨t, ht, hpt⟩ := ha
          exact hs (hp ▸ (mw.pre t ht).2 _ hpt)
    · intro p
      unfold IsSink
      rw [(hg.arcs p).1, (hg.arcs p).2]
      show (((∃ t ∈ m.transitions, p ∈ m.post t) ∨ _) ∧ ¬ ((∃ t ∈ m.transitions, p ∈ m.pre t) ∨ _)) ↔ _
      constructor
      · rintro ⟨ha | ⟨q, _, hq⟩, hb⟩
        · exact absurd (.inr ⟨p, (sinkEq p).2 ⟨ha, fun hc => hb (.inl hc)⟩, by simp⟩) hb
        · simpa using hq
      · rintro rfl
        obtain ⟨p0, hp0⟩ := h2
        refine ⟨.inr ⟨p0, mem_sink.2 hp0, by simp⟩, ?_⟩
        rintro (⟨t, ht, hp⟩ | ⟨q, hq, hp⟩)
        · exact hs ((mw.pre t ht).2 _ hp)
        · simp only [List.mem_singleton] at hp
          obtain ⟨⟨t, ht, hqt⟩, _⟩ := (sinkEq q).1 hq
          exact hs (hp ▸ (mw.post t ht).2 _ hqt)
    · obtain ⟨o1, o2, o3, o4, o5, o6, o7⟩ := old
      obtain ⟨w1, w2, w3, w4, w5, w6, w7⟩ := new
      have s1 := o1.subset
      have s2 := o2.subset
      refine ⟨o1.trans w1, o2.trans w2, w3.trans o3, ?_, ?_, ?_, ?_⟩
      · intro p hp
        exact ⟨((w4 p (s1 hp)).1).trans (o4 p hp).1, ((w4 p (s1 hp)).2).trans (o4 p hp).2⟩
      · intro p hp hn
        by_cases hpm : p ∈ m.places
        · rw [(w4 p hpm).1]; exact o5 p hpm hn
        · exact w5 p hp hpm
      · intro t ht
        obtain ⟨a1, a2, a3, a4, a5⟩ := o6 t ht
        obtain ⟨b1, b2, b3, b4, b5⟩ := w6 t (s2 ht)
        exact ⟨b1.trans a1, b2.trans a2, b3.trans a3, b4.trans a4, b5.trans a5⟩
      · intro t ht hn
        by_cases htm : t ∈ m.transitions
        · obtain ⟨b1, b2, b3, b4, b5⟩ := w6 t htm
          rw [b4, b3, b1, b2]; exact o7 t htm hn
        · exact w7 t ht htm
  · next hlen =>
    obtain rfl := Except.ok.inj hn'
    refine ⟨mw, (C99_is_workflow mw).2 ⟨msrc, ?_⟩, old⟩
    have hl1 : n.sourceSink.2.length = 1 := by
      obtain ⟨p, hp⟩ := h2
      have := List.length_pos_of_mem (mem_sink.2 hp)
      omega
    obtain ⟨s, hs⟩ := (length_one_iff (nodup_sink n)).1 hl1
    exact ⟨s, fun p => (sinkEq p).symm.trans (hs p)⟩

/-- adding a transition between two places of the net -/
theorem addTC_ok {m : Net} {t a b : String} (ht : t ∉ m.transitions) (ha : a ∈ m.places) (hb : b ∈ m.places) :
    ∃ m1 m2, m.addTransition t none false = .ok m1 ∧ m1.addConnection a t b = .ok m2 ∧ m2.places = m.places ∧
      m2.transitions = m.transitions ++ [t] := by
  have h1 := show m.addTransition t none false = _ by unfold Net.addTransition; rw [if_neg ht]
  obtain ⟨m2, e1, e2, e3, -⟩ := C101_connection (n := { m with
    transitions := m.transitions ++ [t], transLabel := upd m.transLabel t ((none : Option String).getD t), visible := upd m.visible t false,
    pre := upd m.pre t [], post := upd m.post t [], guard := upd m.guard t .always }) (s := a) (t := t) (e := b) ha (by simp) hb
  exact ⟨_, m2, h1, e1, e2, e3⟩

theorem newSource_ok_iff {n : Net} {old : List String} (hnd : old.Nodup) (hold : ∀ p ∈ old, p ∈ n.places) :
    (∃ m, newSource n old = .ok m) ↔ ",".intercalate old ∉ n.places ∧ ∀ p ∈ old, p ∉ n.transitions := by
  have key : ∀ (s : String) (l : List String) (m : Net), l.Nodup → s ∈ m.places → (∀ p ∈ l, p ∈ m.places) →
      ((∃ r, l.foldlM (fun n p => do
        let n ← n.addTransition p none false
        n.addConnection s p p) m = .ok r) ↔ ∀ p ∈ l, p ∉ m.transitions) := by
    intro s l
    induction l with
    | nil => intro m _ _ _; exact ⟨fun _ => by simp, fun _ => ⟨m, rfl⟩⟩
    | cons p l ih =>
      intro m hnd hs hl
      rw [List.nodup_cons] at hnd
      rw [List.foldlM_cons]
      by_cases hp : p ∈ m.transitions
      · constructor
        · rintro ⟨r, hr⟩
          obtain ⟨m2, hm, _⟩ := bind_eq_ok hr
          obtain ⟨m1, hm1, _⟩ := bind_eq_ok hm
          unfold Net.addTransition at hm1
          rw [if_pos hp] at hm1; cases hm1
        · intro h; exact absurd hp (h p (by simp))
      · obtain ⟨m1, m2, h1, h2, h3, h4⟩ := addTC_ok hp hs (hl p (by simp))
        have hstep : (m.addTransition p none false >>= fun n => n.addConnection s p p) = .ok m2 := by rw [h1]; exact h2
        rw [hstep]
        refine (ih m2 hnd.2 (h3 ▸ hs) (fun q hq => h3 ▸ hl q (by simp [hq]))).trans ?_
        rw [h4]
        constructor
        · intro h q hq
          rcases List.mem_cons.1 hq with rfl | hq
          · exact hp
          · exact fun hc => h q hq (by simp [hc])
        · intro h q hq hc
          rcases List.mem_append.1 hc with hc | hc
          · exact h q (by simp [hq]) hc
          · rw [List.mem_singleton] at hc; subst hc; exact hnd.1 hq
  constructor
  · rintro ⟨m, hm⟩
    obtain ⟨n1, h1, h2⟩ := bind_eq_ok hm
    obtain ⟨hs, rfl⟩ := addPlace_ok h1
    exact ⟨hs, (key _ old (withPlace n _) hnd (by simp [withPlace]) fun p hp => by simp [withPlace, hold p hp]).1 ⟨m, h2⟩⟩
  · rintro ⟨hs, ht⟩
    have h1 : n.addPlace (",".intercalate old) "" 0 = .ok (withPlace n (",".intercalate old)) := by
      unfold Net.addPlace; rw [if_neg (by omega), if_neg hs]; rfl
    obtain ⟨r, hr⟩ := (key (",".intercalate old) old (withPlace n (",".intercalate old)) hnd (by simp [withPlace]) fun p hp => by simp [withPlace, hold p hp]).2 ht
    exact ⟨r, by show (n.addPlace _ "" 0 >>= _) = _; rw [h1]; exact hr⟩

theorem newSink_ok_iff {n : Net} {old : List String} (hold : ∀ p ∈ old, p ∈ n.places) :
    (∃ m, newSink n old = .ok m) ↔ ",".intercalate old ∉ n.places := by
  have key : ∀ (s : String) (l : List String) (m : Net), s ∈ m.places → (∀ p ∈ l, p ∈ m.places) →
      ∃ r, l.foldlM (fun n p => do
        let t ← makeIdUnique n.transitions (n.transitions.length + 1) p
        let n ← n.addTransition t none false
        n.addConnection p t s) m = .ok r := by
    intro s l
    induction l with
    | nil => intro m _ _; exact ⟨m, rfl⟩
    | cons p l ih =>
      intro m hs hl
      rw [List.foldlM_cons]
      obtain ⟨k, k1, k2, -⟩ := C67_unique m.transitions p _ (Nat.lt_succ_self _)
      obtain ⟨m1, m2, h1, h2, h3, -⟩ := addTC_ok k2 (hl p (by simp)) hs
      have hstep : (makeIdUnique m.transitions (m.transitions.length + 1) p >>= fun t =>
          m.addTransition t none false >>= fun n => n.addConnection p t s) = .ok m2 := by
        rw [k1]
        show (m.addTransition _ none false >>= _) = _
        rw [h1]; exact h2
      obtain ⟨r, hr⟩ := ih m2 (h3 ▸ hs) fun q hq => h3 ▸ hl q (by simp [hq])
      exact ⟨r, by rw [hstep]; exact hr⟩
  constructor
  · rintro ⟨m, hm⟩
    obtain ⟨n1, h1, -⟩ := bind_eq_ok hm
    exact (addPlace_ok h1).1
  · intro hs
    have h1 : n.addPlace (",".intercalate old) "" 0 = .ok (withPlace n (",".intercalate old)) := by
      unfold Net.addPlace; rw [if_neg (by omega), if_neg hs]; rfl
    obtain ⟨r, hr⟩ := key (",".intercalate old) old (withPlace n (",".intercalate old)) (by simp [withPlace]) fun p hp => by simp [withPlace, hold p hp]
    exact ⟨r, by show (n.addPlace _ "" 0 >>= _) = _; rw [h1]; exact hr⟩

/-- C99: exactly when `transform_to_workflow_net` succeeds: if there are several sources, their joined ids must
not be the id of a place and none of them may be the id of a transition; if there are several sinks, their joined
ids must not be the id of a place. Otherwise a ValueError is raised although a workflow net could be built with
other ids. -/
theorem C99_transform_succeeds {n : Net} (hw : n.WF) :
    (∃ n', toWorkflow n = .ok n') ↔
      (n.sourceSink.1.length ≤ 1 ∨ (",".intercalate n.sourceSink.1 ∉ n.places ∧ ∀ p ∈ n.sourceSink.1, p ∉ n.transitions)) ∧
      (n.sourceSink.2.length ≤ 1 ∨ (",".intercalate n.sourceSink.2 ∉ n.places ∧
        (n.sourceSink.1.length ≤ 1 ∨ ",".intercalate n.sourceSink.2 ≠ ",".intercalate n.sourceSink.1))) := by
  have hsrc : ∀ p ∈ n.sourceSink.1, p ∈ n.places := fun p hp => by
    obtain ⟨⟨t, ht, h⟩, _⟩ := mem_source.1 hp
    exact (hw.pre t ht).2 p h
  have hsnk : ∀ p ∈ n.sourceSink.2, p ∈ n.places := fun p hp => by
    obtain ⟨⟨t, ht, h⟩, _⟩ := mem_sink.1 hp
    exact (hw.post t ht).2 p h
  have hiff := newSource_ok_iff (nodup_source n) hsrc
  by_cases h1 : n.sourceSink.1.length > 1
  · have h1' : ¬ n.sourceSink.1.length ≤ 1 := by omega
    simp only [h1', false_or]
    by_cases hc : ∃ m, newSource n n.sourceSink.1 = .ok m
    · obtain ⟨m, hm⟩ := hc
      have hpl : m.places = n.places ++ [",".intercalate n.sourceSink.1] := (newSource_grown hw hm).2.2.places
      rw [toWorkflow_eq, if_pos h1, hm]
      show (∃ n', (if n.sourceSink.2.length > 1 then newSink m n.sourceSink.2 else .ok m) = .ok n') ↔ _
      by_cases h2 : n.sourceSink.2.length > 1
      · rw [if_pos h2, newSink_ok_iff fun p hp => by rw [hpl]; simp [hsnk p hp], hpl]
        have h2' : ¬ n.sourceSink.2.length ≤ 1 := by omega
        have := hiff.1 ⟨m, hm⟩
        simp only [h2', false_or, List.mem_append, List.mem_singleton, not_or]
        tauto
      · rw [if_neg h2]
        have h2' : n.sourceSink.2.length ≤ 1 := by omega
        exact ⟨fun _ => ⟨hiff.1 ⟨m, hm⟩, .inl h2'⟩, fun _ => ⟨m, rfl⟩⟩
    · constructor
      · rintro ⟨n', hn'⟩
        rw [toWorkflow_eq, if_pos h1] at hn'
        obtain ⟨m, hm, _⟩ := bind_eq_ok hn'
        exact absurd ⟨m, hm⟩ hc
      · rintro ⟨h, _⟩; exact absurd (hiff.2 h) hc
  · have h1' : n.sourceSink.1.length ≤ 1 := by omega
    rw [toWorkflow_eq, if_neg h1]
    show (∃ n', (if n.sourceSink.2.length > 1 then newSink n n.sourceSink.2 else .ok n) = .ok n') ↔ _
    simp only [h1', true_or, true_and, and_true]
    by_cases h2 : n.sourceSink.2.length > 1
    · rw [if_pos h2, newSink_ok_iff hsnk]
      have h2' : ¬ n.sourceSink.2.length ≤ 1 := by omega
      simp [h2']
    · rw [if_neg h2]
      exact ⟨fun _ => .inl (by omega), fun _ => ⟨n, rfl⟩⟩

/-- the example net without the transition back to `a` has two sources and one sink -/
def exTwoSources : Net := { exNet with transitions := ["t"], out := fun p => if p = "a" ∨ p = "b" then ["t"] else [] }

example : exTwoSources.sourceSink = (["a", "b"], ["c"]) ∧ exTwoSources.isWorkflow = false ∧
    (toWorkflow exTwoSources).toOption.map (fun n => (n.places, n.transitions, n.isWorkflow)) =
      some (["a", "b", "c", "a,b"], ["t", "a", "b"], true) := by decide

/-- C99: if a transition is named like one of the sources, the transformation raises -/
theorem C99_collision : (toWorkflow { exTwoSources with
    transitions := ["a"], pre := fun t => if t = "a" then ["a", "b"] else [], post := fun t => if t = "a" then ["c"] else [],
    out := fun p => if p = "a" ∨ p = "b" then ["a"] else [] }).toOption.isNone := by decide

end Prolothar.Petri
