import Verif.Lemmas.Pm4py
import Verif.Props.Petri
/-
C128: conversion of Petri nets to and from pm4py. C129: conversion of event logs to and from pm4py.
-/
namespace Prolothar.Pm4py
open Prolothar.Petri
open Prolothar.Spec.Petri

/-! ### C128 -/

/-- the transition of an arc -/
def Arc.trans {P T : Type} : Arc P T → T
  | .input _ t => t
  | .output t _ => t

/-- C128: the net of pm4py has the same places and transitions, named by the ids with the prefixes "p" and "t"; a transition
has a label iff it is visible; the arcs are those of the net, each once, except that a transition without input or without
output places gets no arcs at all; the initial (final) marking has one token on each source (sink) and no other token. It is
assumed that no transition has a place with its own id as input and output. -/
theorem C128_to_pm4py {n : Net} (hw : n.WF) (hid : ∀ t ∈ n.transitions, ¬ (t ∈ n.pre t ∧ t ∈ n.post t)) :
    ∃ net i f, toPm4py n = .ok (net, i, f) ∧ net.places = n.places ∧ net.transitions = n.transitions ∧
      (∀ p, net.placeName p = "p" ++ p) ∧ (∀ t, net.transName t = "t" ++ t) ∧
      (∀ t, net.transLabel t = if n.visible t then some (n.transLabel t) else none) ∧ net.arcs.Nodup ∧
      (∀ p t, .input p t ∈ net.arcs ↔ t ∈ n.transitions ∧ p ∈ n.pre t ∧ n.post t ≠ []) ∧
      (∀ p t, .output t p ∈ net.arcs ↔ t ∈ n.transitions ∧ p ∈ n.post t ∧ n.pre t ≠ []) ∧
      (∀ p, i.get? p = some 1 ∧ IsSource n.transitions n.pre n.post p ∨ i.get? p = none ∧ ¬ IsSource n.transitions n.pre n.post p) ∧
      ∀ p, f.get? p = some 1 ∧ IsSink n.transitions n.pre n.post p ∨ f.get? p = none ∧ ¬ IsSink n.transitions n.pre n.post p := by
  obtain ⟨rs, h1, h2, h3⟩ := mapM_flatten_spec (transArcs n)
    (fun t a => (n.post t ≠ [] ∧ ∃ s ∈ n.pre t, a = .input s t) ∨ (n.pre t ≠ [] ∧ ∃ e ∈ n.post t, a = .output t e)) Arc.trans
    n.transitions hw.transitions (fun t ht => by
      obtain ⟨l, e1, e2, e3⟩ := transArcs_spec hw ht (hid t ht)
      refine ⟨l, e1, e2, e3, fun b hb => ?_⟩
      rcases (e3 b).1 hb with ⟨_, _, _, rfl⟩ | ⟨_, _, _, rfl⟩ <;> rfl)
  obtain ⟨i, i1, i2⟩ := marking_spec (places := n.places) n.sourceSink.1 [] (fun p hp => by
    obtain ⟨⟨t, ht, hp⟩, _⟩ := mem_source.1 hp
    exact (hw.pre t ht).2 p hp)
  obtain ⟨f, f1, f2⟩ := marking_spec (places := n.places) n.sourceSink.2 [] (fun p hp => by
    obtain ⟨⟨t, ht, hp⟩, _⟩ := mem_sink.1 hp
    exact (hw.post t ht).2 p hp)
  refine ⟨⟨n.places, n.transitions, fun p => "p" ++ p, fun t => "t" ++ t,
    fun t => if n.visible t then some (n.transLabel t) else none, rs.flatten⟩, i, f, ?_, rfl, rfl, fun _ => rfl, fun _ => rfl,
    fun _ => rfl, h2, ?_, ?_, ?_, ?_⟩
  rotate_left
  · intro p t
    refine (h3 _).trans ⟨?_, ?_⟩
    · rintro ⟨x, hx, ⟨h, s, hs, he⟩ | ⟨h, s, hs, he⟩⟩
      · cases he; exact ⟨hx, hs, h⟩
      · cases he
    · rintro ⟨a, b, c⟩
      exact ⟨t, a, .inl ⟨c, p, b, rfl⟩⟩
  · intro p t
    refine (h3 _).trans ⟨?_, ?_⟩
    · rintro ⟨x, hx, ⟨h, s, hs, he⟩ | ⟨h, s, hs, he⟩⟩
      · cases he
      · cases he; exact ⟨hx, hs, h⟩
    · rintro ⟨a, b, c⟩
      exact ⟨t, a, .inr ⟨c, p, b, rfl⟩⟩
  · intro p
    rw [i2, ← mem_source]
    by_cases h : p ∈ n.sourceSink.1 <;> simp [h, Dict.get?]
  · intro p
    rw [f2, ← mem_sink]
    by_cases h : p ∈ n.sourceSink.2 <;> simp [h, Dict.get?]
  · unfold toPm4py
    rw [h1]
    show (marking n.places n.sourceSink.1 >>= _ : Py _) = _
    rw [show marking n.places n.sourceSink.1 = .ok i from i1]
    show (marking n.places n.sourceSink.2 >>= _ : Py _) = _
    rw [show marking n.places n.sourceSink.2 = .ok f from f1]
    rfl

/-- C128: for a net that was built with the methods of the class the arcs are exactly those of the net -/
theorem C128_built {n : Net} (hb : Built n) (hid : ∀ t ∈ n.transitions, ¬ (t ∈ n.pre t ∧ t ∈ n.post t)) :
    ∃ net i f, toPm4py n = .ok (net, i, f) ∧ net.arcs.Nodup ∧
      (∀ p t, .input p t ∈ net.arcs ↔ t ∈ n.transitions ∧ p ∈ n.pre t) ∧
      ∀ p t, .output t p ∈ net.arcs ↔ t ∈ n.transitions ∧ p ∈ n.post t := by
  obtain ⟨net, i, f, h1, -, -, -, -, -, h2, h3, h4, -⟩ := C128_to_pm4py hb.wf hid
  refine ⟨net, i, f, h1, h2, fun p t => (h3 p t).trans ⟨fun h => ⟨h.1, h.2.1⟩, fun h => ⟨h.1, h.2, fun he => ?_⟩⟩,
    fun p t => (h4 p t).trans ⟨fun h => ⟨h.1, h.2.1⟩, fun h => ⟨h.1, h.2, fun he => ?_⟩⟩⟩
  · rw [(built_connected hb t).2 he] at h; cases h.2
  · rw [(built_connected hb t).1 he] at h; cases h.2

/-- C128: tokens, guards and variables of the net have no influence on the result -/
theorem C128_state_ignored (n : Net) (m : String → Int) (g : String → Guard) (v : Dict String Nat) :
    toPm4py { n with tokens := m, guard := g, vars := v } = toPm4py n := rfl

section from_pm4py
variable {P T : Type}

/-- C128: for distinct names of the places, distinct names of the transitions, a marking without negative numbers and arcs
whose ends have names of the net, the resulting net is consistent and has exactly the places, transitions, arcs and tokens of
pm4py's net; a transition is visible iff it has a label, an invisible one is labelled by its name; no transition has a guard -/
theorem C128_from_pm4py (net : PmNet P T) (m : P → Int) (hp : (net.places.map net.placeName).Nodup)
    (ht : (net.transitions.map net.transName).Nodup) (hm : ∀ p ∈ net.places, 0 ≤ m p)
    (ha : ∀ p t, .input p t ∈ net.arcs ∨ .output t p ∈ net.arcs → (∃ q ∈ net.places, net.placeName q = net.placeName p) ∧
      ∃ u ∈ net.transitions, net.transName u = net.transName t) :
    ∃ n, fromPm4py net m = .ok n ∧ n.WF ∧ n.places = net.places.map net.placeName ∧ n.transitions = net.transitions.map net.transName ∧
      (∀ p ∈ net.places, n.tokens (net.placeName p) = m p) ∧
      (∀ x q, q ∈ n.pre x ↔ ∃ p t, .input p t ∈ net.arcs ∧ net.transName t = x ∧ net.placeName p = q) ∧
      (∀ x q, q ∈ n.post x ↔ ∃ p t, .output t p ∈ net.arcs ∧ net.transName t = x ∧ net.placeName p = q) ∧
      ∀ t ∈ net.transitions, n.visible (net.transName t) = (net.transLabel t).isSome ∧
        n.transLabel (net.transName t) = (net.transLabel t).getD (net.transName t) ∧ n.guard (net.transName t) = .always := by
  obtain ⟨n1, a0, a1, a2, a3, a4, a5, a6, _⟩ := places_back net.placeName m net.places Net.empty (by simpa [Net.empty] using hp) hm
  obtain ⟨n2, b0, b1, b2, b3, b4, b5, b6, b7, _⟩ := transitions_back net.transName net.transLabel net.transitions n1
    (by rw [a2]; simpa [Net.empty] using ht)
  have hpl : n2.places = net.places.map net.placeName := by rw [b1, a1]; simp [Net.empty]
  have htr : n2.transitions = net.transitions.map net.transName := by rw [b2, a2]; simp [Net.empty]
  have hpre : ∀ x, n2.pre x = [] := b3 (by rw [a3]; intro x; rfl)
  have hpost : ∀ x, n2.post x = [] := b4 (by rw [a4]; intro x; rfl)
  have hout : ∀ x, n2.out x = [] := by rw [b5]; exact a5 fun _ => rfl
  have hin : ∀ a ∈ net.arcs, ArcIn net n2 a := by
    rintro (⟨p, t⟩ | ⟨t, p⟩) h
    · obtain ⟨⟨q, hq, e1⟩, u, hu, e2⟩ := ha p t (.inl h)
      exact ⟨by rw [htr, ← e2]; exact List.mem_map_of_mem hu, by rw [hpl, ← e1]; exact List.mem_map_of_mem hq⟩
    · obtain ⟨⟨q, hq, e1⟩, u, hu, e2⟩ := ha p t (.inr h)
      exact ⟨by rw [htr, ← e2]; exact List.mem_map_of_mem hu, by rw [hpl, ← e1]; exact List.mem_map_of_mem hq⟩
  obtain ⟨n3, c0, c1, c2, c3, c4, c5, c6, c7, c8, c9, c10⟩ := arcs_back net net.arcs n2 hin
  have hnd := c10 fun x => by rw [hpre, hpost, hout]; simp
  have d7 : ∀ x q, q ∈ n3.pre x ↔ ∃ p t, .input p t ∈ net.arcs ∧ net.transName t = x ∧ net.placeName p = q := by
    intro x q; rw [c7, hpre]; simp
  have d8 : ∀ x q, q ∈ n3.post x ↔ ∃ p t, .output t p ∈ net.arcs ∧ net.transName t = x ∧ net.placeName p = q := by
    intro x q; rw [c8, hpost]; simp
  have d9 : ∀ x q, x ∈ n3.out q ↔ ∃ p t, .input p t ∈ net.arcs ∧ net.transName t = x ∧ net.placeName p = q := by
    intro x q; rw [c9, hout]; simp
  refine ⟨n3, ?_, ⟨?_, ?_, ?_, ?_, ?_⟩, c1.trans hpl, c2.trans htr, ?_, d7, d8, ?_⟩
  · unfold fromPm4py
    rw [a0]
    show (net.transitions.foldlM _ n1 >>= _ : Py _) = _
    rw [b0]; exact c0
  · rw [c1, hpl]; exact hp
  · rw [c2, htr]; exact ht
  · intro t _
    refine ⟨(hnd t).1, fun q hq => ?_⟩
    obtain ⟨p, u, h, _, rfl⟩ := (d7 t q).1 hq
    rw [c1]; exact (hin _ h).2
  · intro t _
    refine ⟨(hnd t).2.1, fun q hq => ?_⟩
    obtain ⟨p, u, h, _, rfl⟩ := (d8 t q).1 hq
    rw [c1]; exact (hin _ h).2
  · intro q _
    refine ⟨(hnd q).2.2, fun x => ?_⟩
    rw [d9, d7]
    refine ⟨fun h => ⟨?_, h⟩, fun h => h.2⟩
    obtain ⟨p, u, h, rfl, _⟩ := h
    rw [c2]; exact (hin _ h).1
  · intro p hp'
    rw [c3, b6]; exact a6 p hp'
  · intro t ht'
    rw [c4, c5, c6]; exact b7 t ht'

theorem places_error (pn : P → String) (mk : P → Int) : ∀ (ps : List P) (n : Net), n.places.Nodup →
    ¬ ((n.places ++ ps.map pn).Nodup ∧ ∀ p ∈ ps, 0 ≤ mk p) →
    ps.foldlM (fun (n : Net) p => n.addPlace (pn p) "" (mk p)) n = .error .value
  | [], n, h0, h => absurd ⟨by simpa using h0, by simp⟩ h
  | p :: ps, n, h0, h => by
    rw [List.foldlM_cons]
    unfold Net.addPlace
    by_cases h1 : mk p < 0
    · rw [if_pos h1]; rfl
    rw [if_neg h1]
    by_cases h2 : pn p ∈ n.places
    · rw [if_pos h2]; rfl
    rw [if_neg h2]
    refine places_error pn mk ps _ ?_ fun hc => h ⟨by simpa using hc.1, ?_⟩
    · exact List.nodup_append.2 ⟨h0, by simp, by rintro x hx y hy rfl; simp at hy; subst hy; exact h2 hx⟩
    · intro x hx
      rcases List.mem_cons.1 hx with rfl | hx
      · omega
      · exact hc.2 x hx

theorem transitions_error (tn : T → String) (lab : T → Option String) : ∀ (ts : List T) (n : Net), n.transitions.Nodup →
    ¬ (n.transitions ++ ts.map tn).Nodup →
    ts.foldlM (fun (n : Net) t => n.addTransition (tn t) (lab t) (lab t).isSome) n = .error .value
  | [], n, h0, h => absurd (by simpa using h0) h
  | t :: ts, n, h0, h => by
    rw [List.foldlM_cons]
    unfold Net.addTransition
    by_cases h2 : tn t ∈ n.transitions
    · rw [if_pos h2]; rfl
    rw [if_neg h2]
    refine transitions_error tn lab ts _ ?_ fun hc => h (by simpa using hc)
    exact List.nodup_append.2 ⟨h0, by simp, by rintro x hx y hy rfl; simp at hy; subst hy; exact h2 hx⟩

/-- C128: two places with the same name, two transitions with the same name or a negative number of tokens raise ValueError.
pm4py itself allows equal names. -/
theorem C128_rejected (net : PmNet P T) (m : P → Int) (h : ¬ ((net.places.map net.placeName).Nodup ∧
      (net.transitions.map net.transName).Nodup ∧ ∀ p ∈ net.places, 0 ≤ m p)) : fromPm4py net m = .error .value := by
  unfold fromPm4py
  by_cases hp : (net.places.map net.placeName).Nodup ∧ ∀ p ∈ net.places, 0 ≤ m p
  · obtain ⟨n1, a0, a1, a2, _⟩ := places_back net.placeName m net.places Net.empty (by simpa [Net.empty] using hp.1) hp.2
    rw [a0]
    show (net.transitions.foldlM _ n1 >>= _ : Py _) = _
    rw [transitions_error net.transName net.transLabel net.transitions n1 (by rw [a2]; simp [Net.empty])
      (by rw [a2]; simp only [Net.empty, List.nil_append]; exact fun ht => h ⟨hp.1, ht, hp.2⟩)]
    rfl
  · rw [places_error net.placeName m net.places Net.empty (by simp [Net.empty]) (by simpa [Net.empty] using hp)]
    rfl

end from_pm4py

/-! ### round trip -/

theorem prefix_inj (c : String) : Function.Injective (c ++ ·) := by
  intro a b h
  have : (c ++ a).toList = (c ++ b).toList := congrArg String.toList h
  rw [String.toList_append, String.toList_append] at this
  exact String.toList_inj.1 (List.append_cancel_left this)

/-- runs are the same in two nets whose places and transitions correspond -/
theorem run_map {pre post pre' post' : String → List String} {ts0 ts0' : List String} {f g : String → String}
    (hf : Function.Injective f) (hts : ∀ x, x ∈ ts0' ↔ ∃ t ∈ ts0, g t = x)
    (hpre : ∀ t ∈ ts0, ∀ q, q ∈ pre' (g t) ↔ ∃ p ∈ pre t, f p = q) (hpost : ∀ t ∈ ts0, ∀ q, q ∈ post' (g t) ↔ ∃ p ∈ post t, f p = q)
    {m : String → Int} {M : String → Int} (hm : ∀ p, M (f p) = m p) {ts : List String} {m1 : String → Int}
    (h : Run pre post (· ∈ ts0) m ts m1) : ∃ M1, Run pre' post' (· ∈ ts0') M (ts.map g) M1 ∧ ∀ p, M1 (f p) = m1 p := by
  induction h with
  | nil => exact ⟨M, .nil, hm⟩
  | @snoc ts m' t _ ht he ih =>
    obtain ⟨M1, h1, h2⟩ := ih
    have he' : Enabled (pre' (g t)) M1 := by
      intro q hq
      obtain ⟨p, hp, rfl⟩ := (hpre t ht q).1 hq
      rw [h2]; exact he p hp
    refine ⟨after (pre' (g t)) (post' (g t)) M1, ?_, ?_⟩
    · rw [List.map_append]; exact .snoc h1 ((hts _).2 ⟨t, ht, rfl⟩) he'
    · intro p
      have e1 : f p ∈ pre' (g t) ↔ p ∈ pre t := (hpre t ht _).trans ⟨fun ⟨_, h, e⟩ => hf e ▸ h, fun h => ⟨p, h, rfl⟩⟩
      have e2 : f p ∈ post' (g t) ↔ p ∈ post t := (hpost t ht _).trans ⟨fun ⟨_, h, e⟩ => hf e ▸ h, fun h => ⟨p, h, rfl⟩⟩
      simp only [after, h2, e1, e2]

theorem run_map_back {pre post pre' post' : String → List String} {ts0 ts0' : List String} {f g : String → String}
    (hf : Function.Injective f) (hts : ∀ x, x ∈ ts0' ↔ ∃ t ∈ ts0, g t = x)
    (hpre : ∀ t ∈ ts0, ∀ q, q ∈ pre' (g t) ↔ ∃ p ∈ pre t, f p = q) (hpost : ∀ t ∈ ts0, ∀ q, q ∈ post' (g t) ↔ ∃ p ∈ post t, f p = q)
    {m : String → Int} {M : String → Int} (hm : ∀ p, M (f p) = m p) {us : List String} {M1 : String → Int}
    (h : Run pre' post' (· ∈ ts0') M us M1) : ∃ ts m1, us = ts.map g ∧ Run pre post (· ∈ ts0) m ts m1 ∧ ∀ p, M1 (f p) = m1 p := by
  induction h with
  | nil => exact ⟨[], m, rfl, .nil, hm⟩
  | @snoc us M' u _ hu he ih =>
    obtain ⟨ts, m1, rfl, h1, h2⟩ := ih
    obtain ⟨t, ht, rfl⟩ := (hts u).1 hu
    refine ⟨ts ++ [t], _, by rw [List.map_append]; rfl, .snoc h1 ht ?_, ?_⟩
    · intro p hp
      rw [← h2]; exact he _ ((hpre t ht _).2 ⟨p, hp, rfl⟩)
    · intro p
      have e1 : f p ∈ pre' (g t) ↔ p ∈ pre t := (hpre t ht _).trans ⟨fun ⟨_, h, e⟩ => hf e ▸ h, fun h => ⟨p, h, rfl⟩⟩
      have e2 : f p ∈ post' (g t) ↔ p ∈ post t := (hpost t ht _).trans ⟨fun ⟨_, h, e⟩ => hf e ▸ h, fun h => ⟨p, h, rfl⟩⟩
      simp only [after, h2, e1, e2]

/-- C128: converting a built net to pm4py and back, with the initial marking of the conversion, gives the same net up to the
prefixes of the ids: the same visible transitions with the same labels, one token on each source, and the sequences of
transitions that can be fired (without guards) are the same, with the same markings. -/
theorem C128_roundtrip {n : Net} (hb : Built n) (hid : ∀ t ∈ n.transitions, ¬ (t ∈ n.pre t ∧ t ∈ n.post t)) :
    ∃ net i f n', toPm4py n = .ok (net, i, f) ∧ fromPm4py net (fun p => (i.get? p).getD 0) = .ok n' ∧ n'.WF ∧
      n'.places = n.places.map ("p" ++ ·) ∧ n'.transitions = n.transitions.map ("t" ++ ·) ∧
      (∀ t ∈ n.transitions, n'.visible ("t" ++ t) = n.visible t ∧ (n.visible t = true → n'.transLabel ("t" ++ t) = n.transLabel t)) ∧
      (∀ p ∈ n.places, n'.tokens ("p" ++ p) = 1 ∧ IsSource n.transitions n.pre n.post p ∨
        n'.tokens ("p" ++ p) = 0 ∧ ¬ IsSource n.transitions n.pre n.post p) ∧
      ∀ m m', (∀ p, m' ("p" ++ p) = m p) →
        (∀ ts m1, Run n.pre n.post (· ∈ n.transitions) m ts m1 →
          ∃ m1', Run n'.pre n'.post (· ∈ n'.transitions) m' (ts.map ("t" ++ ·)) m1' ∧ ∀ p, m1' ("p" ++ p) = m1 p) ∧
        ∀ us m1', Run n'.pre n'.post (· ∈ n'.transitions) m' us m1' →
          ∃ ts m1, us = ts.map ("t" ++ ·) ∧ Run n.pre n.post (· ∈ n.transitions) m ts m1 ∧ ∀ p, m1' ("p" ++ p) = m1 p := by
  have hw := hb.wf
  obtain ⟨net, i, f, h1, h2, h3, h4, h5, h6, h7, _, _, h10, h11⟩ := C128_to_pm4py hw hid
  obtain ⟨net', i', f', k1, _, h8, h9⟩ := C128_built hb hid
  rw [h1] at k1
  cases k1
  have hpn : net.placeName = ("p" ++ ·) := funext h4
  have htn : net.transName = ("t" ++ ·) := funext h5
  have hz : ∀ p, 0 ≤ (i.get? p).getD 0 := by
    intro p
    rcases h10 p with ⟨h, _⟩ | ⟨h, _⟩ <;> rw [h] <;> decide
  obtain ⟨n', a0, a1, a2, a3, a4, a5, a6, a7⟩ := C128_from_pm4py net (fun p => (i.get? p).getD 0)
    (by rw [hpn, h2]; exact hw.places.map (prefix_inj "p")) (by rw [htn, h3]; exact hw.transitions.map (prefix_inj "t"))
    (fun p _ => hz p) (by
      rw [hpn, htn, h2, h3]
      rintro p t (h | h)
      · obtain ⟨ht, hp⟩ := (h8 p t).1 h
        exact ⟨⟨p, (hw.pre t ht).2 p hp, rfl⟩, t, ht, rfl⟩
      · obtain ⟨ht, hp⟩ := (h9 p t).1 h
        exact ⟨⟨p, (hw.post t ht).2 p hp, rfl⟩, t, ht, rfl⟩)
  rw [hpn] at a2 a4 a5 a6
  rw [htn] at a3 a5 a6 a7
  rw [h2] at a2 a4
  rw [h3] at a3 a7
  have hts : ∀ x, x ∈ n'.transitions ↔ ∃ t ∈ n.transitions, ("t" ++ ·) t = x := by intro x; rw [a3, List.mem_map]
  have hpre : ∀ t ∈ n.transitions, ∀ q, q ∈ n'.pre (("t" ++ ·) t) ↔ ∃ p ∈ n.pre t, ("p" ++ ·) p = q := by
    intro t ht q
    rw [a5]
    constructor
    · rintro ⟨p, u, h, e1, e2⟩
      obtain rfl := prefix_inj "t" e1
      exact ⟨p, ((h8 p u).1 h).2, e2⟩
    · rintro ⟨p, hp, e⟩
      exact ⟨p, t, (h8 p t).2 ⟨ht, hp⟩, rfl, e⟩
  have hpost : ∀ t ∈ n.transitions, ∀ q, q ∈ n'.post (("t" ++ ·) t) ↔ ∃ p ∈ n.post t, ("p" ++ ·) p = q := by
    intro t ht q
    rw [a6]
    constructor
    · rintro ⟨p, u, h, e1, e2⟩
      obtain rfl := prefix_inj "t" e1
      exact ⟨p, ((h9 p u).1 h).2, e2⟩
    · rintro ⟨p, hp, e⟩
      exact ⟨p, t, (h9 p t).2 ⟨ht, hp⟩, rfl, e⟩
  refine ⟨net, i, f, n', h1, a0, a1, a2, a3, ?_, ?_, fun m m' hm => ⟨fun ts m1 h => ?_, fun us m1' h => ?_⟩⟩
  · intro t ht
    obtain ⟨b1, b2, _⟩ := a7 t ht
    rw [h6] at b1 b2
    refine ⟨?_, fun hv => ?_⟩
    · refine b1.trans ?_
      cases n.visible t <;> rfl
    · rw [hv] at b2; exact b2
  · intro p hp
    have := a4 p hp
    rcases h10 p with ⟨h, hs⟩ | ⟨h, hs⟩
    · left; rw [h] at this; exact ⟨this, hs⟩
    · right; rw [h] at this; exact ⟨this, hs⟩
  · exact run_map (f := ("p" ++ ·)) (g := ("t" ++ ·)) (prefix_inj "p") hts hpre hpost hm h
  · exact run_map_back (f := ("p" ++ ·)) (g := ("t" ++ ·)) (prefix_inj "p") hts hpre hpost hm h

/-- C128: the hypotheses of `C128_roundtrip` are met by a net with an invisible transition and a loop -/
example : ∃ n : Net, Built n ∧ (∀ t ∈ n.transitions, ¬ (t ∈ n.pre t ∧ t ∈ n.post t)) ∧ n.places = ["a", "b", "c"] ∧
    n.transitions = ["t", "u", "v"] := by
  obtain ⟨n, hn, h⟩ : ∃ n, exBuild = .ok n ∧ (∀ t ∈ n.transitions, ¬ (t ∈ n.pre t ∧ t ∈ n.post t)) ∧ n.places = ["a", "b", "c"] ∧
    n.transitions = ["t", "u", "v"] := ⟨_, rfl, by decide +kernel⟩
  exact ⟨n, exBuild_built n hn, h⟩

/-- C128: without the assumption on the ids the claim fails: a transition `x` in a loop with a place `x` keeps only the arc
from the place to the transition, so that the round trip loses the token -/
theorem C128_id_collision : ∃ n : Net, Built n ∧ "x" ∈ n.pre "x" ∧ "x" ∈ n.post "x" ∧
    ∃ net i f, toPm4py n = .ok (net, i, f) ∧ net.arcs = [.input "x" "x"] := by
  let r : Py Net := Net.empty.addPlace "x" "" 1 >>= fun n => n.addTransition "x" none true >>= fun n => n.addConnection "x" "x" "x"
  have hb : ∀ n, r = .ok n → Built n := by
    refine built_bind (fun _ => .addPlace .empty) fun n hb => ?_
    refine built_bind (fun _ => .addTransition hb) fun n hb => ?_
    exact fun _ => .addConnection hb
  obtain ⟨n, hn, h⟩ : ∃ n, r = .ok n ∧ "x" ∈ n.pre "x" ∧ "x" ∈ n.post "x" ∧
    ∃ net i f, toPm4py n = .ok (net, i, f) ∧ net.arcs = [.input "x" "x"] := ⟨_, rfl, by decide +kernel, by decide +kernel, _, _, _, rfl, by decide +kernel⟩
  exact ⟨n, hb n hn, h⟩

/-- an example in pm4py: `t` starts a process without input place, `u` has no label -/
def exPm : PmNet Nat Nat := ⟨[0, 1], [0, 1], fun p => if p = 0 then "p0" else "p1", fun t => if t = 0 then "t" else "u",
  fun t => if t = 0 then some "start" else none, [.output 0 0, .input 0 1, .output 1 1]⟩

/-- C128: the hypotheses of `C128_from_pm4py` are met -/
example : (exPm.places.map exPm.placeName).Nodup ∧ (exPm.transitions.map exPm.transName).Nodup ∧
    (∀ p ∈ exPm.places, 0 ≤ (fun p => if p = 0 then (1 : Int) else 0) p) ∧
    ∀ p t, .input p t ∈ exPm.arcs ∨ .output t p ∈ exPm.arcs → (∃ q ∈ exPm.places, exPm.placeName q = exPm.placeName p) ∧
      ∃ u ∈ exPm.transitions, exPm.transName u = exPm.transName t := by
  refine ⟨by decide, by decide, by decide, fun p t h => ?_⟩
  simp only [exPm, List.mem_cons, Arc.input.injEq, Arc.output.injEq, reduceCtorEq, List.not_mem_nil, or_false, false_or] at h
  rcases h with ⟨rfl, rfl⟩ | ⟨rfl, rfl⟩ | ⟨rfl, rfl⟩ <;> exact ⟨⟨_, by decide, rfl⟩, _, by decide, rfl⟩

/-- C128: importing a net of pm4py in which a transition has no input place and exporting it again loses the arcs of that
transition -/
theorem C128_dangling_lost : ∃ n net i f, fromPm4py exPm (fun _ => 0) = .ok n ∧ "p0" ∈ n.post "t" ∧ toPm4py n = .ok (net, i, f) ∧
    "t" ∈ net.transitions ∧ ∀ a ∈ net.arcs, a.trans ≠ "t" := by
  obtain ⟨n, hn, h1, net, i, f, h2, h3, h4⟩ : ∃ n, fromPm4py exPm (fun _ => 0) = .ok n ∧ "p0" ∈ n.post "t" ∧ ∃ net i f, toPm4py n = .ok (net, i, f) ∧
    "t" ∈ net.transitions ∧ ∀ a ∈ net.arcs, a.trans ≠ "t" :=
    ⟨_, rfl, by decide +kernel, _, _, _, rfl, by decide +kernel, by decide +kernel⟩
  exact ⟨n, net, i, f, hn, h1, h2, h3, h4⟩

/-! ### C129 -/

open Prolothar.EventLog

variable {V : Type}

theorem get?_update (k : String) : ∀ (l : Dict String V) (d : Dict String V), l.WF →
    (l.foldl (fun d e => Dict.put d e.1 e.2) d).get? k = (l.get? k).or (d.get? k)
  | [], d, _ => by simp [Dict.get?]
  | (a, v) :: l, d, h => by
    have hn : a ∉ Dict.keys l ∧ Dict.WF l := List.nodup_cons.1 h
    rw [List.foldl_cons, get?_update k l _ hn.2, Dict.get?_put]
    by_cases ha : a = k
    · subst ha
      have : Dict.get? l a = none := by
        cases hg : Dict.get? l a with
        | none => rfl
        | some w => exact absurd (Dict.mem_keys_iff.2 ⟨w, hg⟩) hn.1
      simp [Dict.get?, this]
    · simp [Dict.get?, ha]

/-- C129: a log of pm4py has one trace per trace, in the same order; each has one event per event with the activity as its
only attribute; the attributes of a trace are kept and the id is stored as "concept:name", unless the trace has an attribute
of that name, which then takes its place -/
theorem C129_to_pm4py (log : Log V V V) (hd : ∀ t ∈ log, t.attributes.WF) :
    List.Forall₂ (fun t u => u.events = t.events.map (fun e => [("concept:name", e.activity)]) ∧
      (∀ k, k ≠ "concept:name" → u.attributes.get? k = t.attributes.get? k) ∧
      u.attributes.get? "concept:name" = some ((t.attributes.get? "concept:name").getD t.id)) log (logToPm4py log) := by
  unfold logToPm4py
  rw [List.forall₂_map_right_iff, List.forall₂_same]
  intro t ht
  refine ⟨rfl, fun k hk => ?_, ?_⟩
  · refine (get?_update k t.attributes _ (hd t ht)).trans ?_
    have : Dict.get? [(conceptName, t.id)] k = none := by simp [Dict.get?, conceptName, Ne.symm hk]
    rw [this, Option.or_none]
  · refine (get?_update "concept:name" t.attributes _ (hd t ht)).trans ?_
    have : Dict.get? [(conceptName, t.id)] "concept:name" = some t.id := by simp [Dict.get?, conceptName]
    rw [this]
    cases Dict.get? t.attributes "concept:name" <;> rfl

/-- C129: importing a log of pm4py: if every trace has events and a value for the id, and every event has a string as
activity, then the log has exactly these traces, with all attributes of traces and events -/
theorem C129_from_pm4py (isStr : V → Bool) (ak ik : String) (log : List (PmTrace V))
    (h : ∀ t ∈ log, t.events ≠ [] ∧ (∃ v, t.attributes.get? ik = some v) ∧ ∀ e ∈ t.events, ∃ v, e.get? ak = some v ∧ isStr v = true) :
    ∃ r, logFromPm4py isStr ak ik log = .ok r ∧ List.Forall₂ (fun u t => u.attributes.get? ik = some t.id ∧ t.attributes = u.attributes ∧
      List.Forall₂ (fun d e => d.get? ak = some e.activity ∧ e.attributes = d ∧ e.transition = none) u.events t.events) log r := by
  have hev : ∀ es : List (Dict String V), (∀ e ∈ es, ∃ v, e.get? ak = some v ∧ isStr v = true) →
      ∃ r, es.mapM (eventFromPm4py isStr ak) = .ok r ∧
        List.Forall₂ (fun d e => d.get? ak = some e.activity ∧ e.attributes = d ∧ e.transition = none) es r := by
    intro es
    induction es with
    | nil => exact fun _ => ⟨[], rfl, .nil⟩
    | cons e es ih =>
      intro h
      obtain ⟨v, h1, h2⟩ := h e List.mem_cons_self
      obtain ⟨r, h3, h4⟩ := ih fun x hx => h x (List.mem_cons_of_mem _ hx)
      refine ⟨⟨v, e, none⟩ :: r, ?_, .cons ⟨h1, rfl, rfl⟩ h4⟩
      have he : eventFromPm4py isStr ak e = .ok ⟨v, e, none⟩ := by
        unfold eventFromPm4py Dict.getItem
        rw [h1]
        show (if isStr v then _ else _ : Py _) = _
        rw [if_pos h2]; rfl
      rw [List.mapM_cons, he]
      show (es.mapM _ >>= _ : Py _) = _
      rw [h3]; rfl
  induction log with
  | nil => exact ⟨[], rfl, .nil⟩
  | cons t log ih =>
    obtain ⟨h1, ⟨v, h2⟩, h3⟩ := h t List.mem_cons_self
    obtain ⟨r, h4, h5⟩ := ih fun x hx => h x (List.mem_cons_of_mem _ hx)
    obtain ⟨es, h6, h7⟩ := hev t.events h3
    have hne : es ≠ [] := by
      rintro rfl
      exact h1 (List.forall₂_nil_right_iff.1 h7)
    refine ⟨⟨v, es, t.attributes⟩ :: r, ?_, .cons ⟨h2, rfl, h7⟩ h5⟩
    have ht : traceFromPm4py isStr ak ik t = .ok ⟨v, es, t.attributes⟩ := by
      unfold traceFromPm4py Dict.getItem
      rw [h2]
      show (t.events.mapM _ >>= _ : Py _) = _
      rw [h6]
      show EventLog.Trace.new v es t.attributes = _
      unfold EventLog.Trace.new
      rw [if_neg hne]
    unfold logFromPm4py at h4 ⊢
    rw [List.mapM_cons, ht]
    show (log.mapM _ >>= _ : Py _) = _
    rw [h4]; rfl

/-- C129: the round trip of a log whose traces have events and whose activities are strings keeps the number and order of the
traces, the ids (unless a trace has another value as attribute "concept:name"), the activities and the attributes of traces;
a trace gets the additional attribute "concept:name"; the attributes of events are replaced by the activity and the ids of
transitions are lost -/
theorem C129_roundtrip (isStr : V → Bool) (log : Log V V V) (hd : ∀ t ∈ log, t.attributes.WF) (he : ∀ t ∈ log, t.events ≠ [])
    (hs : ∀ t ∈ log, ∀ e ∈ t.events, isStr e.activity = true) :
    ∃ r, logFromPm4py isStr "concept:name" "concept:name" (logToPm4py log) = .ok r ∧
      List.Forall₂ (fun t t' => t'.id = (t.attributes.get? "concept:name").getD t.id ∧
        (∀ k, k ≠ "concept:name" → t'.attributes.get? k = t.attributes.get? k) ∧ t'.attributes.get? "concept:name" = some t'.id ∧
        t'.events = t.events.map fun e => ⟨e.activity, [("concept:name", e.activity)], none⟩) log r := by
  have hto := C129_to_pm4py log hd
  obtain ⟨r, h1, h2⟩ := C129_from_pm4py isStr "concept:name" "concept:name" (logToPm4py log) (by
    intro u hu
    obtain ⟨t, ht, rfl⟩ := List.mem_map.1 hu
    refine ⟨fun h => he t ht (List.map_eq_nil_iff.1 h), ?_, fun e h => ?_⟩
    · obtain ⟨_, _, h3⟩ := List.forall₂_same.1 ((List.forall₂_map_right_iff).1 hto) t ht
      exact ⟨_, h3⟩
    · obtain ⟨x, hx, rfl⟩ := List.mem_map.1 h
      exact ⟨x.activity, by simp [Dict.get?, conceptName], hs t ht x hx⟩)
  refine ⟨r, h1, ?_⟩
  clear h1
  generalize logToPm4py log = us at hto h2
  clear hd he hs
  induction hto generalizing r with
  | nil => cases h2; exact .nil
  | @cons t u log us h _ ih =>
    cases h2 with
    | @cons _ t' _ r k ks =>
      refine .cons ?_ (ih r ks)
      obtain ⟨a1, a2, a3⟩ := h
      obtain ⟨b1, b2, b3⟩ := k
      rw [a3] at b1
      refine ⟨(Option.some.inj b1).symm, fun x hx => by rw [b2]; exact a2 x hx, by rw [b2, a3, b1], ?_⟩
      rw [a1] at b3
      generalize t'.events = es' at b3
      clear * - b3
      generalize t.events = es at b3
      induction es generalizing es' with
      | nil => cases b3; rfl
      | cons e es ih =>
        cases b3 with
        | @cons _ e' _ es' c cs =>
          rw [List.map_cons, ← ih _ cs]
          obtain ⟨c1, c2, c3⟩ := c
          have c1' : some e.activity = some e'.activity := by rw [← c1]; simp [Dict.get?]
          cases e'
          simp only at c2 c3 c1'
          cases c1'; cases c2; cases c3
          rfl

/-- C129: the first trace that cannot be imported determines the exception: KeyError for a missing id or activity,
TypeError for an activity that is not a string, ValueError for a trace without events -/
theorem C129_rejected (isStr : V → Bool) (ak ik : String) (good rest : List (PmTrace V)) (t : PmTrace V)
    (hg : ∀ t ∈ good, t.events ≠ [] ∧ (∃ v, t.attributes.get? ik = some v) ∧ ∀ e ∈ t.events, ∃ v, e.get? ak = some v ∧ isStr v = true) :
    (t.attributes.get? ik = none → logFromPm4py isStr ak ik (good ++ t :: rest) = .error .key) ∧
    ((∃ v, t.attributes.get? ik = some v) →
      (t.events = [] → logFromPm4py isStr ak ik (good ++ t :: rest) = .error .value) ∧
      ∀ a e b, t.events = a ++ e :: b → (∀ e ∈ a, ∃ v, e.get? ak = some v ∧ isStr v = true) →
        (e.get? ak = none → logFromPm4py isStr ak ik (good ++ t :: rest) = .error .key) ∧
        ∀ v, e.get? ak = some v → isStr v = false → logFromPm4py isStr ak ik (good ++ t :: rest) = .error .type) := by
  have hpre : ∀ {α β : Type} (f : α → Py β) (as bs : List α) (x : α) (er : PyErr) (rs : List β), as.mapM f = .ok rs → f x = .error er →
      (as ++ x :: bs).mapM f = .error er := by
    intro α β f as bs x er rs h1 h2
    rw [List.mapM_append, h1]
    show ((x :: bs).mapM f >>= _ : Py _) = _
    rw [List.mapM_cons, h2]; rfl
  obtain ⟨r, h1, _⟩ := C129_from_pm4py isStr ak ik good hg
  have hkey : ∀ er, traceFromPm4py isStr ak ik t = .error er → logFromPm4py isStr ak ik (good ++ t :: rest) = .error er :=
    fun er h => hpre _ good rest t er r h1 h
  refine ⟨fun h => hkey _ ?_, fun ⟨v, hv⟩ => ⟨fun h => hkey _ ?_, fun a e b h ha => ?_⟩⟩
  · unfold traceFromPm4py Dict.getItem
    rw [h]; rfl
  · unfold traceFromPm4py Dict.getItem
    rw [hv, h]; rfl
  · have hev : ∃ rs, a.mapM (eventFromPm4py isStr ak) = .ok rs := by
      clear h
      induction a with
      | nil => exact ⟨[], rfl⟩
      | cons x a ih =>
        obtain ⟨w, w1, w2⟩ := ha x List.mem_cons_self
        obtain ⟨rs, hrs⟩ := ih fun y hy => ha y (List.mem_cons_of_mem _ hy)
        refine ⟨⟨w, x, none⟩ :: rs, ?_⟩
        have : eventFromPm4py isStr ak x = .ok ⟨w, x, none⟩ := by
          unfold eventFromPm4py Dict.getItem
          rw [w1]
          show (if isStr w then _ else _ : Py _) = _
          rw [if_pos w2]; rfl
        rw [List.mapM_cons, this]
        show (a.mapM _ >>= _ : Py _) = _
        rw [hrs]; rfl
    obtain ⟨rs, hrs⟩ := hev
    have htr : ∀ er, eventFromPm4py isStr ak e = .error er → traceFromPm4py isStr ak ik t = .error er := by
      intro er h2
      unfold traceFromPm4py Dict.getItem
      rw [hv]
      show (t.events.mapM _ >>= _ : Py _) = _
      rw [h, hpre _ a b e er rs hrs h2]; rfl
    refine ⟨fun h2 => hkey _ (htr _ ?_), fun w h2 h3 => hkey _ (htr _ ?_)⟩
    · unfold eventFromPm4py Dict.getItem
      rw [h2]; rfl
    · unfold eventFromPm4py Dict.getItem
      rw [h2]
      show (if isStr w then _ else _ : Py _) = _
      rw [if_neg (by simp [h3])]

/-- C129: an example with two traces; `exStr` accepts the strings among the values `Sum String Int` -/
def exStr : Sum String Int → Bool
  | .inl _ => true
  | .inr _ => false

def exPmLog : Log (Sum String Int) (Sum String Int) (Sum String Int) :=
  [⟨.inr 1, [⟨.inl "a", [("cost", .inr 5)], some "t1"⟩, ⟨.inl "b", [], none⟩], [("color", .inl "red")]⟩,
   ⟨.inr 2, [⟨.inl "a", [], none⟩], [("concept:name", .inl "other")]⟩]

/-- C129: the hypotheses of `C129_roundtrip` are met -/
example : (∀ t ∈ exPmLog, t.attributes.WF) ∧ (∀ t ∈ exPmLog, t.events ≠ []) ∧ ∀ t ∈ exPmLog, ∀ e ∈ t.events, exStr e.activity = true := by
  refine ⟨?_, by decide, by decide⟩
  intro t ht
  simp only [exPmLog, List.mem_cons, List.not_mem_nil, or_false] at ht
  rcases ht with rfl | rfl <;> simp [Dict.WF, Dict.keys]

/-- C129: the id 2 is replaced by the attribute, and the cost of the first event and its transition are lost -/
example : ∃ r, logFromPm4py exStr "concept:name" "concept:name" (logToPm4py exPmLog) = .ok r ∧ r.map (·.id) = [.inr 1, .inl "other"] ∧
    (r.map fun t => t.events.map fun e => (e.attributes, e.transition)) =
      [[([("concept:name", .inl "a")], none), ([("concept:name", .inl "b")], none)], [([("concept:name", .inl "a")], none)]] :=
  ⟨_, rfl, by decide +kernel, by decide +kernel⟩

/-- C129: the hypotheses of `C129_rejected` are met: after an importable trace comes one whose second activity is a number -/
example : logFromPm4py exStr "concept:name" "concept:name"
    ([⟨[("concept:name", .inr 1)], [[("concept:name", .inl "a")]]⟩] ++ ⟨[("concept:name", .inr 2)], [[("concept:name", .inl "a")], [("concept:name", .inr 7)]]⟩ :: []) =
      .error .type :=
  ((C129_rejected exStr "concept:name" "concept:name" _ [] ⟨[("concept:name", .inr 2)], [[("concept:name", .inl "a")], [("concept:name", .inr 7)]]⟩
    (by
      intro t ht
      rw [List.mem_singleton] at ht
      subst ht
      refine ⟨by decide, ⟨.inr 1, by decide⟩, fun e he => ?_⟩
      rw [List.mem_singleton] at he
      subst he
      exact ⟨.inl "a", by decide, rfl⟩)).2 ⟨.inr 2, by decide⟩).2 [[("concept:name", .inl "a")]] [("concept:name", .inr 7)] [] rfl
    (by
      intro e he
      rw [List.mem_singleton] at he
      subst he
      exact ⟨.inl "a", by decide, rfl⟩) |>.2 (.inr 7) (by decide) rfl

end Prolothar.Pm4py
