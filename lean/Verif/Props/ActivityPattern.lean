import Verif.Lemmas.PatternOps
import Verif.Props.PetriWf
/-
Properties of activity patterns and of their composition.
-/
namespace Prolothar.ActivityPattern
open Prolothar.Petri
open Prolothar.Spec.Petri

/-- a well-formed pattern: a net with one source and one sink in which every transition consumes something and every visible transition has a
high level activity -/
def Pattern.Valid (a : Pattern) : Prop := ∃ s e, a.Good s e

/-- what can be observed of an execution of the pattern from its standard initial marking to its standard final marking: the labels and the
high level activities of the visible transitions that are fired, where `h` contains the values of the variables of guards -/
def Pattern.Words (h : Heap) (a : Pattern) (w : List (String × Option String)) : Prop :=
  ∃ s e, (∀ p, IsSource a.net.transitions a.net.pre a.net.post p ↔ p = s) ∧ (∀ p, IsSink a.net.transitions a.net.pre a.net.post p ↔ p = e) ∧
    (a.sys h s e).Lang w

/-- the pattern completes properly: when a token reaches the sink, no other tokens are left -/
def Pattern.Clean (h : Heap) (a : Pattern) : Prop :=
  ∀ s e, (∀ p, IsSource a.net.transitions a.net.pre a.net.post p ↔ p = s) → (∀ p, IsSink a.net.transitions a.net.pre a.net.post p ↔ p = e) →
    (a.sys h s e).Proper

namespace Pattern.Good
variable {a : Pattern} {s e : String}

theorem words (ha : a.Good s e) {h : Heap} {w : List (String × Option String)} : a.Words h w ↔ (a.sys h s e).Lang w := by
  constructor
  · rintro ⟨s', e', h1, h2, h3⟩
    obtain rfl := (h1 s).1 ((ha.source s).2 rfl)
    obtain rfl := (h2 e).1 ((ha.sink e).2 rfl)
    exact h3
  · exact fun h => ⟨s, e, ha.source, ha.sink, h⟩

theorem clean (ha : a.Good s e) {h : Heap} : a.Clean h ↔ (a.sys h s e).Proper := by
  constructor
  · exact fun h => h s e ha.source ha.sink
  · intro h s' e' h1 h2
    obtain rfl := (h1 s).1 ((ha.source s).2 rfl)
    obtain rfl := (h2 e).1 ((ha.sink e).2 rfl)
    exact h

end Pattern.Good

theorem addPlace_cases (n : Net) (id : String) :
    (id ∈ n.places ∧ n.addPlace id "" 0 = .error .value) ∨ (id ∉ n.places ∧ ∃ n', n.addPlace id "" 0 = .ok n') := by
  unfold Net.addPlace
  by_cases h : id ∈ n.places
  · left; rw [if_pos h]; exact ⟨h, rfl⟩
  · right; rw [if_neg h]; exact ⟨h, _, rfl⟩

theorem addTransition_cases (n : Net) (id : String) :
    (id ∈ n.transitions ∧ n.addTransition id none false = .error .value) ∨ (id ∉ n.transitions ∧ ∃ n', n.addTransition id none false = .ok n') := by
  unfold Net.addTransition
  by_cases h : id ∈ n.transitions
  · left; rw [if_pos h]; exact ⟨h, rfl⟩
  · right; rw [if_neg h]; exact ⟨h, _, rfl⟩

theorem sequence_glue {a b : Pattern} {s1 e1 s2 e2 : String} (ha : a.Good s1 e1) (hb : b.Good s2 e2) {c : Prep} {f g : String → String}
    (hp : Prepared a b s1 e1 s2 e2 f g c) {n1 n2 : Net} {t : String} (h1 : c.net.addTransition t none false = .ok n1)
    (h2 : n1.addConnection c.e1 t c.s2 = .ok n2) :
    Glue a b s1 e1 s2 e2 f g [] [(t, [e1], [f s2])] n2 c.map ∧ Pattern.Good ⟨n2, c.map⟩ s1 (f e2) := by
  have k1 := ((Added.refl hp.net.wf hp.net.tokens).addTransition h1).2
  have k2 := k1.addConnection 0 rfl h2
  rw [hp.e1, hp.s2] at k2
  have hG : Glue a b s1 e1 s2 e2 f g [] [(t, [e1], [f s2])] n2 c.map := hp.glue ha hb k2
  refine ⟨hG, hG.good ?_ ?_ ?_⟩
  · intro x
    rw [hG.source_iff]
    simp only [List.mem_singleton, exists_eq_left]
    constructor
    · rintro (⟨rfl | rfl, h3⟩ | ⟨rfl, h3, h4, h5⟩)
      · rfl
      · exact absurd rfl h3
      · exact absurd ((ha.sink x).2 rfl).1 h4
    · rintro rfl
      exact .inl ⟨.inl rfl, fun he => hG.new _ hb.source_mem (he ▸ ha.source_mem)⟩
  · intro x
    rw [hG.sink_iff]
    simp only [List.mem_singleton, exists_eq_left]
    constructor
    · rintro (⟨rfl | rfl, h3⟩ | ⟨rfl, h3, h4, h5⟩)
      · exact absurd rfl h3
      · rfl
      · exact absurd ⟨s2, ((hb.source s2).2 rfl).1, rfl⟩ h5
    · rintro rfl
      exact .inl ⟨.inr rfl, fun he => hG.new _ hb.sink_mem (he ▸ ha.sink_mem)⟩
  · intro x hx; rw [List.mem_singleton] at hx; rw [hx]; simp

theorem sequence_of {a b r : Pattern} {s1 e1 s2 e2 : String} (ha : a.Good s1 e1) (hb : b.Good s2 e2) (hr : sequence a b = .ok r) :
    ∃ f g t, r.Good s1 (f e2) ∧ ∀ h, SeqOf (a.sys h s1 e1) (b.sys h s2 e2) (r.sys h s1 (f e2)) (· ∈ a.net.places) (· ∈ b.net.places) id f id g t := by
  obtain ⟨c, f, g, hc, hp⟩ := prepare_ok ha hb
  unfold sequence at hr
  obtain ⟨c', hc', hr⟩ := bind_eq_ok hr
  obtain rfl := Except.ok.inj (hc.symm.trans hc')
  obtain ⟨n1, h1, hr⟩ := bind_eq_ok hr
  obtain ⟨n2, h2, hr⟩ := bind_eq_ok hr
  obtain ⟨hG, hg⟩ := sequence_glue ha hb hp h1 h2
  rw [mkPattern_ok hg] at hr
  obtain rfl := Except.ok.inj hr
  refine ⟨f, g, c.e1 ++ "," ++ c.s2, hg, fun h => ?_⟩
  have hx := hG.new_ok h s1 (f e2) (List.mem_singleton.2 rfl)
  exact
    { a := hG.partA h s1 (f e2)
      b := hG.partB h s1 (f e2)
      disj := hG.disj
      ok0 := hx.1
      ok := fun u hu => by
        have := hG.ok_cases hu
        rwa [List.map_singleton, List.mem_singleton] at this
      pre0 := fun x => by
        show x ∈ n2.pre _ ↔ _
        rw [(hG.fn _ (List.mem_singleton.2 rfl)).1, List.mem_singleton]; rfl
      post0 := fun x => by
        show x ∈ n2.post _ ↔ _
        rw [(hG.fn _ (List.mem_singleton.2 rfl)).2.1, List.mem_singleton]; rfl
      obs0 := hx.2
      src := rfl
      snk := rfl }

/-- a sequence is well-formed, its executions are an execution of the first pattern followed by one of the second pattern, and it completes
properly if the two patterns do -/
theorem C108_sequence {a b r : Pattern} (ha : a.Valid) (hb : b.Valid) (hr : sequence a b = .ok r) :
    r.Valid ∧ ∀ h, a.Clean h →
      (∀ w, r.Words h w ↔ ∃ u v, a.Words h u ∧ b.Words h v ∧ w = u ++ v) ∧ (b.Clean h → r.Clean h) := by
  obtain ⟨s1, e1, ha⟩ := ha
  obtain ⟨s2, e2, hb⟩ := hb
  obtain ⟨f, g, t, hg, hs⟩ := sequence_of ha hb hr
  refine ⟨⟨s1, _, hg⟩, fun h hA => ?_⟩
  rw [ha.clean] at hA
  refine ⟨fun w => ?_, fun hB => hg.clean.2 ((hs h).proper hA (hb.clean.1 hB))⟩
  rw [hg.words, (hs h).lang hA]
  simp only [ha.words, hb.words]

/-- a sequence of well-formed patterns can be refused only with a ValueError -/
theorem C108_sequence_total {a b : Pattern} (ha : a.Valid) (hb : b.Valid) : (∃ r, sequence a b = .ok r) ∨ sequence a b = .error .value := by
  obtain ⟨s1, e1, ha⟩ := ha
  obtain ⟨s2, e2, hb⟩ := hb
  obtain ⟨c, f, g, hc, hp⟩ := prepare_ok ha hb
  unfold sequence
  rw [hc]
  show (∃ r, (c.net.addTransition _ none false >>= _) = .ok r) ∨ (c.net.addTransition _ none false >>= _) = .error .value
  rcases addTransition_cases c.net (c.e1 ++ "," ++ c.s2) with ⟨_, h1⟩ | ⟨_, n1, h1⟩
  · right; rw [h1]; rfl
  · left
    have k1 := ((Added.refl hp.net.wf hp.net.tokens).addTransition h1).2
    obtain ⟨n2, h2⟩ := addConnection_total (n := n1) (s := c.e1) (t := c.e1 ++ "," ++ c.s2) (e := c.s2)
      (by rw [k1.places, hp.e1]; exact List.mem_append_left _ ((hp.net.places _).2 (.inl ha.sink_mem)))
      (by rw [k1.trans]; simp)
      (by rw [k1.places, hp.s2]; exact List.mem_append_left _ ((hp.net.places _).2 (.inr ⟨s2, hb.source_mem, rfl⟩)))
    refine ⟨⟨n2, c.map⟩, ?_⟩
    rw [h1]
    show (n1.addConnection _ _ _ >>= _) = _
    rw [h2]
    exact mkPattern_ok (sequence_glue ha hb hp h1 h2).2

/-- the new transitions of a parallel composition -/
def parNew (s1 e1 s2 e2 S E : String) : List (String × List String × List String) :=
  [(s1, setAdd (setAdd [] S) S, setAdd (setAdd [] s1) s2), (E, setAdd (setAdd [] e1) e2, setAdd (setAdd [] E) E)]

theorem parallel_glue {a b : Pattern} {s1 e1 s2 e2 : String} (ha : a.Good s1 e1) (hb : b.Good s2 e2) {c : Prep} {f g : String → String}
    (hp : Prepared a b s1 e1 s2 e2 f g c) {S E : String} {n1 n2 n3 n4 n5 n6 n7 n8 : Net} (h1 : c.net.addPlace S "" 0 = .ok n1)
    (h2 : n1.addTransition c.s1 none false = .ok n2) (h3 : n2.addConnection S c.s1 c.s1 = .ok n3) (h4 : n3.addConnection S c.s1 c.s2 = .ok n4)
    (h5 : n4.addPlace E "" 0 = .ok n5) (h6 : n5.addTransition E none false = .ok n6) (h7 : n6.addConnection c.e1 E E = .ok n7)
    (h8 : n7.addConnection c.e2 E E = .ok n8) :
    Glue a b s1 e1 s2 e2 f g [S, E] (parNew s1 e1 (f s2) (f e2) S E) n8 c.map ∧
      Pattern.Good ⟨n8, c.map⟩ S E ∧ S ≠ E ∧ (∀ p ∈ a.net.places, p ≠ S ∧ p ≠ E) ∧ (∀ p ∈ b.net.places, f p ≠ S ∧ f p ≠ E) := by
  obtain ⟨hS, k1⟩ := (Added.refl hp.net.wf hp.net.tokens).addPlace h1
  have k2 := (k1.addTransition h2).2
  have k3 := k2.addConnection 0 rfl h3
  have k4 := k3.addConnection 0 rfl h4
  obtain ⟨hE, k5⟩ := k4.addPlace h5
  have k6 := (k5.addTransition h6).2
  have k7 := k6.addConnection 1 rfl h7
  have k8 := k7.addConnection 1 rfl h8
  rw [k4.places, List.mem_append, not_or] at hE
  rw [hp.e1, hp.s2, hp.s1, hp.e2] at k8
  have hne : S ≠ E := fun he => hE.2 (by simp [he])
  have hA : ∀ p ∈ a.net.places, p ≠ S ∧ p ≠ E := fun p h => ⟨fun he => hS ((hp.net.places _).2 (.inl (he ▸ h))), fun he => hE.1 ((hp.net.places _).2 (.inl (he ▸ h)))⟩
  have hB : ∀ p ∈ b.net.places, f p ≠ S ∧ f p ≠ E := fun p h => ⟨fun he => hS ((hp.net.places _).2 (.inr ⟨p, h, he⟩)), fun he => hE.1 ((hp.net.places _).2 (.inr ⟨p, h, he⟩))⟩
  have hG : Glue a b s1 e1 s2 e2 f g [S, E] (parNew s1 e1 (f s2) (f e2) S E) n8 c.map := hp.glue ha hb k8
  have new : ∀ x, x ∉ a.net.places → (∀ p ∈ b.net.places, f p ≠ x) → (¬ InPre a.net x ∧ ¬ InPost a.net x) ∧ (¬ ∃ p, InPre b.net p ∧ f p = x) ∧ ¬ ∃ p, InPost b.net p ∧ f p = x :=
    fun x h1 h2 => ⟨hG.not_a h1, hG.not_b' h2⟩
  have hs1 := hA _ ha.source_mem
  have he1 := hA _ ha.sink_mem
  have hs2 := hB _ hb.source_mem
  have he2 := hB _ hb.sink_mem
  have nS := new S (fun h => (hA S h).1 rfl) (fun p h => (hB p h).1)
  have nE := new E (fun h => (hA E h).2 rfl) (fun p h => (hB p h).2)
  refine ⟨hG, hG.good ?_ ?_ ?_, hne, hA, hB⟩
  · intro x
    rw [hG.source_iff]
    simp only [parNew, List.mem_cons, List.not_mem_nil, or_false, exists_eq_or_imp, exists_eq_left, mem_setAdd, false_or, or_self]
    constructor
    · rintro (⟨rfl | rfl, h3⟩ | ⟨rfl | rfl | rfl, h3, h4, h5⟩)
      · exact absurd (.inl (.inl rfl)) h3
      · exact absurd (.inl (.inr rfl)) h3
      · rfl
      · exact absurd ((ha.sink x).2 rfl).1 h4
      · exact absurd ⟨e2, ((hb.sink e2).2 rfl).1, rfl⟩ h5
    · rintro rfl
      refine .inr ⟨.inl rfl, ?_, nS.1.2, nS.2.2⟩
      rintro ((rfl | rfl) | rfl)
      · exact hs1.1 rfl
      · exact hs2.1 rfl
      · exact hne rfl
  · intro x
    rw [hG.sink_iff]
    simp only [parNew, List.mem_cons, List.not_mem_nil, or_false, exists_eq_or_imp, exists_eq_left, mem_setAdd, false_or, or_self]
    constructor
    · rintro (⟨rfl | rfl, h3⟩ | ⟨(rfl | rfl) | rfl, h3, h4, h5⟩)
      · exact absurd (.inr (.inl rfl)) h3
      · exact absurd (.inr (.inr rfl)) h3
      · exact absurd ((ha.source x).2 rfl).1 h4
      · exact absurd ⟨s2, ((hb.source s2).2 rfl).1, rfl⟩ h5
      · rfl
    · rintro rfl
      refine .inr ⟨.inr rfl, ?_, nE.1.1, nE.2.1⟩
      rintro (rfl | rfl | rfl)
      · exact hne rfl
      · exact he1.2 rfl
      · exact he2.2 rfl
  · intro x hx hn
    have := List.mem_cons.1 hx
    rcases this with rfl | h
    · have : S ∈ setAdd (setAdd [] S) S := mem_setAdd.2 (.inr rfl)
      rw [show setAdd (setAdd [] S) S = [] from hn] at this; cases this
    · rw [List.mem_singleton] at h
      subst h
      have : f e2 ∈ setAdd (setAdd [] e1) (f e2) := mem_setAdd.2 (.inr rfl)
      rw [show setAdd (setAdd [] e1) (f e2) = [] from hn] at this; cases this

theorem parallel_of {a b r : Pattern} {s1 e1 s2 e2 : String} (ha : a.Good s1 e1) (hb : b.Good s2 e2) (hr : parallel a b = .ok r) :
    ∃ f g S E tS tE, r.Good S E ∧
      ∀ h, ParOf (a.sys h s1 e1) (b.sys h s2 e2) (r.sys h S E) (· ∈ a.net.places) (· ∈ b.net.places) id f id g tS tE := by
  obtain ⟨c, f, g, hc, hp⟩ := prepare_ok ha hb
  unfold parallel at hr
  obtain ⟨c', hc', hr⟩ := bind_eq_ok hr
  obtain rfl := Except.ok.inj (hc.symm.trans hc')
  obtain ⟨n1, h1, hr⟩ := bind_eq_ok hr
  obtain ⟨n2, h2, hr⟩ := bind_eq_ok hr
  obtain ⟨n3, h3, hr⟩ := bind_eq_ok hr
  obtain ⟨n4, h4, hr⟩ := bind_eq_ok hr
  obtain ⟨n5, h5, hr⟩ := bind_eq_ok hr
  obtain ⟨n6, h6, hr⟩ := bind_eq_ok hr
  obtain ⟨n7, h7, hr⟩ := bind_eq_ok hr
  obtain ⟨n8, h8, hr⟩ := bind_eq_ok hr
  obtain ⟨hG, hg, hne, hA, hB⟩ := parallel_glue ha hb hp h1 h2 h3 h4 h5 h6 h7 h8
  rw [mkPattern_ok hg] at hr
  obtain rfl := Except.ok.inj hr
  generalize hS : c.s1 ++ "," ++ c.s2 = S at *
  generalize hE : c.e1 ++ "," ++ c.e2 = E at *
  refine ⟨f, g, S, E, s1, E, hg, fun h => ?_⟩
  have m1 : (s1, setAdd (setAdd [] S) S, setAdd (setAdd [] s1) (f s2)) ∈ parNew s1 e1 (f s2) (f e2) S E := List.mem_cons_self
  have m2 : (E, setAdd (setAdd [] e1) (f e2), setAdd (setAdd [] E) E) ∈ parNew s1 e1 (f s2) (f e2) S E := by simp [parNew]
  have hx := hG.new_ok h S E m1
  have hy := hG.new_ok h S E m2
  exact
    { a := hG.partA h S E
      b := hG.partB h S E
      disj := hG.disj
      src_a := fun p hp => (hA p hp).1
      src_b := fun p hp => (hB p hp).1
      snk_a := fun p hp => (hA p hp).2
      snk_b := fun p hp => (hB p hp).2
      ne := hne
      okS := hx.1
      okE := hy.1
      ok := fun u hu => by
        have := hG.ok_cases hu
        simpa [parNew] using this
      preS := fun x => by
        show x ∈ n8.pre _ ↔ _
        rw [(hG.fn _ m1).1]; simp [mem_setAdd]; rfl
      postS := fun x => by
        show x ∈ n8.post _ ↔ _
        rw [(hG.fn _ m1).2.1]; simp [mem_setAdd]; rfl
      preE := fun x => by
        show x ∈ n8.pre _ ↔ _
        rw [(hG.fn _ m2).1]; simp [mem_setAdd]; rfl
      postE := fun x => by
        show x ∈ n8.post _ ↔ _
        rw [(hG.fn _ m2).2.1]; simp [mem_setAdd]; rfl
      obsS := hx.2
      obsE := hy.2 }

/-- a parallel composition is well-formed, its executions are the interleavings of an execution of the first pattern with one of the second
pattern, and it completes properly if the two patterns do -/
theorem C109_parallel {a b r : Pattern} (ha : a.Valid) (hb : b.Valid) (hr : parallel a b = .ok r) :
    r.Valid ∧ ∀ h, (∀ w, r.Words h w ↔ ∃ u v, a.Words h u ∧ b.Words h v ∧ Shuffle u v w) ∧ (a.Clean h → b.Clean h → r.Clean h) := by
  obtain ⟨s1, e1, ha⟩ := ha
  obtain ⟨s2, e2, hb⟩ := hb
  obtain ⟨f, g, S, E, tS, tE, hg, hs⟩ := parallel_of ha hb hr
  refine ⟨⟨_, _, hg⟩, fun h => ?_⟩
  refine ⟨fun w => ?_, fun hA hB => hg.clean.2 ((hs h).proper (ha.clean.1 hA) (hb.clean.1 hB))⟩
  rw [hg.words, (hs h).lang]
  simp only [ha.words, hb.words]

theorem parallel_cases {a b : Pattern} {s1 e1 s2 e2 : String} (ha : a.Good s1 e1) (hb : b.Good s2 e2) {c : Prep} {f g : String → String}
    (hc : prepare a b = .ok c) (hp : Prepared a b s1 e1 s2 e2 f g c) :
    (∃ r, parallel a b = .ok r) ∨ (parallel a b = .error .value ∧ (c.s1 ++ "," ++ c.s2 ∈ c.net.places ∨ c.s1 ∈ c.net.transitions ∨
      c.e1 ++ "," ++ c.e2 ∈ c.net.places ++ [c.s1 ++ "," ++ c.s2] ∨ c.e1 ++ "," ++ c.e2 ∈ c.net.transitions ++ [c.s1])) := by
  have p1 : c.s1 ∈ c.net.places := by rw [hp.s1]; exact (hp.net.places _).2 (.inl ha.source_mem)
  have p2 : c.e1 ∈ c.net.places := by rw [hp.e1]; exact (hp.net.places _).2 (.inl ha.sink_mem)
  have p3 : c.s2 ∈ c.net.places := by rw [hp.s2]; exact (hp.net.places _).2 (.inr ⟨s2, hb.source_mem, rfl⟩)
  have p4 : c.e2 ∈ c.net.places := by rw [hp.e2]; exact (hp.net.places _).2 (.inr ⟨e2, hb.sink_mem, rfl⟩)
  unfold parallel
  simp only [hc, Except.bind, bind]
  generalize c.s1 ++ "," ++ c.s2 = S
  generalize c.e1 ++ "," ++ c.e2 = E
  rcases addPlace_cases c.net S with ⟨q, h1⟩ | ⟨_, n1, h1⟩
  · right; simp only [h1]; exact ⟨trivial, .inl q⟩
  obtain ⟨_, k1⟩ := (Added.refl hp.net.wf hp.net.tokens).addPlace h1
  simp only [h1]
  rcases addTransition_cases n1 c.s1 with ⟨q, h2⟩ | ⟨_, n2, h2⟩
  · right; simp only [h2]; exact ⟨trivial, .inr (.inl (by rw [k1.trans] at q; simpa using q))⟩
  simp only [h2]
  have k2 := (k1.addTransition h2).2
  obtain ⟨n3, h3⟩ := addConnection_total (n := n2) (s := S) (t := c.s1) (e := c.s1) (by rw [k2.places]; simp) (by rw [k2.trans]; simp)
    (by rw [k2.places]; exact List.mem_append_left _ p1)
  simp only [h3]
  have k3 := k2.addConnection 0 rfl h3
  obtain ⟨n4, h4⟩ := addConnection_total (n := n3) (s := S) (t := c.s1) (e := c.s2) (by rw [k3.places]; simp) (by rw [k3.trans]; simp)
    (by rw [k3.places]; exact List.mem_append_left _ p3)
  simp only [h4]
  have k4 := k3.addConnection 0 rfl h4
  rcases addPlace_cases n4 E with ⟨q, h5⟩ | ⟨_, n5, h5⟩
  · right; simp only [h5]; exact ⟨trivial, .inr (.inr (.inl (by rw [k4.places] at q; exact q)))⟩
  simp only [h5]
  have k5 := (k4.addPlace h5).2
  rcases addTransition_cases n5 E with ⟨q, h6⟩ | ⟨_, n6, h6⟩
  · right; simp only [h6]; exact ⟨trivial, .inr (.inr (.inr (by rw [k5.trans] at q; exact q)))⟩
  simp only [h6]
  have k6 := (k5.addTransition h6).2
  obtain ⟨n7, h7⟩ := addConnection_total (n := n6) (s := c.e1) (t := E) (e := E) (by rw [k6.places]; simp [p2]) (by rw [k6.trans]; simp)
    (by rw [k6.places]; simp)
  simp only [h7]
  have k7 := k6.addConnection 1 rfl h7
  obtain ⟨n8, h8⟩ := addConnection_total (n := n7) (s := c.e2) (t := E) (e := E) (by rw [k7.places]; simp [p4]) (by rw [k7.trans]; simp)
    (by rw [k7.places]; simp)
  simp only [h8]
  left
  exact ⟨_, mkPattern_ok (parallel_glue ha hb hp h1 h2 h3 h4 h5 h6 h7 h8).2.1⟩

/-- a parallel composition of well-formed patterns can be refused only with a ValueError -/
theorem C109_parallel_total {a b : Pattern} (ha : a.Valid) (hb : b.Valid) : (∃ r, parallel a b = .ok r) ∨ parallel a b = .error .value := by
  obtain ⟨s1, e1, ha⟩ := ha
  obtain ⟨s2, e2, hb⟩ := hb
  obtain ⟨c, f, g, hc, hp⟩ := prepare_ok ha hb
  exact (parallel_cases ha hb hc hp).imp_right And.left

/-- the composition is always refused if a transition of the first pattern has the id of its source place -/
theorem C109_parallel_clash {a b : Pattern} {s : String} (ha : a.Valid) (hb : b.Valid)
    (hs : IsSource a.net.transitions a.net.pre a.net.post s) (ht : s ∈ a.net.transitions) : parallel a b = .error .value := by
  rcases C109_parallel_total ha hb with ⟨r, hr⟩ | h
  · exfalso
    obtain ⟨s1, e1, ha⟩ := ha
    obtain ⟨s2, e2, hb⟩ := hb
    obtain rfl := (ha.source s).1 hs
    obtain ⟨c, f, g, hc, hp⟩ := prepare_ok ha hb
    unfold parallel at hr
    obtain ⟨c', hc', hr⟩ := bind_eq_ok hr
    obtain rfl := Except.ok.inj (hc.symm.trans hc')
    obtain ⟨n1, h1, hr⟩ := bind_eq_ok hr
    obtain ⟨n2, h2, hr⟩ := bind_eq_ok hr
    have k1 := ((Added.refl hp.net.wf hp.net.tokens).addPlace h1).2
    refine (k1.addTransition h2).1 ?_
    rw [k1.trans, hp.s1]
    exact List.mem_append_left _ ((hp.net.trans _).2 (.inl ht))
  · exact h

/-- the net `n` consists of the net of `a`, new places and new transitions -/
theorem extend_part {a : Pattern} {s e : String} (ha : a.Good s e) {n : Net} {ps : List String} {ts : List (String × List String × List String)}
    (hn : Added a.net n ps ts) (h : Heap) (s' e' : String) :
    Part (a.sys h s e) (Pattern.sys h ⟨n, a.map⟩ s' e') (· ∈ a.net.places) id id where
  inj := fun _ _ _ _ h => h
  ok := fun t ht => ⟨by show t ∈ n.transitions; rw [hn.trans]; exact List.mem_append_left _ ht.1, by show (n.guard t).accept h = _; rw [(hn.old t ht.1).2.2.1]; exact ht.2⟩
  pre := fun t ht x => by
    show x ∈ n.pre t ↔ _
    rw [(hn.old t ht.1).1]
    exact ⟨fun hx => ⟨x, hx, rfl⟩, fun ⟨p, hx, he⟩ => he ▸ hx⟩
  post := fun t ht x => by
    show x ∈ n.post t ↔ _
    rw [(hn.old t ht.1).2.1]
    exact ⟨fun hx => ⟨x, hx, rfl⟩, fun ⟨p, hx, he⟩ => he ▸ hx⟩
  obs := fun t ht => by
    show (if n.visible t then some (n.transLabel t, a.map.get? t) else none) = if a.net.visible t then some (a.net.transLabel t, a.map.get? t) else none
    rw [(hn.old t ht.1).2.2.2.1, (hn.old t ht.1).2.2.2.2]
  pre_pl := fun t ht => (ha.wf.pre t ht.1).2
  post_pl := fun t ht => (ha.wf.post t ht.1).2
  pre_ne := fun t ht => ha.pre_ne t ht.1
  src_pl := ha.source_mem
  snk_pl := ha.sink_mem
  snk_out := fun t ht hx => ((ha.sink e).2 rfl).2 ⟨t, ht.1, hx⟩

theorem extend_pre {n0 n : Net} {ps : List String} {ts : List (String × List String × List String)} (hn : Added n0 n ps ts) (x : String) :
    (InPre n x ↔ InPre n0 x ∨ ∃ y ∈ ts, x ∈ y.2.1) ∧ (InPost n x ↔ InPost n0 x ∨ ∃ y ∈ ts, x ∈ y.2.2) := by
  have ht : ∀ t, t ∈ n.transitions ↔ t ∈ n0.transitions ∨ t ∈ ts.map Prod.fst := fun t => by rw [hn.trans, List.mem_append]
  refine ⟨⟨?_, ?_⟩, ?_, ?_⟩
  · rintro ⟨t, h1, hx⟩
    rcases (ht t).1 h1 with h1 | h1
    · rw [(hn.old t h1).1] at hx; exact .inl ⟨t, h1, hx⟩
    · obtain ⟨y, hy, rfl⟩ := List.mem_map.1 h1
      rw [(hn.new y hy).1] at hx; exact .inr ⟨y, hy, hx⟩
  · rintro (⟨t, h1, hx⟩ | ⟨y, hy, hx⟩)
    · exact ⟨t, (ht t).2 (.inl h1), by rw [(hn.old t h1).1]; exact hx⟩
    · exact ⟨y.1, (ht _).2 (.inr (List.mem_map.2 ⟨y, hy, rfl⟩)), by rw [(hn.new y hy).1]; exact hx⟩
  · rintro ⟨t, h1, hx⟩
    rcases (ht t).1 h1 with h1 | h1
    · rw [(hn.old t h1).2.1] at hx; exact .inl ⟨t, h1, hx⟩
    · obtain ⟨y, hy, rfl⟩ := List.mem_map.1 h1
      rw [(hn.new y hy).2.1] at hx; exact .inr ⟨y, hy, hx⟩
  · rintro (⟨t, h1, hx⟩ | ⟨y, hy, hx⟩)
    · exact ⟨t, (ht t).2 (.inl h1), by rw [(hn.old t h1).2.1]; exact hx⟩
    · exact ⟨y.1, (ht _).2 (.inr (List.mem_map.2 ⟨y, hy, rfl⟩)), by rw [(hn.new y hy).2.1]; exact hx⟩

theorem extend_names {a : Pattern} {s e : String} (ha : a.Good s e) {n : Net} {ps : List String} {ts : List (String × List String × List String)}
    (hn : Added a.net n ps ts) : ∀ t ∈ n.transitions, n.visible t = true → ∃ x, a.map.get? t = some x := by
  intro t ht hv
  rw [hn.trans, List.mem_append] at ht
  rcases ht with ht | ht
  · rw [(hn.old t ht).2.2.2.1] at hv; exact ha.names t ht hv
  · obtain ⟨y, hy, rfl⟩ := List.mem_map.1 ht
    rw [(hn.new y hy).2.2.2] at hv; cases hv

theorem repetition_of {a : Pattern} {s e : String} (ha : a.Good s e) :
    ∃ r, repetition a = .ok r ∧ ∃ s' e' tS tE tR, r.Good s' e' ∧
      ∀ h, RepOf (a.sys h s e) (r.sys h s' e') (· ∈ a.net.places) id id tS tE tR := by
  obtain ⟨n0, h0, k0, ss1, ss2⟩ : ∃ n0, copied a.net = .ok n0 ∧ Added a.net n0 [] [] ∧ n0.sourceSink.1 = [s] ∧ n0.sourceSink.2 = [e] := by
    obtain ⟨v, h0⟩ := copied_ok ha.wf ha.tokens
    have := Added.refl (wf_vars ha.wf v) ha.tokens
    exact ⟨_, h0, ⟨this.wf, this.tokens, by simp, by simp, fun _ _ => ⟨rfl, rfl, rfl, rfl, rfl⟩, by simp⟩, sources_eq ha.source, sinks_eq ha.sink⟩
  unfold repetition
  simp only [h0, Except.bind, bind, ss1, ss2, popSet]
  obtain ⟨s', hs', fs'⟩ := makeIdUnique_ok n0.places s
  rcases addPlace_cases n0 s' with ⟨h, _⟩ | ⟨_, n1, h1⟩
  · exact absurd h fs'
  have k1 := (k0.addPlace h1).2
  obtain ⟨e', he', fe'⟩ := makeIdUnique_ok n1.places e
  rcases addPlace_cases n1 e' with ⟨h, _⟩ | ⟨_, n2, h2⟩
  · exact absurd h fe'
  have k2 := (k1.addPlace h2).2
  obtain ⟨tS, ht1, ft1⟩ := makeIdUnique_ok n2.transitions s
  rcases addTransition_cases n2 tS with ⟨h, _⟩ | ⟨_, n3, h3⟩
  · exact absurd h ft1
  have k3 := (k2.addTransition h3).2
  obtain ⟨tE, ht2, ft2⟩ := makeIdUnique_ok n3.transitions e
  rcases addTransition_cases n3 tE with ⟨h, _⟩ | ⟨_, n4, h4⟩
  · exact absurd h ft2
  have k4 := (k3.addTransition h4).2
  obtain ⟨tR, ht3, ft3⟩ := makeIdUnique_ok n4.transitions (s ++ "," ++ e)
  rcases addTransition_cases n4 tR with ⟨h, _⟩ | ⟨_, n5, h5⟩
  · exact absurd h ft3
  have k5 := (k4.addTransition h5).2
  obtain ⟨n6, h6⟩ := addConnection_total (n := n5) (s := s') (t := tS) (e := s) (by rw [k5.places]; simp) (by rw [k5.trans]; simp)
    (by rw [k5.places]; exact List.mem_append_left _ ha.source_mem)
  have k6 := k5.addConnection 0 rfl h6
  obtain ⟨n7, h7⟩ := addConnection_total (n := n6) (s := e) (t := tE) (e := e') (by rw [k6.places]; exact List.mem_append_left _ ha.sink_mem)
    (by rw [k6.trans]; simp) (by rw [k6.places]; simp)
  have k7 := k6.addConnection 1 rfl h7
  obtain ⟨n8, h8⟩ := addConnection_total (n := n7) (s := e) (t := tR) (e := s) (by rw [k7.places]; exact List.mem_append_left _ ha.sink_mem)
    (by rw [k7.trans]; simp) (by rw [k7.places]; exact List.mem_append_left _ ha.source_mem)
  have k8 : Added a.net n8 [s', e'] [(tS, [s'], [s]), (tE, [e], [e']), (tR, [e], [s])] := k7.addConnection 2 rfl h8
  have hs'a : s' ∉ a.net.places := by rw [k0.places, List.append_nil] at fs'; exact fs'
  rw [k1.places, List.mem_append, not_or] at fe'
  have he'a : e' ∉ a.net.places := fe'.1
  have hne : s' ≠ e' := fun h => fe'.2 (by simp [h])
  have out : ∀ x, x ∉ a.net.places → ¬ InPre a.net x ∧ ¬ InPost a.net x := fun x hx =>
    ⟨fun ⟨t, ht, hp⟩ => hx ((ha.wf.pre t ht).2 x hp), fun ⟨t, ht, hp⟩ => hx ((ha.wf.post t ht).2 x hp)⟩
  have hsm := ha.source_mem
  have hem := ha.sink_mem
  have hg : Pattern.Good ⟨n8, a.map⟩ s' e' := by
    refine ⟨k8.wf, k8.tokens, ?_, ?_, ?_, extend_names ha k8⟩
    · intro x
      show IsSource n8.transitions n8.pre n8.post x ↔ _
      rw [isSource_iff, (extend_pre k8 x).1, (extend_pre k8 x).2]
      simp only [List.mem_cons, List.not_mem_nil, or_false, exists_eq_or_imp, exists_eq_left]
      constructor
      · rintro ⟨h1 | rfl | rfl | rfl, h2⟩
        · have := (ha.source x).1 ⟨h1, fun h => h2 (.inl h)⟩
          exact absurd (.inr (.inl this)) h2
        · rfl
        · exact absurd (.inl ((ha.sink x).2 rfl).1) h2
        · exact absurd (.inl ((ha.sink x).2 rfl).1) h2
      · rintro rfl
        refine ⟨.inr (.inl rfl), ?_⟩
        rintro (h | rfl | h | rfl)
        · exact (out _ hs'a).2 h
        · exact hs'a hsm
        · exact hne h
        · exact hs'a hsm
    · intro x
      show IsSink n8.transitions n8.pre n8.post x ↔ _
      rw [isSink_iff, (extend_pre k8 x).1, (extend_pre k8 x).2]
      simp only [List.mem_cons, List.not_mem_nil, or_false, exists_eq_or_imp, exists_eq_left]
      constructor
      · rintro ⟨h1 | rfl | rfl | rfl, h2⟩
        · have := (ha.sink x).1 ⟨h1, fun h => h2 (.inl h)⟩
          exact absurd (.inr (.inr (.inl this))) h2
        · exact absurd (.inl ((ha.source x).2 rfl).1) h2
        · rfl
        · exact absurd (.inl ((ha.source x).2 rfl).1) h2
      · rintro rfl
        refine ⟨.inr (.inr (.inl rfl)), ?_⟩
        rintro (h | h | rfl | rfl)
        · exact (out _ he'a).1 h
        · exact hne h.symm
        · exact he'a hem
        · exact he'a hem
    · intro t ht
      show n8.pre t ≠ []
      have ht : t ∈ n8.transitions := ht
      rw [k8.trans, List.mem_append] at ht
      rcases ht with ht | ht
      · rw [(k8.old t ht).1]; exact ha.pre_ne t ht
      · obtain ⟨y, hy, rfl⟩ := List.mem_map.1 ht
        rw [(k8.new y hy).1]
        simp only [List.mem_cons, List.not_mem_nil, or_false] at hy
        rcases hy with rfl | rfl | rfl <;> simp
  refine ⟨⟨n8, a.map⟩, ?_, s', e', tS, tE, tR, hg, fun h => ?_⟩
  · simp only [hs', h1, he', h2, ht1, h3, ht2, h4, ht3, h5, h6, h7, h8]
    exact mkPattern_ok hg
  have okn : ∀ y ∈ [(tS, [s'], [s]), (tE, [e], [e']), (tR, [e], [s])],
      (Pattern.sys h ⟨n8, a.map⟩ s' e').ok y.1 ∧ (Pattern.sys h ⟨n8, a.map⟩ s' e').obs y.1 = none ∧
      (∀ x, x ∈ (Pattern.sys h ⟨n8, a.map⟩ s' e').pre y.1 ↔ x ∈ y.2.1) ∧ ∀ x, x ∈ (Pattern.sys h ⟨n8, a.map⟩ s' e').post y.1 ↔ x ∈ y.2.2 := by
    intro y hy
    refine ⟨⟨?_, ?_⟩, ?_, ?_, ?_⟩
    · show y.1 ∈ n8.transitions
      rw [k8.trans]; exact List.mem_append_right _ (List.mem_map.2 ⟨y, hy, rfl⟩)
    · show (n8.guard y.1).accept h = _
      rw [(k8.new y hy).2.2.1]; exact accept_always rfl
    · show (if n8.visible y.1 then _ else _) = none
      rw [(k8.new y hy).2.2.2]; rfl
    · intro x; show x ∈ n8.pre y.1 ↔ _; rw [(k8.new y hy).1]
    · intro x; show x ∈ n8.post y.1 ↔ _; rw [(k8.new y hy).2.1]
  obtain ⟨b1, b2, b3, b4⟩ := okn (tS, [s'], [s]) (by simp)
  obtain ⟨c1, c2, c3, c4⟩ := okn (tE, [e], [e']) (by simp)
  obtain ⟨d1, d2, d3, d4⟩ := okn (tR, [e], [s]) (by simp)
  simp only [List.mem_singleton] at b3 b4 c3 c4 d3 d4
  exact
    { a := extend_part ha k8 h s' e'
      src_new := fun p hp he => hs'a (by rw [← show p = s' from he]; exact hp)
      snk_new := fun p hp he => he'a (by rw [← show p = e' from he]; exact hp)
      ne := hne
      okS := b1, okE := c1, okR := d1
      ok := fun u hu => by
        have h1 : u ∈ n8.transitions := hu.1
        rw [k8.trans, List.mem_append] at h1
        rcases h1 with h1 | h1
        · left
          refine ⟨u, ⟨h1, ?_⟩, rfl⟩
          have h2 : (n8.guard u).accept h = _ := hu.2
          rw [(k8.old u h1).2.2.1] at h2
          exact h2
        · right; simpa using h1
      preS := b3, postS := b4, preE := c3, postE := c4, preR := d3, postR := d4
      obsS := b2, obsE := c2, obsR := d2 }

/-- the repetition of a well-formed pattern exists, is well-formed, its executions consist of one or more executions of the pattern, one after
the other, and it completes properly, if the pattern completes properly -/
theorem C110_repetition {a : Pattern} (ha : a.Valid) :
    ∃ r, repetition a = .ok r ∧ r.Valid ∧ ∀ h, a.Clean h →
      (∀ w, r.Words h w ↔ ∃ ws : List (List (String × Option String)), ws ≠ [] ∧ (∀ u ∈ ws, a.Words h u) ∧ w = ws.flatten) ∧ r.Clean h := by
  obtain ⟨s, e, ha⟩ := ha
  obtain ⟨r, hr, s', e', tS, tE, tR, hg, hs⟩ := repetition_of ha
  refine ⟨r, hr, ⟨_, _, hg⟩, fun h hA => ?_⟩
  rw [ha.clean] at hA
  refine ⟨fun w => ?_, hg.clean.2 ((hs h).proper hA)⟩
  rw [hg.words, (hs h).lang hA]
  simp only [ha.words]

/-- the net of a choice, before the sinks are joined -/
theorem choice_open {a b : Pattern} {s1 e1 s2 e2 : String} (ha : a.Good s1 e1) (hb : b.Good s2 e2) {c : Prep} {f g : String → String}
    (hp : Prepared a b s1 e1 s2 e2 f g c) {S t1 t2 : String} {n1 n2 n3 n4 n5 : Net} (h1 : c.net.addPlace S "" 0 = .ok n1)
    (h2 : n1.addTransition t1 none false = .ok n2) (h3 : n2.addTransition t2 none false = .ok n3) (h4 : n3.addConnection S t1 c.s1 = .ok n4)
    (h5 : n4.addConnection S t2 c.s2 = .ok n5) :
    Added c.net n5 [S] [(t1, [S], [s1]), (t2, [S], [f s2])] ∧ (∀ p ∈ a.net.places, p ≠ S) ∧ (∀ p ∈ b.net.places, f p ≠ S) ∧
      (∀ x, IsSource n5.transitions n5.pre n5.post x ↔ x = S) ∧ ∀ x, IsSink n5.transitions n5.pre n5.post x ↔ x = e1 ∨ x = f e2 := by
  obtain ⟨hS, k1⟩ := (Added.refl hp.net.wf hp.net.tokens).addPlace h1
  have k2 := (k1.addTransition h2).2
  have k3 := (k2.addTransition h3).2
  have k4 := k3.addConnection 0 rfl h4
  have k5 := k4.addConnection 1 rfl h5
  rw [hp.s2, hp.s1] at k5
  have k5 : Added c.net n5 [S] [(t1, [S], [s1]), (t2, [S], [f s2])] := k5
  have hA : ∀ p ∈ a.net.places, p ≠ S := fun p h he => hS ((hp.net.places _).2 (.inl (he ▸ h)))
  have hB : ∀ p ∈ b.net.places, f p ≠ S := fun p h he => hS ((hp.net.places _).2 (.inr ⟨p, h, he⟩))
  have hG := hp.glue ha hb k5
  have nA := hG.not_a (x := S) fun h => hA S h rfl
  have nB := hG.not_b' (x := S) hB
  refine ⟨k5, hA, hB, ?_, ?_⟩
  · intro x
    rw [hG.source_iff]
    simp only [List.mem_cons, List.not_mem_nil, or_false, exists_eq_or_imp, exists_eq_left, or_self]
    constructor
    · rintro (⟨rfl | rfl, h3⟩ | ⟨rfl, h3, h4, h5⟩)
      · exact absurd (.inl rfl) h3
      · exact absurd (.inr rfl) h3
      · rfl
    · rintro rfl
      refine .inr ⟨rfl, ?_, nA.2, nB.2⟩
      rintro (h | h)
      · exact hA _ ha.source_mem h.symm
      · exact hB _ hb.source_mem h.symm
  · intro x
    rw [hG.sink_iff]
    simp only [List.mem_cons, List.not_mem_nil, or_false, exists_eq_or_imp, exists_eq_left, or_self]
    constructor
    · rintro (⟨h, h3⟩ | ⟨rfl | rfl, h3, h4, h5⟩)
      · exact h
      · exact absurd ((ha.source x).2 rfl).1 h4
      · exact absurd ⟨s2, ((hb.source s2).2 rfl).1, rfl⟩ h5
    · rintro (rfl | rfl)
      · exact .inl ⟨.inl rfl, hA _ ha.sink_mem⟩
      · exact .inl ⟨.inr rfl, hB _ hb.sink_mem⟩

/-- the net of a choice -/
theorem choice_glue {a b : Pattern} {s1 e1 s2 e2 : String} (ha : a.Good s1 e1) (hb : b.Good s2 e2) {c : Prep} {f g : String → String}
    (hp : Prepared a b s1 e1 s2 e2 f g c) {S t1 t2 : String} {n1 n2 n3 n4 n5 n6 n7 : Net} (h1 : c.net.addPlace S "" 0 = .ok n1)
    (h2 : n1.addTransition t1 none false = .ok n2) (h3 : n2.addTransition t2 none false = .ok n3) (h4 : n3.addConnection S t1 c.s1 = .ok n4)
    (h5 : n4.addConnection S t2 c.s2 = .ok n5) (h6 : copied n5 = .ok n6) (h7 : toWorkflow n6 = .ok n7) :
    ∃ E us, Glue a b s1 e1 s2 e2 f g [S, E] ((t1, [S], [s1]) :: (t2, [S], [f s2]) :: us) n7 c.map ∧
      Pattern.Good ⟨n7, c.map⟩ S E ∧ S ≠ E ∧ (∀ p ∈ a.net.places, p ≠ S ∧ p ≠ E) ∧ (∀ p ∈ b.net.places, f p ≠ S ∧ f p ≠ E) ∧
      (∀ x ∈ us, (x.2.1 = [e1] ∨ x.2.1 = [f e2]) ∧ x.2.2 = [E]) ∧ (∃ x ∈ us, x.2.1 = [e1]) ∧ ∃ x ∈ us, x.2.1 = [f e2] := by
  obtain ⟨k5, hA, hB, hsrc, hsnk⟩ := choice_open ha hb hp h1 h2 h3 h4 h5
  have hne : e1 ≠ f e2 := fun h => hp.net.new _ hb.sink_mem (h ▸ ha.sink_mem)
  obtain ⟨v, h6'⟩ := copied_ok k5.wf k5.tokens
  rw [h6] at h6'
  have h6 := Except.ok.inj h6'
  have w6 : n6.WF := by rw [h6]; exact wf_vars k5.wf v
  have ss1 : n6.sourceSink.1 = [S] := by rw [h6]; exact sources_eq hsrc
  have ss2 : ∀ x, x ∈ n6.sourceSink.2 ↔ x = e1 ∨ x = f e2 := by
    intro x; rw [mem_sink, ← hsnk x, h6]
  have nd := nodup_sink n6
  have hlen : n6.sourceSink.2.length > 1 := by
    match hl : n6.sourceSink.2, (ss2 e1).2 (.inl rfl), (ss2 (f e2)).2 (.inr rfl) with
    | [], h, _ => cases h
    | [x], ha, hb =>
      rw [List.mem_singleton] at ha hb
      exact absurd (ha.trans hb.symm) hne
    | _ :: _ :: _, _, _ => simp
  rw [toWorkflow_eq, ss1, if_neg (by simp)] at h7
  replace h7 : newSink n6 n6.sourceSink.2 = .ok n7 := by
    rw [← h7]
    show _ = if n6.sourceSink.2.length > 1 then newSink n6 n6.sourceSink.2 else Except.ok n6
    rw [if_pos hlen]
  obtain ⟨hE, w7, hgr⟩ := newSink_grown w6 h7
  generalize ",".intercalate n6.sourceSink.2 = E at hE hgr
  obtain ⟨ts, ht, hold, hnew, hall⟩ := hgr.trans
  have hpl : n7.places = n5.places ++ [E] := by rw [hgr.places]; show n6.places ++ [E] = _; rw [h6]
  have htr : n7.transitions = n5.transitions ++ ts := by rw [ht]; show n6.transitions ++ ts = _; rw [h6]
  have hE5 : E ∉ n5.places := by rw [h6] at hE; exact hE
  have k7 : Added c.net n7 [S, E] ((t1, [S], [s1]) :: (t2, [S], [f s2]) :: ts.map fun x => (x, n7.pre x, n7.post x)) := by
    have hold' : ∀ x ∈ n5.transitions, n7.pre x = n5.pre x ∧ n7.post x = n5.post x ∧ n7.guard x = n5.guard x ∧ n7.visible x = n5.visible x ∧
        n7.transLabel x = n5.transLabel x := by
      intro x hx
      have := hold x (by show x ∈ n6.transitions; rw [h6]; exact hx)
      rw [h6] at this
      exact this
    refine ⟨w7, ?_, ?_, ?_, ?_, ?_⟩
    · intro p hp
      rw [hgr.tokens]
      show 0 ≤ upd n6.tokens E 0 p
      by_cases he : p = E
      · rw [he, upd_self]
      · rw [upd_ne _ _ he, h6]
        rw [hpl, List.mem_append, List.mem_singleton] at hp
        exact k5.tokens p (hp.resolve_right he)
    · rw [hpl, k5.places, List.append_assoc]; rfl
    · rw [htr, k5.trans, List.append_assoc]
      simp [List.map_map, Function.comp_def]
    · intro t ht
      obtain ⟨q1, q2, q3, q4, q5⟩ := hold' t (by rw [k5.trans]; exact List.mem_append_left _ ht)
      rw [q1, q2, q3, q4, q5]; exact k5.old t ht
    · intro x hx
      have hc : x ∈ [(t1, [S], [s1]), (t2, [S], [f s2])] ∨ x ∈ ts.map fun x => (x, n7.pre x, n7.post x) := by
        simp only [List.mem_cons, List.not_mem_nil, or_false] at hx ⊢; tauto
      rcases hc with hx | hx
      · obtain ⟨q1, q2, q3, q4, q5⟩ := hold' x.1 (by rw [k5.trans]; exact List.mem_append_right _ (List.mem_map.2 ⟨x, hx, rfl⟩))
        rw [q1, q2, q3, q4]; exact k5.new x hx
      · obtain ⟨t, ht, rfl⟩ := List.mem_map.1 hx
        exact ⟨rfl, rfl, (hnew t ht).2.1, (hnew t ht).1⟩
  have hG := hp.glue ha hb k7
  have hSE : S ≠ E := fun h => hE5 (by rw [k5.places, ← h]; simp)
  have hA' : ∀ p ∈ a.net.places, p ≠ S ∧ p ≠ E := fun p h => ⟨hA p h, fun he => hE5 (by
    rw [k5.places]; exact List.mem_append_left _ ((hp.net.places _).2 (.inl (he ▸ h))))⟩
  have hB' : ∀ p ∈ b.net.places, f p ≠ S ∧ f p ≠ E := fun p h => ⟨hB p h, fun he => hE5 (by
    rw [k5.places]; exact List.mem_append_left _ ((hp.net.places _).2 (.inr ⟨p, h, he⟩)))⟩
  have hus : ∀ x ∈ ts.map (fun x => (x, n7.pre x, n7.post x)), (x.2.1 = [e1] ∨ x.2.1 = [f e2]) ∧ x.2.2 = [E] := by
    intro x hx
    obtain ⟨t, ht, rfl⟩ := List.mem_map.1 hx
    obtain ⟨_, _, p, hp, q1, q2⟩ := hnew t ht
    refine ⟨?_, q2⟩
    rcases (ss2 p).1 hp with rfl | rfl
    · exact .inl q1
    · exact .inr q1
  have hu1 : ∃ x ∈ ts.map (fun x => (x, n7.pre x, n7.post x)), x.2.1 = [e1] := by
    obtain ⟨x, hx, q1, _⟩ := hall e1 ((ss2 e1).2 (.inl rfl))
    exact ⟨_, List.mem_map.2 ⟨x, hx, rfl⟩, q1⟩
  have hu2 : ∃ x ∈ ts.map (fun x => (x, n7.pre x, n7.post x)), x.2.1 = [f e2] := by
    obtain ⟨x, hx, q1, _⟩ := hall (f e2) ((ss2 (f e2)).2 (.inr rfl))
    exact ⟨_, List.mem_map.2 ⟨x, hx, rfl⟩, q1⟩
  generalize ts.map (fun x => (x, n7.pre x, n7.post x)) = us at hG hus hu1 hu2
  have npre : ∀ x, (∃ y ∈ (t1, [S], [s1]) :: (t2, [S], [f s2]) :: us, x ∈ y.2.1) ↔ x = S ∨ x = e1 ∨ x = f e2 := by
    intro x
    simp only [List.mem_cons, exists_eq_or_imp, List.not_mem_nil, or_false]
    constructor
    · rintro (h | h | ⟨y, hy, hx⟩)
      · exact .inl h
      · exact .inl h
      · rcases (hus y hy).1 with h | h
        · rw [h, List.mem_singleton] at hx; exact .inr (.inl hx)
        · rw [h, List.mem_singleton] at hx; exact .inr (.inr hx)
    · rintro (h | rfl | rfl)
      · exact .inl h
      · obtain ⟨y, hy, h⟩ := hu1; exact .inr (.inr ⟨y, hy, by rw [h]; simp⟩)
      · obtain ⟨y, hy, h⟩ := hu2; exact .inr (.inr ⟨y, hy, by rw [h]; simp⟩)
  have npost : ∀ x, (∃ y ∈ (t1, [S], [s1]) :: (t2, [S], [f s2]) :: us, x ∈ y.2.2) ↔ x = s1 ∨ x = f s2 ∨ x = E := by
    intro x
    simp only [List.mem_cons, exists_eq_or_imp, List.not_mem_nil, or_false]
    constructor
    · rintro (h | h | ⟨y, hy, hx⟩)
      · exact .inl h
      · exact .inr (.inl h)
      · rw [(hus y hy).2, List.mem_singleton] at hx; exact .inr (.inr hx)
    · rintro (h | h | rfl)
      · exact .inl h
      · exact .inr (.inl h)
      · obtain ⟨y, hy, h⟩ := hu1; exact .inr (.inr ⟨y, hy, by rw [(hus y hy).2]; simp⟩)
  have nA := hG.not_a (x := S) fun h => hA S h rfl
  have nB := hG.not_b' (x := S) hB
  have eA := hG.not_a (x := E) fun h => (hA' E h).2 rfl
  have eB := hG.not_b' (x := E) fun p h => (hB' p h).2
  refine ⟨E, us, hG, hG.good ?_ ?_ ?_, hSE, hA', hB', hus, hu1, hu2⟩
  · intro x
    rw [hG.source_iff, npre, npost]
    constructor
    · rintro (⟨rfl | rfl, h3⟩ | ⟨rfl | rfl | rfl, h3, h4, h5⟩)
      · exact absurd (.inl rfl) h3
      · exact absurd (.inr (.inl rfl)) h3
      · rfl
      · exact absurd ((ha.sink x).2 rfl).1 h4
      · exact absurd ⟨e2, ((hb.sink e2).2 rfl).1, rfl⟩ h5
    · rintro rfl
      refine .inr ⟨.inl rfl, ?_, nA.2, nB.2⟩
      rintro (h | h | h)
      · exact hA _ ha.source_mem h.symm
      · exact hB _ hb.source_mem h.symm
      · exact hSE h
  · intro x
    rw [hG.sink_iff, npre, npost]
    constructor
    · rintro (⟨rfl | rfl, h3⟩ | ⟨rfl | rfl | rfl, h3, h4, h5⟩)
      · exact absurd (.inr (.inl rfl)) h3
      · exact absurd (.inr (.inr rfl)) h3
      · exact absurd ((ha.source x).2 rfl).1 h4
      · exact absurd ⟨s2, ((hb.source s2).2 rfl).1, rfl⟩ h5
      · rfl
    · rintro rfl
      refine .inr ⟨.inr (.inr rfl), ?_, eA.1, eB.1⟩
      rintro (h | h | h)
      · exact hSE h.symm
      · exact (hA' _ ha.sink_mem).2 h.symm
      · exact (hB' _ hb.sink_mem).2 h.symm
  · intro x hx
    rcases List.mem_cons.1 hx with rfl | hx
    · simp
    rcases List.mem_cons.1 hx with rfl | hx
    · simp
    rcases (hus x hx).1 with h | h <;> rw [h] <;> simp

theorem choice_of {a b r : Pattern} {s1 e1 s2 e2 : String} (ha : a.Good s1 e1) (hb : b.Good s2 e2) (hr : choice a b = .ok r) :
    ∃ (f g : String → String) (S E : String) (isS isE : Bool → String → Prop), r.Good S E ∧
      ∀ h, ChoiceOf (fun i : Bool => match i with | true => a.sys h s1 e1 | false => b.sys h s2 e2) (r.sys h S E)
        (fun i : Bool => match i with | true => (· ∈ a.net.places) | false => (· ∈ b.net.places))
        (fun i : Bool => match i with | true => id | false => f) (fun i : Bool => match i with | true => id | false => g) isS isE := by
  obtain ⟨c, f, g, hc, hp⟩ := prepare_ok ha hb
  unfold choice at hr
  obtain ⟨c', hc', hr⟩ := bind_eq_ok hr
  obtain rfl := Except.ok.inj (hc.symm.trans hc')
  obtain ⟨n1, h1, hr⟩ := bind_eq_ok hr
  obtain ⟨t1, _, hr⟩ := bind_eq_ok hr
  obtain ⟨n2, h2, hr⟩ := bind_eq_ok hr
  obtain ⟨t2, _, hr⟩ := bind_eq_ok hr
  obtain ⟨n3, h3, hr⟩ := bind_eq_ok hr
  obtain ⟨n4, h4, hr⟩ := bind_eq_ok hr
  obtain ⟨n5, h5, hr⟩ := bind_eq_ok hr
  obtain ⟨n6, h6, hr⟩ := bind_eq_ok hr
  obtain ⟨n7, h7, hr⟩ := bind_eq_ok hr
  obtain ⟨E, us, hG, hg, hne, hA, hB, hus, ⟨u1, m3, hu1⟩, u2, m4, hu2⟩ := choice_glue ha hb hp h1 h2 h3 h4 h5 h6 h7
  rw [mkPattern_ok hg] at hr
  obtain rfl := Except.ok.inj hr
  generalize c.s1 ++ "," ++ c.s2 = S at *
  refine ⟨f, g, S, E, fun i u => match i with | true => u = t1 | false => u = t2,
    fun i u => ∃ x ∈ us, x.1 = u ∧ match i with | true => x.2.1 = [e1] | false => x.2.1 = [f e2], hg, fun h => ?_⟩
  have key : ∀ y ∈ (t1, [S], [s1]) :: (t2, [S], [f s2]) :: us, (Pattern.sys h ⟨n7, c.map⟩ S E).ok y.1 ∧ (Pattern.sys h ⟨n7, c.map⟩ S E).obs y.1 = none ∧
      (∀ x, x ∈ (Pattern.sys h ⟨n7, c.map⟩ S E).pre y.1 ↔ x ∈ y.2.1) ∧ ∀ x, x ∈ (Pattern.sys h ⟨n7, c.map⟩ S E).post y.1 ↔ x ∈ y.2.2 := fun y hy =>
    ⟨(hG.new_ok h S E hy).1, (hG.new_ok h S E hy).2, fun x => by show x ∈ n7.pre _ ↔ _; rw [(hG.fn y hy).1],
      fun x => by show x ∈ n7.post _ ↔ _; rw [(hG.fn y hy).2.1]⟩
  have m1 : (t1, [S], [s1]) ∈ (t1, [S], [s1]) :: (t2, [S], [f s2]) :: us := by simp
  have m2 : (t2, [S], [f s2]) ∈ (t1, [S], [s1]) :: (t2, [S], [f s2]) :: us := by simp
  have mu : ∀ {x}, x ∈ us → x ∈ (t1, [S], [s1]) :: (t2, [S], [f s2]) :: us := fun h => List.mem_cons_of_mem _ (List.mem_cons_of_mem _ h)
  exact
    { part := fun i => match i with | true => hG.partA h S E | false => hG.partB h S E
      disj := fun i j hij => match i, j, hij with
        | true, true, h => absurd rfl h
        | false, false, h => absurd rfl h
        | true, false, _ => hG.disj
        | false, true, _ => fun p q hp hq he => hG.disj q p hq hp he.symm
      src_new := fun i => match i with | true => fun p hp => (hA p hp).1 | false => fun p hp => (hB p hp).1
      snk_new := fun i => match i with | true => fun p hp => (hA p hp).2 | false => fun p hp => (hB p hp).2
      ne := hne
      okS := fun i => match i with | true => ⟨t1, rfl, (key _ m1).1⟩ | false => ⟨t2, rfl, (key _ m2).1⟩
      okE := fun i => match i with
        | true => ⟨u1.1, ⟨u1, m3, rfl, hu1⟩, (key _ (mu m3)).1⟩
        | false => ⟨u2.1, ⟨u2, m4, rfl, hu2⟩, (key _ (mu m4)).1⟩
      ok := fun u hu => by
        rcases hG.ok_cases hu with ⟨t, h1, h2⟩ | ⟨t, h1, h2⟩ | h1
        · exact .inl ⟨true, t, h1, h2⟩
        · exact .inl ⟨false, t, h1, h2⟩
        · rw [List.map_cons, List.map_cons, List.mem_cons, List.mem_cons] at h1
          rcases h1 with h1 | h1 | h1
          · exact .inr (.inl ⟨true, h1⟩)
          · exact .inr (.inl ⟨false, h1⟩)
          · obtain ⟨x, hx, rfl⟩ := List.mem_map.1 h1
            rcases (hus x hx).1 with h2 | h2
            · exact .inr (.inr ⟨true, x, hx, rfl, h2⟩)
            · exact .inr (.inr ⟨false, x, hx, rfl, h2⟩)
      preS := fun i => match i with
        | true => fun u hu x => by rw [show u = t1 from hu, (key _ m1).2.2.1 x, List.mem_singleton]; rfl
        | false => fun u hu x => by rw [show u = t2 from hu, (key _ m2).2.2.1 x, List.mem_singleton]; rfl
      postS := fun i => match i with
        | true => fun u hu x => by rw [show u = t1 from hu, (key _ m1).2.2.2 x, List.mem_singleton]; rfl
        | false => fun u hu x => by rw [show u = t2 from hu, (key _ m2).2.2.2 x, List.mem_singleton]; rfl
      preE := fun i => match i with
        | true => fun u ⟨y, hy, he, hq⟩ x => by rw [← he, (key _ (mu hy)).2.2.1 x, show y.2.1 = [e1] from hq, List.mem_singleton]; rfl
        | false => fun u ⟨y, hy, he, hq⟩ x => by rw [← he, (key _ (mu hy)).2.2.1 x, show y.2.1 = [f e2] from hq, List.mem_singleton]; rfl
      postE := fun i u ⟨y, hy, he, hq⟩ x => by rw [← he, (key _ (mu hy)).2.2.2 x, (hus y hy).2, List.mem_singleton]; rfl
      obsS := fun i => match i with
        | true => fun u hu => by rw [show u = t1 from hu]; exact (key _ m1).2.1
        | false => fun u hu => by rw [show u = t2 from hu]; exact (key _ m2).2.1
      obsE := fun i u ⟨y, hy, he, hq⟩ => by rw [← he]; exact (key _ (mu hy)).2.1 }

/-- a choice is well-formed, its executions are those of the two patterns, and it completes properly if the two patterns do -/
theorem C111_choice {a b r : Pattern} (ha : a.Valid) (hb : b.Valid) (hr : choice a b = .ok r) :
    r.Valid ∧ ∀ h, (∀ w, r.Words h w ↔ a.Words h w ∨ b.Words h w) ∧ (a.Clean h → b.Clean h → r.Clean h) := by
  obtain ⟨s1, e1, ha⟩ := ha
  obtain ⟨s2, e2, hb⟩ := hb
  obtain ⟨f, g, S, E, isS, isE, hg, hs⟩ := choice_of ha hb hr
  refine ⟨⟨_, _, hg⟩, fun h => ?_⟩
  refine ⟨fun w => ?_, fun hA hB => hg.clean.2 ((hs h).proper fun i => match i with | true => ha.clean.1 hA | false => hb.clean.1 hB)⟩
  rw [hg.words, (hs h).lang, ha.words, hb.words]
  exact ⟨fun ⟨i, hi⟩ => match i, hi with | true, hi => .inl hi | false, hi => .inr hi,
    fun hi => hi.elim (fun hi => ⟨true, hi⟩) fun hi => ⟨false, hi⟩⟩

/-- the new transitions of an interleaving -/
def interNew (s1 e1 s2 e2 S E X S1 S2 E1 E2 : String) : List (String × List String × List String) :=
  [(S, setAdd (setAdd (setAdd [] S) S) S, setAdd (setAdd (setAdd [] S1) S2) X),
   (E, setAdd (setAdd (setAdd [] E1) E2) X, setAdd (setAdd (setAdd [] E) E) E),
   (S1, setAdd (setAdd (setAdd [] S1) S1) X, setAdd (setAdd (setAdd [] s1) X) s1),
   (S2, setAdd (setAdd (setAdd [] S2) S2) X, setAdd (setAdd (setAdd [] s2) X) s2),
   (E1, setAdd (setAdd [] e1) e1, setAdd (setAdd [] E1) X),
   (E2, setAdd (setAdd [] e2) e2, setAdd (setAdd [] E2) X)]

set_option linter.unusedSimpArgs false in
theorem interleaving_added {a b r : Pattern} {s1 e1 s2 e2 : String} (ha : a.Good s1 e1) (hb : b.Good s2 e2)
    (hr : interleaving a b = .ok r) :
    ∃ f g S E X S1 S2 E1 E2 n map, Glue a b s1 e1 s2 e2 f g [S, X, E, S1, S2, E1, E2] (interNew s1 e1 (f s2) (f e2) S E X S1 S2 E1 E2) n map ∧
      ((a.net.places ++ b.net.places.map f) ++ [S, X, E, S1, S2, E1, E2]).Nodup ∧ mkPattern n (.dict map) = .ok r := by
  obtain ⟨c, f, g, hc, hp⟩ := prepare_ok ha hb
  unfold interleaving at hr
  obtain ⟨c', hc', hr⟩ := bind_eq_ok hr
  obtain rfl := Except.ok.inj (hc.symm.trans hc')
  dsimp only at hr
  generalize c.s1 ++ "," ++ c.s2 = S at hr
  generalize S ++ ",px" = X at hr
  generalize c.e1 ++ "," ++ c.e2 = E at hr
  generalize c.s1 ++ "_" = S1 at hr
  generalize c.s2 ++ "_" = S2 at hr
  generalize c.e1 ++ "_" = E1 at hr
  generalize c.e2 ++ "_" = E2 at hr
  have k := Added.refl hp.net.wf hp.net.tokens
  obtain ⟨n, h, hr⟩ := bind_eq_ok hr; replace k := (k.addPlace h).2; clear h; simp only [List.nil_append, List.cons_append] at k
  obtain ⟨n, h, hr⟩ := bind_eq_ok hr; replace k := (k.addTransition h).2; clear h; simp only [List.nil_append, List.cons_append] at k
  obtain ⟨n, h, hr⟩ := bind_eq_ok hr; replace k := (k.addPlace h).2; clear h; simp only [List.nil_append, List.cons_append] at k
  obtain ⟨n, h, hr⟩ := bind_eq_ok hr; replace k := (k.addPlace h).2; clear h; simp only [List.nil_append, List.cons_append] at k
  obtain ⟨n, h, hr⟩ := bind_eq_ok hr; replace k := (k.addTransition h).2; clear h; simp only [List.nil_append, List.cons_append] at k
  obtain ⟨n, h, hr⟩ := bind_eq_ok hr; replace k := (k.addPlace h).2; clear h; simp only [List.nil_append, List.cons_append] at k
  obtain ⟨n, h, hr⟩ := bind_eq_ok hr; replace k := (k.addTransition h).2; clear h; simp only [List.nil_append, List.cons_append] at k
  obtain ⟨n, h, hr⟩ := bind_eq_ok hr; replace k := (k.addPlace h).2; clear h; simp only [List.nil_append, List.cons_append] at k
  obtain ⟨n, h, hr⟩ := bind_eq_ok hr; replace k := (k.addTransition h).2; clear h; simp only [List.nil_append, List.cons_append] at k
  obtain ⟨n, h, hr⟩ := bind_eq_ok hr; replace k := (k.addPlace h).2; clear h; simp only [List.nil_append, List.cons_append] at k
  obtain ⟨n, h, hr⟩ := bind_eq_ok hr; replace k := (k.addTransition h).2; clear h; simp only [List.nil_append, List.cons_append] at k
  obtain ⟨n, h, hr⟩ := bind_eq_ok hr; replace k := (k.addPlace h).2; clear h; simp only [List.nil_append, List.cons_append] at k
  obtain ⟨n, h, hr⟩ := bind_eq_ok hr; replace k := (k.addTransition h).2; clear h; simp only [List.nil_append, List.cons_append] at k
  obtain ⟨n, h, hr⟩ := bind_eq_ok hr; replace k := k.addConnection 0 rfl h; clear h; simp only [List.set_cons_zero, List.set_cons_succ] at k
  obtain ⟨n, h, hr⟩ := bind_eq_ok hr; replace k := k.addConnection 0 rfl h; clear h; simp only [List.set_cons_zero, List.set_cons_succ] at k
  obtain ⟨n, h, hr⟩ := bind_eq_ok hr; replace k := k.addConnection 0 rfl h; clear h; simp only [List.set_cons_zero, List.set_cons_succ] at k
  obtain ⟨n, h, hr⟩ := bind_eq_ok hr; replace k := k.addConnection 2 rfl h; clear h; simp only [List.set_cons_zero, List.set_cons_succ] at k
  obtain ⟨n, h, hr⟩ := bind_eq_ok hr; replace k := k.addConnection 2 rfl h; clear h; simp only [List.set_cons_zero, List.set_cons_succ] at k
  obtain ⟨n, h, hr⟩ := bind_eq_ok hr; replace k := k.addConnection 3 rfl h; clear h; simp only [List.set_cons_zero, List.set_cons_succ] at k
  obtain ⟨n, h, hr⟩ := bind_eq_ok hr; replace k := k.addConnection 3 rfl h; clear h; simp only [List.set_cons_zero, List.set_cons_succ] at k
  obtain ⟨n, h, hr⟩ := bind_eq_ok hr; replace k := k.addConnection 4 rfl h; clear h; simp only [List.set_cons_zero, List.set_cons_succ] at k
  obtain ⟨n, h, hr⟩ := bind_eq_ok hr; replace k := k.addConnection 4 rfl h; clear h; simp only [List.set_cons_zero, List.set_cons_succ] at k
  obtain ⟨n, h, hr⟩ := bind_eq_ok hr; replace k := k.addConnection 5 rfl h; clear h; simp only [List.set_cons_zero, List.set_cons_succ] at k
  obtain ⟨n, h, hr⟩ := bind_eq_ok hr; replace k := k.addConnection 5 rfl h; clear h; simp only [List.set_cons_zero, List.set_cons_succ] at k
  obtain ⟨n, h, hr⟩ := bind_eq_ok hr; replace k := k.addConnection 1 rfl h; clear h; simp only [List.set_cons_zero, List.set_cons_succ] at k
  obtain ⟨n, h, hr⟩ := bind_eq_ok hr; replace k := k.addConnection 1 rfl h; clear h; simp only [List.set_cons_zero, List.set_cons_succ] at k
  obtain ⟨n, h, hr⟩ := bind_eq_ok hr; replace k := k.addConnection 1 rfl h; clear h; simp only [List.set_cons_zero, List.set_cons_succ] at k
  obtain ⟨n, h, hr⟩ := bind_eq_ok hr; replace k := k.addConnection 2 rfl h; clear h; simp only [List.set_cons_zero, List.set_cons_succ] at k
  obtain ⟨n, h, hr⟩ := bind_eq_ok hr; replace k := k.addConnection 3 rfl h; clear h; simp only [List.set_cons_zero, List.set_cons_succ] at k
  rw [hp.s1, hp.s2, hp.e1, hp.e2] at k
  have k : Added c.net n [S, X, E, S1, S2, E1, E2] (interNew s1 e1 (f s2) (f e2) S E X S1 S2 E1 E2) := k
  refine ⟨f, g, S, E, X, S1, S2, E1, E2, n, c.map, hp.glue ha hb k, ?_, hr⟩
  have nd := k.wf.places
  rw [k.places, List.nodup_append] at nd
  rw [List.nodup_append]
  refine ⟨?_, nd.2.1, ?_⟩
  · rw [List.nodup_append]
    refine ⟨ha.wf.places, (List.nodup_map_iff_inj_on hb.wf.places).2 fun x hx y hy he => hp.net.inj x hx y hy he, ?_⟩
    intro x hx y hy he
    obtain ⟨q, hq, rfl⟩ := List.mem_map.1 hy
    exact hp.net.new q hq (he ▸ hx)
  · intro x hx y hy
    refine nd.2.2 x ((hp.net.places x).2 ?_) y hy
    rcases List.mem_append.1 hx with h | h
    · exact .inl h
    · exact .inr (List.mem_map.1 h)

set_option linter.unusedSimpArgs false in
/-- the net of an interleaving is a workflow net, in which a token that reaches the sink leaves at least two tokens behind -/
theorem interleaving_inv {a b r : Pattern} {s1 e1 s2 e2 : String} (ha : a.Good s1 e1) (hb : b.Good s2 e2) (hr : interleaving a b = .ok r) :
    ∃ S E X, r.Good S E ∧ X ≠ E ∧ ∀ h ts m, Run (r.sys h S E).pre (r.sys h S E).post (r.sys h S E).ok (single S) ts m → m X ≥ 1 + m E - m S := by
  obtain ⟨f, g, S, E, X, S1, S2, E1, E2, n, map, hG, nd, hm⟩ := interleaving_added ha hb hr
  rw [List.nodup_append] at nd
  have hdis := nd.2.2
  have hA : ∀ p ∈ a.net.places, ∀ q ∈ [S, X, E, S1, S2, E1, E2], p ≠ q := fun p hp q hq => hdis p (List.mem_append_left _ hp) q hq
  have hB : ∀ p ∈ b.net.places, ∀ q ∈ [S, X, E, S1, S2, E1, E2], f p ≠ q := fun p hp q hq =>
    hdis _ (List.mem_append_right _ (List.mem_map.2 ⟨p, hp, rfl⟩)) q hq
  have hnA : ∀ q ∈ [S, X, E, S1, S2, E1, E2], ¬ InPre a.net q ∧ ¬ InPost a.net q := fun q hq => hG.not_a fun h => hA q h q hq rfl
  have hnB : ∀ q ∈ [S, X, E, S1, S2, E1, E2], (¬ ∃ p, InPre b.net p ∧ f p = q) ∧ ¬ ∃ p, InPost b.net p ∧ f p = q := fun q hq => hG.not_b' fun p hp => hB p hp q hq
  have nds := nd.2.1
  simp only [List.nodup_cons, List.mem_cons, List.not_mem_nil, or_false, not_or, not_false_eq_true, List.nodup_nil, and_true] at nds
  obtain ⟨⟨d1, d2, d3, d4, d5, d6⟩, ⟨d7, d8, d9, d10, d11⟩, ⟨d12, d13, d14, d15⟩, ⟨d16, d17, d18⟩, ⟨d19, d20⟩, d21⟩ := nds
  have as := hA _ ha.source_mem
  have ae := hA _ ha.sink_mem
  have bs := hB _ hb.source_mem
  have be := hB _ hb.sink_mem
  simp only [List.mem_cons, List.not_mem_nil, or_false, forall_eq_or_imp, forall_eq] at as ae bs be
  obtain ⟨as1, as2, as3, as4, as5, as6, as7⟩ := as
  obtain ⟨ae1, ae2, ae3, ae4, ae5, ae6, ae7⟩ := ae
  obtain ⟨bs1, bs2, bs3, bs4, bs5, bs6, bs7⟩ := bs
  obtain ⟨be1, be2, be3, be4, be5, be6, be7⟩ := be
  have ie1 := ((ha.sink e1).2 rfl).1
  have ie2 : ∃ p, InPost b.net p ∧ f p = f e2 := ⟨e2, ((hb.sink e2).2 rfl).1, rfl⟩
  have is1 := ((ha.source s1).2 rfl).1
  have is2 : ∃ p, InPre b.net p ∧ f p = f s2 := ⟨s2, ((hb.source s2).2 rfl).1, rfl⟩
  have npre : ∀ x, (∃ y ∈ interNew s1 e1 (f s2) (f e2) S E X S1 S2 E1 E2, x ∈ y.2.1) ↔
      x = S ∨ x = E1 ∨ x = E2 ∨ x = X ∨ x = S1 ∨ x = S2 ∨ x = e1 ∨ x = f e2 := by
    intro x
    simp only [interNew, List.mem_cons, List.not_mem_nil, or_false, exists_eq_or_imp, exists_eq_left, mem_setAdd, false_or, or_self]
    constructor
    · rintro (h | ((h | h) | h) | (h | h) | (h | h) | h | h) <;> simp [h]
    · rintro (h | h | h | h | h | h | h | h) <;> simp [h]
  have npost : ∀ x, (∃ y ∈ interNew s1 e1 (f s2) (f e2) S E X S1 S2 E1 E2, x ∈ y.2.2) ↔
      x = E ∨ x = S1 ∨ x = S2 ∨ x = X ∨ x = E1 ∨ x = E2 ∨ x = s1 ∨ x = f s2 := by
    intro x
    simp only [interNew, List.mem_cons, List.not_mem_nil, or_false, exists_eq_or_imp, exists_eq_left, mem_setAdd, false_or, or_self]
    constructor
    · rintro (((h | h) | h) | h | ((h | h) | h) | ((h | h) | h) | (h | h) | (h | h)) <;> simp [h]
    · rintro (h | h | h | h | h | h | h | h) <;> simp [h]
  have hg : Pattern.Good ⟨n, map⟩ S E := by
    refine hG.good ?_ ?_ ?_
    · intro x
      rw [hG.source_iff, npre, npost]
      constructor
      · rintro (⟨h | h, h3⟩ | ⟨h | h | h | h | h | h | h | h, h3, h4, h5⟩)
        · exact absurd (by simp [h]) h3
        · exact absurd (by simp [h]) h3
        · exact h
        · exact absurd (by simp [h]) h3
        · exact absurd (by simp [h]) h3
        · exact absurd (by simp [h]) h3
        · exact absurd (by simp [h]) h3
        · exact absurd (by simp [h]) h3
        · exact absurd (h ▸ ie1) h4
        · exact absurd (h ▸ ie2) h5
      · rintro rfl
        refine .inr ⟨.inl rfl, ?_, (hnA _ (by simp)).2, (hnB _ (by simp)).2⟩
        rintro (h | h | h | h | h | h | h | h)
        · exact d2 h
        · exact d3 h
        · exact d4 h
        · exact d1 h
        · exact d5 h
        · exact d6 h
        · exact as1 h.symm
        · exact bs1 h.symm
    · intro x
      rw [hG.sink_iff, npre, npost]
      constructor
      · rintro (⟨h | h, h3⟩ | ⟨h | h | h | h | h | h | h | h, h3, h4, h5⟩)
        · exact absurd (by simp [h]) h3
        · exact absurd (by simp [h]) h3
        · exact h
        · exact absurd (by simp [h]) h3
        · exact absurd (by simp [h]) h3
        · exact absurd (by simp [h]) h3
        · exact absurd (by simp [h]) h3
        · exact absurd (by simp [h]) h3
        · exact absurd (h ▸ is1) h4
        · exact absurd (h ▸ is2) h5
      · rintro rfl
        refine .inr ⟨.inl rfl, ?_, (hnA _ (by simp)).1, (hnB _ (by simp)).1⟩
        rintro (h | h | h | h | h | h | h | h)
        · exact d2 h.symm
        · exact d14 h
        · exact d15 h
        · exact d7 h.symm
        · exact d12 h
        · exact d13 h
        · exact ae3 h.symm
        · exact be3 h.symm
    · intro y hy hn
      have : ∃ x, x ∈ y.2.1 := by
        simp only [interNew, List.mem_cons, List.not_mem_nil, or_false] at hy
        rcases hy with rfl | rfl | rfl | rfl | rfl | rfl <;> exact ⟨_, mem_setAdd.2 (.inr rfl)⟩
      obtain ⟨x, hx⟩ := this
      rw [hn] at hx; cases hx
  rw [mkPattern_ok hg] at hm
  obtain rfl := Except.ok.inj hm
  refine ⟨S, E, X, hg, d7, ?_⟩
  intro h ts m hrun
  have pos : ∀ x, 0 ≤ m x := by
    clear * - hrun
    induction hrun with
    | nil => intro x; exact single_nonneg _ _
    | @snoc ts m t _ ho he ih =>
      intro x
      have := ih x
      unfold after
      by_cases hx : x ∈ (Pattern.sys h ⟨n, map⟩ S E).pre t
      · have := he x hx
        rw [if_pos hx]; split <;> omega
      · rw [if_neg hx]; split <;> omega
  suffices m X - m E1 - m E2 - m E + m S = 1 by
    have := pos E1; have := pos E2; omega
  clear pos
  induction hrun with
  | nil =>
    unfold single
    rw [if_neg (Ne.symm d1), if_neg (Ne.symm d5), if_neg (Ne.symm d6), if_neg (Ne.symm d2), if_pos rfl]; rfl
  | @snoc ts m t _ ho _ ih =>
    rcases hG.ok_cases ho with ⟨t, h1, rfl⟩ | ⟨t, h1, rfl⟩ | h1
    · have key : ∀ q ∈ [S, X, E, S1, S2, E1, E2], after (n.pre t) (n.post t) m q = m q := by
        intro q hq
        unfold after
        rw [if_neg, if_neg]
        · ring
        · rw [(hG.fa t h1.1).2.1]; exact fun hx => (hnA q hq).2 ⟨t, h1.1, hx⟩
        · rw [(hG.fa t h1.1).1]; exact fun hx => (hnA q hq).1 ⟨t, h1.1, hx⟩
      show after (n.pre t) (n.post t) m X - after (n.pre t) (n.post t) m E1 - after (n.pre t) (n.post t) m E2 - after (n.pre t) (n.post t) m E +
        after (n.pre t) (n.post t) m S = 1
      rw [key X (by simp), key E1 (by simp), key E2 (by simp), key E (by simp), key S (by simp)]
      exact ih
    · have key : ∀ q ∈ [S, X, E, S1, S2, E1, E2], after (n.pre (g t)) (n.post (g t)) m q = m q := by
        intro q hq
        unfold after
        rw [if_neg, if_neg]
        · ring
        · rw [(hG.fb t h1.1).2.1]
          intro hx
          obtain ⟨p, hp, rfl⟩ := List.mem_map.1 hx
          exact (hnB _ hq).2 ⟨p, ⟨t, h1.1, hp⟩, rfl⟩
        · rw [(hG.fb t h1.1).1]
          intro hx
          obtain ⟨p, hp, rfl⟩ := List.mem_map.1 hx
          exact (hnB _ hq).1 ⟨p, ⟨t, h1.1, hp⟩, rfl⟩
      show after (n.pre (g t)) (n.post (g t)) m X - after (n.pre (g t)) (n.post (g t)) m E1 - after (n.pre (g t)) (n.post (g t)) m E2 -
        after (n.pre (g t)) (n.post (g t)) m E + after (n.pre (g t)) (n.post (g t)) m S = 1
      rw [key X (by simp), key E1 (by simp), key E2 (by simp), key E (by simp), key S (by simp)]
      exact ih
    · obtain ⟨y, hy, rfl⟩ := List.mem_map.1 h1
      show after (n.pre y.1) (n.post y.1) m X - after (n.pre y.1) (n.post y.1) m E1 - after (n.pre y.1) (n.post y.1) m E2 -
        after (n.pre y.1) (n.post y.1) m E + after (n.pre y.1) (n.post y.1) m S = 1
      rw [(hG.fn y hy).1, (hG.fn y hy).2.1]
      unfold after
      simp only [interNew, List.mem_cons, List.not_mem_nil, or_false] at hy
      rcases hy with rfl | rfl | rfl | rfl | rfl | rfl <;>
        simp [mem_setAdd, d1, d2, d3, d4, d5, d6, d7, d8, d9, d10, d11, d12, d13, d14, d15, d16, d17, d18, d19, d20, d21, Ne.symm d1, Ne.symm d2,
          Ne.symm d3, Ne.symm d4, Ne.symm d5, Ne.symm d6, Ne.symm d7, Ne.symm d8, Ne.symm d9, Ne.symm d10, Ne.symm d11, Ne.symm d12, Ne.symm d13,
          Ne.symm d14, Ne.symm d15, Ne.symm d16, Ne.symm d17, Ne.symm d18, Ne.symm d19, Ne.symm d20, Ne.symm d21, Ne.symm as1, Ne.symm as2, Ne.symm as3, Ne.symm as6, Ne.symm as7,
          Ne.symm ae1, Ne.symm ae2, Ne.symm ae3, Ne.symm ae6, Ne.symm ae7, Ne.symm bs1, Ne.symm bs2, Ne.symm bs3, Ne.symm bs6, Ne.symm bs7,
          Ne.symm be1, Ne.symm be2, Ne.symm be3, Ne.symm be6, Ne.symm be7] <;> omega

/-- an interleaving is well-formed, but it has no execution at all: its final marking can never be reached -/
theorem C112_interleaving_never {a b r : Pattern} (ha : a.Valid) (hb : b.Valid) (hr : interleaving a b = .ok r) :
    r.Valid ∧ ∀ h w, ¬ r.Words h w := by
  obtain ⟨s1, e1, ha⟩ := ha
  obtain ⟨s2, e2, hb⟩ := hb
  obtain ⟨S, E, X, hg, hX, hinv⟩ := interleaving_inv ha hb hr
  refine ⟨⟨S, E, hg⟩, fun h w hw => ?_⟩
  obtain ⟨ts, hrun, _⟩ := hg.words.1 hw
  have := hinv h ts _ hrun
  change single E X ≥ 1 + single E E - single E S at this
  unfold single at this
  rw [if_neg hX, if_pos rfl, if_neg hg.ne] at this
  omega

theorem newSink_steps {s : String} : ∀ (l : List String) (n : Net), (∀ p ∈ l, p ∈ n.places) → s ∈ n.places →
    ∃ n', l.foldlM (fun n p => do
      let t ← makeIdUnique n.transitions (n.transitions.length + 1) p
      let n ← n.addTransition t none false
      n.addConnection p t s) n = (.ok n' : Py Net)
  | [], n, _, _ => ⟨n, rfl⟩
  | p :: l, n, hl, hs => by
    obtain ⟨t, h1, h1'⟩ := makeIdUnique_ok n.transitions p
    rcases addTransition_cases n t with ⟨h, _⟩ | ⟨_, n1, h2⟩
    · exact absurd h h1'
    have h2' : n1.places = n.places ∧ n1.transitions = n.transitions ++ [t] := by
      unfold Net.addTransition at h2
      rw [if_neg h1'] at h2
      rw [← Except.ok.inj h2]
      exact ⟨rfl, rfl⟩
    obtain ⟨n2, h3⟩ := addConnection_total (n := n1) (s := p) (t := t) (e := s) (by rw [h2'.1]; exact hl p (by simp)) (by rw [h2'.2]; simp) (by rw [h2'.1]; exact hs)
    have h3' : n2.places = n.places := by
      unfold Net.addConnection at h3
      split at h3
      · cases h3
      split at h3
      · cases h3
      split at h3
      · cases h3
      rw [← Except.ok.inj h3]; exact h2'.1
    obtain ⟨n3, h4⟩ := newSink_steps l n2 (fun q hq => by rw [h3']; exact hl q (List.mem_cons_of_mem _ hq)) (by rw [h3']; exact hs)
    refine ⟨n3, ?_⟩
    rw [List.foldlM_cons, h1]
    show ((n.addTransition t none false >>= fun n => n.addConnection p t s) >>= _) = _
    rw [h2]
    show (n1.addConnection p t s >>= _) = _
    rw [h3]
    exact h4

theorem newSink_cases (n : Net) (l : List String) (hl : ∀ p ∈ l, p ∈ n.places) :
    (",".intercalate l ∈ n.places ∧ newSink n l = .error .value) ∨ (",".intercalate l ∉ n.places ∧ ∃ n', newSink n l = .ok n') := by
  unfold newSink
  rcases addPlace_cases n (",".intercalate l) with ⟨h, h1⟩ | ⟨h, n1, h1⟩
  · left; refine ⟨h, ?_⟩; dsimp only; rw [h1]; rfl
  · right
    refine ⟨h, ?_⟩
    dsimp only
    rw [h1]
    obtain ⟨_, rfl⟩ := addPlace_ok h1
    exact newSink_steps l _ (fun p hp => List.mem_append_left _ (hl p hp)) (by simp [withPlace])

/-- what can happen in a choice: the id of the new source or the new sink exists already -/
theorem choice_cases {a b : Pattern} {s1 e1 s2 e2 : String} (ha : a.Good s1 e1) (hb : b.Good s2 e2) {c : Prep} {f g : String → String}
    (hc : prepare a b = .ok c) (hp : Prepared a b s1 e1 s2 e2 f g c) :
    (∃ r, choice a b = .ok r) ∨ (choice a b = .error .value ∧ (c.s1 ++ "," ++ c.s2 ∈ c.net.places ∨
      c.e1 ++ "," ++ c.e2 ∈ c.net.places ++ [c.s1 ++ "," ++ c.s2] ∨ c.e2 ++ "," ++ c.e1 ∈ c.net.places ++ [c.s1 ++ "," ++ c.s2])) := by
  have p1 : c.s1 ∈ c.net.places := by rw [hp.s1]; exact (hp.net.places _).2 (.inl ha.source_mem)
  have p3 : c.s2 ∈ c.net.places := by rw [hp.s2]; exact (hp.net.places _).2 (.inr ⟨s2, hb.source_mem, rfl⟩)
  unfold choice
  simp only [hc, Except.bind, bind]
  generalize hS : c.s1 ++ "," ++ c.s2 = S
  rcases addPlace_cases c.net S with ⟨hS', h1⟩ | ⟨_, n1, h1⟩
  · right; simp only [h1]; exact ⟨trivial, .inl hS'⟩
  obtain ⟨_, k1⟩ := (Added.refl hp.net.wf hp.net.tokens).addPlace h1
  simp only [h1]
  obtain ⟨t1, u1, u1'⟩ := makeIdUnique_ok n1.transitions c.s1
  simp only [u1]
  rcases addTransition_cases n1 t1 with ⟨h, _⟩ | ⟨_, n2, h2⟩
  · exact absurd h u1'
  simp only [h2]
  have k2 := (k1.addTransition h2).2
  obtain ⟨t2, u2, u2'⟩ := makeIdUnique_ok n2.transitions c.s2
  simp only [u2]
  rcases addTransition_cases n2 t2 with ⟨h, _⟩ | ⟨_, n3, h3⟩
  · exact absurd h u2'
  simp only [h3]
  have k3 := (k2.addTransition h3).2
  obtain ⟨n4, h4⟩ := addConnection_total (n := n3) (s := S) (t := t1) (e := c.s1) (by rw [k3.places]; simp) (by rw [k3.trans]; simp)
    (by rw [k3.places]; exact List.mem_append_left _ p1)
  simp only [h4]
  have k4 := k3.addConnection 0 rfl h4
  obtain ⟨n5, h5⟩ := addConnection_total (n := n4) (s := S) (t := t2) (e := c.s2) (by rw [k4.places]; simp) (by rw [k4.trans]; simp)
    (by rw [k4.places]; exact List.mem_append_left _ p3)
  simp only [h5]
  obtain ⟨k5, hA, hB, hsrc, hsnk⟩ := choice_open ha hb hp h1 h2 h3 h4 h5
  have hne : e1 ≠ f e2 := fun h => hp.net.new _ hb.sink_mem (h ▸ ha.sink_mem)
  obtain ⟨v, h6⟩ := copied_ok k5.wf k5.tokens
  simp only [h6]
  obtain ⟨n6, hn6⟩ : ∃ n6 : Net, n6 = { n5 with vars := v } := ⟨_, rfl⟩
  rw [← hn6] at h6 ⊢
  have ss1 : n6.sourceSink.1 = [S] := by rw [hn6]; exact sources_eq hsrc
  have ss2 : ∀ x, x ∈ n6.sourceSink.2 ↔ x = e1 ∨ x = f e2 := by intro x; rw [mem_sink, ← hsnk x, hn6]
  have nd := nodup_sink n6
  have hl : n6.sourceSink.2 = [e1, f e2] ∨ n6.sourceSink.2 = [f e2, e1] := by
    match hl : n6.sourceSink.2, (ss2 e1).2 (.inl rfl), (ss2 (f e2)).2 (.inr rfl), nd, ss2 with
    | [], h, _, _, _ => cases h
    | [x], ha, hb, _, _ =>
      rw [List.mem_singleton] at ha hb
      exact absurd (ha.trans hb.symm) hne
    | [x, y], ha, hb, _, _ =>
      simp only [List.mem_cons, List.not_mem_nil, or_false] at ha hb
      rcases ha with rfl | rfl <;> rcases hb with hb | hb
      · exact absurd hb.symm hne
      · left; rw [hb]
      · right; rw [hb]
      · exact absurd hb.symm hne
    | x :: y :: z :: l, _, _, nd, h =>
      simp only [List.nodup_cons, List.mem_cons, not_or] at nd
      obtain ⟨⟨q1, q2, _⟩, ⟨q3, _⟩, _⟩ := nd
      have hx := (h x).1 (by simp)
      have hy := (h y).1 (by simp)
      have hz := (h z).1 (by simp)
      rcases hx with rfl | rfl <;> rcases hy with rfl | rfl <;> rcases hz with rfl | rfl <;> first | exact absurd rfl q1 | exact absurd rfl q2 | exact absurd rfl q3
  have hlen : n6.sourceSink.2.length > 1 := by rcases hl with h | h <;> rw [h] <;> simp
  have htw : toWorkflow n6 = newSink n6 n6.sourceSink.2 := by
    rw [toWorkflow_eq, ss1, if_neg (by simp)]
    show (if n6.sourceSink.2.length > 1 then newSink n6 n6.sourceSink.2 else Except.ok n6) = _
    rw [if_pos hlen]
  have hpl : n6.places = c.net.places ++ [S] := by rw [hn6]; exact k5.places
  have hmem : ∀ p ∈ n6.sourceSink.2, p ∈ n6.places := by
    intro p hp'
    rw [hpl]
    apply List.mem_append_left
    rcases (ss2 p).1 hp' with rfl | rfl
    · exact (hp.net.places _).2 (.inl ha.sink_mem)
    · exact (hp.net.places _).2 (.inr ⟨e2, hb.sink_mem, rfl⟩)
  rcases newSink_cases n6 n6.sourceSink.2 hmem with ⟨q1, q2⟩ | ⟨q1, n7, q2⟩
  · right
    rw [htw, q2]
    refine ⟨rfl, .inr ?_⟩
    rw [hp.e1, hp.e2, ← hpl]
    rcases hl with hl | hl
    · left; rw [hl] at q1; exact q1
    · right; rw [hl] at q1; exact q1
  · left
    obtain ⟨E, us, _, hg, _⟩ := choice_glue ha hb hp h1 h2 h3 h4 h5 h6 (htw.trans q2)
    rw [htw, q2]
    exact ⟨_, mkPattern_ok hg⟩

/-- a choice between well-formed patterns can be refused only with a ValueError -/
theorem C111_choice_total {a b : Pattern} (ha : a.Valid) (hb : b.Valid) : (∃ r, choice a b = .ok r) ∨ choice a b = .error .value := by
  obtain ⟨s1, e1, ha⟩ := ha
  obtain ⟨s2, e2, hb⟩ := hb
  obtain ⟨c, f, g, hc, hp⟩ := prepare_ok ha hb
  exact (choice_cases ha hb hc hp).imp_right And.left

/-- an id without a comma -/
def Plain (x : String) : Prop := ',' ∉ x.toList

theorem plain_quote {x : String} (h : Plain x) : Plain (x ++ "'") := by
  unfold Plain at *
  rw [String.toList_append]
  simp only [List.mem_append, not_or]
  exact ⟨h, by decide⟩

theorem not_plain (x y : String) : ¬ Plain (x ++ "," ++ y) := by
  unfold Plain
  rw [String.toList_append, String.toList_append]
  simp

theorem comma_inj {x y z w : String} (hx : Plain x) (hz : Plain z) (h : x ++ "," ++ y = z ++ "," ++ w) : x = z ∧ y = w := by
  have h1 := congrArg String.toList h
  simp only [String.toList_append] at h1
  have key : ∀ {a b c d : List Char}, ',' ∉ a → ',' ∉ c → a ++ ",".toList ++ b = c ++ ",".toList ++ d → a = c ∧ b = d := by
    intro a
    induction a with
    | nil =>
      intro b c d _ hc h
      cases c with
      | nil => exact ⟨rfl, by simpa using h⟩
      | cons x c => simp at h; exact absurd h.1 (fun he => hc (by rw [← he]; exact List.mem_cons_self))
    | cons x a ih =>
      intro b c d ha hc h
      cases c with
      | nil => simp at h; exact absurd h.1 (fun he => ha (by rw [he]; exact List.mem_cons_self))
      | cons y c =>
        simp only [List.cons_append, List.cons.injEq] at h
        simp only [List.mem_cons, not_or] at ha hc
        obtain ⟨h1, h2⟩ := ih ha.2 hc.2 h.2
        exact ⟨by rw [h.1, h1], h2⟩
  obtain ⟨h2, h3⟩ := key hx hz h1
  exact ⟨String.toList_inj.1 h2, String.toList_inj.1 h3⟩

/-- an id that is made unique is the id, followed by a number of quotes -/
theorem makeIdUnique_quotes {existing : List String} {id y : String} (h : makeIdUnique existing (existing.length + 1) id = .ok y) :
    ∃ k, y = (List.replicate k "'").foldl (· ++ ·) id := by
  obtain ⟨k, h1, _⟩ := C67_unique existing id (existing.length + 1) (Nat.lt_succ_self _)
  exact ⟨k, Except.ok.inj (h.symm.trans h1)⟩

theorem renames_quotes : ∀ (l existing : List String) (r : List (String × String)), renames existing l = .ok r →
    ∀ y ∈ r.map Prod.snd, ∃ x ∈ l, ∃ k, y = (List.replicate k "'").foldl (· ++ ·) x
  | [], _, r, h => by obtain rfl := Except.ok.inj h; simp
  | x :: xs, existing, r, h => by
    rw [renames] at h
    obtain ⟨y, h1, h⟩ := bind_eq_ok h
    obtain ⟨r', h2, h⟩ := bind_eq_ok h
    obtain rfl := Except.ok.inj h
    intro z hz
    rw [List.map_cons, List.mem_cons] at hz
    rcases hz with rfl | hz
    · exact ⟨x, by simp, makeIdUnique_quotes h1⟩
    · obtain ⟨x', hx', k, hk⟩ := renames_quotes xs _ r' h2 z hz
      exact ⟨x', List.mem_cons_of_mem _ hx', k, hk⟩

theorem plain_quotes {x : String} (h : Plain x) : ∀ k, Plain ((List.replicate k "'").foldl (· ++ ·) x) := by
  intro k
  induction k generalizing x with
  | zero => exact h
  | succ k ih => rw [List.replicate_succ, List.foldl_cons]; exact ih (plain_quote h)

/-- the ids of the composed net: those of the first pattern, and those of the second pattern, followed by a number of quotes -/
theorem prepare_ids {a b : Pattern} {c : Prep} (hwa : a.net.WF) (hta : ∀ p ∈ a.net.places, 0 ≤ a.net.tokens p) (hwb : b.net.WF)
    (htb : ∀ p ∈ b.net.places, 0 ≤ b.net.tokens p) (h : prepare a b = .ok c) :
    (∀ x ∈ c.net.places, x ∈ a.net.places ∨ ∃ p ∈ b.net.places, ∃ k, x = (List.replicate k "'").foldl (· ++ ·) p) ∧
    ∀ x ∈ c.net.transitions, x ∈ a.net.transitions ∨ ∃ p ∈ b.net.transitions, ∃ k, x = (List.replicate k "'").foldl (· ++ ·) p := by
  obtain ⟨v1, q1⟩ := copied_ok hwa hta
  obtain ⟨v2, q2⟩ := copied_ok hwb htb
  unfold prepare at h
  rw [q1, q2] at h
  obtain ⟨c1, h1, h⟩ := bind_eq_ok h
  obtain ⟨c2, h2, h⟩ := bind_eq_ok h
  obtain ⟨rp, h3, h⟩ := bind_eq_ok h
  obtain ⟨rt, h4, h⟩ := bind_eq_ok h
  obtain ⟨_, h5, h⟩ := bind_eq_ok h
  obtain ⟨_, h6, h⟩ := bind_eq_ok h
  obtain ⟨_, h7, h⟩ := bind_eq_ok h
  obtain ⟨_, h8, h⟩ := bind_eq_ok h
  obtain ⟨_, h9, h⟩ := bind_eq_ok h
  obtain rfl := Except.ok.inj h
  obtain rfl := Except.ok.inj h1
  obtain rfl := Except.ok.inj h2
  constructor
  · intro x hx
    rcases List.mem_append.1 hx with h | h
    · exact .inl h
    · exact .inr (renames_quotes _ _ _ h3 x h)
  · intro x hx
    rcases List.mem_append.1 hx with h | h
    · exact .inl h
    · exact .inr (renames_quotes _ _ _ h4 x h)

theorem prepare_plain {l m : List String} {n : List String} (h : ∀ x ∈ n, x ∈ l ∨ ∃ p ∈ m, ∃ k, x = (List.replicate k "'").foldl (· ++ ·) p)
    (hl : ∀ x ∈ l, Plain x) (hm : ∀ x ∈ m, Plain x) : ∀ x ∈ n, Plain x := by
  intro x hx
  rcases h x hx with h | ⟨p, hp, k, rfl⟩
  · exact hl x h
  · exact plain_quotes (hm p hp) k

/-- two patterns whose transition ids contain no comma can always be composed to a sequence -/
theorem C108_sequence_plain {a b : Pattern} (ha : a.Valid) (hb : b.Valid) (pa : ∀ t ∈ a.net.transitions, Plain t)
    (pb : ∀ t ∈ b.net.transitions, Plain t) : ∃ r, sequence a b = .ok r := by
  rcases C108_sequence_total ha hb with h | h
  · exact h
  · exfalso
    obtain ⟨s1, e1, ha⟩ := ha
    obtain ⟨s2, e2, hb⟩ := hb
    obtain ⟨c, f, g, hc, hp⟩ := prepare_ok ha hb
    have hpl := prepare_plain (prepare_ids ha.wf ha.tokens hb.wf hb.tokens hc).2 pa pb
    unfold sequence at h
    rw [hc] at h
    change (c.net.addTransition _ none false >>= _) = _ at h
    rcases addTransition_cases c.net (c.e1 ++ "," ++ c.s2) with ⟨h1, _⟩ | ⟨_, n1, h1⟩
    · exact not_plain _ _ (hpl _ h1)
    · have k1 := ((Added.refl hp.net.wf hp.net.tokens).addTransition h1).2
      obtain ⟨n2, h2⟩ := addConnection_total (n := n1) (s := c.e1) (t := c.e1 ++ "," ++ c.s2) (e := c.s2)
        (by rw [k1.places, hp.e1]; exact List.mem_append_left _ ((hp.net.places _).2 (.inl ha.sink_mem)))
        (by rw [k1.trans]; simp)
        (by rw [k1.places, hp.s2]; exact List.mem_append_left _ ((hp.net.places _).2 (.inr ⟨s2, hb.source_mem, rfl⟩)))
      rw [h1] at h
      change (n1.addConnection _ _ _ >>= _) = _ at h
      rw [h2] at h
      change mkPattern n2 (.dict c.map) = Except.error _ at h
      rw [mkPattern_ok (sequence_glue ha hb hp h1 h2).2] at h
      cases h

/-- two patterns whose place ids contain no comma can always be composed to a choice -/
theorem C111_choice_plain {a b : Pattern} (ha : a.Valid) (hb : b.Valid) (pa : ∀ t ∈ a.net.places, Plain t)
    (pb : ∀ t ∈ b.net.places, Plain t) : ∃ r, choice a b = .ok r := by
  obtain ⟨s1, e1, ha⟩ := ha
  obtain ⟨s2, e2, hb⟩ := hb
  obtain ⟨c, f, g, hc, hp⟩ := prepare_ok ha hb
  have hpl := prepare_plain (prepare_ids ha.wf ha.tokens hb.wf hb.tokens hc).1 pa pb
  have p1 : c.s1 ∈ c.net.places := by rw [hp.s1]; exact (hp.net.places _).2 (.inl ha.source_mem)
  have p2 : c.e1 ∈ c.net.places := by rw [hp.e1]; exact (hp.net.places _).2 (.inl ha.sink_mem)
  have p3 : c.e2 ∈ c.net.places := by rw [hp.e2]; exact (hp.net.places _).2 (.inr ⟨e2, hb.sink_mem, rfl⟩)
  rcases choice_cases ha hb hc hp with h | ⟨_, h | h | h⟩
  · exact h
  · exact absurd (hpl _ h) (not_plain _ _)
  · rcases List.mem_append.1 h with h | h
    · exact absurd (hpl _ h) (not_plain _ _)
    · rw [List.mem_singleton] at h
      have := (comma_inj (hpl _ p2) (hpl _ p1) h).1
      rw [hp.e1, hp.s1] at this
      exact absurd this.symm ha.ne
  · rcases List.mem_append.1 h with h | h
    · exact absurd (hpl _ h) (not_plain _ _)
    · rw [List.mem_singleton] at h
      have := (comma_inj (hpl _ p3) (hpl _ p1) h).1
      rw [hp.e2, hp.s1] at this
      exact absurd (this ▸ ha.source_mem) (hp.net.new _ hb.sink_mem)

/-- two patterns whose ids contain no comma can be composed in parallel, unless a transition has the id of the source of the first pattern -/
theorem C109_parallel_plain {a b : Pattern} {s : String} (ha : a.Valid) (hb : b.Valid) (pa : ∀ t ∈ a.net.places ++ a.net.transitions, Plain t)
    (pb : ∀ t ∈ b.net.places ++ b.net.transitions, Plain t) (hs : IsSource a.net.transitions a.net.pre a.net.post s)
    (h1 : s ∉ a.net.transitions) (h2 : ∀ t ∈ b.net.transitions, ∀ k, s ≠ (List.replicate k "'").foldl (· ++ ·) t) :
    ∃ r, parallel a b = .ok r := by
  obtain ⟨s1, e1, ha⟩ := ha
  obtain ⟨s2, e2, hb⟩ := hb
  obtain rfl := (ha.source s).1 hs
  obtain ⟨c, f, g, hc, hp⟩ := prepare_ok ha hb
  have hids := prepare_ids ha.wf ha.tokens hb.wf hb.tokens hc
  have hpl := prepare_plain hids.1 (fun x hx => pa x (List.mem_append_left _ hx)) (fun x hx => pb x (List.mem_append_left _ hx))
  have hpt := prepare_plain hids.2 (fun x hx => pa x (List.mem_append_right _ hx)) (fun x hx => pb x (List.mem_append_right _ hx))
  have p1 : c.s1 ∈ c.net.places := by rw [hp.s1]; exact (hp.net.places _).2 (.inl ha.source_mem)
  have p2 : c.e1 ∈ c.net.places := by rw [hp.e1]; exact (hp.net.places _).2 (.inl ha.sink_mem)
  rcases parallel_cases ha hb hc hp with h | ⟨_, h | h | h | h⟩
  · exact h
  · exact absurd (hpl _ h) (not_plain _ _)
  · rw [hp.s1] at h
    rcases hids.2 _ h with h | ⟨t, ht, k, hk⟩
    · exact absurd h h1
    · exact absurd hk (h2 t ht k)
  · rcases List.mem_append.1 h with h | h
    · exact absurd (hpl _ h) (not_plain _ _)
    · rw [List.mem_singleton] at h
      have := (comma_inj (hpl _ p2) (hpl _ p1) h).1
      rw [hp.e1, hp.s1] at this
      exact absurd this.symm ha.ne
  · rcases List.mem_append.1 h with h | h
    · exact absurd (hpt _ h) (not_plain _ _)
    · rw [List.mem_singleton] at h
      exact absurd (h ▸ hpl _ p1) (not_plain _ _)

/-- nested compositions -/
inductive Expr
  | leaf (a : Pattern)
  | seq (x y : Expr)
  | alt (x y : Expr)
  | par (x y : Expr)
  | rep (x : Expr)

/-- the composed pattern -/
def Expr.eval : Expr → Py Pattern
  | .leaf a => .ok a
  | .seq x y => do let a ← x.eval; let b ← y.eval; sequence a b
  | .alt x y => do let a ← x.eval; let b ← y.eval; choice a b
  | .par x y => do let a ← x.eval; let b ← y.eval; parallel a b
  | .rep x => do let a ← x.eval; repetition a

/-- the patterns that are composed satisfy `P` -/
def Expr.All (P : Pattern → Prop) : Expr → Prop
  | .leaf a => P a
  | .seq x y => x.All P ∧ y.All P
  | .alt x y => x.All P ∧ y.All P
  | .par x y => x.All P ∧ y.All P
  | .rep x => x.All P

/-- the executions the expression stands for -/
def Expr.Means (h : Heap) : Expr → List (String × Option String) → Prop
  | .leaf a, w => a.Words h w
  | .seq x y, w => ∃ u v, x.Means h u ∧ y.Means h v ∧ w = u ++ v
  | .alt x y, w => x.Means h w ∨ y.Means h w
  | .par x y, w => ∃ u v, x.Means h u ∧ y.Means h v ∧ Shuffle u v w
  | .rep x, w => ∃ ws : List (List (String × Option String)), ws ≠ [] ∧ (∀ u ∈ ws, x.Means h u) ∧ w = ws.flatten

/-- compositions of well-formed patterns that complete properly are well-formed, complete properly and have the executions the expression
stands for, however deeply they are nested -/
theorem C113_nested (h : Heap) : ∀ (x : Expr) (r : Pattern), x.All (fun a => a.Valid ∧ a.Clean h) → x.eval = .ok r →
    r.Valid ∧ r.Clean h ∧ ∀ w, r.Words h w ↔ x.Means h w
  | .leaf a, r, ha, hr => by
    obtain rfl := Except.ok.inj hr
    exact ⟨ha.1, ha.2, fun w => Iff.rfl⟩
  | .seq x y, r, ha, hr => by
    obtain ⟨a, h1, hr⟩ := bind_eq_ok hr
    obtain ⟨b, h2, hr⟩ := bind_eq_ok hr
    obtain ⟨v1, c1, w1⟩ := C113_nested h x a ha.1 h1
    obtain ⟨v2, c2, w2⟩ := C113_nested h y b ha.2 h2
    obtain ⟨v, hv⟩ := C108_sequence v1 v2 hr
    refine ⟨v, (hv h c1).2 c2, fun w => ?_⟩
    rw [(hv h c1).1 w]
    simp only [w1, w2, Expr.Means]
  | .alt x y, r, ha, hr => by
    obtain ⟨a, h1, hr⟩ := bind_eq_ok hr
    obtain ⟨b, h2, hr⟩ := bind_eq_ok hr
    obtain ⟨v1, c1, w1⟩ := C113_nested h x a ha.1 h1
    obtain ⟨v2, c2, w2⟩ := C113_nested h y b ha.2 h2
    obtain ⟨v, hv⟩ := C111_choice v1 v2 hr
    refine ⟨v, (hv h).2 c1 c2, fun w => ?_⟩
    rw [(hv h).1 w]
    simp only [w1, w2, Expr.Means]
  | .par x y, r, ha, hr => by
    obtain ⟨a, h1, hr⟩ := bind_eq_ok hr
    obtain ⟨b, h2, hr⟩ := bind_eq_ok hr
    obtain ⟨v1, c1, w1⟩ := C113_nested h x a ha.1 h1
    obtain ⟨v2, c2, w2⟩ := C113_nested h y b ha.2 h2
    obtain ⟨v, hv⟩ := C109_parallel v1 v2 hr
    refine ⟨v, (hv h).2 c1 c2, fun w => ?_⟩
    rw [(hv h).1 w]
    simp only [w1, w2, Expr.Means]
  | .rep x, r, ha, hr => by
    obtain ⟨a, h1, hr⟩ := bind_eq_ok hr
    obtain ⟨v1, c1, w1⟩ := C113_nested h x a ha h1
    obtain ⟨r', hr', v, hv⟩ := C110_repetition v1
    obtain rfl := Except.ok.inj (hr.symm.trans hr')
    refine ⟨v, (hv h c1).2, fun w => ?_⟩
    rw [(hv h c1).1 w]
    simp only [w1, Expr.Means]

end Prolothar.ActivityPattern
