import Verif.Lemmas.Sound
import Verif.Props.PatternExamples
/-
Soundness of composed activity patterns.
-/
namespace Prolothar.ActivityPattern
open Prolothar.Petri
open Prolothar.Spec.Petri

/-- the pattern is sound (`Spec/Sound.lean`): from every marking that can be reached from the standard initial marking the standard final
marking can be reached, a token on the sink means that no other tokens are left, and every transition with a satisfied guard can be fired at some
time -/
def Pattern.Sound (h : Heap) (a : Pattern) : Prop :=
  ∀ s e, (∀ p, IsSource a.net.transitions a.net.pre a.net.post p ↔ p = s) → (∀ p, IsSink a.net.transitions a.net.pre a.net.post p ↔ p = e) →
    (a.sys h s e).Sound

/-- no place of the pattern ever carries two tokens -/
def Pattern.OneSafe (h : Heap) (a : Pattern) : Prop :=
  ∀ s e, (∀ p, IsSource a.net.transitions a.net.pre a.net.post p ↔ p = s) → (∀ p, IsSink a.net.transitions a.net.pre a.net.post p ↔ p = e) →
    (a.sys h s e).OneSafe

/-- what can be observed of an execution of the pattern that is possibly not complete -/
def Pattern.Partial (h : Heap) (a : Pattern) (w : List (String × Option String)) : Prop :=
  ∃ s e, (∀ p, IsSource a.net.transitions a.net.pre a.net.post p ↔ p = s) ∧ (∀ p, IsSink a.net.transitions a.net.pre a.net.post p ↔ p = e) ∧
    (a.sys h s e).Partial w

namespace Pattern.Good
variable {a : Pattern} {s e : String}

theorem sound (ha : a.Good s e) {h : Heap} : a.Sound h ↔ (a.sys h s e).Sound := by
  constructor
  · exact fun h => h s e ha.source ha.sink
  · intro h s' e' h1 h2
    obtain rfl := (h1 s).1 ((ha.source s).2 rfl)
    obtain rfl := (h2 e).1 ((ha.sink e).2 rfl)
    exact h

theorem oneSafe (ha : a.Good s e) {h : Heap} : a.OneSafe h ↔ (a.sys h s e).OneSafe := by
  constructor
  · exact fun h => h s e ha.source ha.sink
  · intro h s' e' h1 h2
    obtain rfl := (h1 s).1 ((ha.source s).2 rfl)
    obtain rfl := (h2 e).1 ((ha.sink e).2 rfl)
    exact h

theorem part (ha : a.Good s e) {h : Heap} {w : List (String × Option String)} : a.Partial h w ↔ (a.sys h s e).Partial w := by
  constructor
  · rintro ⟨s', e', h1, h2, h3⟩
    obtain rfl := (h1 s).1 ((ha.source s).2 rfl)
    obtain rfl := (h2 e).1 ((ha.sink e).2 rfl)
    exact h3
  · exact fun h => ⟨s, e, ha.source, ha.sink, h⟩

end Pattern.Good

/-- C156: a sequence of sound patterns is sound, and 1-safe if both patterns are -/
theorem C156_sequence {a b r : Pattern} {h : Heap} (ha : a.Valid) (hb : b.Valid) (sa : a.Sound h) (sb : b.Sound h) (hr : sequence a b = .ok r) :
    r.Sound h ∧ (a.OneSafe h → b.OneSafe h → r.OneSafe h) := by
  obtain ⟨s1, e1, ha⟩ := ha
  obtain ⟨s2, e2, hb⟩ := hb
  obtain ⟨f, g, t, hg, hs⟩ := sequence_of ha hb hr
  rw [ha.sound] at sa
  rw [hb.sound] at sb
  rw [hg.sound, hg.oneSafe, ha.oneSafe, hb.oneSafe]
  exact ⟨(hs h).sound sa sb, (hs h).oneSafe sa.2.1⟩

/-- C156: a choice between sound patterns is sound, and 1-safe if both patterns are -/
theorem C156_choice {a b r : Pattern} {h : Heap} (ha : a.Valid) (hb : b.Valid) (sa : a.Sound h) (sb : b.Sound h) (hr : choice a b = .ok r) :
    r.Sound h ∧ (a.OneSafe h → b.OneSafe h → r.OneSafe h) := by
  obtain ⟨s1, e1, ha⟩ := ha
  obtain ⟨s2, e2, hb⟩ := hb
  obtain ⟨f, g, S, E, isS, isE, hg, hs⟩ := choice_of ha hb hr
  rw [ha.sound] at sa
  rw [hb.sound] at sb
  rw [hg.sound, hg.oneSafe, ha.oneSafe, hb.oneSafe]
  exact ⟨(hs h).sound (fun i => match i with | true => sa | false => sb) ⟨true⟩,
    fun oa ob => (hs h).oneSafe (fun i => match i with | true => sa.2.1 | false => sb.2.1) fun i => match i with | true => oa | false => ob⟩

/-- C156: a parallel composition of sound patterns is sound, and 1-safe if both patterns are -/
theorem C156_parallel {a b r : Pattern} {h : Heap} (ha : a.Valid) (hb : b.Valid) (sa : a.Sound h) (sb : b.Sound h) (hr : parallel a b = .ok r) :
    r.Sound h ∧ (a.OneSafe h → b.OneSafe h → r.OneSafe h) := by
  obtain ⟨s1, e1, ha⟩ := ha
  obtain ⟨s2, e2, hb⟩ := hb
  obtain ⟨f, g, S, E, tS, tE, hg, hs⟩ := parallel_of ha hb hr
  rw [ha.sound] at sa
  rw [hb.sound] at sb
  rw [hg.sound, hg.oneSafe, ha.oneSafe, hb.oneSafe]
  exact ⟨(hs h).sound sa sb, (hs h).oneSafe sa.2.1 sb.2.1⟩

/-- C156: the repetition of a sound pattern is sound, and 1-safe if the pattern is -/
theorem C156_repetition {a : Pattern} {h : Heap} (ha : a.Valid) (sa : a.Sound h) :
    ∃ r, repetition a = .ok r ∧ r.Sound h ∧ (a.OneSafe h → r.OneSafe h) := by
  obtain ⟨s, e, ha⟩ := ha
  obtain ⟨r, hr, s', e', tS, tE, tR, hg, hs⟩ := repetition_of ha
  rw [ha.sound] at sa
  refine ⟨r, hr, ?_⟩
  rw [hg.sound, hg.oneSafe, ha.oneSafe]
  exact ⟨(hs h).sound sa, (hs h).oneSafe sa.2.1⟩

/-- C156: a choice between a list of sound patterns is sound, and 1-safe if all of them are -/
theorem C156_choice_list {cs : List Pattern} {r : Pattern} {h : Heap} (hv : ∀ a ∈ cs, a.Valid) (hq : ∀ a ∈ cs, ∀ p ∈ a.net.places, '\'' ∉ p.toList)
    (hs : ∀ a ∈ cs, a.Sound h) (hr : choiceList cs = .ok r) :
    r.Sound h ∧ ((∀ a ∈ cs, a.OneSafe h) → r.OneSafe h) := by
  obtain ⟨l, S, E, isS, isE, hto, hfrom, hne, hvl, hg, hc⟩ := choiceList_of hv hq hr
  have hs' : ∀ e : { e // e ∈ l }, (e.1.1.sys h (srcOf e.1.1) (snkOf e.1.1)).Sound := by
    rintro ⟨e, he⟩
    obtain ⟨a, ha, v, hav⟩ := hto e he
    have : e.1.Sound h := by rw [hav]; exact hs a ha
    exact (hvl e he).good.sound.1 this
  rw [hg.sound, hg.oneSafe]
  refine ⟨(hc h).sound hs' ?_, fun ho => (hc h).oneSafe (fun e => (hs' e).2.1) ?_⟩
  · obtain ⟨e, he⟩ := List.exists_mem_of_ne_nil _ hne
    exact ⟨⟨e, he⟩⟩
  · rintro ⟨e, he⟩
    obtain ⟨a, ha, v, hav⟩ := hto e he
    have : e.1.OneSafe h := by rw [hav]; exact ho a ha
    exact (hvl e he).good.oneSafe.1 this

/-- C156: an interleaving is never sound -/
theorem C156_interleaving_never {a b r : Pattern} (ha : a.Valid) (hb : b.Valid) (hr : interleaving a b = .ok r) (h : Heap) : ¬ r.Sound h := by
  obtain ⟨⟨s, e, hg⟩, hn⟩ := C112_interleaving_never ha hb hr
  intro hs
  obtain ⟨us, hu⟩ := (hg.sound.1 hs).1.word
  exact hn h _ (hg.words.2 ⟨us, hu, rfl⟩)

/-- C156: compositions of sound patterns are sound, and compositions of 1-safe sound patterns are 1-safe, however deeply they are nested -/
theorem C156_nested (h : Heap) : ∀ (x : Expr) (r : Pattern), x.All (fun a => a.Valid ∧ a.Sound h ∧ a.OneSafe h) → x.eval = .ok r →
    r.Valid ∧ r.Sound h ∧ r.OneSafe h
  | .leaf a, r, ha, hr => by
    obtain rfl := Except.ok.inj hr
    exact ha
  | .seq x y, r, ha, hr => by
    obtain ⟨a, h1, hr⟩ := bind_eq_ok hr
    obtain ⟨b, h2, hr⟩ := bind_eq_ok hr
    obtain ⟨v1, c1, o1⟩ := C156_nested h x a ha.1 h1
    obtain ⟨v2, c2, o2⟩ := C156_nested h y b ha.2 h2
    obtain ⟨k1, k2⟩ := C156_sequence v1 v2 c1 c2 hr
    exact ⟨(C108_sequence v1 v2 hr).1, k1, k2 o1 o2⟩
  | .alt x y, r, ha, hr => by
    obtain ⟨a, h1, hr⟩ := bind_eq_ok hr
    obtain ⟨b, h2, hr⟩ := bind_eq_ok hr
    obtain ⟨v1, c1, o1⟩ := C156_nested h x a ha.1 h1
    obtain ⟨v2, c2, o2⟩ := C156_nested h y b ha.2 h2
    obtain ⟨k1, k2⟩ := C156_choice v1 v2 c1 c2 hr
    exact ⟨(C111_choice v1 v2 hr).1, k1, k2 o1 o2⟩
  | .par x y, r, ha, hr => by
    obtain ⟨a, h1, hr⟩ := bind_eq_ok hr
    obtain ⟨b, h2, hr⟩ := bind_eq_ok hr
    obtain ⟨v1, c1, o1⟩ := C156_nested h x a ha.1 h1
    obtain ⟨v2, c2, o2⟩ := C156_nested h y b ha.2 h2
    obtain ⟨k1, k2⟩ := C156_parallel v1 v2 c1 c2 hr
    exact ⟨(C109_parallel v1 v2 hr).1, k1, k2 o1 o2⟩
  | .rep x, r, ha, hr => by
    obtain ⟨a, h1, hr⟩ := bind_eq_ok hr
    obtain ⟨v1, c1, o1⟩ := C156_nested h x a ha h1
    obtain ⟨r', hr', k1, k2⟩ := C156_repetition v1 c1
    obtain rfl := Except.ok.inj (hr.symm.trans hr')
    obtain ⟨r', hr', v, _⟩ := C110_repetition v1
    obtain rfl := Except.ok.inj (hr.symm.trans hr')
    exact ⟨v, k1, k2 o1⟩

/-- C156: what can be observed of a sound pattern at any time is the beginning of a complete execution, and every beginning can be observed -/
theorem C156_prefixes {a : Pattern} {h : Heap} (ha : a.Valid) (sa : a.Sound h) (w : List (String × Option String)) :
    a.Partial h w ↔ ∃ v, a.Words h (w ++ v) := by
  obtain ⟨s, e, ha⟩ := ha
  rw [ha.part, (ha.sound.1 sa).1.partial]
  simp only [ha.words]

/-- C156: what can be observed of a nested composition of sound patterns at any time are the beginnings of the executions the expression stands
for -/
theorem C156_nested_prefixes (h : Heap) {x : Expr} {r : Pattern} (hx : x.All (fun a => a.Valid ∧ a.Sound h ∧ a.OneSafe h)) (hr : x.eval = .ok r)
    (w : List (String × Option String)) : r.Partial h w ↔ ∃ v, x.Means h (w ++ v) := by
  obtain ⟨hv, hs, _⟩ := C156_nested h x r hx hr
  have hx' : x.All (fun a => a.Valid ∧ a.Clean h) := by
    clear hr hv hs
    induction x with
    | leaf a => exact ⟨hx.1, fun s e h1 h2 => (hx.2.1 s e h1 h2).2.1⟩
    | seq x y ihx ihy => exact ⟨ihx hx.1, ihy hx.2⟩
    | alt x y ihx ihy => exact ⟨ihx hx.1, ihy hx.2⟩
    | par x y ihx ihy => exact ⟨ihx hx.1, ihy hx.2⟩
    | rep x ih => exact ih hx
  rw [C156_prefixes hv hs]
  simp only [(C113_nested h x r hx' hr).2.2]

/-! ### examples -/

theorem exAct_sound (t name : String) (h : Heap) : (exAct t name).Valid ∧ (exAct t name).Sound h ∧ (exAct t name).OneSafe h := by
  have hg := exAct_good t name
  obtain ⟨hv, hc, hw⟩ := exAct_valid t name h
  obtain ⟨us, hu, -⟩ := hg.words.1 ((hw _).2 rfl)
  refine ⟨hv, hg.sound.2 ⟨?_, hg.clean.1 hc, ?_⟩, hg.oneSafe.2 ?_⟩
  · rintro m ⟨ts, hr⟩
    rcases exAct_run hr with ⟨_, rfl⟩ | ⟨_, rfl⟩
    · exact ⟨us, hu⟩
    · exact ⟨[], .nil⟩
  · intro u hu
    obtain rfl : u = t := List.mem_singleton.1 hu.1
    refine ⟨single "start", ⟨[], .nil⟩, enabled_single fun x => ?_⟩
    show x ∈ (exAct u name).net.pre u ↔ _
    simp [exAct]
  · rintro m ⟨ts, hr⟩ p
    rcases exAct_run hr with ⟨_, rfl⟩ | ⟨_, rfl⟩
    · exact single_le_one _ _
    · exact single_le_one _ _

/-- a repetition of a parallel composition, followed by a choice -/
def exNested : Expr :=
  .seq (.rep (.par (.leaf (exAct "a" "A")) (.leaf (exAct "b" "B")))) (.alt (.leaf (exAct "c" "C")) (.leaf (exAct "a" "A")))

example (h : Heap) : ∃ r, exNested.eval = .ok r ∧ r.Sound h ∧ r.OneSafe h ∧ r.Partial h [("b", some "B"), ("a", some "A"), ("b", some "B")] := by
  have hs : exNested.eval.toOption.isSome = true := by decide +kernel
  have hx : exNested.All (fun a => a.Valid ∧ a.Sound h ∧ a.OneSafe h) :=
    ⟨⟨exAct_sound _ _ h, exAct_sound _ _ h⟩, exAct_sound _ _ h, exAct_sound _ _ h⟩
  cases hr : exNested.eval with
  | error e => rw [hr] at hs; cases hs
  | ok r =>
    obtain ⟨_, k1, k2⟩ := C156_nested h _ r hx hr
    refine ⟨r, rfl, k1, k2, (C156_nested_prefixes h hx hr _).2 ⟨[("a", some "A"), ("c", some "C")], ?_⟩⟩
    have wa := (exAct_valid "a" "A" h).2.2
    have wb := (exAct_valid "b" "B" h).2.2
    have wc := (exAct_valid "c" "C" h).2.2
    have hab : Expr.Means h (.par (.leaf (exAct "a" "A")) (.leaf (exAct "b" "B"))) [("b", some "B"), ("a", some "A")] :=
      ⟨_, _, (wa _).2 rfl, (wb _).2 rfl, .right (.left .nil)⟩
    refine ⟨[("b", some "B"), ("a", some "A"), ("b", some "B"), ("a", some "A")], [("c", some "C")], ?_, .inl ((wc _).2 rfl), rfl⟩
    exact ⟨[[("b", some "B"), ("a", some "A")], [("b", some "B"), ("a", some "A")]], by simp, by simp [hab], rfl⟩

example (h : Heap) : ∃ r, choiceList [exAct "a" "A", exAct "b" "B", exAct "c" "C"] = .ok r ∧ r.Sound h ∧ r.OneSafe h := by
  have hs : (choiceList [exAct "a" "A", exAct "b" "B", exAct "c" "C"]).toOption.isSome = true := by decide +kernel
  cases hr : choiceList [exAct "a" "A", exAct "b" "B", exAct "c" "C"] with
  | error e => rw [hr] at hs; cases hs
  | ok r =>
    have := C156_choice_list (h := h) (by simp [exAct_sound _ _ h]) (by simp [exAct]) (by simp [exAct_sound]) hr
    exact ⟨r, rfl, this.1, this.2 (by simp [exAct_sound])⟩

end Prolothar.ActivityPattern
