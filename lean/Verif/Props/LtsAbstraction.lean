import Verif.Props.Lts
import Mathlib.Data.List.Nodup
import Mathlib.Data.Finset.Card
import Mathlib.Data.Finset.Image
/-
C175: which sequences a transition system accepts, and what changes with a coarser state abstraction.
-/
namespace Prolothar.Lts
open Prolothar.Spec.Lts
variable {S S' E : Type} [DecidableEq S] [DecidableEq S'] [DecidableEq E]

/-- a replay of `w` leads from a start state to an end state of the system -/
def Accepts (t : System S E) (w : List E) : Prop := ∃ s ∈ t.starts, ∃ s' ∈ t.ends, Run (answer t) s w s'

omit [DecidableEq S] [DecidableEq E] in
theorem run_append_inv {next : S → E → Option S} {s s' : S} {u v : List E} (h : Run next s (u ++ v) s') :
    ∃ m, Run next s u m ∧ Run next m v s' := by
  induction u generalizing s with
  | nil => exact ⟨s, .nil s, h⟩
  | cons a u ih =>
    cases h with
    | cons h1 h2 =>
      obtain ⟨m, hm, hv⟩ := ih h2
      exact ⟨m, .cons h1 hm, hv⟩

theorem run_iff {f : List E → S} (hf : Compositional f) (seqs : List (List E)) (w : List E) (s' : S) :
    Run (answer (build f seqs)) (f []) w s' ↔
      s' = f w ∧ ∀ p e, p ++ [e] <+: w → ∃ seq ∈ seqs, ∃ q, q ++ [e] <+: seq ∧ f q = f p := by
  induction w using List.reverseRecOn generalizing s' with
  | nil =>
    constructor
    · intro h
      cases h
      refine ⟨rfl, fun p e hp => ?_⟩
      have := hp.length_le
      simp at this
    · rintro ⟨rfl, _⟩
      exact .nil _
  | append_singleton w a ih =>
    constructor
    · intro h
      obtain ⟨m, hm, hv⟩ := run_append_inv h
      obtain ⟨rfl, hall⟩ := (ih m).1 hm
      cases hv with
      | cons h1 h2 =>
        cases h2
        obtain ⟨seq, hseq, q, hq, e1, e2⟩ := (C54_exact hf seqs _ _ _).1 h1
        refine ⟨?_, fun p e hp => ?_⟩
        · rw [← e2]
          exact hf q w a e1
        · rw [List.prefix_concat_iff] at hp
          rcases hp with hp | hp
          · obtain ⟨rfl, h2⟩ := List.append_inj' hp rfl
            cases h2
            exact ⟨seq, hseq, q, hq, e1⟩
          · exact hall p e hp
    · rintro ⟨rfl, hall⟩
      have h1 := (ih (f w)).2 ⟨rfl, fun p e hp => hall p e (hp.trans (List.prefix_append w [a]))⟩
      obtain ⟨seq, hseq, q, hq, hfq⟩ := hall w a (List.prefix_refl _)
      refine Run.append h1 (.cons (s1 := f (w ++ [a])) ?_ (.nil _))
      exact (C54_exact hf seqs _ _ _).2 ⟨seq, hseq, q, hq, hfq, hf q w a hfq⟩

/-- C175: a sequence is accepted iff there is an added sequence, every event of it follows, in some added sequence, a prefix with the same state, and some
added sequence ends in its state -/
theorem C175_language {f : List E → S} (hf : Compositional f) (seqs : List (List E)) (w : List E) :
    Accepts (build f seqs) w ↔
      (∀ p e, p ++ [e] <+: w → ∃ seq ∈ seqs, ∃ q, q ++ [e] <+: seq ∧ f q = f p) ∧ ∃ seq ∈ seqs, f seq = f w := by
  obtain ⟨_, h2, h3, _⟩ := C54_states f seqs
  constructor
  · rintro ⟨s, hs, s', hs', hr⟩
    obtain ⟨_, rfl⟩ := (h2 s).1 hs
    obtain ⟨rfl, hall⟩ := (run_iff hf seqs w s').1 hr
    obtain ⟨seq, hseq, he⟩ := (h3 _).1 hs'
    exact ⟨hall, seq, hseq, he.symm⟩
  · rintro ⟨hall, seq, hseq, he⟩
    exact ⟨f [], (h2 _).2 ⟨List.ne_nil_of_mem hseq, rfl⟩, f w, (h3 _).2 ⟨seq, hseq, he.symm⟩, (run_iff hf seqs w _).2 ⟨rfl, hall⟩⟩

/-- C175: all added sequences are accepted, and more added sequences never make the system accept less -/
theorem C175_monotone {f : List E → S} (hf : Compositional f) {seqs seqs' : List (List E)} (h : ∀ s ∈ seqs, s ∈ seqs') (w : List E) :
    (w ∈ seqs → Accepts (build f seqs) w) ∧ (Accepts (build f seqs) w → Accepts (build f seqs') w) := by
  rw [C175_language hf, C175_language hf]
  refine ⟨fun hw => ⟨fun p e hp => ⟨w, hw, p, hp, rfl⟩, w, hw, rfl⟩, ?_⟩
  rintro ⟨h1, seq, hs, h2⟩
  refine ⟨fun p e hp => ?_, seq, h seq hs, h2⟩
  obtain ⟨s, hs, q⟩ := h1 p e hp
  exact ⟨s, h s hs, q⟩

/-- C175: if the state of `g` can be computed from the state of `f`, the system of `g` accepts everything the system of `f` accepts; its states, start states, end states
and transitions are the images of those of `f`, so there are at most as many -/
theorem C175_coarser {f : List E → S} {g : List E → S'} (hf : Compositional f) (hg : Compositional g) {r : S → S'} (hr : ∀ p, g p = r (f p))
    (seqs : List (List E)) :
    (∀ w, Accepts (build f seqs) w → Accepts (build g seqs) w) ∧
    (∀ x, x ∈ (build g seqs).states ↔ ∃ y ∈ (build f seqs).states, r y = x) ∧
    (∀ x, x ∈ (build g seqs).starts ↔ ∃ y ∈ (build f seqs).starts, r y = x) ∧
    (∀ x, x ∈ (build g seqs).ends ↔ ∃ y ∈ (build f seqs).ends, r y = x) ∧
    (∀ x e x', (x, e, x') ∈ transitions (build g seqs) ↔ ∃ y y', (y, e, y') ∈ transitions (build f seqs) ∧ r y = x ∧ r y' = x') ∧
    nrOfStates (build g seqs) ≤ nrOfStates (build f seqs) ∧ nrOfTransitions (build g seqs) ≤ nrOfTransitions (build f seqs) := by
  obtain ⟨f1, f2, f3, f4, _, _⟩ := C54_states f seqs
  obtain ⟨g1, g2, g3, g4, _, _⟩ := C54_states g seqs
  obtain ⟨ft1, ft2, ft3, _⟩ := C88_iterator f seqs
  obtain ⟨gt1, gt2, gt3, _⟩ := C88_iterator g seqs
  have hstates : ∀ x, x ∈ (build g seqs).states ↔ ∃ y ∈ (build f seqs).states, r y = x := by
    intro x
    rw [g1]
    constructor
    · rintro ⟨seq, hs, p, hp, rfl⟩
      exact ⟨f p, (f1 _).2 ⟨seq, hs, p, hp, rfl⟩, (hr p).symm⟩
    · rintro ⟨y, hy, rfl⟩
      obtain ⟨seq, hs, p, hp, rfl⟩ := (f1 y).1 hy
      exact ⟨seq, hs, p, hp, (hr p).symm⟩
  have htrans : ∀ x e x', (x, e, x') ∈ transitions (build g seqs) ↔ ∃ y y', (y, e, y') ∈ transitions (build f seqs) ∧ r y = x ∧ r y' = x' := by
    intro x e x'
    rw [gt2, C54_exact hg]
    constructor
    · rintro ⟨seq, hs, p, hp, rfl, rfl⟩
      exact ⟨f p, f (p ++ [e]), (ft2 _ _ _).2 ((C54_exact hf seqs _ _ _).2 ⟨seq, hs, p, hp, rfl, rfl⟩), (hr p).symm, (hr _).symm⟩
    · rintro ⟨y, y', h, rfl, rfl⟩
      obtain ⟨seq, hs, p, hp, rfl, rfl⟩ := (C54_exact hf seqs _ _ _).1 ((ft2 _ _ _).1 h)
      exact ⟨seq, hs, p, hp, hr p, hr _⟩
  refine ⟨?_, hstates, ?_, ?_, htrans, ?_, ?_⟩
  · intro w
    rw [C175_language hf, C175_language hg]
    rintro ⟨h1, seq, hs, h2⟩
    refine ⟨fun p e hp => ?_, seq, hs, by rw [hr, hr, h2]⟩
    obtain ⟨s, hs, q, hq, he⟩ := h1 p e hp
    exact ⟨s, hs, q, hq, by rw [hr, hr, he]⟩
  · intro x
    rw [g2]
    constructor
    · rintro ⟨hne, rfl⟩
      exact ⟨f [], (f2 _).2 ⟨hne, rfl⟩, (hr []).symm⟩
    · rintro ⟨y, hy, rfl⟩
      obtain ⟨hne, rfl⟩ := (f2 y).1 hy
      exact ⟨hne, (hr []).symm⟩
  · intro x
    rw [g3]
    constructor
    · rintro ⟨seq, hs, rfl⟩
      exact ⟨f seq, (f3 _).2 ⟨seq, hs, rfl⟩, (hr _).symm⟩
    · rintro ⟨y, hy, rfl⟩
      obtain ⟨seq, hs, rfl⟩ := (f3 y).1 hy
      exact ⟨seq, hs, (hr _).symm⟩
  · show (build g seqs).states.length ≤ (build f seqs).states.length
    rw [← List.toFinset_card_of_nodup g4, ← List.toFinset_card_of_nodup f4]
    refine le_trans (Finset.card_le_card (t := (build f seqs).states.toFinset.image r) ?_) Finset.card_image_le
    intro x hx
    rw [Finset.mem_image]
    obtain ⟨y, hy, rfl⟩ := (hstates x).1 (List.mem_toFinset.1 hx)
    exact ⟨y, List.mem_toFinset.2 hy, rfl⟩
  · rw [gt3, ft3, ← List.toFinset_card_of_nodup gt1, ← List.toFinset_card_of_nodup ft1]
    refine le_trans (Finset.card_le_card (t := (transitions (build f seqs)).toFinset.image fun x => (r x.1, x.2.1, r x.2.2)) ?_) Finset.card_image_le
    rintro ⟨x, e, x'⟩ hx
    rw [Finset.mem_image]
    obtain ⟨y, y', hy, rfl, rfl⟩ := (htrans x e x').1 (List.mem_toFinset.1 hx)
    exact ⟨(y, e, y'), List.mem_toFinset.2 hy, rfl⟩

omit [DecidableEq E] in
theorem lastN_eq {n : Int} (hn : 1 ≤ n) (p : List E) : lastNAbstraction n p = p.drop (p.length - n.toNat) := by
  unfold lastNAbstraction
  dsimp only
  rw [if_pos (by omega)]
  congr 1
  omega

omit [DecidableEq E] in
theorem last_eq (l : List E) : lastAbstraction l = l.getLast? := by
  rcases List.eq_nil_or_concat l with rfl | ⟨p, e, rfl⟩
  · rfl
  · have : pyGet (p ++ [e]) (-1) = .ok e := by
      unfold pyGet
      have h1 : ¬ ((-1 : Int) + ((p ++ [e]).length : Nat) < 0) := by simp; omega
      have h2 : ((-1 : Int) + ((p ++ [e]).length : Nat)).toNat = p.length := by simp; omega
      simp only [show ((-1 : Int) < 0) by decide, if_true, h1, if_false, h2]
      simp
    unfold lastAbstraction
    rw [List.concat_eq_append, this]
    simp

/-- C175: a longer memory accepts less: `last_n_abstraction(n)` accepts only what `last_n_abstraction(m)` accepts for 1 ≤ m ≤ n; with n = 1 it accepts the same as `last_abstraction`,
with n = 0, and with an n that is at least the length of the longest added sequence, exactly the added sequences -/
theorem C175_last_n (seqs : List (List E)) (w : List E) {n : Int} (hn : 1 ≤ n) :
    (∀ m : Int, 1 ≤ m → m ≤ n → Accepts (build (lastNAbstraction n) seqs) w → Accepts (build (lastNAbstraction m) seqs) w) ∧
    (Accepts (build (lastNAbstraction 1) seqs) w ↔ Accepts (build lastAbstraction seqs) w) ∧
    (Accepts (build (lastNAbstraction 0) seqs) w ↔ w ∈ seqs) ∧
    ((∀ seq ∈ seqs, (seq.length : Int) ≤ n) → (Accepts (build (lastNAbstraction n) seqs) w ↔ w ∈ seqs)) := by
  obtain ⟨_, cl, ca, cn⟩ := C54_abstractions (E := E)
  refine ⟨?_, ?_, ?_, ?_⟩
  · intro m hm hmn
    refine (C175_coarser (cn n (by omega)) (cn m (by omega)) (r := fun l => l.drop (l.length - m.toNat)) ?_ seqs).1 w
    intro p
    rw [lastN_eq hn, lastN_eq hm, List.drop_drop, List.length_drop]
    congr 1
    omega
  · constructor
    · refine (C175_coarser (cn 1 (by omega)) ca (r := fun l => l.getLast?) ?_ seqs).1 w
      intro p
      rw [lastN_eq (by omega), last_eq, List.getLast?_drop]
      split
      · rename_i h
        have : p.length = 0 := by
          have : (1 : Int).toNat = 1 := rfl
          omega
        rw [List.length_eq_zero_iff.1 this]
        rfl
      · rfl
    · refine (C175_coarser ca (cn 1 (by omega)) (r := Option.toList) ?_ seqs).1 w
      intro p
      rw [lastN_eq (by omega), last_eq]
      rcases List.eq_nil_or_concat p with rfl | ⟨q, e, rfl⟩
      · rfl
      · simp
  · have : (lastNAbstraction 0 : List E → List E) = listAbstraction := by
      funext p
      simp [lastNAbstraction, listAbstraction]
    rw [this]
    exact C87_language seqs w
  · intro hall
    constructor
    · rw [C175_language (cn n (by omega))]
      rintro ⟨h1, seq, hs, h2⟩
      have short : ∀ p : List E, (p.length : Int) ≤ n → lastNAbstraction n p = p := by
        intro p hp
        rw [lastN_eq hn, show p.length - n.toNat = 0 by omega]
        rfl
      have hw : ∀ p : List E, p <+: w → (p.length : Int) ≤ n := by
        intro p
        induction p using List.reverseRecOn with
        | nil => intro _; simp; omega
        | append_singleton p e ih =>
          intro hp
          have hpl := ih ((List.prefix_append p [e]).trans hp)
          obtain ⟨s, hs, q, hq, he⟩ := h1 p e hp
          have hql := hq.length_le
          have hsl := hall s hs
          rw [List.length_append, List.length_singleton] at hql
          rw [short p hpl, short q (by omega)] at he
          subst he
          rw [List.length_append, List.length_singleton]
          omega
      rw [short seq (hall seq hs), short w (hw w (List.prefix_refl w))] at h2
      exact h2 ▸ hs
    · exact (C175_monotone (cn n (by omega)) (fun _ h => h) w).1

/-- C175: with `last_abstraction` a nonempty sequence is accepted iff it begins like an added sequence, ends like an added sequence, and every two successive events of it are successive in
some added sequence; the empty sequence is accepted iff it was added -/
theorem C175_last (seqs : List (List E)) (w : List E) :
    Accepts (build lastAbstraction seqs) w ↔
      (∃ seq ∈ seqs, seq.head? = w.head?) ∧ (∃ seq ∈ seqs, seq.getLast? = w.getLast?) ∧
      ∀ u a b v, w = u ++ a :: b :: v → ∃ seq ∈ seqs, ∃ u' v', seq = u' ++ a :: b :: v' := by
  rw [C175_language (C54_abstractions (E := E)).2.2.1]
  simp only [last_eq]
  constructor
  · rintro ⟨h1, seq, hs, h2⟩
    refine ⟨?_, ⟨seq, hs, h2⟩, ?_⟩
    · cases w with
      | nil =>
        refine ⟨seq, hs, ?_⟩
        rw [List.getLast?_nil, List.getLast?_eq_none_iff] at h2
        rw [h2]
      | cons a w =>
        obtain ⟨s, hs, q, hq, he⟩ := h1 [] a ⟨w, rfl⟩
        rw [List.getLast?_nil, List.getLast?_eq_none_iff] at he
        subst he
        obtain ⟨v, rfl⟩ := hq
        exact ⟨_, hs, rfl⟩
    · rintro u a b v rfl
      obtain ⟨s, hs, q, hq, he⟩ := h1 (u ++ [a]) b ⟨v, by simp⟩
      rw [List.getLast?_concat, List.getLast?_eq_some_iff] at he
      obtain ⟨u', rfl⟩ := he
      obtain ⟨v', rfl⟩ := hq
      exact ⟨_, hs, u', v', by simp⟩
  · rintro ⟨⟨s, hs, h1⟩, ⟨seq, hseq, h2⟩, h3⟩
    refine ⟨?_, seq, hseq, h2⟩
    rintro p e ⟨v, rfl⟩
    rcases List.eq_nil_or_concat p with rfl | ⟨u, a, rfl⟩
    · cases s with
      | nil => simp at h1
      | cons x s =>
        simp only [List.nil_append, List.cons_append, List.head?_cons, Option.some.injEq] at h1
        subst h1
        exact ⟨_, hs, [], ⟨s, rfl⟩, rfl⟩
    · obtain ⟨s, hs, u', v', rfl⟩ := h3 u a e v (by simp)
      exact ⟨_, hs, u' ++ [a], ⟨v', by simp⟩, by rw [List.getLast?_concat, List.concat_eq_append, List.getLast?_concat]⟩

/-- C175: with `set_abstraction` a sequence is accepted iff every event of it follows, in some added sequence, a prefix with the same set of events, and some added sequence has the same set
of events -/
theorem C175_set (seqs : List (List E)) (w : List E) :
    Accepts (build setAbstraction seqs) w ↔
      (∀ p e, p ++ [e] <+: w → ∃ seq ∈ seqs, ∃ q, q ++ [e] <+: seq ∧ ∀ x, x ∈ q ↔ x ∈ p) ∧ ∃ seq ∈ seqs, ∀ x, x ∈ seq ↔ x ∈ w := by
  rw [C175_language (C54_abstractions (E := E)).1]
  simp only [setAbstraction, Finset.ext_iff, List.mem_toFinset]

/-- neither of `set_abstraction` and `last_abstraction` is coarser than the other: after adding [1,2,1] and [2,1] the set abstraction accepts [1,2], the last abstraction does not; after
adding [1,2,1,3], the last abstraction accepts [1,3], the set abstraction does not -/
theorem C175_incomparable :
    (Accepts (build setAbstraction [[1, 2, 1], [2, 1]]) [1, 2] ∧ ¬ Accepts (build lastAbstraction [[1, 2, 1], [2, 1]]) [1, 2]) ∧
    (Accepts (build lastAbstraction [[1, 2, 1, 3]]) [1, 3] ∧ ¬ Accepts (build setAbstraction [[1, 2, 1, 3]]) [1, 3]) := by
  refine ⟨⟨?_, ?_⟩, ?_, ?_⟩
  · exact ⟨∅, by decide, {1, 2}, by decide, .cons (s1 := {1}) (by decide) (.cons (s1 := {1, 2}) (by decide) (.nil _))⟩
  · rw [C175_last]
    rintro ⟨_, ⟨s, hs, h⟩, _⟩
    simp only [List.mem_cons, List.not_mem_nil, or_false] at hs
    rcases hs with rfl | rfl <;> simp at h
  · exact ⟨none, by decide, some 3, by decide, .cons (s1 := some 1) (by decide) (.cons (s1 := some 3) (by decide) (.nil _))⟩
  · rw [C175_set]
    rintro ⟨_, s, hs, h⟩
    simp only [List.mem_cons, List.not_mem_nil, or_false] at hs
    subst hs
    have := h 2
    simp at this

/-- after adding [1,1] the last abstraction accepts [1] and [1,1,1] as well, the abstraction by the last two events only the added sequence -/
example : Accepts (build lastAbstraction [[1, 1]]) [1, 1, 1] ∧ Accepts (build lastAbstraction [[1, 1]]) [1] ∧
    ∀ w, Accepts (build (lastNAbstraction 2) [[1, 1]]) w ↔ w = [1, 1] := by
  refine ⟨⟨none, by decide, some 1, by decide, .cons (s1 := some 1) (by decide) (.cons (s1 := some 1) (by decide) (.cons (s1 := some 1) (by decide) (.nil _)))⟩,
    ⟨none, by decide, some 1, by decide, .cons (s1 := some 1) (by decide) (.nil _)⟩, fun w => ?_⟩
  rw [(C175_last_n [[1, 1]] w (n := 2) (by decide)).2.2.2 (by simp)]
  simp

/-- the set of events is a function of the list of events -/
example (seqs : List (List E)) (w : List E) (h : Accepts (build listAbstraction seqs) w) : Accepts (build setAbstraction seqs) w :=
  (C175_coarser (r := List.toFinset) (C54_abstractions (E := E)).2.1 (C54_abstractions (E := E)).1 (fun _ => rfl) seqs).1 w h

end Prolothar.Lts
