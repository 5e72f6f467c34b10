import Verif.Props.ChoiceList
import Verif.Props.PatternBasics
/-
Concrete cases of the theorems on activity patterns, and a choice that loses a place.
-/
namespace Prolothar.ActivityPattern
open Prolothar.Petri
open Prolothar.Spec.Petri

/-- two transitions; the id of a place is the id of another place with a quote -/
def exQuote : Pattern where
  net := { Net.empty with
    places := ["start", "start'", "end"], transitions := ["u", "v"], transLabel := fun x => x
    out := fun p => if p = "start" then ["u"] else if p = "start'" then ["v"] else []
    pre := fun x => if x = "u" then ["start"] else if x = "v" then ["start'"] else []
    post := fun x => if x = "u" then ["start'"] else if x = "v" then ["end"] else [] }
  map := [("u", "U"), ("v", "V")]

theorem exQuote_valid : exQuote.Valid := by
  have e1 : ∀ p, InPre exQuote.net p ↔ p = "start" ∨ p = "start'" := by
    intro p; simp [InPre, exQuote]
  have e2 : ∀ p, InPost exQuote.net p ↔ p = "start'" ∨ p = "end" := by
    intro p; simp [InPost, exQuote]
  refine ⟨"start", "end", ⟨by decide, by decide, by decide, by decide, ?_⟩, fun p _ => Int.le_refl 0, ?_, ?_, by decide, ?_⟩
  · intro p hp
    have : p = "start" ∨ p = "start'" ∨ p = "end" := by simpa [exQuote] using hp
    rcases this with rfl | rfl | rfl
    · refine ⟨by decide, fun u => ?_⟩; simp [exQuote]; constructor
      · rintro rfl; simp
      · rintro ⟨h | h, _⟩ <;> simp_all
    · refine ⟨by decide, fun u => ?_⟩; simp [exQuote]; constructor
      · rintro rfl; simp
      · rintro ⟨h | h, _⟩ <;> simp_all
    · refine ⟨by decide, fun u => ?_⟩
      simp [exQuote]
      rintro (h | h) <;> simp_all
  · intro p; rw [isSource_iff, e1, e2]
    constructor
    · rintro ⟨h | h, h'⟩
      · exact h
      · exact absurd (.inl h) h'
    · rintro rfl; decide
  · intro p; rw [isSink_iff, e1, e2]
    constructor
    · rintro ⟨h | h, h'⟩
      · exact absurd (.inr h) h'
      · exact h
    · rintro rfl; decide
  · intro t ht _
    have : t = "u" ∨ t = "v" := by simpa [exQuote] using ht
    rcases this with rfl | rfl
    · exact ⟨"U", by decide⟩
    · exact ⟨"V", by decide⟩

/-- C115: if a renamed place gets the id of another place of the same pattern, this place is lost: there are well-formed patterns for which `choice_list`
returns a pattern with a transition that consumes from a place that is not in the net -/
theorem C115_choice_list_lost : ∃ a b : Pattern, a.Valid ∧ b.Valid ∧ ∃ r, choiceList [a, b] = .ok r ∧ ¬ r.Valid ∧
    ∃ t ∈ r.net.transitions, ∃ p ∈ r.net.pre t, p ∉ r.net.places := by
  refine ⟨exAct "a" "A", exQuote, (exAct_valid _ _ (fun _ => none)).1, exQuote_valid, ?_⟩
  have h : ((choiceList [exAct "a" "A", exQuote]).toOption.map fun r =>
      decide ("v" ∈ r.net.transitions ∧ "start''" ∈ r.net.pre "v" ∧ "start''" ∉ r.net.places)) = some true := by decide +kernel
  cases hr : choiceList [exAct "a" "A", exQuote] with
  | error e => rw [hr] at h; cases h
  | ok r =>
    rw [hr] at h
    have h' := of_decide_eq_true (Option.some.inj h)
    refine ⟨r, rfl, ?_, "v", h'.1, "start''", h'.2.1, h'.2.2⟩
    rintro ⟨s, e, hg⟩
    exact h'.2.2 ((hg.wf.pre _ h'.1).2 _ h'.2.1)

/-! ### the hypotheses of C108 - C115 are met -/

theorem exAct_plain (t name : String) (h : Plain t) : ∀ x ∈ (exAct t name).net.places ++ (exAct t name).net.transitions, Plain x := by
  intro x hx
  rcases List.mem_append.1 hx with hx | hx
  · rcases List.mem_cons.1 hx with rfl | hx
    · show ¬ _; decide
    · rw [List.mem_singleton] at hx; subst hx; show ¬ _; decide
  · obtain rfl := List.mem_singleton.1 hx; exact h

theorem plain_a : Plain "a" := by show ¬ _; decide
theorem plain_b : Plain "b" := by show ¬ _; decide

/-- a sequence of two patterns whose places have the same ids -/
example (h : Heap) : ∃ r, sequence (exAct "a" "A") (exAct "b" "B") = .ok r ∧ r.Valid ∧ r.Clean h ∧
    ∀ w, r.Words h w ↔ w = [("a", some "A"), ("b", some "B")] := by
  obtain ⟨va, ca, wa⟩ := exAct_valid "a" "A" h
  obtain ⟨vb, cb, wb⟩ := exAct_valid "b" "B" h
  obtain ⟨r, hr⟩ := C108_sequence_plain va vb (fun t ht => exAct_plain _ _ plain_a t (List.mem_append_right _ ht))
    (fun t ht => exAct_plain _ _ plain_b t (List.mem_append_right _ ht))
  obtain ⟨h1, h2⟩ := C108_sequence va vb hr
  have h3 := h2 h
  refine ⟨r, hr, h1, (h3 ca).2 cb, fun w => ?_⟩
  rw [(h3 ca).1]
  simp only [wa, wb]
  constructor
  · rintro ⟨u, v, rfl, rfl, rfl⟩; rfl
  · rintro rfl; exact ⟨_, _, rfl, rfl, rfl⟩

/-- the parallel composition of two patterns -/
example (h : Heap) : ∃ r, parallel (exAct "a" "A") (exAct "b" "B") = .ok r ∧ r.Valid ∧ r.Clean h ∧
    ∀ w, r.Words h w ↔ Shuffle [("a", some "A")] [("b", some "B")] w := by
  obtain ⟨va, ca, wa⟩ := exAct_valid "a" "A" h
  obtain ⟨vb, cb, wb⟩ := exAct_valid "b" "B" h
  have hs : (parallel (exAct "a" "A") (exAct "b" "B")).toOption.isSome = true := by decide +kernel
  cases hr : parallel (exAct "a" "A") (exAct "b" "B") with
  | error e => rw [hr] at hs; cases hs
  | ok r =>
    obtain ⟨h1, h2⟩ := C109_parallel va vb hr
    refine ⟨r, rfl, h1, (h2 h).2 ca cb, fun w => ?_⟩
    rw [(h2 h).1]
    simp only [wa, wb]
    constructor
    · rintro ⟨u, v, rfl, rfl, h⟩; exact h
    · exact fun h => ⟨_, _, rfl, rfl, h⟩

/-- a pattern whose transition has the id of its source place cannot be composed in parallel -/
example : parallel (exAct "start" "A") (exAct "b" "B") = .error .value := by
  obtain ⟨va, _, _⟩ := exAct_valid "start" "A" fun _ => none
  obtain ⟨vb, _, _⟩ := exAct_valid "b" "B" fun _ => none
  exact C109_parallel_clash va vb (((exAct_good "start" "A").source "start").2 rfl) (List.mem_singleton_self _)

/-- the interleaving of two patterns exists, but has no execution -/
example : ∃ r, interleaving (exAct "a" "A") (exAct "b" "B") = .ok r ∧ r.Valid ∧ ∀ h w, ¬ r.Words h w := by
  obtain ⟨va, _, _⟩ := exAct_valid "a" "A" fun _ => none
  obtain ⟨vb, _, _⟩ := exAct_valid "b" "B" fun _ => none
  have hs : (interleaving (exAct "a" "A") (exAct "b" "B")).toOption.isSome = true := by decide +kernel
  cases hr : interleaving (exAct "a" "A") (exAct "b" "B") with
  | error e => rw [hr] at hs; cases hs
  | ok r => exact ⟨r, rfl, C112_interleaving_never va vb hr⟩

/-- nested patterns: a choice between repetitions and sequences -/
example (h : Heap) : ∃ r, (Expr.alt (.rep (.leaf (exAct "a" "A"))) (.seq (.leaf (exAct "b" "B")) (.leaf (exAct "a" "A")))).eval = .ok r ∧ r.Valid ∧
    r.Words h [("a", some "A"), ("a", some "A")] ∧ r.Words h [("b", some "B"), ("a", some "A")] ∧ ¬ r.Words h [("b", some "B")] := by
  obtain ⟨va, ca, wa⟩ := exAct_valid "a" "A" h
  obtain ⟨vb, cb, wb⟩ := exAct_valid "b" "B" h
  have hs : (Expr.eval (Expr.alt (.rep (.leaf (exAct "a" "A"))) (.seq (.leaf (exAct "b" "B")) (.leaf (exAct "a" "A"))))).toOption.isSome = true := by decide +kernel
  cases hr : (Expr.alt (.rep (.leaf (exAct "a" "A"))) (.seq (.leaf (exAct "b" "B")) (.leaf (exAct "a" "A")))).eval with
  | error e => rw [hr] at hs; cases hs
  | ok r =>
    obtain ⟨h1, h2, h3⟩ := C113_nested h _ r (by exact ⟨⟨va, ca⟩, ⟨vb, cb⟩, va, ca⟩) hr
    refine ⟨r, rfl, h1, (h3 _).2 (.inl ⟨[[("a", some "A")], [("a", some "A")]], by simp, ?_, rfl⟩), (h3 _).2 (.inr ⟨_, _, (wb _).2 rfl, (wa _).2 rfl, rfl⟩), fun hw => ?_⟩
    · intro u hu
      exact (wa u).2 (by simpa using hu)
    · rcases (h3 _).1 hw with ⟨ws, hne, hall, he⟩ | ⟨u, v, hu, hv, he⟩
      · obtain ⟨u, us, rfl⟩ := List.exists_cons_of_ne_nil hne
        have := (wa u).1 (hall u List.mem_cons_self)
        rw [this] at he
        simp at he
      · rw [(wb u).1 hu, (wa v).1 hv] at he
        simp at he

/-- a choice of three patterns -/
example (h : Heap) : ∃ r, choiceList [exAct "a" "A", exAct "b" "B", exAct "a" "C"] = .ok r ∧ r.Valid ∧ r.Clean h ∧
    ∀ w, r.Words h w ↔ w = [("a", some "A")] ∨ w = [("b", some "B")] ∨ w = [("a", some "C")] := by
  obtain ⟨va, ca, wa⟩ := exAct_valid "a" "A" h
  obtain ⟨vb, cb, wb⟩ := exAct_valid "b" "B" h
  obtain ⟨vc, cc, wc⟩ := exAct_valid "a" "C" h
  have hv : ∀ a ∈ [exAct "a" "A", exAct "b" "B", exAct "a" "C"], a.Valid := by
    intro a ha; simp only [List.mem_cons, List.not_mem_nil, or_false] at ha
    rcases ha with rfl | rfl | rfl <;> assumption
  have hq : ∀ a ∈ [exAct "a" "A", exAct "b" "B", exAct "a" "C"], ∀ p ∈ a.net.places, '\'' ∉ p.toList := by
    intro a ha; simp only [List.mem_cons, List.not_mem_nil, or_false] at ha
    have key : ∀ t name, ∀ p ∈ (exAct t name).net.places, '\'' ∉ p.toList := by
      intro t name p hp
      have hp' : p = "start" ∨ p = "end" := by simpa [exAct] using hp
      rcases hp' with rfl | rfl <;> decide
    rcases ha with rfl | rfl | rfl <;> exact key _ _
  obtain ⟨r, hr⟩ := C115_choice_list_plain hv hq (by
    intro a ha; simp only [List.mem_cons, List.not_mem_nil, or_false] at ha
    rcases ha with rfl | rfl | rfl
    · exact exAct_plain _ _ plain_a
    · exact exAct_plain _ _ plain_b
    · exact exAct_plain _ _ plain_a) (by simp)
  obtain ⟨h1, h2⟩ := C115_choice_list hv hq hr
  refine ⟨r, hr, h1, (h2 h).2 (by
    intro a ha; simp only [List.mem_cons, List.not_mem_nil, or_false] at ha
    rcases ha with rfl | rfl | rfl <;> assumption), fun w => ?_⟩
  rw [(h2 h).1]
  simp only [List.mem_cons, List.not_mem_nil, or_false, exists_eq_or_imp, exists_eq_left, wa, wb, wc]

end Prolothar.ActivityPattern
