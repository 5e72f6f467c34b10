import Verif.Spec.Queries
import Verif.Props.BoyerMoore
/-
C63: event log queries.
-/
namespace Prolothar.Queries
open Prolothar.EventLog Prolothar.Spec.Queries

variable {I A V : Type} [DecidableEq A]

omit [DecidableEq A] in
theorem scan_fst (p : A → Bool) : ∀ l, (scan p l).1 = l.any p
  | [] => rfl
  | x :: l => by
    unfold scan
    rw [List.any_cons]
    cases hp : p x <;> simp [scan_fst p l]

theorem containsActivity_iff (t : Trace I A V) (a : A) : t.containsActivity a = true ↔ ∃ e ∈ t.events, e.activity = a := by
  simp [Trace.containsActivity]

theorem anyWith_spec (a : A) {m : Dict String V → Py Bool} (hm : ∀ d, ∃ b, m d = .ok b) : ∀ l : List (Event A V),
    ∃ b, anyWith a m l = .ok b ∧ (b = true ↔ ∃ e ∈ l, e.activity = a ∧ m e.attributes = .ok true)
  | [] => ⟨false, rfl, by simp⟩
  | e :: l => by
    obtain ⟨b, h1, h2⟩ := anyWith_spec a hm l
    obtain ⟨c, hc⟩ := hm e.attributes
    unfold anyWith
    by_cases he : e.activity = a
    · rw [if_pos he, hc]
      cases c with
      | true => exact ⟨true, rfl, by simpa using .inl ⟨he, hc⟩⟩
      | false =>
        refine ⟨b, h1, ?_⟩
        rw [h2]
        simp [hc]
    · rw [if_neg he]
      refine ⟨b, h1, ?_⟩
      rw [h2]
      simp [he]

/-- one trace -/
theorem matches_spec (t : Trace I A V) (q : Query I A V) : Reusable q → Total q →
    ∃ b, matchesTrace t q = .ok (b, q) ∧ (b = true ↔ Sat t q) := by
  induction q with
  | containsNone acts =>
    intro hr _
    cases acts with
    | iterator l => exact absurd hr (by simp [Reusable])
    | container l =>
      refine ⟨_, rfl, ?_⟩
      simp only [Acts.scan, scan_fst, Bool.not_eq_true', List.any_eq_false, Sat]
      refine forall₂_congr fun a _ => ?_
      rw [containsActivity_iff]; push Not; rfl
  | contains a => intro _ _; exact ⟨_, rfl, containsActivity_iff t a⟩
  | containsWith a m =>
    intro _ ht
    obtain ⟨b, h1, h2⟩ := anyWith_spec a ht t.events
    exact ⟨b, by simp only [matchesTrace, h1]; rfl, h2⟩
  | containsAll acts =>
    intro hr _
    cases acts with
    | iterator l => exact absurd hr (by simp [Reusable])
    | container l =>
      refine ⟨_, rfl, ?_⟩
      simp only [Acts.scan, scan_fst, Bool.not_eq_true', List.any_eq_false, Sat]
      refine forall₂_congr fun a _ => ?_
      rw [← containsActivity_iff]; simp
  | subsequence l =>
    intro _ _
    rcases BoyerMoore.C02_isSublist_iff t.activities l with ⟨h1, h2⟩ | ⟨h1, h2⟩
    · exact ⟨true, by simp only [matchesTrace, h1]; rfl, by simp only [true_iff]; exact h2⟩
    · exact ⟨false, by simp only [matchesTrace, h1]; rfl, by simp only [Bool.false_eq_true, false_iff]; exact h2⟩
  | custom m =>
    intro _ ht
    obtain ⟨b, hb⟩ := ht t
    refine ⟨b, by simp only [matchesTrace, hb]; rfl, ?_⟩
    simp only [Sat, hb, Except.ok.injEq]
  | and l r ihl ihr =>
    intro hr ht
    obtain ⟨b, h1, h2⟩ := ihl hr.1 ht.1
    obtain ⟨c, k1, k2⟩ := ihr hr.2 ht.2
    cases b with
    | true => exact ⟨c, by simp only [matchesTrace, h1, k1, bind, Except.bind, if_true]; rfl, by rw [k2]; simp only [Sat]; rw [← h2]; simp⟩
    | false =>
      refine ⟨false, by simp only [matchesTrace, h1, bind, Except.bind, Bool.false_eq_true, if_false]; rfl, ?_⟩
      simp only [Sat]; rw [← h2]; simp
  | or l r ihl ihr =>
    intro hr ht
    obtain ⟨b, h1, h2⟩ := ihl hr.1 ht.1
    obtain ⟨c, k1, k2⟩ := ihr hr.2 ht.2
    cases b with
    | true =>
      refine ⟨true, by simp only [matchesTrace, h1, bind, Except.bind, if_true]; rfl, ?_⟩
      simp only [Sat]; rw [← h2]; simp
    | false => exact ⟨c, by simp only [matchesTrace, h1, k1, bind, Except.bind, Bool.false_eq_true, if_false]; rfl, by
        rw [k2]; simp only [Sat]; rw [← h2]; simp⟩
  | invert q ih =>
    intro hr ht
    obtain ⟨b, h1, h2⟩ := ih hr ht
    refine ⟨!b, by simp only [matchesTrace, h1]; rfl, ?_⟩
    simp only [Sat]; rw [← h2]; simp

open Classical in
/-- C63: executing a query, of any depth, returns exactly the traces that satisfy it, in order, and the query can be
used again -/
theorem C63_execute (q : Query I A V) (hr : Reusable q) (ht : Total q) (log : Log I A V) :
    execute q log = .ok (log.filter (fun t => decide (Sat t q)), q) := by
  induction log with
  | nil => rfl
  | cons t log ih =>
    obtain ⟨b, h1, h2⟩ := matches_spec t q hr ht
    simp only [execute, h1, ih, bind, Except.bind]
    cases b with
    | true => rw [List.filter_cons_of_pos (by simpa using h2.1 rfl)]; rfl
    | false => rw [List.filter_cons_of_neg (by simpa using h2)]; rfl

/-- C63: the right operand is not evaluated if the left one decides, so it may raise -/
theorem C63_lazy (l r : Query I A V) (t : Trace I A V) (l' : Query I A V) :
    (matchesTrace t l = .ok (false, l') → matchesTrace t (.and l r) = .ok (false, .and l' r)) ∧
    (matchesTrace t l = .ok (true, l') → matchesTrace t (.or l r) = .ok (true, .or l' r)) := by
  constructor <;> intro h <;> simp only [matchesTrace, h, bind, Except.bind] <;> rfl

/-- C63 fails for queries built from an iterator, which the constructors accept: the iterator is empty after the first
trace, so the later traces match although they contain none of the activities -/
theorem C63_iterator_witness :
    let t1 : Trace Nat String Unit := ⟨0, [⟨"a", [], none⟩], []⟩
    let t2 : Trace Nat String Unit := ⟨1, [⟨"b", [], none⟩], []⟩
    (∃ q', execute (.containsAll (.iterator ["a"])) [t1, t2] = .ok ([t1, t2], q')) ∧ ¬ Sat t2 (.containsAll (.iterator ["a"])) := by
  refine ⟨⟨_, rfl⟩, fun h => ?_⟩
  simp [Sat] at h

/-- an example with all operators -/
example : ((execute (I := Nat) (A := String) (V := Nat)
    (.and (.invert (.contains "z")) (.or (.subsequence ["b", "c"]) (.containsWith "a" fun d => .ok (d.get? "cost" == some 3))))
    [⟨0, [⟨"a", [], none⟩, ⟨"b", [], none⟩, ⟨"c", [], none⟩], []⟩, ⟨1, [⟨"a", [("cost", 3)], none⟩], []⟩,
     ⟨2, [⟨"a", [("cost", 4)], none⟩], []⟩, ⟨3, [⟨"b", [], none⟩, ⟨"c", [], none⟩, ⟨"z", [], none⟩], []⟩]).toOption.map fun r => r.1.map (·.id)) =
    some [0, 1] := by decide +kernel

end Prolothar.Queries
