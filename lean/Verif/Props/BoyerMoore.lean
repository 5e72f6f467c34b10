import Verif.Lemmas.BoyerMoore
/-
Properties C01-C03: the Boyer-Moore list search
(/repo/prolothar_common/collections/list_utils.pyx 24-130).
Specification: `Spec.OccursAt s l i` (`l = a ++ s ++ b` with `a.length = i`).
-/
namespace Prolothar.BoyerMoore
open Prolothar.Spec
variable {α : Type} [DecidableEq α]

/-- C01: the search never raises, always terminates, and returns the smallest start index
of an occurrence, or -1 if there is none. -/
theorem C01_search_returns_first_occurrence (l s : List α) :
    (∃ i : Nat, search l s = .ok (i : Int) ∧ OccursAt s l i ∧ ∀ q, q < i → ¬ OccursAt s l q) ∨
    (search l s = .ok (-1) ∧ ∀ q, ¬ OccursAt s l q) := by
  obtain ⟨t, ht⟩ := offsetTable_ok s
  obtain ⟨r, h1, h2⟩ := searchWith_spec l s t ht
  rw [search_eq l s t ht, h1]
  rcases h2 with ⟨p, rfl, h3, h4⟩ | ⟨rfl, h3⟩
  · exact .inl ⟨p, rfl, h3, h4⟩
  · exact .inr ⟨rfl, h3⟩

/-- C01, converse reading: each possible result characterises its input. -/
theorem C01_search_result_iff (l s : List α) :
    (∀ i : Nat, search l s = .ok (i : Int) ↔ OccursAt s l i ∧ ∀ q, q < i → ¬ OccursAt s l q) ∧
    (search l s = .ok (-1) ↔ ∀ q, ¬ OccursAt s l q) := by
  rcases C01_search_returns_first_occurrence l s with ⟨p, h1, h2, h3⟩ | ⟨h1, h2⟩
  · refine ⟨fun i => ?_, ?_⟩
    · rw [h1]
      constructor
      · intro h
        have h' : (p : Int) = (i : Int) := by injection h
        have : p = i := by omega
        subst this; exact ⟨h2, h3⟩
      · rintro ⟨h4, h5⟩
        have : p = i := by
          rcases Nat.lt_trichotomy p i with h | h | h
          · exact absurd h2 (h5 p h)
          · exact h
          · exact absurd h4 (h3 i h)
        rw [this]
    · rw [h1]
      constructor
      · intro h
        have h' : (p : Int) = (-1 : Int) := by injection h
        omega
      · intro h; exact absurd h2 (h p)
  · refine ⟨fun i => ?_, ?_⟩
    · rw [h1]
      constructor
      · intro h
        have h' : (-1 : Int) = (i : Int) := by injection h
        omega
      · rintro ⟨h4, _⟩; exact absurd h4 (h2 i)
    · simp [h1, h2]

/-- a needle with internal repetitions: both tables produce long jumps -/
example : search [1, 2, 1, 1, 2, 1, 2, 1, 2, 3] [2, 1, 2, 3] = .ok 6 := by decide
example : search [1, 2, 1, 1, 2, 1, 2, 1, 2, 3] [2, 2] = .ok (-1) := by decide
example : OccursAt [2, 1] [1, 2, 1, 1] 1 := ⟨[1], [1], rfl, rfl⟩

/-- C02: `is_sublist_bm` decides the contiguous-sublist relation. -/
theorem C02_isSublist_iff (l s : List α) :
    isSublist l s = .ok true ∧ (∃ a b, l = a ++ s ++ b) ∨
    isSublist l s = .ok false ∧ ¬ (∃ a b, l = a ++ s ++ b) := by
  unfold isSublist
  rcases C01_search_returns_first_occurrence l s with ⟨p, h1, h2, _⟩ | ⟨h1, h2⟩
  · left
    rw [h1]
    obtain ⟨a, b, h3, _⟩ := h2
    exact ⟨by simp [bind, Except.bind, pure, Except.pure], a, b, h3⟩
  · right
    rw [h1]
    exact ⟨by simp [bind, Except.bind, pure, Except.pure],
      fun h => by obtain ⟨i, hi⟩ := occursAt_iff_infix.2 h; exact h2 i hi⟩

/-- C02: tables precomputed once from the needle give the same answer for every list. -/
theorem C02_tables_reusable (s : List α) :
    ∃ t, offsetTable s = .ok t ∧
      ∀ l, isSublistWith (charTable s) t l s = isSublist l s ∧
        searchWith (charTable s) t l s = search l s := by
  obtain ⟨t, ht⟩ := offsetTable_ok s
  refine ⟨t, ht, fun l => ?_⟩
  rw [isSublist, isSublistWith, search_eq l s t ht]
  exact ⟨rfl, rfl⟩

example : isSublist [1, 2, 3, 4] [2, 3] = .ok true := by decide
example : isSublist [1, 2, 3, 4] [1, 3] = .ok false := by decide

/-- C03: all occurrences, each once, in increasing order; in particular the result is empty
iff the needle does not occur. -/
theorem C03_searchAll_sound_complete (l s : List α) :
    ∃ r, searchAll l s = .ok r ∧ r.Pairwise (· < ·) ∧ ∀ i, i ∈ r ↔ OccursAt s l i := by
  obtain ⟨t, ht⟩ := offsetTable_ok s
  obtain ⟨sub, h1, h2⟩ := searchWith_spec l s t ht
  obtain ⟨r, h3, h4, h5⟩ := allLoop_spec l s t ht (l.length + 2) 0 sub (by omega) (by omega)
    (by rcases h2 with ⟨p, h, _⟩ | ⟨h, _⟩
        · right; omega
        · left; exact h) (by simpa using h2)
  refine ⟨r, ?_, h4, fun i => by rw [h5]; simp⟩
  unfold searchAll
  simp only [ht, h1, h3, bind, Except.bind]

/-- C03: for the empty needle the result is `0, 1, ..., len(l)`. -/
theorem C03_searchAll_nil (l : List α) : searchAll l [] = .ok (List.range (l.length + 1)) := by
  obtain ⟨r, h1, h2, h3⟩ := C03_searchAll_sound_complete l []
  rw [h1]
  congr 1
  refine List.Perm.eq_of_pairwise (le := (· < ·)) (fun a b _ _ h1 h2 => by omega) h2
    List.pairwise_lt_range ?_
  rw [List.perm_ext_iff_of_nodup (h2.imp (fun h => by omega)) List.nodup_range]
  intro a
  rw [h3, occursAt_nil, List.mem_range]
  omega

example : searchAll [1, 1, 1, 4] [1, 1] = .ok [0, 1] := by decide
example : searchAll [1, 2, 3, 4] ([] : List Nat) = .ok [0, 1, 2, 3, 4] := by decide

end Prolothar.BoyerMoore
