import Verif.Model.TwoWayDict
import Mathlib.Data.List.Basic
import Mathlib.Data.Finset.Insert
/-
Property C11 of /repo/prolothar_common/collections/two_way_dict.py.
Specification in terms of the history of assignments only.
-/
namespace Prolothar.TwoWayDict
variable {κ ν : Type} [DecidableEq κ] [DecidableEq ν]

theorem run_snoc (hist : List (κ × ν)) (k : κ) (v : ν) :
    run (hist ++ [(k, v)]) = setItem (run hist) k v := by simp [run]

/-- C11: a lookup returns the value of the last assignment to the key and raises KeyError iff the
key was never assigned. -/
theorem C11_get_last_assignment (hist : List (κ × ν)) (k : κ) :
    (getItem (run hist) k = .error .key ↔ ∀ v, (k, v) ∉ hist) ∧
    (∀ v, getItem (run hist) k = .ok v ↔
      ∃ before after, hist = before ++ (k, v) :: after ∧ ∀ w, (k, w) ∉ after) ∧
    (contains (run hist) k = true ↔ ∃ v, (k, v) ∈ hist) := by
  have main : (∀ v, (run hist).dict k = some v ↔
      ∃ before after, hist = before ++ (k, v) :: after ∧ ∀ w, (k, w) ∉ after) ∧
      ((run hist).dict k = none ↔ ∀ v, (k, v) ∉ hist) := by
    induction hist using List.reverseRecOn with
    | nil => simp [run, empty]
    | append_singleton hist p ih =>
      obtain ⟨k', v'⟩ := p
      rw [run_snoc]
      simp only [setItem]
      by_cases hk : k = k'
      · subst hk
        simp only [if_true]
        refine ⟨fun v => ?_, ?_⟩
        · constructor
          · intro h; injection h with h; subst h
            exact ⟨hist, [], by simp, by simp⟩
          · rintro ⟨b, a, h1, h2⟩
            rcases List.eq_nil_or_concat a with rfl | ⟨a', q, rfl⟩
            · have := (List.append_inj' h1 rfl).2
              simp at this; rw [this]
            · exfalso
              have h3 : hist ++ [(k, v')] = (b ++ (k, v) :: a') ++ [q] := by simpa using h1
              have := (List.append_inj' h3 rfl).2
              simp at this
              exact h2 v' (by simp [← this])
        · simp only [reduceCtorEq, false_iff, not_forall, not_not]
          exact ⟨v', by simp⟩
      · simp only [if_neg hk]
        refine ⟨fun v => ?_, ?_⟩
        · rw [ih.1 v]
          constructor
          · rintro ⟨b, a, rfl, h2⟩
            refine ⟨b, a ++ [(k', v')], by simp, fun w => ?_⟩
            simp only [List.mem_append, List.mem_singleton, Prod.mk.injEq, not_or]
            exact ⟨h2 w, fun h => hk h.1⟩
          · rintro ⟨b, a, h1, h2⟩
            rcases List.eq_nil_or_concat a with rfl | ⟨a', q, rfl⟩
            · have := (List.append_inj' h1 rfl).2
              simp at this; exact absurd this.1.symm hk
            · have h3 : hist ++ [(k', v')] = (b ++ (k, v) :: a') ++ [q] := by simpa using h1
              exact ⟨b, a', (List.append_inj' h3 rfl).1, fun w hw => h2 w (by simp [hw])⟩
        · rw [ih.2]
          constructor
          · intro h v
            simp only [List.mem_append, List.mem_singleton, Prod.mk.injEq, not_or]
            exact ⟨h v, fun h => hk h.1⟩
          · intro h v hv; exact h v (by simp [hv])
  refine ⟨?_, fun v => ?_, ?_⟩
  · rw [← main.2]; unfold getItem
    cases h : (run hist).dict k <;> simp
  · rw [← main.1]; unfold getItem
    cases h : (run hist).dict k <;> simp
  · unfold contains
    cases h : (run hist).dict k with
    | none => simpa using main.2.1 h
    | some v =>
      obtain ⟨b, a, h1, _⟩ := (main.1 v).1 h
      simp; exact ⟨v, by simp [h1]⟩

/-- C11 (all histories): the inverse lookup returns the keys that were ever assigned the value,
and raises KeyError iff there is none. -/
theorem C11_inverse_ever_assigned (hist : List (κ × ν)) (v : ν) :
    (inverse (run hist) v = .error .key ↔ ∀ k, (k, v) ∉ hist) ∧
    (∀ s, inverse (run hist) v = .ok s → ∀ k, k ∈ s ↔ (k, v) ∈ hist) := by
  have main : ((run hist).inverseDict v = none ↔ ∀ k, (k, v) ∉ hist) ∧
      (∀ s, (run hist).inverseDict v = some s → ∀ k, k ∈ s ↔ (k, v) ∈ hist) := by
    induction hist using List.reverseRecOn with
    | nil => simp [run, empty]
    | append_singleton hist p ih =>
      obtain ⟨k', v'⟩ := p
      rw [run_snoc]
      simp only [setItem]
      by_cases hv : v = v'
      · subst hv
        simp only [if_true]
        by_cases hn : (run hist).inverseDict v = none
        · simp only [if_pos hn, if_true, Option.map_some]
          refine ⟨by simp only [reduceCtorEq, false_iff, not_forall, not_not]; exact ⟨k', by simp⟩, ?_⟩
          intro s hs k
          injection hs with hs; subst hs
          have := ih.1.1 hn k
          simp [this]
        · simp only [if_neg hn]
          cases hs0 : (run hist).inverseDict v with
          | none => exact absurd hs0 hn
          | some s0 =>
            refine ⟨by
              simp only [Option.map_some, reduceCtorEq, false_iff, not_forall, not_not]
              exact ⟨k', by simp⟩, ?_⟩
            intro s hs k
            simp at hs; subst hs
            rw [Finset.mem_insert, ih.2 s0 hs0 k]
            simp [or_comm]
      · have e : (if (run hist).inverseDict v' = none then
            (fun y => if y = v' then some ∅ else (run hist).inverseDict y) else (run hist).inverseDict) v
            = (run hist).inverseDict v := by
          split
          · simp [hv]
          · rfl
        simp only [if_neg hv, e]
        constructor
        · rw [ih.1]; simp [hv]
        · intro s hs k; rw [ih.2 s hs k]; simp [hv]
  unfold inverse
  cases h : (run hist).inverseDict v with
  | none => simp only [true_iff]; exact ⟨main.1.1 h, by simp⟩
  | some s =>
    refine ⟨⟨by simp, ?_⟩, ?_⟩
    · intro hk; rw [main.1.2 hk] at h; cases h
    · intro s' hs'; injection hs' with hs'; subst hs'; exact main.2 s h

/-- C11: if no key is re-assigned to a different value, the inverse lookup of a value is exactly
the set of the keys that currently map to it. -/
theorem C11_inverse_consistent (hist : List (κ × ν))
    (hfun : ∀ k v w, (k, v) ∈ hist → (k, w) ∈ hist → v = w) (v : ν) :
    ∀ s, inverse (run hist) v = .ok s → ∀ k, k ∈ s ↔ getItem (run hist) k = .ok v := by
  intro s hs k
  rw [(C11_inverse_ever_assigned hist v).2 s hs k]
  constructor
  · intro h
    cases hg : getItem (run hist) k with
    | error e =>
      have : getItem (run hist) k = .error .key := by
        unfold getItem at hg ⊢
        cases h' : (run hist).dict k <;> simp_all
      exact absurd h ((C11_get_last_assignment hist k).1.1 this v)
    | ok w =>
      obtain ⟨b, a, h1, _⟩ := ((C11_get_last_assignment hist k).2.1 w).1 hg
      rw [hfun k v w h (by simp [h1])]
  · intro h
    obtain ⟨b, a, h1, _⟩ := ((C11_get_last_assignment hist k).2.1 v).1 h
    simp [h1]

/-- C11, disagreement: after re-assigning a key the old value still lists the key. -/
theorem C11_stale_inverse_entry :
    let hist : List (Nat × Nat) := [(1, 10), (1, 20)]
    inverse (run hist) 10 = .ok {1} ∧ getItem (run hist) 1 = .ok 20 := by decide

example : inverse (run [(1, 10), (2, 10), (3, 20)]) 10 = .ok {1, 2} := by decide

end Prolothar.TwoWayDict
