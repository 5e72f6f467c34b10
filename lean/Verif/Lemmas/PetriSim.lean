import Verif.Lemmas.Petri
import Mathlib.Data.List.Perm.Subperm
import Mathlib.Data.List.Count
/-
One time step of the simulation.
-/
namespace Prolothar.Petri
open Prolothar.Spec.Petri

/-- the transition that is selected at a place -/
def choice (h : Heap) (n : Net) (pick : String → Nat) (p : String) : Option String :=
  if n.tokens p > 0 then
    ((n.out p).filter fun t => decide ((n.guard t).accept h = .ok true))[pick p %
      ((n.out p).filter fun t => decide ((n.guard t).accept h = .ok true)).length]?
  else none

/-- one more selection -/
def bumpSel (d : Dict String Nat) : Option String → Dict String Nat
  | none => d
  | some t => d.put t ((d.get? t).getD 0 + 1)

theorem filterPy_eq {β : Type} (f : β → Py Bool) (l : List β) (h : ∀ x ∈ l, ∃ b, f x = .ok b) :
    filterPy f l = .ok (l.filter fun x => decide (f x = .ok true)) := by
  obtain ⟨r, hr⟩ := ok_filterPy f l h
  rw [hr, (filterPy_ok f l r hr).1]

theorem select_eq {h : Heap} {n : Net} {pick : String → Nat} : ∀ (ps : List String) (d : Dict String Nat),
    (∀ p ∈ ps, ∀ t ∈ n.out p, ∃ b, (n.guard t).accept h = .ok b) →
    select h n pick ps d = .ok (ps.foldl (fun d p => bumpSel d (choice h n pick p)) d)
  | [], d, _ => rfl
  | p :: ps, d, hg => by
    have ih := fun d => select_eq (pick := pick) ps d fun q hq => hg q (List.mem_cons_of_mem _ hq)
    rw [select, List.foldl_cons]
    by_cases hp : n.tokens p > 0
    · rw [if_pos hp, filterPy_eq _ _ (hg p (by simp))]
      unfold choice
      rw [if_pos hp]
      show (match (_ : Option String) with | none => _ | some t => _) = _
      split
      · next he => rw [he, ih]; rfl
      · next t he => rw [he, ih]; rfl
    · rw [if_neg hp, ih]
      unfold choice
      rw [if_neg hp]; rfl

theorem sel_count {c : String → Option String} (t : String) : ∀ (ps : List String) (d : Dict String Nat), d.WF →
    (ps.foldl (fun d p => bumpSel d (c p)) d).WF ∧
    ((ps.foldl (fun d p => bumpSel d (c p)) d).get? t).getD 0 = (d.get? t).getD 0 + ps.countP (fun p => c p = some t) ∧
    (((ps.foldl (fun d p => bumpSel d (c p)) d).get? t).isSome ↔ (d.get? t).isSome ∨ ∃ p ∈ ps, c p = some t)
  | [], d, hd => ⟨hd, by simp, by simp⟩
  | p :: ps, d, hd => by
    rw [List.foldl_cons]
    match hc : c p with
    | none =>
      obtain ⟨h1, h2, h3⟩ := sel_count (c := c) t ps d hd
      refine ⟨h1, ?_, ?_⟩
      · rw [List.countP_cons_of_neg (by simp [hc])]; exact h2
      · show (Option.isSome _ = true) ↔ _
        rw [show bumpSel d none = d from rfl, h3]; simp [hc]
    | some u =>
      have hd' : (bumpSel d (some u)).WF := Dict.WF.put hd _ _
      obtain ⟨h1, h2, h3⟩ := sel_count (c := c) t ps (bumpSel d (some u)) hd'
      refine ⟨h1, ?_, ?_⟩
      · rw [h2]
        by_cases hu : u = t
        · subst hu
          rw [List.countP_cons_of_pos (by simp [hc])]
          unfold bumpSel
          rw [Dict.get?_put_self, Option.getD_some]; omega
        · rw [List.countP_cons_of_neg (by simp [hc, hu])]
          unfold bumpSel
          rw [Dict.get?_put_of_ne _ _ hu]
      · rw [h3]
        unfold bumpSel
        by_cases hu : u = t
        · subst hu
          rw [Dict.get?_put_self]; simp [hc]
        · rw [Dict.get?_put_of_ne _ _ hu]
          simp [hc, hu]

/-- firing a list of transitions with pairwise disjoint presets, all of them enabled -/
theorem fireSelected_spec : ∀ (d : List (String × Nat)) (n : Net), n.WF → (d.map (·.1)).Nodup →
    (∀ e ∈ d, e.1 ∈ n.transitions) →
    (∀ e ∈ d, (n.pre e.1).length ≤ e.2 → Enabled (n.pre e.1) n.tokens) →
    (∀ e ∈ d, ∀ e' ∈ d, (n.pre e.1).length ≤ e.2 → (n.pre e'.1).length ≤ e'.2 → e.1 ≠ e'.1 → ∀ p ∈ n.pre e.1, p ∉ n.pre e'.1) →
    (fireSelected n d).2 = .ok () ∧ n.SameArcs (fireSelected n d).1 ∧
    ∀ p, (fireSelected n d).1.tokens p = n.tokens p
      - ((d.filter fun e => decide ((n.pre e.1).length ≤ e.2)).map (·.1)).countP (fun t => decide (p ∈ n.pre t))
      + ((d.filter fun e => decide ((n.pre e.1).length ≤ e.2)).map (·.1)).countP (fun t => decide (p ∈ n.post t))
  | [], n, _, _, _, _, _ => ⟨rfl, .refl n, by simp [fireSelected]⟩
  | (t, k) :: d, n, hw, hnd, ht, hen, hdis => by
    rw [List.map_cons, List.nodup_cons] at hnd
    rw [fireSelected]
    by_cases hk : (n.pre t).length ≤ k
    · rw [if_pos hk]
      rcases fire_spec hw (ht (t, k) (by simp)) with ⟨_, h2, h3⟩ | ⟨h1, _⟩
      · have hs := fire_same n t
        match hf : n.fire t, h2, h3, hs with
        | (n', .ok u), _, h3, hs =>
          have h3 : n'.tokens = after (n.pre t) (n.post t) n.tokens := h3
          have hs : n.SameArcs n' := hs
          obtain ⟨r1, r2, r3⟩ := fireSelected_spec d n' (hs.wf hw) hnd.2
            (fun e he => by rw [hs.transitions]; exact ht e (List.mem_cons_of_mem _ he))
            (by
              intro e he hl p hp
              rw [hs.pre] at hl hp
              have h1 := hen e (List.mem_cons_of_mem _ he) hl p hp
              have hne : e.1 ≠ t := by
                intro hh
                have hm := List.mem_map_of_mem (f := Prod.fst) he
                rw [hh] at hm; exact hnd.1 hm
              have h2 := hdis e (List.mem_cons_of_mem _ he) (t, k) (by simp) hl hk hne p hp
              rw [h3]
              unfold after
              rw [if_neg h2]
              split <;> omega)
            (by
              rw [hs.pre]
              exact fun e he e' he' => hdis e (List.mem_cons_of_mem _ he) e' (List.mem_cons_of_mem _ he'))
          refine ⟨r1, hs.trans r2, fun p => ?_⟩
          show (fireSelected n' d).1.tokens p = _
          rw [r3 p, h3, hs.pre, hs.post]
          unfold after
          rw [List.filter_cons_of_pos (by simpa using hk), List.map_cons, List.countP_cons, List.countP_cons]
          by_cases hp : p ∈ n.pre t <;> by_cases hp' : p ∈ n.post t <;> simp [hp, hp'] <;> omega
      · exact absurd (hen (t, k) (by simp) hk) h1
    · rw [if_neg hk, List.filter_cons_of_neg (by simpa using hk)]
      exact fireSelected_spec d n hw hnd.2 (fun e he => ht e (List.mem_cons_of_mem _ he))
        (fun e he => hen e (List.mem_cons_of_mem _ he))
        (fun e he e' he' => hdis e (List.mem_cons_of_mem _ he) e' (List.mem_cons_of_mem _ he'))

theorem choice_some {h : Heap} {n : Net} (hw : n.WF) {pick : String → Nat} {p t : String} (hp : p ∈ n.places)
    (hc : choice h n pick p = some t) :
    t ∈ n.transitions ∧ p ∈ n.pre t ∧ (n.guard t).accept h = .ok true ∧ 1 ≤ n.tokens p := by
  unfold choice at hc
  split at hc
  · next htok =>
    have hm := List.mem_of_getElem? hc
    rw [List.mem_filter, decide_eq_true_eq, (hw.out p hp).2] at hm
    exact ⟨hm.1.1, hm.1.2, hm.2, by omega⟩
  · cases hc

theorem choice_unique {h : Heap} {n : Net} (hw : n.WF) {pick : String → Nat} {p t : String} (hp : p ∈ n.places)
    (htok : 1 ≤ n.tokens p) (ht : t ∈ n.transitions) (hpt : p ∈ n.pre t) (hg : (n.guard t).accept h = .ok true)
    (hu : ∀ u ∈ n.transitions, u ≠ t → (n.guard u).accept h = .ok true → p ∉ n.pre u) : choice h n pick p = some t := by
  unfold choice
  rw [if_pos (by omega)]
  have hmem : t ∈ (n.out p).filter fun t => decide ((n.guard t).accept h = .ok true) := by
    rw [List.mem_filter, decide_eq_true_eq, (hw.out p hp).2]; exact ⟨⟨ht, hpt⟩, hg⟩
  have hall : ∀ u ∈ (n.out p).filter fun t => decide ((n.guard t).accept h = .ok true), u = t := by
    intro u hum
    rw [List.mem_filter, decide_eq_true_eq, (hw.out p hp).2] at hum
    by_contra hne
    exact hu u hum.1.1 hne hum.2 hum.1.2
  have hlen := List.length_pos_of_mem hmem
  have hlt := Nat.mod_lt (pick p) hlen
  rw [List.getElem?_eq_getElem hlt]
  exact congrArg some (hall _ (List.getElem_mem hlt))

end Prolothar.Petri
