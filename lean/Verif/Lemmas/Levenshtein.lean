import Verif.Spec.Edit
import Verif.Lemmas.Grid
import Verif.Model.Levenshtein
import Mathlib.Data.List.Basic
import Mathlib.Tactic.Linarith
/- Helper lemmas for the Levenshtein properties. -/
set_option linter.unusedSectionVars false
set_option linter.unusedSimpArgs false
set_option linter.unusedTactic false
set_option linter.unreachableTactic false
namespace Prolothar.Levenshtein
open Prolothar.Grid Prolothar.Spec
variable {α : Type}

/-- alignments, growing at the end -/
inductive Align (ci cd cs : Nat) : List α → List α → Nat → Prop
  | nil : Align ci cd cs [] [] 0
  | keep {s t c} (x : α) : Align ci cd cs s t c → Align ci cd cs (s ++ [x]) (t ++ [x]) c
  | sub {s t c} (x y : α) : Align ci cd cs s t c → Align ci cd cs (s ++ [x]) (t ++ [y]) (c + cs)
  | ins {s t c} (y : α) : Align ci cd cs s t c → Align ci cd cs s (t ++ [y]) (c + ci)
  | del {s t c} (x : α) : Align ci cd cs s t c → Align ci cd cs (s ++ [x]) t (c + cd)

theorem step_append {ci cd cs : Nat} {s t : List α} {c : Nat} (h : Step ci cd cs s t c) (x : α) :
    Step ci cd cs (s ++ [x]) (t ++ [x]) c := by
  cases h with
  | insert a b y => simpa using Step.insert a (b ++ [x]) y
  | delete a b y => simpa using Step.delete a (b ++ [x]) y
  | substitute a b y z => simpa using Step.substitute a (b ++ [x]) y z

theorem script_append {ci cd cs : Nat} {s t : List α} {c : Nat} (h : Script ci cd cs s t c) (x : α) :
    Script ci cd cs (s ++ [x]) (t ++ [x]) c := by
  induction h with
  | nil => exact .nil _
  | snoc _ h2 ih => exact .snoc ih (step_append h2 x)

theorem align_script {ci cd cs : Nat} {s t : List α} {c : Nat} (h : Align ci cd cs s t c) :
    Script ci cd cs s t c := by
  induction h with
  | nil => exact .nil _
  | keep x _ ih => exact script_append ih x
  | @sub s t c x y _ ih => exact .snoc (script_append ih x) (Step.substitute t [] x y)
  | @ins s t c y _ ih =>
    have := Step.insert (insC := ci) (delC := cd) (subC := cs) t [] y
    rw [List.append_nil] at this
    exact .snoc ih this
  | @del s t c x _ ih =>
    have := Step.delete (insC := ci) (delC := cd) (subC := cs) t [] x
    rw [List.append_nil] at this
    exact .snoc (script_append ih x) this

/-- a single edit, located from the end -/
inductive StepR (ci cd cs : Nat) : List α → List α → Nat → Prop
  | ins (t : List α) (y : α) : StepR ci cd cs t (t ++ [y]) ci
  | del (t : List α) (y : α) : StepR ci cd cs (t ++ [y]) t cd
  | sub (t : List α) (x y : α) : StepR ci cd cs (t ++ [x]) (t ++ [y]) cs
  | snoc {t u c} (x : α) : StepR ci cd cs t u c → StepR ci cd cs (t ++ [x]) (u ++ [x]) c

theorem step_stepR {ci cd cs : Nat} {s t : List α} {c : Nat} (h : Step ci cd cs s t c) :
    StepR ci cd cs s t c := by
  cases h with
  | insert a b y =>
    induction b using List.reverseRecOn with
    | nil => simpa using StepR.ins a y
    | append_singleton b x ih => simpa using StepR.snoc x ih
  | delete a b y =>
    induction b using List.reverseRecOn with
    | nil => simpa using StepR.del a y
    | append_singleton b x ih => simpa using StepR.snoc x ih
  | substitute a b y z =>
    induction b using List.reverseRecOn with
    | nil => exact StepR.sub a y z
    | append_singleton b x ih => simpa using StepR.snoc x ih

theorem align_step {ci cd cs : Nat} {s t : List α} {c : Nat} (h : Align ci cd cs s t c) :
    ∀ {u d}, StepR ci cd cs t u d → ∃ e, e ≤ c + d ∧ Align ci cd cs s u e := by
  induction h with
  | nil =>
    intro u d hs
    generalize ht : ([] : List α) = t' at hs
    cases hs with
    | ins t y => subst ht; exact ⟨0 + ci, by omega, Align.ins y .nil⟩
    | del t y => simp at ht
    | sub t x y => simp at ht
    | snoc x h => simp at ht
  | @keep s t c x ha ih =>
    intro u d hs
    generalize ht : t ++ [x] = t' at hs
    cases hs with
    | ins t'' y => subst ht; exact ⟨c + ci, by omega, Align.ins y (.keep x ha)⟩
    | del t'' y =>
      obtain ⟨rfl, h2⟩ := List.append_inj' ht rfl
      exact ⟨c + cd, by omega, .del x ha⟩
    | sub t'' a b =>
      obtain ⟨rfl, h2⟩ := List.append_inj' ht rfl
      exact ⟨c + cs, by omega, .sub x b ha⟩
    | snoc a h =>
      obtain ⟨rfl, h2⟩ := List.append_inj' ht rfl
      simp at h2; subst h2
      obtain ⟨e, h3, h4⟩ := ih h
      exact ⟨e, h3, .keep x h4⟩
  | @sub s t c x y ha ih =>
    intro u d hs
    generalize ht : t ++ [y] = t' at hs
    cases hs with
    | ins t'' z => subst ht; exact ⟨c + cs + ci, by omega, Align.ins z (.sub x y ha)⟩
    | del t'' z =>
      obtain ⟨rfl, h2⟩ := List.append_inj' ht rfl
      exact ⟨c + cd, by omega, .del x ha⟩
    | sub t'' a b =>
      obtain ⟨rfl, h2⟩ := List.append_inj' ht rfl
      exact ⟨c + cs, by omega, .sub x b ha⟩
    | snoc a h =>
      obtain ⟨rfl, h2⟩ := List.append_inj' ht rfl
      simp at h2; subst h2
      obtain ⟨e, h3, h4⟩ := ih h
      exact ⟨e + cs, by omega, .sub x y h4⟩
  | @ins s t c y ha ih =>
    intro u d hs
    generalize ht : t ++ [y] = t' at hs
    cases hs with
    | ins t'' z => subst ht; exact ⟨c + ci + ci, by omega, Align.ins z (.ins y ha)⟩
    | del t'' z =>
      obtain ⟨rfl, h2⟩ := List.append_inj' ht rfl
      exact ⟨c, by omega, ha⟩
    | sub t'' a b =>
      obtain ⟨rfl, h2⟩ := List.append_inj' ht rfl
      exact ⟨c + ci, by omega, .ins b ha⟩
    | snoc a h =>
      obtain ⟨rfl, h2⟩ := List.append_inj' ht rfl
      simp at h2; subst h2
      obtain ⟨e, h3, h4⟩ := ih h
      exact ⟨e + ci, by omega, .ins y h4⟩
  | @del s t c x ha ih =>
    intro u d hs
    obtain ⟨e, h3, h4⟩ := ih hs
    exact ⟨e + cd, by omega, .del x h4⟩

theorem align_refl (ci cd cs : Nat) (s : List α) : Align ci cd cs s s 0 := by
  induction s using List.reverseRecOn with
  | nil => exact .nil
  | append_singleton s x ih => exact .keep x ih

theorem script_align {ci cd cs : Nat} {s t : List α} {c : Nat} (h : Script ci cd cs s t c) :
    ∃ e, e ≤ c ∧ Align ci cd cs s t e := by
  induction h with
  | nil => exact ⟨0, le_rfl, align_refl _ _ _ _⟩
  | snoc _ h2 ih =>
    obtain ⟨e, h3, h4⟩ := ih
    obtain ⟨e', h5, h6⟩ := align_step h4 (step_stepR h2)
    exact ⟨e', by omega, h6⟩

variable [DecidableEq α]

/-- the recurrence for insertion and deletion cost 1 -/
def D (s1 s2 : List α) (cs : Nat) : Nat → Nat → Nat
  | 0, j => j
  | i + 1, 0 => i + 1
  | i + 1, j + 1 =>
    min (min (D s1 s2 cs (i + 1) j + 1) (D s1 s2 cs i (j + 1) + 1))
      (D s1 s2 cs i j + if s1[i]? ≠ s2[j]? then cs else 0)
termination_by i j => i + j

theorem D_zero_right (s1 s2 : List α) (cs i : Nat) : D s1 s2 cs i 0 = i := by
  cases i <;> simp [D]

theorem D_zero_left (s1 s2 : List α) (cs j : Nat) : D s1 s2 cs 0 j = j := by
  simp [D]

theorem matrix_eq (s1 s2 : List α) (cs : Nat) : ∀ i j, i ≤ s1.length → j ≤ s2.length →
    costMatrix s1 s2 1 1 cs i j = D s1 s2 cs i j := by
  intro i j hi hj
  refine fill_spec _ s1.length s2.length (fun i j => (D s1 s2 cs i j : Int)) ?_ _ ?_ i j hi hj
  · intro i j M hi hj h
    have h1 := h i j (by omega) (by omega) (by unfold Final; omega)
    have h2 := h (i + 1) j (by omega) (by omega) (by unfold Final; omega)
    have h3 := h i (j + 1) (by omega) (by omega) (by unfold Final; omega)
    simp only [body, h1, h2, h3]
    rw [D]
    split <;> simp
  · intro a b _ _ h
    rcases h with rfl | rfl
    · simp only [borders, D_zero_left]; split
      · rename_i h; simp [h]
      · simp
    · simp [borders, D_zero_right]

theorem D_lower (s1 s2 : List α) (cs : Nat) {s t : List α} {c : Nat} (h : Align 1 1 cs s t c) :
    ∀ i j, i ≤ s1.length → j ≤ s2.length → s = s1.take i → t = s2.take j →
      D s1 s2 cs i j ≤ c := by
  have tk : ∀ (l : List α) (i : Nat) (s : List α) (x : α), i ≤ l.length → s ++ [x] = l.take i →
      ∃ i', i = i' + 1 ∧ s = l.take i' ∧ l[i']? = some x := by
    intro l i s x hi h
    cases i with
    | zero => simp at h
    | succ i =>
      rw [List.take_succ_eq_append_getElem (by omega)] at h
      obtain ⟨h1, h2⟩ := List.append_inj' h rfl
      simp at h2
      exact ⟨i, rfl, h1, by rw [List.getElem?_eq_getElem (by omega), h2]⟩
  induction h with
  | nil =>
    intro i j hi hj h1 h2
    have e1 : i = 0 := by
      have := congrArg List.length h1
      simp only [List.length_nil, List.length_take] at this; omega
    have e2 : j = 0 := by
      have := congrArg List.length h2
      simp only [List.length_nil, List.length_take] at this; omega
    subst e1 e2
    simp [D]
  | keep x ha ih =>
    intro i j hi hj h1 h2
    obtain ⟨i', rfl, e1, g1⟩ := tk s1 i _ x hi h1
    obtain ⟨j', rfl, e2, g2⟩ := tk s2 j _ x hj h2
    have := ih i' j' (by omega) (by omega) e1 e2
    rw [D, if_neg (by rw [g1, g2]; simp)]
    omega
  | sub x y ha ih =>
    intro i j hi hj h1 h2
    obtain ⟨i', rfl, e1, g1⟩ := tk s1 i _ x hi h1
    obtain ⟨j', rfl, e2, g2⟩ := tk s2 j _ y hj h2
    have := ih i' j' (by omega) (by omega) e1 e2
    rw [D]
    split <;> omega
  | ins y ha ih =>
    intro i j hi hj h1 h2
    obtain ⟨j', rfl, e2, g2⟩ := tk s2 j _ y hj h2
    have := ih i j' (by omega) (by omega) h1 e2
    cases i with
    | zero => simp [D] at this ⊢; omega
    | succ i => rw [D]; omega
  | del x ha ih =>
    intro i j hi hj h1 h2
    obtain ⟨i', rfl, e1, g1⟩ := tk s1 i _ x hi h1
    have := ih i' j (by omega) (by omega) e1 h2
    cases j with
    | zero => simp [D, D_zero_right] at this ⊢; omega
    | succ j => rw [D]; omega

theorem D_align (s1 s2 : List α) (cs : Nat) : ∀ i j, i ≤ s1.length → j ≤ s2.length →
    Align 1 1 cs (s1.take i) (s2.take j) (D s1 s2 cs i j)
  | 0, 0, _, _ => by simpa [D] using Align.nil
  | 0, j + 1, hi, hj => by
    rw [List.take_succ_eq_append_getElem (by omega : j < s2.length)]
    have := Align.ins s2[j] (D_align s1 s2 cs 0 j hi (by omega))
    simpa [D] using this
  | i + 1, 0, hi, hj => by
    rw [List.take_succ_eq_append_getElem (by omega : i < s1.length)]
    have := Align.del s1[i] (D_align s1 s2 cs i 0 (by omega) hj)
    simpa [D, D_zero_right] using this
  | i + 1, j + 1, hi, hj => by
    have e1 := List.take_succ_eq_append_getElem (by omega : i < s1.length)
    have e2 := List.take_succ_eq_append_getElem (by omega : j < s2.length)
    rw [D]
    have a1 := Align.ins s2[j] (D_align s1 s2 cs (i + 1) j hi (by omega))
    have a2 := Align.del s1[i] (D_align s1 s2 cs i (j + 1) (by omega) hj)
    have a3 : Align 1 1 cs (s1.take (i + 1)) (s2.take (j + 1))
        (D s1 s2 cs i j + if s1[i]? ≠ s2[j]? then cs else 0) := by
      rw [e1, e2]
      split
      · exact .sub _ _ (D_align s1 s2 cs i j (by omega) (by omega))
      · rename_i h
        rw [List.getElem?_eq_getElem (by omega), List.getElem?_eq_getElem (by omega)] at h
        simp at h
        rw [h]
        exact .keep _ (D_align s1 s2 cs i j (by omega) (by omega))
    rw [← e2] at a1; rw [← e1] at a2
    rcases min_choice (min (D s1 s2 cs (i + 1) j + 1) (D s1 s2 cs i (j + 1) + 1))
      (D s1 s2 cs i j + if s1[i]? ≠ s2[j]? then cs else 0) with h | h
    · rw [h]
      rcases min_choice (D s1 s2 cs (i + 1) j + 1) (D s1 s2 cs i (j + 1) + 1) with h | h
      · rw [h]; exact a1
      · rw [h]; exact a2
    · rw [h]; exact a3
termination_by i j => i + j

theorem distance_eq (s1 s2 : List α) (cs : Nat) :
    distance s1 s2 1 1 cs = D s1 s2 cs s1.length s2.length := matrix_eq s1 s2 cs _ _ le_rfl le_rfl

theorem isDistance_D (s1 s2 : List α) (cs : Nat) :
    IsDistance 1 1 cs s1 s2 (D s1 s2 cs s1.length s2.length) := by
  constructor
  · have := align_script (D_align s1 s2 cs s1.length s2.length le_rfl le_rfl)
    simpa using this
  · intro c hc
    obtain ⟨e, h1, h2⟩ := script_align hc
    have := D_lower s1 s2 cs h2 s1.length s2.length le_rfl le_rfl (by simp) (by simp)
    omega

/-! ### arbitrary costs -/

/-- the recurrence for arbitrary costs -/
def DC (s1 s2 : List α) (ci cd cs : Int) : Nat → Nat → Int
  | 0, j => j
  | i + 1, 0 => (i : Int) + 1
  | i + 1, j + 1 =>
    min (min (DC s1 s2 ci cd cs (i + 1) j + ci) (DC s1 s2 ci cd cs i (j + 1) + cd))
      (DC s1 s2 ci cd cs i j + if s1[i]? ≠ s2[j]? then cs else 0)
termination_by i j => i + j

theorem DC_zero_right (s1 s2 : List α) (ci cd cs : Int) (i : Nat) : DC s1 s2 ci cd cs i 0 = i := by
  cases i <;> simp [DC]

theorem DC_zero_left (s1 s2 : List α) (ci cd cs : Int) (j : Nat) : DC s1 s2 ci cd cs 0 j = j := by
  simp [DC]

theorem matrix_eq_all (s1 s2 : List α) (ci cd cs : Int) : ∀ i j, i ≤ s1.length → j ≤ s2.length →
    costMatrix s1 s2 ci cd cs i j = DC s1 s2 ci cd cs i j := by
  intro i j hi hj
  refine fill_spec _ s1.length s2.length (fun i j => DC s1 s2 ci cd cs i j) ?_ _ ?_ i j hi hj
  · intro i j M hi hj h
    have h1 := h i j (by omega) (by omega) (by unfold Final; omega)
    have h2 := h (i + 1) j (by omega) (by omega) (by unfold Final; omega)
    have h3 := h i (j + 1) (by omega) (by omega) (by unfold Final; omega)
    simp only [body, h1, h2, h3]
    rw [DC]
  · intro a b _ _ h
    rcases h with rfl | rfl
    · simp only [borders, DC_zero_left]; split
      · rename_i h; simp [h]
      · simp
    · simp [borders, DC_zero_right]

theorem take_snoc {l : List α} {i : Nat} {s : List α} {x : α} (hi : i ≤ l.length) (h : s ++ [x] = l.take i) :
    ∃ i', i = i' + 1 ∧ s = l.take i' ∧ l[i']? = some x := by
  cases i with
  | zero => simp at h
  | succ i =>
    rw [List.take_succ_eq_append_getElem (by omega)] at h
    obtain ⟨h1, h2⟩ := List.append_inj' h rfl
    simp at h2
    exact ⟨i, rfl, h1, by rw [List.getElem?_eq_getElem (by omega), h2]⟩

theorem take_nil {l : List α} {i : Nat} (hi : i ≤ l.length) (h : [] = l.take i) : i = 0 := by
  have := congrArg List.length h
  simp only [List.length_nil, List.length_take] at this; omega

theorem DC_lower (s1 s2 : List α) (ci cd cs : Int) {s t : List α} {c : Int} (h : BorderAlign ci cd cs s t c) :
    ∀ i j, i ≤ s1.length → j ≤ s2.length → s = s1.take i → t = s2.take j → DC s1 s2 ci cd cs i j ≤ c := by
  induction h with
  | nil =>
    intro i j hi hj h1 h2
    rw [take_nil hi h1, take_nil hj h2]
    simp [DC]
  | keep x ha ih =>
    intro i j hi hj h1 h2
    obtain ⟨i', rfl, e1, g1⟩ := take_snoc hi h1
    obtain ⟨j', rfl, e2, g2⟩ := take_snoc hj h2
    have := ih i' j' (by omega) (by omega) e1 e2
    rw [DC, if_neg (by rw [g1, g2]; simp)]
    omega
  | substitute x y hxy ha ih =>
    intro i j hi hj h1 h2
    obtain ⟨i', rfl, e1, g1⟩ := take_snoc hi h1
    obtain ⟨j', rfl, e2, g2⟩ := take_snoc hj h2
    have := ih i' j' (by omega) (by omega) e1 e2
    rw [DC, if_pos (by rw [g1, g2]; simpa using hxy)]
    omega
  | insert y hne ha ih =>
    intro i j hi hj h1 h2
    obtain ⟨j', rfl, e2, g2⟩ := take_snoc hj h2
    have := ih i j' (by omega) (by omega) h1 e2
    cases i with
    | zero => exact absurd h1 (by simpa using hne)
    | succ i => rw [DC]; omega
  | delete x hne ha ih =>
    intro i j hi hj h1 h2
    obtain ⟨i', rfl, e1, g1⟩ := take_snoc hi h1
    have := ih i' j (by omega) (by omega) e1 h2
    cases j with
    | zero => exact absurd h2 (by simpa using hne)
    | succ j => rw [DC]; omega
  | insertFront y ha ih =>
    intro i j hi hj h1 h2
    obtain ⟨j', rfl, e2, g2⟩ := take_snoc hj h2
    have := ih i j' (by omega) (by omega) h1 e2
    rw [take_nil hi h1] at this ⊢
    rw [DC_zero_left] at this ⊢
    omega
  | deleteFront x ha ih =>
    intro i j hi hj h1 h2
    obtain ⟨i', rfl, e1, g1⟩ := take_snoc hi h1
    have := ih i' j (by omega) (by omega) e1 h2
    rw [take_nil hj h2] at this ⊢
    rw [DC_zero_right] at this ⊢
    omega

theorem DC_align (s1 s2 : List α) (ci cd cs : Int) : ∀ i j, i ≤ s1.length → j ≤ s2.length →
    BorderAlign ci cd cs (s1.take i) (s2.take j) (DC s1 s2 ci cd cs i j)
  | 0, 0, _, _ => by simpa [DC] using BorderAlign.nil
  | 0, j + 1, hi, hj => by
    rw [List.take_succ_eq_append_getElem (by omega : j < s2.length)]
    have := DC_align s1 s2 ci cd cs 0 j hi (by omega)
    rw [List.take_zero] at this
    have := BorderAlign.insertFront s2[j] this
    simpa [DC] using this
  | i + 1, 0, hi, hj => by
    rw [List.take_succ_eq_append_getElem (by omega : i < s1.length)]
    have := DC_align s1 s2 ci cd cs i 0 (by omega) hj
    rw [List.take_zero] at this
    have := BorderAlign.deleteFront s1[i] this
    simpa [DC, DC_zero_right] using this
  | i + 1, j + 1, hi, hj => by
    have e1 := List.take_succ_eq_append_getElem (by omega : i < s1.length)
    have e2 := List.take_succ_eq_append_getElem (by omega : j < s2.length)
    rw [DC]
    have a1 := BorderAlign.insert s2[j] (by rw [e1]; exact List.append_ne_nil_of_right_ne_nil _ (by simp)) (DC_align s1 s2 ci cd cs (i + 1) j hi (by omega))
    have a2 := BorderAlign.delete s1[i] (by rw [e2]; exact List.append_ne_nil_of_right_ne_nil _ (by simp)) (DC_align s1 s2 ci cd cs i (j + 1) (by omega) hj)
    have a3 : BorderAlign ci cd cs (s1.take (i + 1)) (s2.take (j + 1))
        (DC s1 s2 ci cd cs i j + if s1[i]? ≠ s2[j]? then cs else 0) := by
      rw [e1, e2]
      split
      · rename_i h
        rw [List.getElem?_eq_getElem (by omega), List.getElem?_eq_getElem (by omega)] at h
        exact .substitute _ _ (by simpa using h) (DC_align s1 s2 ci cd cs i j (by omega) (by omega))
      · rename_i h
        rw [List.getElem?_eq_getElem (by omega), List.getElem?_eq_getElem (by omega)] at h
        simp at h
        rw [h, add_zero]
        exact .keep _ (DC_align s1 s2 ci cd cs i j (by omega) (by omega))
    rw [← e2] at a1; rw [← e1] at a2
    rcases min_choice (min (DC s1 s2 ci cd cs (i + 1) j + ci) (DC s1 s2 ci cd cs i (j + 1) + cd))
      (DC s1 s2 ci cd cs i j + if s1[i]? ≠ s2[j]? then cs else 0) with h | h
    · rw [h]
      rcases min_choice (DC s1 s2 ci cd cs (i + 1) j + ci) (DC s1 s2 ci cd cs i (j + 1) + cd) with h | h
      · rw [h]; exact a1
      · rw [h]; exact a2
    · rw [h]; exact a3
termination_by i j => i + j

/-! ### the backtrace, unit costs -/

/-- loop invariant: `E` is the script in loop order -/
structure BtInv (s1 s2 : List α) (i j : Nat) (E : List EditOperation) : Prop where
  dec : E.Pairwise (fun p q => q.i + q.j < p.i + p.j)
  low : ∀ p ∈ E, i + j ≤ p.i + p.j
  run : execAll s2 E s1 = some (s1.take i ++ s2.drop j)

omit [DecidableEq α] in
theorem BtInv.snoc {s1 s2 : List α} {i j : Nat} {E : List EditOperation} (h : BtInv s1 s2 i j E)
    (op : EditOperation) (h1 : op.i + op.j < i + j)
    (h2 : execOp s2 (some (s1.take i ++ s2.drop j)) op = some (s1.take op.i ++ s2.drop op.j)) :
    BtInv s1 s2 op.i op.j (E ++ [op]) := by
  refine ⟨?_, ?_, ?_⟩
  · rw [List.pairwise_append]
    refine ⟨h.dec, by simp, ?_⟩
    intro p hp q hq
    simp at hq; subst hq
    have := h.low p hp; omega
  · intro p hp
    rcases List.mem_append.1 hp with hp | hp
    · have := h.low p hp; omega
    · simp at hp; subst hp; omega
  · have := h.run
    unfold execAll at *
    rw [List.foldl_append, this]
    exact h2

theorem exec_ins {s1 s2 : List α} {i j : Nat} (hi : i ≤ s1.length) (hj : j < s2.length) :
    execOp s2 (some (s1.take i ++ s2.drop (j + 1))) (EditOperation.mk i j .insert)
      = some (s1.take i ++ s2.drop j) := by
  have hlen : (s1.take i).length = i := by simp; omega
  have e1 : (s1.take i ++ s2.drop (j + 1)).take i = s1.take i := by
    rw [List.take_append_of_le_length (by omega), List.take_of_length_le (by omega)]
  have e2 : (s1.take i ++ s2.drop (j + 1)).drop i = s2.drop (j + 1) := by
    rw [List.drop_append_of_le_length (by omega), List.drop_of_length_le (by omega)]; rfl
  have hle : i ≤ (s1.take i ++ s2.drop (j + 1)).length := by
    rw [List.length_append]; omega
  simp only [execOp, Option.bind_some, if_pos hle, e1, e2, List.getElem?_eq_getElem hj,
    Option.map_some]
  rw [← List.drop_eq_getElem_cons hj]

theorem take_succ_split {s1 : List α} {i : Nat} (t : List α) (hi : i < s1.length) :
    (s1.take (i + 1) ++ t).take i = s1.take i ∧ (s1.take (i + 1) ++ t).drop (i + 1) = t ∧
    i < (s1.take (i + 1) ++ t).length := by
  have hlen : (s1.take (i + 1)).length = i + 1 := by simp; omega
  refine ⟨?_, ?_, by rw [List.length_append]; omega⟩
  · rw [List.take_append_of_le_length (by omega), List.take_take]
    congr 1; omega
  · rw [List.drop_append_of_le_length (by omega), List.drop_of_length_le (by omega)]; rfl

theorem exec_del {s1 s2 : List α} {i j : Nat} (hi : i < s1.length) :
    execOp s2 (some (s1.take (i + 1) ++ s2.drop j)) (EditOperation.mk i j .delete)
      = some (s1.take i ++ s2.drop j) := by
  obtain ⟨e1, e2, e3⟩ := take_succ_split (s2.drop j) hi
  simp only [execOp, Option.bind_some, if_pos e3, e1, e2]

theorem exec_sub {s1 s2 : List α} {i j : Nat} (hi : i < s1.length) (hj : j < s2.length) :
    execOp s2 (some (s1.take (i + 1) ++ s2.drop (j + 1))) (EditOperation.mk i j .substitute)
      = some (s1.take i ++ s2.drop j) := by
  obtain ⟨e1, e2, e3⟩ := take_succ_split (s2.drop (j + 1)) hi
  simp only [execOp, Option.bind_some, if_pos e3, e1, e2, List.getElem?_eq_getElem hj,
    Option.map_some]
  rw [← List.drop_eq_getElem_cons hj]

/-- what one iteration does from cell `(i, j)`, for unit costs -/
theorem btStep_spec (s1 s2 : List α) (i j : Nat) (hi : i ≤ s1.length) (hj : j ≤ s2.length)
    (hne : i ≠ 0 ∨ j ≠ 0) (edits : List EditOperation) :
    (∃ i' j' : Nat, i = i' + 1 ∧ j = j' + 1 ∧ s1[i']? = s2[j']? ∧
      D s1 s2 1 i' j' = D s1 s2 1 i j ∧
      btStep (costMatrix s1 s2 1 1 1) i j edits = ((i' : Int), (j' : Int), edits.reverse)) ∨
    (∃ i' j' : Nat, ∃ op : EditOperation, op.i = i' ∧ op.j = j' ∧
      D s1 s2 1 i' j' + 1 = D s1 s2 1 i j ∧ i' ≤ s1.length ∧ j' ≤ s2.length ∧
      i' + j' < i + j ∧
      btStep (costMatrix s1 s2 1 1 1) i j edits = ((i' : Int), (j' : Int), (edits ++ [op]).reverse) ∧
      execOp s2 (some (s1.take i ++ s2.drop j)) op = some (s1.take i' ++ s2.drop j')) ∨
    (100000 < D s1 s2 1 i j ∧ ∀ edits, btStep (costMatrix s1 s2 1 1 1) i j edits = ((i : Int), (j : Int), edits.reverse)) := by
  have mat : ∀ a b, a ≤ s1.length → b ≤ s2.length →
      costMatrix s1 s2 1 1 1 a b = D s1 s2 1 a b := fun a b ha hb => by
        have := matrix_eq s1 s2 1 a b ha hb; simpa using this
  match i, j, hne with
  | 0, j + 1, _ =>
    right
    have c1 := mat 0 (j + 1) (by omega) (by omega)
    have c2 := mat 0 j (by omega) (by omega)
    rw [D_zero_left] at c1 c2
    have t1 : ((j : Int) + 1 - 1).toNat = j := by omega
    have t2 : ((j : Int) + 1).toNat = j + 1 := by omega
    have n1 : ¬ ((j : Int) + 1 - 1 < 0) := by omega
    have n2 : ¬ ((j : Int) + 1 < 0) := by omega
    have n3 : ((j : Int) + 1) ≠ 0 := by omega
    by_cases hmax : j ≤ 100000
    · left
      refine ⟨0, j, ⟨0, j, .insert⟩, rfl, rfl, by simp [D_zero_left], by omega, by omega, by omega, ?_,
        exec_ins (by omega) (by omega)⟩
      unfold btStep
      simp only [Nat.cast_zero, Nat.cast_add, Nat.cast_one, ne_eq, not_true_eq_false, false_and,
        if_false, n3, not_false_eq_true, if_true, n1, n2, or_self, lt_self_iff_false, false_or,
        Int.toNat_zero, t1, t2, c1, c2, maxCost, true_and]
      have m : min (100000 : Int) (j : Int) = j := by omega
      rw [m]
      rw [if_neg (by push_cast; omega)]
      simp
    · right
      refine ⟨by rw [D_zero_left]; omega, fun edits => ?_⟩
      unfold btStep
      simp only [Nat.cast_zero, Nat.cast_add, Nat.cast_one, ne_eq, not_true_eq_false, false_and,
        if_false, n3, not_false_eq_true, if_true, n1, n2, or_self, lt_self_iff_false, false_or,
        Int.toNat_zero, t1, t2, c1, c2, maxCost, true_and]
      have m : min (100000 : Int) (j : Int) = 100000 := by omega
      rw [m]
      rw [if_neg (by push_cast; omega), if_neg (by omega)]
  | i + 1, 0, _ =>
    right
    have c1 := mat (i + 1) 0 (by omega) (by omega)
    have c2 := mat i 0 (by omega) (by omega)
    rw [D_zero_right] at c1 c2
    have t1 : ((i : Int) + 1 - 1).toNat = i := by omega
    have t2 : ((i : Int) + 1).toNat = i + 1 := by omega
    have n1 : ¬ ((i : Int) + 1 - 1 < 0) := by omega
    have n2 : ¬ ((i : Int) + 1 < 0) := by omega
    have n3 : ((i : Int) + 1) ≠ 0 := by omega
    by_cases hmax : i ≤ 100000
    · left
      refine ⟨i, 0, ⟨i, 0, .delete⟩, rfl, rfl, by simp [D_zero_right], by omega, by omega, by omega, ?_,
        exec_del (by omega)⟩
      unfold btStep
      simp only [Nat.cast_zero, Nat.cast_add, Nat.cast_one, ne_eq, not_true_eq_false, false_and,
        if_false, n3, not_false_eq_true, if_true, n1, n2, or_self, lt_self_iff_false, false_or,
        and_false, or_false, Int.toNat_zero, t1, t2, c1, c2, maxCost, true_and]
      have m : min (100000 : Int) (i : Int) = i := by omega
      rw [m]
      rw [if_neg (by push_cast; omega)]
      simp
    · right
      refine ⟨by rw [D_zero_right]; omega, fun edits => ?_⟩
      unfold btStep
      simp only [Nat.cast_zero, Nat.cast_add, Nat.cast_one, ne_eq, not_true_eq_false, false_and,
        if_false, n3, not_false_eq_true, if_true, n1, n2, or_self, lt_self_iff_false, false_or,
        and_false, or_false, Int.toNat_zero, t1, t2, c1, c2, maxCost, true_and]
      have m : min (100000 : Int) (i : Int) = 100000 := by omega
      rw [m]
      rw [if_neg (by push_cast; omega), if_neg (by omega)]
  | i + 1, j + 1, _ =>
    have c0 := mat (i + 1) (j + 1) (by omega) (by omega)
    have c1 := mat i j (by omega) (by omega)
    have c2 := mat i (j + 1) (by omega) (by omega)
    have c3 := mat (i + 1) j (by omega) (by omega)
    have hD : D s1 s2 1 (i + 1) (j + 1) = min (min (D s1 s2 1 (i + 1) j + 1) (D s1 s2 1 i (j + 1) + 1))
      (D s1 s2 1 i j + if s1[i]? ≠ s2[j]? then 1 else 0) := by rw [D]
    have t1 : ((i : Int) + 1 - 1).toNat = i := by omega
    have t2 : ((i : Int) + 1).toNat = i + 1 := by omega
    have n1 : ¬ ((i : Int) + 1 - 1 < 0) := by omega
    have n2 : ¬ ((i : Int) + 1 < 0) := by omega
    have n3 : ((i : Int) + 1) ≠ 0 := by omega
    have u1 : ((j : Int) + 1 - 1).toNat = j := by omega
    have u2 : ((j : Int) + 1).toNat = j + 1 := by omega
    have v1 : ¬ ((j : Int) + 1 - 1 < 0) := by omega
    have v2 : ¬ ((j : Int) + 1 < 0) := by omega
    have v3 : ((j : Int) + 1) ≠ 0 := by omega
    have i1 : (i : Int) + 1 - 1 = i := by omega
    have j1 : (j : Int) + 1 - 1 = j := by omega
    have hstep : ∀ edits, btStep (costMatrix s1 s2 1 1 1) ((i + 1 : Nat) : Int) ((j + 1 : Nat) : Int) edits =
        if min (min (min (100000 : Int) (D s1 s2 1 i j)) (D s1 s2 1 i (j + 1))) (D s1 s2 1 (i + 1) j)
            = D s1 s2 1 (i + 1) (j + 1) then ((i : Int), (j : Int), edits.reverse)
        else if min (min (min (100000 : Int) (D s1 s2 1 i j)) (D s1 s2 1 i (j + 1))) (D s1 s2 1 (i + 1) j)
            = D s1 s2 1 i j then ((i : Int), (j : Int), (edits ++ [EditOperation.mk i j .substitute]).reverse)
        else if min (min (min (100000 : Int) (D s1 s2 1 i j)) (D s1 s2 1 i (j + 1))) (D s1 s2 1 (i + 1) j)
            = D s1 s2 1 i (j + 1) then
          ((i : Int), (j : Int) + 1, (edits ++ [EditOperation.mk i (j + 1) .delete]).reverse)
        else if min (min (min (100000 : Int) (D s1 s2 1 i j)) (D s1 s2 1 i (j + 1))) (D s1 s2 1 (i + 1) j)
            = D s1 s2 1 (i + 1) j then
          ((i : Int) + 1, (j : Int), (edits ++ [EditOperation.mk (i + 1) j .insert]).reverse)
        else ((i : Int) + 1, (j : Int) + 1, edits.reverse) := by
      intro edits
      unfold btStep
      simp only [Nat.cast_add, Nat.cast_one, ne_eq, n3, v3, not_false_eq_true, and_self, if_true,
        true_and, n1, n2, v1, v2, or_self, if_false, t1, t2, u1, u2, c0, c1, c2, c3, maxCost, i1, j1,
        Int.toNat_natCast]
      rfl
    by_cases hst : 100000 < D s1 s2 1 (i + 1) (j + 1) ∧ 100000 < D s1 s2 1 i j ∧ 100000 < D s1 s2 1 i (j + 1) ∧
        100000 < D s1 s2 1 (i + 1) j
    · right; right
      refine ⟨hst.1, fun edits => ?_⟩
      rw [hstep, if_neg (by omega), if_neg (by omega), if_neg (by omega), if_neg (by omega)]
      simp
    rw [hstep]
    split
    · rename_i h
      left
      refine ⟨i, j, rfl, rfl, ?_, ?_, rfl⟩
      · by_contra hne
        rw [if_pos hne] at hD; omega
      · by_cases hne : s1[i]? ≠ s2[j]?
        · rw [if_pos hne] at hD; omega
        · rw [if_neg hne] at hD; omega
    · right; left
      rename_i h
      split at hD <;> split
      all_goals first
        | (refine ⟨i, j, ⟨i, j, .substitute⟩, rfl, rfl, by omega, by omega, by omega, by omega, rfl,
            exec_sub (by omega) (by omega)⟩)
        | skip
      all_goals split
      all_goals first
        | (refine ⟨i, j + 1, ⟨i, j + 1, .delete⟩, rfl, rfl, by omega, by omega, by omega, by omega, ?_,
            exec_del (by omega)⟩; simp; done)
        | skip
      all_goals split
      all_goals first
        | (refine ⟨i + 1, j, ⟨i + 1, j, .insert⟩, rfl, rfl, by omega, by omega, by omega, by omega, ?_,
            exec_ins (by omega) (by omega)⟩; simp; done)
        | (exfalso; omega)

theorem btLoop_spec (s1 s2 : List α) : ∀ (fuel i j : Nat) (edits E : List EditOperation),
    i ≤ s1.length → j ≤ s2.length → i + j < fuel → D s1 s2 1 i j ≤ 100000 →
    edits.Perm E → BtInv s1 s2 i j E →
    ∃ r E', btLoop (costMatrix s1 s2 1 1 1) fuel i j edits = .ok r ∧ r.Perm E' ∧
      BtInv s1 s2 0 0 E' ∧ E'.length = E.length + D s1 s2 1 i j
  | 0, i, j, _, _, _, _, h, _, _, _ => by omega
  | fuel + 1, i, j, edits, E, hi, hj, hf, hmax, hp, hinv => by
    unfold btLoop
    by_cases h0 : i = 0 ∧ j = 0
    · obtain ⟨rfl, rfl⟩ := h0
      exact ⟨edits, E, by simp, hp, hinv, by simp [D]⟩
    · have hne : i ≠ 0 ∨ j ≠ 0 := by omega
      rw [if_pos (by omega)]
      rcases btStep_spec s1 s2 i j hi hj hne edits with
        ⟨i', j', rfl, rfl, heq, hD, hs⟩ | ⟨i', j', op, rfl, rfl, hD, hi', hj', hlt, hs, hex⟩ | ⟨hbig, _⟩
      rotate_left 2
      · omega
      · have hrun : s1.take (i' + 1) ++ s2.drop (j' + 1) = s1.take i' ++ s2.drop j' := by
          rw [List.take_succ_eq_append_getElem (by omega), List.drop_eq_getElem_cons (i := j') (by omega)]
          rw [List.getElem?_eq_getElem (by omega), List.getElem?_eq_getElem (by omega)] at heq
          simp at heq
          simp [heq]
        obtain ⟨r, E', h1, h2, h3, h4⟩ := btLoop_spec s1 s2 fuel i' j' edits.reverse E (by omega)
          (by omega) (by omega) (by omega) ((List.reverse_perm edits).trans hp)
          ⟨hinv.dec, fun p hp => by have := hinv.low p hp; omega, by rw [hinv.run, hrun]⟩
        refine ⟨r, E', ?_, h2, h3, by omega⟩
        simp only [hs]
        exact h1
      · obtain ⟨r, E', h1, h2, h3, h4⟩ := btLoop_spec s1 s2 fuel op.i op.j (edits ++ [op]).reverse
          (E ++ [op]) hi' hj' (by omega) (by omega)
          ((List.reverse_perm _).trans (hp.append_right [op]))
          (hinv.snoc op hlt hex)
        refine ⟨r, E', ?_, h2, h3, by simp at h4; omega⟩
        simp only [hs]
        exact h1

/-- a cell where an iteration changes nothing is never left -/
theorem btLoop_never (M : Grid.Matrix) (i j : Int) (hne : i ≠ 0 ∨ j ≠ 0) (h : ∀ edits, btStep M i j edits = (i, j, edits.reverse)) :
    ∀ (fuel : Nat) (edits : List EditOperation), btLoop M fuel i j edits = .error .diverge
  | 0, _ => rfl
  | fuel + 1, edits => by
    unfold btLoop
    rw [if_pos hne, h]
    exact btLoop_never M i j hne h fuel _

/-- whatever the distance: if the loop ends, it ends with a script -/
theorem btLoop_returned (s1 s2 : List α) : ∀ (fuel i j : Nat) (edits E r : List EditOperation),
    i ≤ s1.length → j ≤ s2.length → edits.Perm E → BtInv s1 s2 i j E →
    btLoop (costMatrix s1 s2 1 1 1) fuel i j edits = .ok r →
    ∃ E', r.Perm E' ∧ BtInv s1 s2 0 0 E' ∧ E'.length = E.length + D s1 s2 1 i j
  | 0, i, j, _, _, _, _, _, _, _, h => by cases h
  | fuel + 1, i, j, edits, E, r, hi, hj, hp, hinv, hr => by
    by_cases h0 : i = 0 ∧ j = 0
    · obtain ⟨rfl, rfl⟩ := h0
      unfold btLoop at hr
      simp at hr
      subst hr
      exact ⟨E, hp, hinv, by simp [D]⟩
    · have hne : i ≠ 0 ∨ j ≠ 0 := by omega
      have hr0 := hr
      unfold btLoop at hr
      rw [if_pos (by omega)] at hr
      rcases btStep_spec s1 s2 i j hi hj hne edits with
        ⟨i', j', rfl, rfl, heq, hD, hs⟩ | ⟨i', j', op, rfl, rfl, hD, hi', hj', hlt, hs, hex⟩ | ⟨_, hs⟩
      · have hrun : s1.take (i' + 1) ++ s2.drop (j' + 1) = s1.take i' ++ s2.drop j' := by
          rw [List.take_succ_eq_append_getElem (by omega), List.drop_eq_getElem_cons (i := j') (by omega)]
          rw [List.getElem?_eq_getElem (by omega), List.getElem?_eq_getElem (by omega)] at heq
          simp at heq
          simp [heq]
        rw [hs] at hr
        obtain ⟨E', h2, h3, h4⟩ := btLoop_returned s1 s2 fuel i' j' edits.reverse E r (by omega)
          (by omega) ((List.reverse_perm edits).trans hp)
          ⟨hinv.dec, fun p hp => by have := hinv.low p hp; omega, by rw [hinv.run, hrun]⟩ hr
        exact ⟨E', h2, h3, by omega⟩
      · rw [hs] at hr
        obtain ⟨E', h2, h3, h4⟩ := btLoop_returned s1 s2 fuel op.i op.j (edits ++ [op]).reverse
          (E ++ [op]) r hi' hj'
          ((List.reverse_perm _).trans (hp.append_right [op]))
          (hinv.snoc op hlt hex) hr
        exact ⟨E', h2, h3, by simp at h4; omega⟩
      · rw [btLoop_never _ _ _ (by omega) hs] at hr0
        cases hr0

/-- beyond `MAX_COST + 1` an iteration of the loop changes nothing -/
theorem btStep_stuck (s1 s2 : List α) (hmax : 100001 < D s1 s2 1 s1.length s2.length) :
    btStep (costMatrix s1 s2 1 1 1) s1.length s2.length [] =
      ((s1.length : Int), (s2.length : Int), []) := by
  have mat : ∀ a b, a ≤ s1.length → b ≤ s2.length →
      costMatrix s1 s2 1 1 1 a b = D s1 s2 1 a b := fun a b ha hb => by
        have := matrix_eq s1 s2 1 a b ha hb; simpa using this
  have hcell : ∀ a b : Nat, a ≤ s1.length → b ≤ s2.length → ∀ x y : Int, x = a → y = b →
      (if x < 0 ∨ y < 0 then 0 else costMatrix s1 s2 1 1 1 x.toNat y.toNat) = (D s1 s2 1 a b : Int) := by
    intro a b ha hb x y hx hy
    subst hx hy
    rw [if_neg (by omega)]
    simpa using mat a b ha hb
  generalize hn : s1.length = n at *
  generalize hm : s2.length = m at *
  unfold btStep
  match n, m with
  | 0, 0 => simp [D] at hmax
  | 0, m + 1 =>
    rw [D_zero_left] at hmax
    have c1 := hcell 0 (m + 1) (by omega) (by omega) ((0 : Nat) : Int) ((m + 1 : Nat) : Int) rfl rfl
    have c2 := hcell 0 m (by omega) (by omega) ((0 : Nat) : Int) ((m + 1 : Nat) - 1 : Int) rfl (by omega)
    rw [D_zero_left] at c1 c2
    simp only [c1, c2, maxCost]
    have e : min (100000 : Int) m = 100000 := by omega
    have h0 : ((m + 1 : Nat) : Int) ≠ 0 := by omega
    simp only [Nat.cast_zero, ne_eq, not_true_eq_false, false_and, if_false, h0, not_false_eq_true,
      if_true, e, true_and]
    rw [if_neg (by omega), if_neg (by omega)]
    rfl
  | n + 1, 0 =>
    rw [D_zero_right] at hmax
    have c1 := hcell (n + 1) 0 (by omega) (by omega) ((n + 1 : Nat) : Int) ((0 : Nat) : Int) rfl rfl
    have c2 := hcell n 0 (by omega) (by omega) ((n + 1 : Nat) - 1 : Int) ((0 : Nat) : Int) (by omega) rfl
    rw [D_zero_right] at c1 c2
    simp only [c1, c2, maxCost]
    have e : min (100000 : Int) n = 100000 := by omega
    have h0 : ((n + 1 : Nat) : Int) ≠ 0 := by omega
    simp only [Nat.cast_zero, ne_eq, not_true_eq_false, false_and, and_false, if_false, h0, not_false_eq_true,
      if_true, e, true_and]
    rw [if_neg (by omega), if_neg (by omega)]
    rfl
  | n + 1, m + 1 =>
    have hD : D s1 s2 1 (n + 1) (m + 1) = min (min (D s1 s2 1 (n + 1) m + 1) (D s1 s2 1 n (m + 1) + 1))
      (D s1 s2 1 n m + if s1[n]? ≠ s2[m]? then 1 else 0) := by rw [D]
    have hD' : D s1 s2 1 (n + 1) (m + 1) ≤ D s1 s2 1 n m + 1 := by
      split at hD <;> omega
    have c0 := hcell (n + 1) (m + 1) (by omega) (by omega) ((n + 1 : Nat) : Int) ((m + 1 : Nat) : Int) rfl rfl
    have c1 := hcell n m (by omega) (by omega) ((n + 1 : Nat) - 1 : Int) ((m + 1 : Nat) - 1 : Int) (by omega) (by omega)
    have c2 := hcell n (m + 1) (by omega) (by omega) ((n + 1 : Nat) - 1 : Int) ((m + 1 : Nat) : Int) (by omega) rfl
    have c3 := hcell (n + 1) m (by omega) (by omega) ((n + 1 : Nat) : Int) ((m + 1 : Nat) - 1 : Int) rfl (by omega)
    simp only [c0, c1, c2, c3, maxCost]
    have h0 : ((n + 1 : Nat) : Int) ≠ 0 := by omega
    have h1 : ((m + 1 : Nat) : Int) ≠ 0 := by omega
    have e : min (min (min (100000 : Int) (D s1 s2 1 n m)) (D s1 s2 1 n (m + 1))) (D s1 s2 1 (n + 1) m) = 100000 := by
      omega
    simp only [ne_eq, h0, h1, not_false_eq_true, and_self, if_true, e, true_and]
    rw [if_neg (by omega), if_neg (by omega), if_neg (by omega), if_neg (by omega)]
    rfl

theorem btLoop_stuck (s1 s2 : List α) (hmax : 100001 < D s1 s2 1 s1.length s2.length) :
    ∀ fuel, btLoop (costMatrix s1 s2 1 1 1) fuel s1.length s2.length [] = .error .diverge
  | 0 => rfl
  | fuel + 1 => by
    unfold btLoop
    have hne : ¬ (s1.length = 0 ∧ s2.length = 0) := by
      rintro ⟨h1, h2⟩; rw [h1, h2] at hmax; simp [D] at hmax
    rw [if_pos (by omega), btStep_stuck s1 s2 hmax]
    exact btLoop_stuck s1 s2 hmax fuel

end Prolothar.Levenshtein
