import Verif.Model.Parallel
import Mathlib.Data.List.Basic
import Mathlib.Data.List.Range
import Mathlib.Data.List.Perm.Basic
import Mathlib.Algebra.BigOperators.Group.Finset.Basic
import Mathlib.Algebra.Order.BigOperators.Group.Finset
set_option linter.unusedSimpArgs false
set_option linter.unusedVariables false
/- Helper lemmas for `Verif/Props/Parallel.lean`: invariants of the transition systems. -/
namespace Prolothar.Parallel
open Prolothar.ListUtils
variable {α O : Type}

/-- the object a unit of work appends, if any -/
def emit (act : α → Except O (Option O)) (x : α) : Option O :=
  match act x with
  | .ok (some o) => some o
  | _ => none

/-- the objects a list of units of work appends -/
def outs (act : α → Except O (Option O)) (l : List α) : List O := l.filterMap (emit act)

def AllOk (act : α → Except O (Option O)) (l : List α) : Prop := ∀ x ∈ l, ∃ o, act x = .ok o

theorem outs_append (act : α → Except O (Option O)) (l m : List α) :
    outs act (l ++ m) = outs act l ++ outs act m := by simp [outs]

theorem outs_single {act : α → Except O (Option O)} {x : α} {eo : Option O} (h : act x = .ok eo) :
    outs act [x] = eo.toList := by
  cases eo <;> simp [outs, emit, h]

theorem AllOk.append {act : α → Except O (Option O)} {l m : List α} (hl : AllOk act l)
    (hm : AllOk act m) : AllOk act (l ++ m) := by
  intro x hx
  rcases List.mem_append.1 hx with h | h
  · exact hl x h
  · exact hm x h

theorem AllOk.single {act : α → Except O (Option O)} {x : α} {eo : Option O} (h : act x = .ok eo) :
    AllOk act [x] := by
  intro y hy; rw [List.mem_singleton.1 hy]; exact ⟨eo, h⟩

/-! ### threads -/

def WInv (act : α → Except O (Option O)) (part : List α) : TW α O → List O → Prop
  | .idle, em => em = []
  | .running todo, em => ∃ done, part = done ++ todo ∧ AllOk act done ∧ em = outs act done
  | .holding o todo, em => ∃ done x, part = done ++ x :: todo ∧ AllOk act done ∧
      act x = .ok (some o) ∧ em = outs act done
  | .finished, em => AllOk act part ∧ em = outs act part
  | .failed e, _ => ∃ done x todo, part = done ++ x :: todo ∧ AllOk act done ∧ act x = .error e

theorem WInv.step {act : α → Except O (Option O)} {part : List α} {w w' : TW α O} {em : List O}
    {eo : Option O} (h : WInv act part w em) (hs : TWStep act w eo w') :
    WInv act part w' (em ++ eo.toList) := by
  cases hs with
  | keep ha =>
    obtain ⟨done, h1, h2, h3⟩ := h
    exact ⟨done, _, h1, h2, ha, by simpa using h3⟩
  | @skip x xs ha =>
    obtain ⟨done, h1, h2, h3⟩ := h
    refine ⟨done ++ [x], by simpa using h1, h2.append (.single ha), ?_⟩
    rw [outs_append, outs_single ha, h3]
  | @raise x xs e ha =>
    obtain ⟨done, h1, h2, h3⟩ := h
    exact ⟨done, x, xs, h1, h2, ha⟩
  | @append o xs =>
    obtain ⟨done, x, h1, h2, h3, h4⟩ := h
    refine ⟨done ++ [x], by simpa using h1, h2.append (.single h3), ?_⟩
    rw [outs_append, outs_single h3, h4]
  | done =>
    obtain ⟨done, h1, h2, h3⟩ := h
    have : part = done := by simpa using h1
    subst this
    exact ⟨h2, by simpa using h3⟩

/-- what was appended by worker `k`, in a tagged log -/
def ofTag (log : List (Nat × O)) (k : Nat) : List O := (log.filter fun p => p.1 == k).map Prod.snd

def MainInv (n : Nat) (ws : Nat → TW α O) : TMain O → Prop
  | .starting k => k ≤ n ∧ (∀ j, k ≤ j → ws j = .idle) ∧ ∀ j < k, ws j ≠ .idle
  | .joining k => k ≤ n ∧ (∀ j < k, ws j = .finished) ∧ ∀ j < n, ws j ≠ .idle
  | .returned => ∀ j < n, ws j = .finished
  | .raised e => ∃ k < n, ws k = .failed e ∧ ∀ j < k, ws j = .finished

structure TInv (act : α → Except O (Option O)) (parts : List (List α)) (dest : Nat → Nat)
    (s : TS α O) : Prop where
  outside : ∀ k, parts.length ≤ k → s.ws k = .idle
  main : MainInv parts.length s.ws s.main
  log : ∃ log : List (Nat × O),
    (∀ d, s.lists d = (log.filter fun p => dest p.1 == d).map Prod.snd) ∧
    ∀ k, WInv act (parts.getD k []) (s.ws k) (ofTag log k)

theorem TWStep.not_idle {act : α → Except O (Option O)} {w w' : TW α O} {eo : Option O}
    (h : TWStep act w eo w') : w ≠ .idle ∧ w' ≠ .idle ∧ w ≠ .finished ∧ ∀ e, w ≠ .failed e := by
  cases h <;> simp

theorem MainInv.worker {act : α → Except O (Option O)} {n : Nat} {ws : Nat → TW α O} {m : TMain O}
    (h : MainInv n ws m) {k : Nat} {eo : Option O} {w : TW α O} (hs : TWStep act (ws k) eo w) :
    MainInv n (Function.update ws k w) m := by
  obtain ⟨h1, h2, h3, h4⟩ := hs.not_idle
  cases m with
  | starting i =>
    obtain ⟨g1, g2, g3⟩ := h
    refine ⟨g1, fun j hj => ?_, fun j hj => ?_⟩
    · have : j ≠ k := by rintro rfl; exact h1 (g2 _ hj)
      rw [Function.update_of_ne this]; exact g2 j hj
    · by_cases hjk : j = k
      · subst hjk; simpa using h2
      · rw [Function.update_of_ne hjk]; exact g3 j hj
  | joining i =>
    obtain ⟨g1, g2, g3⟩ := h
    refine ⟨g1, fun j hj => ?_, fun j hj => ?_⟩
    · have : j ≠ k := by rintro rfl; exact h3 (g2 _ hj)
      rw [Function.update_of_ne this]; exact g2 j hj
    · by_cases hjk : j = k
      · subst hjk; simpa using h2
      · rw [Function.update_of_ne hjk]; exact g3 j hj
  | returned =>
    intro j hj
    have : j ≠ k := by rintro rfl; exact h3 (h _ hj)
    rw [Function.update_of_ne this]; exact h j hj
  | raised e =>
    obtain ⟨i, g1, g2, g3⟩ := h
    refine ⟨i, g1, ?_, fun j hj => ?_⟩
    · have : i ≠ k := by rintro rfl; exact h4 _ g2
      rw [Function.update_of_ne this]; exact g2
    · have : j ≠ k := by rintro rfl; exact h3 (g3 _ hj)
      rw [Function.update_of_ne this]; exact g3 j hj

theorem TInv.init (act : α → Except O (Option O)) (parts : List (List α)) (dest : Nat → Nat) :
    TInv act parts dest TS.init :=
  ⟨fun _ _ => rfl, ⟨Nat.zero_le _, fun _ _ => rfl, fun j hj => by omega⟩, [], fun d => rfl,
    fun k => rfl⟩

theorem TInv.step {act : α → Except O (Option O)} {parts : List (List α)} {dest : Nat → Nat}
    {s t : TS α O} (h : TInv act parts dest s) (hs : TStep act parts dest s t) :
    TInv act parts dest t := by
  obtain ⟨ho, hm, log, hl, hw⟩ := h
  cases hs with
  | @start k part e1 e2 =>
    rw [e1] at hm
    obtain ⟨g1, g2, g3⟩ := hm
    have hk : k < parts.length := (List.getElem?_eq_some_iff.1 e2).1
    refine ⟨fun j hj => ?_, ⟨hk, fun j hj => ?_, fun j hj => ?_⟩, log, hl, fun j => ?_⟩
    · have : j ≠ k := by omega
      simp only [Function.update_of_ne this]; exact ho j hj
    · have : j ≠ k := by omega
      simp only [Function.update_of_ne this]; exact g2 j (by omega)
    · by_cases hjk : j = k
      · subst hjk; simp
      · simp only [Function.update_of_ne hjk]; exact g3 j (by omega)
    · by_cases hjk : j = k
      · subst hjk
        have := hw j
        rw [g2 j le_rfl] at this
        simp only [Function.update_self]
        refine ⟨[], by simp [List.getD, e2], by simp [AllOk], ?_⟩
        exact this
      · simp only [Function.update_of_ne hjk]; exact hw j
  | started e1 =>
    rw [e1] at hm
    obtain ⟨g1, g2, g3⟩ := hm
    exact ⟨ho, ⟨Nat.zero_le _, fun j hj => by omega, g3⟩, log, hl, hw⟩
  | @join k e1 e2 e3 =>
    rw [e1] at hm
    obtain ⟨g1, g2, g3⟩ := hm
    refine ⟨ho, ⟨e2, fun j hj => ?_, g3⟩, log, hl, hw⟩
    rcases Nat.lt_or_ge j k with h | h
    · exact g2 j h
    · have : j = k := by omega
      subst this; exact e3
  | @joinRaise k e e1 e2 e3 =>
    rw [e1] at hm
    obtain ⟨g1, g2, g3⟩ := hm
    exact ⟨ho, ⟨k, e2, e3, g2⟩, log, hl, hw⟩
  | joined e1 =>
    rw [e1] at hm
    obtain ⟨g1, g2, g3⟩ := hm
    exact ⟨ho, g2, log, hl, hw⟩
  | @worker k eo w hs =>
    refine ⟨fun j hj => ?_, hm.worker hs, log ++ eo.toList.map (fun o => (k, o)), fun d => ?_, fun j => ?_⟩
    · have : j ≠ k := by rintro rfl; exact hs.not_idle.1 (ho _ hj)
      simp only [Function.update_of_ne this]; exact ho j hj
    · by_cases hd : d = dest k
      · subst hd
        simp only [Function.update_self, hl, List.filter_append, List.map_append]
        cases eo <;> simp
      · simp only [Function.update_of_ne hd, hl, List.filter_append, List.map_append]
        cases eo <;> simp [Ne.symm hd]
    · by_cases hj : j = k
      · subst hj
        simp only [Function.update_self]
        have := (hw j).step hs
        have e : ofTag (log ++ eo.toList.map (fun o => (j, o))) j = ofTag log j ++ eo.toList := by
          cases eo <;> simp [ofTag]
        rw [e]; exact this
      · have e : ofTag (log ++ eo.toList.map (fun o => (k, o))) j = ofTag log j := by
          cases eo <;> simp [ofTag, Ne.symm hj]
        simp only [Function.update_of_ne hj, e]; exact hw j

theorem TInv.reach {act : α → Except O (Option O)} {parts : List (List α)} {dest : Nat → Nat}
    {s : TS α O} (h : Relation.ReflTransGen (TStep act parts dest) TS.init s) :
    TInv act parts dest s := by
  induction h with
  | refl => exact TInv.init act parts dest
  | tail _ hs ih => exact ih.step hs

/-- a tagged log is a rearrangement of its parts -/
theorem perm_tags (log : List (Nat × O)) (n : Nat) (h : ∀ p ∈ log, p.1 < n) :
    (log.map Prod.snd).Perm ((List.range n).map (ofTag log)).flatten := by
  induction n generalizing log with
  | zero =>
    have : log = [] := List.eq_nil_iff_forall_not_mem.2 fun p hp => by have := h p hp; omega
    subst this; simp
  | succ n ih =>
    have h1 := (List.filter_append_perm (fun p : Nat × O => decide (p.1 < n)) log).symm
    have h2 := ih (log.filter fun p => decide (p.1 < n)) (by simp)
    have e1 : (log.filter fun p : Nat × O => !decide (p.1 < n)) = log.filter fun p => p.1 == n := by
      apply List.filter_congr
      intro p hp
      have := h p hp
      by_cases hpn : p.1 = n
      · simp [hpn]
      · have hlt : p.1 < n := by omega
        simp [hpn, hlt]
    have e2 : (List.range n).map (ofTag (log.filter fun p => decide (p.1 < n)))
        = (List.range n).map (ofTag log) := by
      apply List.map_congr_left
      intro k hk
      have hk := List.mem_range.1 hk
      unfold ofTag
      rw [List.filter_filter]
      congr 1
      apply List.filter_congr
      intro p _
      by_cases hpk : p.1 = k
      · simp [hpk, hk]
      · simp [hpk]
    rw [List.range_succ, List.map_append, List.flatten_append]
    refine (h1.map Prod.snd).trans ?_
    rw [List.map_append, e1]
    rw [e2] at h2
    refine h2.append ?_
    simp [ofTag]

/-- first failing unit of work of a list -/
def FirstErr (act : α → Except O (Option O)) (l : List α) (e : O) : Prop :=
  ∃ done x todo, l = done ++ x :: todo ∧ AllOk act done ∧ act x = .error e

theorem flatten_getD {β : Type} (parts : List (List β)) :
    parts = (List.range parts.length).map fun k => parts.getD k [] := by
  apply List.ext_getElem
  · simp
  · intro i h1 h2
    simp [List.getD, h1]

theorem outs_flatten (act : α → Except O (Option O)) (parts : List (List α)) :
    outs act parts.flatten
      = ((List.range parts.length).map fun k => outs act (parts.getD k [])).flatten := by
  conv_lhs => rw [flatten_getD parts]
  generalize List.range parts.length = ks
  induction ks with
  | nil => simp [outs]
  | cons k ks ih =>
    simp only [List.map_cons, List.flatten_cons, outs_append, ih]

/-- the possible results of a thread run -/
theorem ThreadRun.spec {act : α → Except O (Option O)} {parts : List (List α)} {dest : Nat → Nat}
    {out : Except O (Nat → List O)} (h : ThreadRun act parts dest out) :
    (∃ lists, out = .ok lists ∧ AllOk act parts.flatten ∧
      (dest = id → ∀ k < parts.length, lists k = outs act (parts.getD k [])) ∧
      (dest = (fun _ => 0) → (lists 0).Perm (outs act parts.flatten))) ∨
    (∃ e, out = .error e ∧ FirstErr act parts.flatten e) := by
  obtain ⟨s, hr, hs⟩ := h
  obtain ⟨ho, hm, log, hl, hw⟩ := TInv.reach hr
  have htag : ∀ p ∈ log, p.1 < parts.length := by
    intro p hp
    by_contra hc
    have := hw p.1
    rw [ho p.1 (by omega)] at this
    have h2 : p.2 ∈ ofTag log p.1 := List.mem_map.2 ⟨p, List.mem_filter.2 ⟨hp, by simp⟩, rfl⟩
    have h3 : ofTag log p.1 = [] := this
    rw [h3] at h2; cases h2
  rcases hs with ⟨e1, e2⟩ | ⟨e, e1, e2⟩
  · left
    rw [e1] at hm
    have hfin : ∀ k < parts.length, AllOk act (parts.getD k []) ∧ ofTag log k = outs act (parts.getD k []) := by
      intro k hk
      have := hw k
      rw [hm k hk] at this
      exact this
    refine ⟨s.lists, e2, ?_, ?_, ?_⟩
    · intro x hx
      obtain ⟨part, hp, hx⟩ := List.mem_flatten.1 hx
      obtain ⟨k, hk, rfl⟩ := List.mem_iff_getElem.1 hp
      have := (hfin k hk).1
      simp only [List.getD, hk, List.getElem?_eq_getElem, Option.getD_some] at this
      exact this x hx
    · rintro rfl k hk
      rw [hl, ← (hfin k hk).2]; rfl
    · rintro rfl
      have : s.lists 0 = log.map Prod.snd := by
        rw [hl]
        congr 1
        simp
      rw [this]
      refine (perm_tags log _ htag).trans ?_
      rw [outs_flatten]
      have : (List.range parts.length).map (ofTag log)
          = (List.range parts.length).map fun k => outs act (parts.getD k []) := by
        apply List.map_congr_left
        intro k hk
        exact (hfin k (List.mem_range.1 hk)).2
      rw [this]
  · right
    rw [e1] at hm
    obtain ⟨k, hk, g1, g2⟩ := hm
    refine ⟨e, e2, ?_⟩
    have h1 := hw k
    rw [g1] at h1
    obtain ⟨done, x, todo, h2, h3, h4⟩ := h1
    simp only [List.getD, hk, List.getElem?_eq_getElem, Option.getD_some] at h2
    have hsplit : parts = parts.take k ++ parts[k] :: parts.drop (k + 1) := by
      rw [← List.drop_eq_getElem_cons hk, List.take_append_drop]
    refine ⟨(parts.take k).flatten ++ done, x, todo ++ (parts.drop (k + 1)).flatten, ?_, ?_, h4⟩
    · conv_lhs => rw [hsplit]
      simp [h2]
    · refine AllOk.append ?_ h3
      intro y hy
      obtain ⟨part, hp, hy⟩ := List.mem_flatten.1 hy
      obtain ⟨j, hj, rfl⟩ := List.mem_iff_getElem.1 hp
      have hjk : j < k := by simp at hj; omega
      have h5 := hw j
      rw [g2 j hjk] at h5
      have h6 := h5.1
      simp only [List.getD, (by omega : j < parts.length), List.getElem?_eq_getElem, Option.getD_some] at h6
      rw [List.getElem_take] at hy
      exact h6 y hy

/-! ### progress and termination -/

theorem no_infinite_run {S : Type} (step : S → S → Prop) (Inv : S → Prop) (μ : S → Nat)
    (hstep : ∀ s t, Inv s → step s t → Inv t ∧ μ t < μ s) (f : Nat → S) (h0 : Inv (f 0))
    (hf : ∀ i, step (f i) (f (i + 1))) : False := by
  have h1 : ∀ i, Inv (f i) := by
    intro i
    induction i with
    | zero => exact h0
    | succ i ih => exact (hstep _ _ ih (hf i)).1
  have h2 : ∀ i, μ (f i) + i ≤ μ (f 0) := by
    intro i
    induction i with
    | zero => simp
    | succ i ih =>
      have := (hstep _ _ (h1 i) (hf i)).2
      omega
  have := h2 (μ (f 0) + 1)
  omega

def TMain.measure (n : Nat) : TMain O → Nat
  | .starting k => (n - k) + n + 3
  | .joining k => (n - k) + 1
  | .returned => 0
  | .raised _ => 0

def TW.measure (len : Nat) : TW α O → Nat
  | .idle => 2 * len + 2
  | .running todo => 2 * todo.length + 1
  | .holding _ todo => 2 * todo.length + 2
  | .finished => 0
  | .failed _ => 0

def TS.measure (parts : List (List α)) (s : TS α O) : Nat :=
  s.main.measure parts.length
    + ∑ k ∈ Finset.range parts.length, (s.ws k).measure (parts.getD k []).length

theorem sum_update_lt {n k : Nat} (hk : k < n) (f g : Nat → Nat) (h1 : g k < f k)
    (h2 : ∀ j, j ≠ k → g j = f j) : ∑ j ∈ Finset.range n, g j < ∑ j ∈ Finset.range n, f j := by
  refine Finset.sum_lt_sum (fun j _ => ?_) ⟨k, Finset.mem_range.2 hk, h1⟩
  by_cases hj : j = k
  · subst hj; exact h1.le
  · exact (h2 j hj).le

theorem sum_update_le {n k : Nat} (f g : Nat → Nat) (h1 : g k ≤ f k)
    (h2 : ∀ j, j ≠ k → g j = f j) : ∑ j ∈ Finset.range n, g j ≤ ∑ j ∈ Finset.range n, f j := by
  refine Finset.sum_le_sum (fun j _ => ?_)
  by_cases hj : j = k
  · subst hj; exact h1
  · exact (h2 j hj).le

theorem TStep.decreases {act : α → Except O (Option O)} {parts : List (List α)} {dest : Nat → Nat}
    {s t : TS α O} (h : TInv act parts dest s) (hs : TStep act parts dest s t) :
    t.measure parts < s.measure parts := by
  obtain ⟨ho, hm, _⟩ := h
  unfold TS.measure
  cases hs with
  | @start k part e1 e2 =>
    have hk : k < parts.length := (List.getElem?_eq_some_iff.1 e2).1
    rw [e1] at hm
    have := sum_update_le (n := parts.length) (k := k)
      (fun j => (s.ws j).measure (parts.getD j []).length)
      (fun j => (Function.update s.ws k (.running part) j).measure (parts.getD j []).length)
      (by simp [hm.2.1 k le_rfl, TW.measure, List.getD, e2])
      (fun j hj => by simp [Function.update_of_ne hj])
    simp only [e1, TMain.measure]
    omega
  | started e1 => simp only [e1, TMain.measure]; omega
  | join e1 e2 e3 => simp only [e1, TMain.measure]; omega
  | joinRaise e1 e2 e3 => simp only [e1, TMain.measure]; omega
  | joined e1 => simp only [e1, TMain.measure]; omega
  | @worker k eo w hs =>
    have hk : k < parts.length := by
      by_contra hc
      exact hs.not_idle.1 (ho k (by omega))
    have := sum_update_lt hk (fun j => (s.ws j).measure (parts.getD j []).length)
      (fun j => (Function.update s.ws k w j).measure (parts.getD j []).length)
      (by
        simp only [Function.update_self]
        generalize s.ws k = v at hs
        cases hs <;> simp only [TW.measure, List.length_cons] <;> omega)
      (fun j hj => by simp [Function.update_of_ne hj])
    simp only
    omega

/-- a reachable state without enabled step is final -/
theorem TInv.progress {act : α → Except O (Option O)} {parts : List (List α)} {dest : Nat → Nat}
    {s : TS α O} (h : TInv act parts dest s) (hstuck : ∀ t, ¬ TStep act parts dest s t) :
    s.main = .returned ∨ ∃ e, s.main = .raised e := by
  obtain ⟨ho, hm, _⟩ := h
  have hwork : ∀ k, (∃ t, s.ws k = .running t) ∨ (∃ o t, s.ws k = .holding o t) → False := by
    rintro k (⟨t, ht⟩ | ⟨o, t, ht⟩)
    · cases t with
      | nil => exact hstuck _ (.worker (k := k) (by rw [ht]; exact .done))
      | cons x xs =>
        cases ha : act x with
        | error e => exact hstuck _ (.worker (k := k) (by rw [ht]; exact .raise ha))
        | ok eo =>
          cases eo with
          | none => exact hstuck _ (.worker (k := k) (by rw [ht]; exact .skip ha))
          | some o => exact hstuck _ (.worker (k := k) (by rw [ht]; exact .keep ha))
    · exact hstuck _ (.worker (k := k) (by rw [ht]; exact .append))
  cases hmain : s.main with
  | returned => exact .inl rfl
  | raised e => exact .inr ⟨e, rfl⟩
  | starting k =>
    rw [hmain] at hm
    rcases Nat.lt_or_ge k parts.length with h | h
    · exact absurd (.start hmain (List.getElem?_eq_getElem h)) (hstuck _)
    · have : k = parts.length := by have := hm.1; omega
      subst this
      exact absurd (.started hmain) (hstuck _)
  | joining k =>
    rw [hmain] at hm
    rcases Nat.lt_or_ge k parts.length with h | h
    · cases hw : s.ws k with
      | idle => exact absurd hw (hm.2.2 k h)
      | running t => exact (hwork k (.inl ⟨t, hw⟩)).elim
      | holding o t => exact (hwork k (.inr ⟨o, t, hw⟩)).elim
      | finished => exact absurd (.join hmain h hw) (hstuck _)
      | failed e => exact absurd (.joinRaise hmain h hw) (hstuck _)
    · have : k = parts.length := by have := hm.1; omega
      subst this
      exact absurd (.joined hmain) (hstuck _)

end Prolothar.Parallel
