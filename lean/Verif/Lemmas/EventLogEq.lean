import Verif.Lemmas.EventLog
set_option linter.unusedSimpArgs false
set_option linter.unusedVariables false
set_option linter.unusedSectionVars false
namespace Prolothar.EventLog
variable {I A V : Type}

theorem Event.Eq.refl (a : Event A V) : Event.Eq a a := ⟨rfl, rfl, fun _ => rfl⟩
theorem Event.Eq.symm {a b : Event A V} (h : Event.Eq a b) : Event.Eq b a :=
  ⟨h.1.symm, h.2.1.symm, fun k => (h.2.2 k).symm⟩
theorem Event.Eq.trans {a b c : Event A V} (h : Event.Eq a b) (h' : Event.Eq b c) : Event.Eq a c :=
  ⟨h.1.trans h'.1, h.2.1.trans h'.2.1, fun k => (h.2.2 k).trans (h'.2.2 k)⟩

theorem Trace.Eq.refl (t : Trace I A V) : Trace.Eq t t :=
  ⟨List.forall₂_same.2 fun e _ => Event.Eq.refl e, fun _ => rfl⟩
theorem Trace.Eq.symm {t u : Trace I A V} (h : Trace.Eq t u) : Trace.Eq u t :=
  ⟨(h.1.imp fun _ _ h => h.symm).flip, fun k => (h.2 k).symm⟩
theorem forall₂_trans {β : Type} {R : β → β → Prop} (ht : ∀ a b c, R a b → R b c → R a c)
    {l m n : List β} (h : List.Forall₂ R l m) (h' : List.Forall₂ R m n) : List.Forall₂ R l n := by
  induction h generalizing n with
  | nil => cases h'; exact .nil
  | cons h1 _ ih =>
    cases h' with
    | cons h2 h3 => exact .cons (ht _ _ _ h1 h2) (ih h3)
theorem Trace.Eq.trans {t u w : Trace I A V} (h : Trace.Eq t u) (h' : Trace.Eq u w) : Trace.Eq t w :=
  ⟨forall₂_trans (R := Event.Eq) (fun _ _ _ h1 h2 => Event.Eq.trans h1 h2) h.1 h'.1, fun k => (h.2 k).trans (h'.2 k)⟩

variable {hash : I → Int}
theorem SameKey.refl (t : Trace I A V) : SameKey hash t t := ⟨rfl, Trace.Eq.refl t⟩
theorem SameKey.symm {t u : Trace I A V} (h : SameKey hash t u) : SameKey hash u t :=
  ⟨h.1.symm, h.2.symm⟩
theorem SameKey.trans {t u w : Trace I A V} (h : SameKey hash t u) (h' : SameKey hash u w) :
    SameKey hash t w := ⟨h.1.trans h'.1, h.2.trans h'.2⟩

open Classical in
/-- how many traces of the log are the same as `t` -/
noncomputable def multiplicity (hash : I → Int) (log : Log I A V) (t : Trace I A V) : Nat :=
  log.countP fun u => decide (SameKey hash u t)

open Classical in
/-- one step of `Counter` -/
noncomputable def counterStep (hash : I → Int) (c : List (Trace I A V × Nat)) (t : Trace I A V) :
    List (Trace I A V × Nat) :=
  if ∃ p ∈ c, SameKey hash p.1 t
    then c.map (fun p => if SameKey hash p.1 t then (p.1, p.2 + 1) else p)
    else c ++ [(t, 1)]

theorem counterGet_nil (t : Trace I A V) : counterGet hash [] t = 0 := rfl

open Classical in
theorem counterGet_cons (p : Trace I A V × Nat) (c : List (Trace I A V × Nat)) (t : Trace I A V) :
    counterGet hash (p :: c) t = if SameKey hash p.1 t then p.2 else counterGet hash c t := by
  unfold counterGet
  rw [List.find?_cons]
  by_cases h : SameKey hash p.1 t
  · simp [h]
  · simp [h]

theorem counterGet_none {c : List (Trace I A V × Nat)} {t : Trace I A V}
    (h : ¬ ∃ p ∈ c, SameKey hash p.1 t) : counterGet hash c t = 0 := by
  induction c with
  | nil => rfl
  | cons p c ih =>
    rw [counterGet_cons, if_neg (fun hc => h ⟨p, by simp, hc⟩)]
    exact ih fun ⟨q, hq, hc⟩ => h ⟨q, by simp [hq], hc⟩

open Classical in
theorem counterGet_step (c : List (Trace I A V × Nat)) (t u : Trace I A V) :
    counterGet hash (counterStep hash c t) u
      = counterGet hash c u + if SameKey hash t u then 1 else 0 := by
  unfold counterStep
  by_cases h : ∃ p ∈ c, SameKey hash p.1 t
  · rw [if_pos h]
    by_cases htu : SameKey hash t u
    · rw [if_pos htu]
      induction c with
      | nil => obtain ⟨p, hp, _⟩ := h; cases hp
      | cons p c ih =>
        rw [List.map_cons, counterGet_cons, counterGet_cons]
        by_cases hp : SameKey hash p.1 t
        · rw [if_pos hp, if_pos (hp.trans htu), if_pos (hp.trans htu)]
        · rw [if_neg hp, if_neg (fun hc => hp (hc.trans htu.symm)),
            if_neg (fun hc => hp (hc.trans htu.symm))]
          apply ih
          obtain ⟨q, hq, hc⟩ := h
          rcases List.mem_cons.1 hq with rfl | hq
          · exact absurd hc hp
          · exact ⟨q, hq, hc⟩
    · rw [if_neg htu]
      clear h
      induction c with
      | nil => rfl
      | cons p c ih =>
        rw [List.map_cons, counterGet_cons, counterGet_cons]
        by_cases hp : SameKey hash p.1 t
        · rw [if_pos hp]
          have : ¬ SameKey hash p.1 u := fun hc => htu (hp.symm.trans hc)
          rw [if_neg this, if_neg this]
          exact ih
        · rw [if_neg hp]
          by_cases hpu : SameKey hash p.1 u
          · rw [if_pos hpu, if_pos hpu]; rfl
          · rw [if_neg hpu, if_neg hpu]; exact ih
  · rw [if_neg h]
    by_cases htu : SameKey hash t u
    · rw [if_pos htu]
      have h0 : ¬ ∃ p ∈ c, SameKey hash p.1 u :=
        fun ⟨p, hp, hc⟩ => h ⟨p, hp, hc.trans htu.symm⟩
      rw [counterGet_none h0]
      clear h
      induction c with
      | nil => rw [List.nil_append, counterGet_cons, if_pos htu]
      | cons p c ih =>
        rw [List.cons_append, counterGet_cons, if_neg (fun hc => h0 ⟨p, by simp, hc⟩)]
        exact ih fun ⟨q, hq, hc⟩ => h0 ⟨q, by simp [hq], hc⟩
    · rw [if_neg htu]
      clear h
      induction c with
      | nil => rw [List.nil_append, counterGet_cons, if_neg htu]; rfl
      | cons p c ih =>
        rw [List.cons_append, counterGet_cons, counterGet_cons]
        split
        · rfl
        · exact ih

open Classical in
theorem counterGet_foldl (log : Log I A V) (c : List (Trace I A V × Nat)) (u : Trace I A V) :
    counterGet hash (log.foldl (counterStep hash) c) u
      = counterGet hash c u + multiplicity hash log u := by
  induction log generalizing c with
  | nil => rfl
  | cons t ts ih =>
    rw [List.foldl_cons, ih, counterGet_step]
    unfold multiplicity
    rw [List.countP_cons]
    simp only [decide_eq_true_eq]
    omega

theorem counter_eq (log : Log I A V) : counter hash log = log.foldl (counterStep hash) [] := rfl

theorem counterGet_counter (log : Log I A V) (u : Trace I A V) :
    counterGet hash (counter hash log) u = multiplicity hash log u := by
  rw [counter_eq, counterGet_foldl, counterGet_nil, Nat.zero_add]

theorem exists_key {c : List (Trace I A V × Nat)} {t : Trace I A V} (h : counterGet hash c t ≠ 0) :
    ∃ p ∈ c, SameKey hash p.1 t := by
  by_contra hc
  exact h (counterGet_none hc)

theorem multiplicity_congr {t u : Trace I A V} (h : SameKey hash t u) (log : Log I A V) :
    multiplicity hash log t = multiplicity hash log u := by
  unfold multiplicity
  apply List.countP_congr
  intro x _
  simp only [decide_eq_true_eq]
  exact ⟨fun hx => hx.trans h, fun hx => hx.trans h.symm⟩

theorem logEq_iff (l m : Log I A V) :
    LogEq hash l m ↔ ∀ t, multiplicity hash l t = multiplicity hash m t := by
  unfold LogEq
  simp only [counterGet_counter]
  constructor
  · rintro ⟨h1, h2⟩ t
    by_cases hl : multiplicity hash l t = 0
    · by_cases hm : multiplicity hash m t = 0
      · rw [hl, hm]
      · rw [← counterGet_counter] at hm
        obtain ⟨p, hp, hpt⟩ := exists_key hm
        rw [← multiplicity_congr hpt, ← multiplicity_congr hpt]
        exact h2 p hp
    · rw [← counterGet_counter] at hl
      obtain ⟨p, hp, hpt⟩ := exists_key hl
      rw [← multiplicity_congr hpt, ← multiplicity_congr hpt]
      exact h1 p hp
  · exact fun h => ⟨fun p _ => h _, fun p _ => h _⟩

open Classical in
theorem multiplicity_cons (t : Trace I A V) (l : Log I A V) (u : Trace I A V) :
    multiplicity hash (t :: l) u = multiplicity hash l u + if SameKey hash t u then 1 else 0 := by
  unfold multiplicity
  rw [List.countP_cons]
  simp only [decide_eq_true_eq]

theorem multiplicity_perm {l m : Log I A V} (h : l.Perm m) (u : Trace I A V) :
    multiplicity hash l u = multiplicity hash m u := h.countP_eq _

theorem logEq_iff_perm (l m : Log I A V) :
    LogEq hash l m ↔ ∃ m', m'.Perm m ∧ List.Forall₂ (SameKey hash) l m' := by
  rw [logEq_iff]
  constructor
  · intro h
    induction l generalizing m with
    | nil =>
      cases m with
      | nil => exact ⟨[], .refl _, .nil⟩
      | cons u m =>
        have := h u
        rw [multiplicity_cons, if_pos (SameKey.refl u)] at this
        simp [multiplicity] at this
    | cons t l ih =>
      have ht := h t
      rw [multiplicity_cons, if_pos (SameKey.refl t)] at ht
      have hpos : 0 < multiplicity hash m t := by omega
      unfold multiplicity at hpos
      rw [List.countP_pos_iff] at hpos
      obtain ⟨u, hu, hk⟩ := hpos
      have hk : SameKey hash u t := by simpa using hk
      obtain ⟨a, b, rfl⟩ := List.append_of_mem hu
      have hp : (u :: (a ++ b)).Perm (a ++ u :: b) := List.perm_middle.symm
      obtain ⟨m', h1, h2⟩ := ih (a ++ b) (fun w => by
        have hw := h w
        rw [multiplicity_cons, ← multiplicity_perm hp, multiplicity_cons] at hw
        have : SameKey hash t w ↔ SameKey hash u w :=
          ⟨fun hc => hk.trans hc, fun hc => hk.symm.trans hc⟩
        by_cases hc : SameKey hash t w
        · rw [if_pos hc, if_pos (this.1 hc)] at hw; omega
        · rw [if_neg hc, if_neg (fun h' => hc (this.2 h'))] at hw; omega)
      exact ⟨u :: m', (h1.cons u).trans hp, .cons hk.symm h2⟩
  · rintro ⟨m', h1, h2⟩ t
    rw [← multiplicity_perm h1]
    clear h1
    induction h2 with
    | nil => rfl
    | @cons x y l m' hxy _ ih =>
      rw [multiplicity_cons, multiplicity_cons, ih]
      by_cases hc : SameKey hash x t
      · rw [if_pos hc, if_pos (hxy.symm.trans hc)]
      · rw [if_neg hc, if_neg (fun h' => hc (hxy.trans h'))]

end Prolothar.EventLog
