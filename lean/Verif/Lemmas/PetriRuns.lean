import Verif.Lemmas.PetriPrune
/-
Lemmas for C145: nets that are extended with invisible transitions that move a token from or to a new place.
-/
namespace Prolothar.Spec.Petri

variable {P T : Type} [DecidableEq P]

/-- tokens that are not missing on any consumed place can be added to all markings of a run -/
theorem Run.add {pre post : T → List P} {ok : T → Prop} {m m' : P → Int} {ts : List T} (x : P → Int)
    (hx : ∀ t, ok t → ∀ p ∈ pre t, 0 ≤ x p) (h : Run pre post ok m ts m') :
    Run pre post ok (fun p => m p + x p) ts (fun p => m' p + x p) := by
  induction h with
  | nil => exact .nil
  | @snoc ts m' t _ ho he ih =>
    have := ih.snoc ho (fun p hp => by have := he p hp; have := hx t ho p hp; show 1 ≤ m' p + x p; omega)
    have e : after (pre t) (post t) (fun p => m' p + x p) = fun p => after (pre t) (post t) m' p + x p := by
      funext p; unfold after; beta_reduce; split <;> split <;> omega
    rwa [e] at this

theorem Run.ok {pre post : T → List P} {ok : T → Prop} {m m' : P → Int} {ts : List T} (h : Run pre post ok m ts m') :
    ∀ t ∈ ts, ok t := by
  induction h with
  | nil => simp
  | snoc _ ho _ ih =>
    intro t ht
    rcases List.mem_append.1 ht with ht | ht
    · exact ih t ht
    · rw [List.mem_singleton] at ht; exact ht ▸ ho

/-- places without arcs keep their tokens -/
theorem Run.const {pre post : T → List P} {ok : T → Prop} {m m' : P → Int} {ts : List T} {s : P}
    (hs : ∀ t, ok t → s ∉ pre t ∧ s ∉ post t) (h : Run pre post ok m ts m') : m' s = m s := by
  induction h with
  | nil => rfl
  | snoc _ ho _ ih => unfold after; rw [if_neg (hs _ ho).1, if_neg (hs _ ho).2]; omega

/-- the runs of `N` are runs of the net with more transitions -/
theorem Run.lift {N N' : Arcs P T} (h : ∀ t, N.ok t → N'.ok t ∧ N'.pre t = N.pre t ∧ N'.post t = N.post t) {m m' : P → Int} {ts : List T}
    (hr : Run N.pre N.post N.ok m ts m') : Run N'.pre N'.post N'.ok m ts m' := by
  induction hr with
  | nil => exact .nil
  | snoc _ ho he ih =>
    obtain ⟨h1, h2, h3⟩ := h _ ho
    have := ih.snoc h1 (by rw [h2]; exact he)
    rwa [h2, h3] at this

/-- `N'` is `N` with additional invisible transitions, each of which moves a token along one of the pairs in `moves`; for
each pair there is such a transition -/
structure Extends (visible : T → Bool) (moves : List (P × P)) (N N' : Arcs P T) : Prop where
  same : ∀ t, N.ok t → N'.ok t ∧ N'.pre t = N.pre t ∧ N'.post t = N.post t
  new : ∀ t, N'.ok t → N.ok t ∨ (visible t = false ∧ ∃ e ∈ moves, N'.pre t = [e.1] ∧ N'.post t = [e.2])
  move : ∀ e ∈ moves, ∃ t, N'.ok t ∧ visible t = false ∧ N'.pre t = [e.1] ∧ N'.post t = [e.2]

theorem filter_snoc_invisible {visible : T → Bool} {ts : List T} {t : T} (h : visible t = false) :
    (ts ++ [t]).filter visible = ts.filter visible := by
  simp [List.filter_append, h]

theorem source_forward {visible : T → Bool} {s : P} {S : List P} {N N' : Arcs P T} (h : Extends visible (S.map fun p => (s, p)) N N')
    (hs : ∀ t, N.ok t → s ∉ N.pre t ∧ s ∉ N.post t) (hS : s ∉ S) {m m' : P → Int} {ts : List T}
    (hr : Run N'.pre N'.post N'.ok m ts m') :
    ∃ (dl : List P) (ts0 : List T) (m0 : P → Int), (∀ p ∈ dl, p ∈ S) ∧ (dl = [] ∨ (dl.length : Int) ≤ m s) ∧
      Run N.pre N.post N.ok (fun p => m p + dl.count p) ts0 m0 ∧ ts0.filter visible = ts.filter visible ∧
      m' = fun p => m0 p - if p = s then (dl.length : Int) else 0 := by
  induction hr with
  | nil => exact ⟨[], [], m, by simp, .inl rfl, by simpa using Run.nil, rfl, by funext p; simp⟩
  | @snoc ts m' t _ ho he ih =>
    obtain ⟨dl, ts0, m0, h1, h2, h3, h4, rfl⟩ := ih
    rcases h.new t ho with hN | ⟨hv, e, hmem, hpre, hpost⟩
    · obtain ⟨-, e1, e2⟩ := h.same t hN
      refine ⟨dl, ts0 ++ [t], _, h1, h2, h3.snoc hN ?_, by rw [List.filter_append, List.filter_append, h4], ?_⟩
      · intro p hp
        have hne : p ≠ s := by rintro rfl; exact (hs t hN).1 hp
        have := he p (e1 ▸ hp)
        simpa [hne] using this
      · rw [e1, e2]
        funext p
        unfold after
        beta_reduce
        split <;> split <;> split <;> omega
    · obtain ⟨q, hq, rfl⟩ := List.mem_map.1 hmem
      simp only at hpre hpost
      have hc := h3.const hs
      have hcount : dl.count s = 0 := List.count_eq_zero.2 fun hc => hS (h1 s hc)
      have hqs : q ≠ s := by rintro rfl; exact hS hq
      have hen := he s (by rw [hpre]; simp)
      simp only [if_true] at hen
      rw [hc, hcount] at hen
      refine ⟨q :: dl, ts0, fun p => m0 p + if p = q then 1 else 0, ?_, .inr ?_, ?_, by rw [h4, filter_snoc_invisible hv], ?_⟩
      · intro p hp
        rcases List.mem_cons.1 hp with rfl | hp
        · exact hq
        · exact h1 p hp
      · simp only [List.length_cons]; push_cast; simp only [Nat.cast_zero] at hen; omega
      · have := h3.add (fun p => if p = q then 1 else 0) (fun t _ p _ => by split <;> omega)
        convert this using 2 with p
        rw [List.count_cons]
        by_cases hp : p = q
        · subst hp; simp; omega
        · simp [hp, Ne.symm hp]
      · rw [hpre, hpost]
        funext p
        unfold after
        simp only [List.mem_singleton, List.length_cons]
        push_cast
        split <;> split <;> omega

theorem source_backward {visible : T → Bool} {s : P} {S : List P} {N N' : Arcs P T} (h : Extends visible (S.map fun p => (s, p)) N N')
    (hs : ∀ t, N.ok t → s ∉ N.pre t ∧ s ∉ N.post t) (hS : s ∉ S) (dl : List P) : ∀ {m m0 : P → Int} {ts0 : List T},
    (∀ p ∈ dl, p ∈ S) → (dl = [] ∨ (dl.length : Int) ≤ m s) → Run N.pre N.post N.ok (fun p => m p + dl.count p) ts0 m0 →
    ∃ ts, Run N'.pre N'.post N'.ok m ts (fun p => m0 p - if p = s then (dl.length : Int) else 0) ∧
      ts.filter visible = ts0.filter visible := by
  induction dl with
  | nil =>
    intro m m0 ts0 _ _ hr
    refine ⟨ts0, ?_, rfl⟩
    have := Run.lift h.same hr
    simpa using this
  | cons q dl ih =>
    intro m m0 ts0 h1 h2 hr
    have hq : q ∈ S := h1 q (by simp)
    have hqs : q ≠ s := by rintro rfl; exact hS hq
    obtain ⟨t, ho, hv, hpre, hpost⟩ := h.move (s, q) (List.mem_map.2 ⟨q, hq, rfl⟩)
    simp only at hpre hpost
    have hlen : ((dl.length : Int) + 1) ≤ m s := by
      rcases h2 with h2 | h2
      · cases h2
      · simpa using h2
    have hstep : Run N'.pre N'.post N'.ok m [t] (after (N'.pre t) (N'.post t) m) := Run.single ho (by
      rw [hpre]; intro p hp; rw [List.mem_singleton] at hp; subst hp; omega)
    have hr' := hr.add (fun p => if p = s then -1 else 0) (fun t ht p hp => by
      rw [if_neg (by rintro rfl; exact (hs t ht).1 hp)])
    obtain ⟨ts, k1, k2⟩ := ih (m := after (N'.pre t) (N'.post t) m) (m0 := fun p => m0 p + if p = s then -1 else 0) (ts0 := ts0)
      (fun p hp => h1 p (by simp [hp])) (.inr (by
        rw [hpre, hpost]; unfold after; simp only [List.mem_singleton, if_pos, if_neg hqs.symm]; omega)) (by
        convert hr' using 2 with p
        rw [hpre, hpost, List.count_cons]
        unfold after
        simp only [List.mem_singleton]
        by_cases hp : p = q
        · subst hp; simp [hqs]; omega
        · simp only [hp, if_false]
          have : (q == p) = false := by simpa using Ne.symm hp
          rw [this]
          split <;> simp <;> omega)
    refine ⟨[t] ++ ts, ?_, by rw [List.filter_append, k2]; simp [hv]⟩
    have := hstep.append k1
    convert this using 2 with p
    simp only [List.length_cons]
    push_cast
    split <;> omega

theorem sink_forward {visible : T → Bool} {s : P} {S : List P} {N N' : Arcs P T} (h : Extends visible (S.map fun p => (p, s)) N N')
    (hs : ∀ t, N.ok t → s ∉ N.pre t ∧ s ∉ N.post t) (hS : s ∉ S) (hfree : ∀ t, N.ok t → ∀ p ∈ S, p ∉ N.pre t) {m m' : P → Int} {ts : List T}
    (hr : Run N'.pre N'.post N'.ok m ts m') :
    ∃ (el : List P) (ts0 : List T) (m0 : P → Int), (∀ p ∈ el, p ∈ S) ∧
      Run N.pre N.post N.ok m ts0 m0 ∧ ts0.filter visible = ts.filter visible ∧
      m' = fun p => m0 p - el.count p + if p = s then (el.length : Int) else 0 := by
  induction hr with
  | nil => exact ⟨[], [], m, by simp, Run.nil, rfl, by funext p; simp⟩
  | @snoc ts m' t _ ho he ih =>
    obtain ⟨el, ts0, m0, h1, h3, h4, rfl⟩ := ih
    rcases h.new t ho with hN | ⟨hv, e, hmem, hpre, hpost⟩
    · obtain ⟨-, e1, e2⟩ := h.same t hN
      refine ⟨el, ts0 ++ [t], _, h1, h3.snoc hN ?_, by rw [List.filter_append, List.filter_append, h4], ?_⟩
      · intro p hp
        have hne : p ≠ s := by rintro rfl; exact (hs t hN).1 hp
        have hcount : el.count p = 0 := List.count_eq_zero.2 fun hc => hfree t hN p (h1 p hc) hp
        have := he p (e1 ▸ hp)
        simpa [hne, hcount] using this
      · rw [e1, e2]
        funext p
        unfold after
        beta_reduce
        split <;> split <;> split <;> omega
    · obtain ⟨q, hq, rfl⟩ := List.mem_map.1 hmem
      simp only at hpre hpost
      have hqs : q ≠ s := by rintro rfl; exact hS hq
      refine ⟨q :: el, ts0, m0, ?_, h3, by rw [h4, filter_snoc_invisible hv], ?_⟩
      · intro p hp
        rcases List.mem_cons.1 hp with rfl | hp
        · exact hq
        · exact h1 p hp
      · rw [hpre, hpost]
        funext p
        unfold after
        simp only [List.mem_singleton, List.length_cons, List.count_cons, beq_iff_eq]
        push_cast
        by_cases hp : p = q
        · subst hp; simp [hqs]; omega
        · simp only [hp, Ne.symm hp, if_false]
          split <;> omega

theorem sink_backward {visible : T → Bool} {s : P} {S : List P} {N N' : Arcs P T} (h : Extends visible (S.map fun p => (p, s)) N N')
    (hS : s ∉ S) (el : List P) : ∀ {m m0 : P → Int} {ts0 : List T},
    (∀ p ∈ el, p ∈ S) → (∀ p, (el.count p : Int) ≤ m0 p) → Run N'.pre N'.post N'.ok m ts0 m0 →
    ∃ ts, Run N'.pre N'.post N'.ok m ts (fun p => m0 p - el.count p + if p = s then (el.length : Int) else 0) ∧
      ts.filter visible = ts0.filter visible := by
  induction el with
  | nil =>
    intro m m0 ts0 _ _ hr
    exact ⟨ts0, by simpa using hr, rfl⟩
  | cons q el ih =>
    intro m m0 ts0 h1 h2 hr
    have hq : q ∈ S := h1 q (by simp)
    have hqs : q ≠ s := by rintro rfl; exact hS hq
    obtain ⟨t, ho, hv, hpre, hpost⟩ := h.move (q, s) (List.mem_map.2 ⟨q, hq, rfl⟩)
    simp only at hpre hpost
    have hq0 := h2 q
    rw [List.count_cons_self] at hq0
    have hstep := hr.snoc ho (by
      rw [hpre]; intro p hp; rw [List.mem_singleton] at hp; subst hp; push_cast at hq0; omega)
    obtain ⟨ts, k1, k2⟩ := ih (fun p hp => h1 p (by simp [hp])) (by
      intro p
      have hp0 := h2 p
      rw [hpre, hpost]
      rw [List.count_cons] at hp0
      unfold after
      simp only [List.mem_singleton, beq_iff_eq] at hp0 ⊢
      by_cases hp : p = q
      · subst hp; simp [hqs] at hp0 ⊢; omega
      · simp only [hp, Ne.symm hp, if_false] at hp0 ⊢
        push_cast at hp0
        split <;> omega) hstep
    refine ⟨ts, ?_, by rw [k2, filter_snoc_invisible hv]⟩
    convert k1 using 2 with p
    rw [hpre, hpost]
    unfold after
    simp only [List.mem_singleton, List.length_cons, List.count_cons, beq_iff_eq]
    push_cast
    by_cases hp : p = q
    · subst hp; simp [hqs]; omega
    · simp only [hp, Ne.symm hp, if_false]
      split <;> omega

end Prolothar.Spec.Petri
