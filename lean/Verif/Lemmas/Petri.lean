import Verif.Model.Petri
import Verif.Spec.Petri
/-
Well-formed nets and the effect of firing.
-/
namespace Prolothar.Petri
open Prolothar.Spec.Petri

/-- the cross references of places and transitions agree -/
structure Net.WF (n : Net) : Prop where
  places : n.places.Nodup
  transitions : n.transitions.Nodup
  pre : ∀ t ∈ n.transitions, (n.pre t).Nodup ∧ ∀ p ∈ n.pre t, p ∈ n.places
  post : ∀ t ∈ n.transitions, (n.post t).Nodup ∧ ∀ p ∈ n.post t, p ∈ n.places
  out : ∀ p ∈ n.places, (n.out p).Nodup ∧ ∀ t, t ∈ n.out p ↔ t ∈ n.transitions ∧ p ∈ n.pre t

theorem mem_setAdd {s : List String} {a x : String} : x ∈ setAdd s a ↔ x ∈ s ∨ x = a := by
  unfold setAdd
  split
  · next h => constructor
              · exact .inl
              · rintro (h' | rfl) <;> assumption
  · simp

theorem nodup_setAdd {s : List String} (h : s.Nodup) (a : String) : (setAdd s a).Nodup := by
  unfold setAdd
  split
  · exact h
  · next ha => exact List.nodup_append.2 ⟨h, by simp, by rintro x hx y hy rfl; simp at hy; subst hy; exact ha hx⟩

theorem mem_foldl_setAdd (l : List String) : ∀ s x, x ∈ l.foldl setAdd s ↔ x ∈ s ∨ x ∈ l := by
  induction l with
  | nil => simp
  | cons a l ih => intro s x; rw [List.foldl_cons, ih, mem_setAdd, List.mem_cons, or_assoc]

theorem nodup_foldl_setAdd (l : List String) : ∀ s : List String, s.Nodup → (l.foldl setAdd s).Nodup := by
  induction l with
  | nil => exact fun s h => h
  | cons a l ih => intro s h; exact ih _ (nodup_setAdd h a)

/-- a net that was built with the methods of the API -/
inductive Built : Net → Prop
  | empty : Built Net.empty
  | addPlace {n n' : Net} {id label : String} {k : Int} : Built n → n.addPlace id label k = .ok n' → Built n'
  | addTransition {n n' : Net} {id : String} {label : Option String} {v : Bool} : Built n → n.addTransition id label v = .ok n' → Built n'
  | addVariable {n n' : Net} {name : String} {a : Nat} : Built n → n.addVariable name a = .ok n' → Built n'
  | addConnection {n n' : Net} {s t e : String} : Built n → n.addConnection s t e = .ok n' → Built n'
  | setGuard {n : Net} (t : String) (g : Guard) : Built n → Built { n with guard := upd n.guard t g }
  | setMarking {n : Net} (m : Dict String Int) : Built n → Built (n.setMarking m).1
  | force {n : Net} (t : String) : Built n → Built (n.force t).1

/-- well-formedness does not depend on tokens, guards, labels and variables -/
theorem Net.WF.congr {n n' : Net} (h : n.WF) (h1 : n'.places = n.places) (h2 : n'.transitions = n.transitions)
    (h3 : n'.pre = n.pre) (h4 : n'.post = n.post) (h5 : n'.out = n.out) : n'.WF := by
  constructor
  · rw [h1]; exact h.places
  · rw [h2]; exact h.transitions
  · rw [h1, h2, h3]; exact h.pre
  · rw [h1, h2, h4]; exact h.post
  · rw [h1, h2, h3, h5]; exact h.out

/-- `n'` differs from `n` only in the tokens -/
structure Net.SameArcs (n n' : Net) : Prop where
  places : n'.places = n.places
  transitions : n'.transitions = n.transitions
  pre : n'.pre = n.pre
  post : n'.post = n.post
  out : n'.out = n.out
  guard : n'.guard = n.guard
  visible : n'.visible = n.visible
  vars : n'.vars = n.vars
  placeLabel : n'.placeLabel = n.placeLabel
  transLabel : n'.transLabel = n.transLabel

theorem Net.SameArcs.refl (n : Net) : n.SameArcs n := ⟨rfl, rfl, rfl, rfl, rfl, rfl, rfl, rfl, rfl, rfl⟩

theorem Net.SameArcs.trans {a b c : Net} (h : a.SameArcs b) (h' : b.SameArcs c) : a.SameArcs c :=
  ⟨h'.1.trans h.1, h'.2.trans h.2, h'.3.trans h.3, h'.4.trans h.4, h'.5.trans h.5, h'.6.trans h.6, h'.7.trans h.7, h'.8.trans h.8,
    h'.9.trans h.9, h'.10.trans h.10⟩

theorem Net.SameArcs.wf {a b : Net} (h : a.SameArcs b) (hw : a.WF) : b.WF := hw.congr h.1 h.2 h.3 h.4 h.5

theorem tokens_same (n : Net) (f : String → Int) : n.SameArcs { n with tokens := f } :=
  ⟨rfl, rfl, rfl, rfl, rfl, rfl, rfl, rfl, rfl, rfl⟩

theorem decAll_same : ∀ (ps : List String) (n : Net), n.SameArcs (decAll n ps).1
  | [], n => .refl n
  | p :: ps, n => by
    rw [decAll]
    split
    · exact .refl n
    · exact (tokens_same n _).trans (decAll_same ps _)

theorem incAll_same : ∀ (ps : List String) (n : Net), n.SameArcs (incAll n ps)
  | [], n => .refl n
  | p :: ps, n => by
    rw [incAll]
    exact (tokens_same n _).trans (incAll_same ps _)

theorem fire_same (n : Net) (t : String) : n.SameArcs (n.fire t).1 := by
  unfold Net.fire
  have := decAll_same (n.pre t) n
  split
  · next n' _ h => rw [h] at this; exact this.trans (incAll_same _ _)
  · next n' _ h => rw [h] at this; exact this

theorem force_same (n : Net) (t : String) : n.SameArcs (n.force t).1 := by
  unfold Net.force
  split
  · exact .refl n
  · exact fire_same n t

theorem setMarking_same : ∀ (m : Dict String Int) (n : Net), n.SameArcs (n.setMarking m).1
  | [], n => .refl n
  | (p, k) :: m, n => by
    rw [Net.setMarking]
    split
    · exact .refl n
    · exact (tokens_same n _).trans (setMarking_same m _)

theorem addPlace_wf {n n' : Net} {id label : String} {k : Int} (h : n.WF) (he : n.addPlace id label k = .ok n') : n'.WF := by
  unfold Net.addPlace at he
  split at he
  · cases he
  split at he
  · cases he
  next hid =>
  obtain rfl := Except.ok.inj he
  constructor
  · exact List.nodup_append.2 ⟨h.places, by simp, by rintro a ha b hb rfl; simp at hb; subst hb; exact hid ha⟩
  · exact h.transitions
  · exact fun t ht => ⟨(h.pre t ht).1, fun p hp => by simp [(h.pre t ht).2 p hp]⟩
  · exact fun t ht => ⟨(h.post t ht).1, fun p hp => by simp [(h.post t ht).2 p hp]⟩
  · intro p hp
    simp only [List.mem_append, List.mem_singleton] at hp
    by_cases hpid : p = id
    · subst hpid
      simp only [upd_self]
      refine ⟨List.nodup_nil, fun t => ?_⟩
      constructor
      · intro h'; cases h'
      · rintro ⟨ht, hp⟩; exact absurd ((h.pre t ht).2 p hp) hid
    · simp only [upd_ne _ _ hpid]
      exact h.out p (by simpa [hpid] using hp)

theorem addTransition_wf {n n' : Net} {id : String} {label : Option String} {v : Bool} (h : n.WF)
    (he : n.addTransition id label v = .ok n') : n'.WF := by
  unfold Net.addTransition at he
  split at he
  · cases he
  next hid =>
  obtain rfl := Except.ok.inj he
  have hne : ∀ t ∈ n.transitions, t ≠ id := fun t ht e => hid (e ▸ ht)
  constructor
  · exact h.places
  · exact List.nodup_append.2 ⟨h.transitions, by simp, by rintro a ha b hb rfl; simp at hb; subst hb; exact hid ha⟩
  · intro t ht
    simp only [List.mem_append, List.mem_singleton] at ht
    rcases ht with ht | rfl
    · simp only [upd_ne _ _ (hne t ht)]; exact h.pre t ht
    · simp
  · intro t ht
    simp only [List.mem_append, List.mem_singleton] at ht
    rcases ht with ht | rfl
    · simp only [upd_ne _ _ (hne t ht)]; exact h.post t ht
    · simp
  · intro p hp
    refine ⟨(h.out p hp).1, fun t => ?_⟩
    show t ∈ n.out p ↔ t ∈ n.transitions ++ [id] ∧ p ∈ upd n.pre id [] t
    rw [(h.out p hp).2]
    constructor
    · rintro ⟨h1, h2⟩
      exact ⟨by simp [h1], by rw [upd_ne _ _ (hne t h1)]; exact h2⟩
    · rintro ⟨h1, h2⟩
      simp only [List.mem_append, List.mem_singleton] at h1
      rcases h1 with h1 | rfl
      · rw [upd_ne _ _ (hne t h1)] at h2; exact ⟨h1, h2⟩
      · simp at h2

theorem addConnection_wf {n n' : Net} {s t e : String} (h : n.WF) (he : n.addConnection s t e = .ok n') : n'.WF := by
  unfold Net.addConnection at he
  split at he
  · cases he
  next hs =>
  split at he
  · cases he
  next hee =>
  split at he
  · cases he
  next ht =>
  obtain rfl := Except.ok.inj he
  rw [not_not] at hs hee ht
  constructor
  · exact h.places
  · exact h.transitions
  · intro x hx
    by_cases hxt : x = t
    · subst hxt
      simp only [upd_self]
      refine ⟨nodup_setAdd (h.pre x hx).1 s, fun p hp => ?_⟩
      rcases mem_setAdd.1 hp with hp | rfl
      · exact (h.pre x hx).2 p hp
      · exact hs
    · simp only [upd_ne _ _ hxt]; exact h.pre x hx
  · intro x hx
    by_cases hxt : x = t
    · subst hxt
      simp only [upd_self]
      refine ⟨nodup_setAdd (h.post x hx).1 e, fun p hp => ?_⟩
      rcases mem_setAdd.1 hp with hp | rfl
      · exact (h.post x hx).2 p hp
      · exact hee
    · simp only [upd_ne _ _ hxt]; exact h.post x hx
  · intro p hp
    show (upd n.out s (setAdd (n.out s) t) p).Nodup ∧ ∀ x, x ∈ upd n.out s (setAdd (n.out s) t) p ↔
      x ∈ n.transitions ∧ p ∈ upd n.pre t (setAdd (n.pre t) s) x
    have key : ∀ x, p ∈ upd n.pre t (setAdd (n.pre t) s) x ↔ p ∈ n.pre x ∨ (x = t ∧ p = s) := by
      intro x
      by_cases hxt : x = t
      · subst hxt; rw [upd_self, mem_setAdd]; simp
      · rw [upd_ne _ _ hxt]; simp [hxt]
    by_cases hps : p = s
    · subst hps
      rw [upd_self]
      refine ⟨nodup_setAdd (h.out p hp).1 t, fun x => ?_⟩
      rw [mem_setAdd, key, (h.out p hp).2]
      constructor
      · rintro (h1 | rfl)
        · exact ⟨h1.1, .inl h1.2⟩
        · exact ⟨ht, .inr ⟨rfl, rfl⟩⟩
      · rintro ⟨h1, h2 | ⟨rfl, _⟩⟩
        · exact .inl ⟨h1, h2⟩
        · exact .inr rfl
    · rw [upd_ne _ _ hps]
      refine ⟨(h.out p hp).1, fun x => ?_⟩
      rw [key, (h.out p hp).2]
      simp [hps]

theorem Built.wf {n : Net} (h : Built n) : n.WF := by
  induction h with
  | empty => constructor <;> simp [Net.empty]
  | addPlace _ he ih => exact addPlace_wf ih he
  | addTransition _ he ih => exact addTransition_wf ih he
  | addVariable _ he ih =>
    unfold Net.addVariable at he
    split at he
    · cases he
    · obtain rfl := Except.ok.inj he
      exact ih.congr rfl rfl rfl rfl rfl
  | addConnection _ he ih => exact addConnection_wf ih he
  | setGuard _ _ _ ih => exact ih.congr rfl rfl rfl rfl rfl
  | setMarking m _ ih => exact (setMarking_same m _).wf ih
  | force t _ ih => exact (force_same _ t).wf ih

/-! ### firing -/

theorem decAll_spec : ∀ (ps : List String) (n : Net), ps.Nodup →
    (Enabled ps n.tokens ∧ (decAll n ps).2 = .ok () ∧ ∀ p, (decAll n ps).1.tokens p = n.tokens p - (if p ∈ ps then 1 else 0)) ∨
    (¬ Enabled ps n.tokens ∧ (decAll n ps).2 = .error .value)
  | [], n, _ => .inl ⟨by simp [Enabled], rfl, by simp [decAll]⟩
  | p :: ps, n, hnd => by
    rw [List.nodup_cons] at hnd
    rw [decAll]
    by_cases hp : n.tokens p ≤ 0
    · rw [if_pos hp]
      exact .inr ⟨fun h => by have := h p (by simp); omega, rfl⟩
    · rw [if_neg hp]
      have hen : Enabled ps (upd n.tokens p (n.tokens p - 1)) ↔ Enabled ps n.tokens := by
        refine forall_congr' fun q => forall_congr' fun hq => ?_
        rw [upd_ne _ _ (by rintro rfl; exact hnd.1 hq)]
      rcases decAll_spec ps { n with tokens := upd n.tokens p (n.tokens p - 1) } hnd.2 with ⟨h1, h2, h3⟩ | ⟨h1, h2⟩
      · refine .inl ⟨?_, h2, fun q => ?_⟩
        · intro q hq
          rcases List.mem_cons.1 hq with rfl | hq
          · omega
          · exact (hen.1 h1) q hq
        · rw [h3 q]
          show upd n.tokens p (n.tokens p - 1) q - _ = _
          by_cases hqp : q = p
          · subst hqp
            rw [upd_self, if_neg hnd.1, if_pos (by simp)]; omega
          · rw [upd_ne _ _ hqp]
            simp [hqp]
      · refine .inr ⟨fun h => h1 (hen.2 fun q hq => h q (by simp [hq])), h2⟩

theorem incAll_spec : ∀ (ps : List String) (n : Net), ps.Nodup → ∀ p, (incAll n ps).tokens p = n.tokens p + (if p ∈ ps then 1 else 0)
  | [], n, _ => by simp [incAll]
  | p :: ps, n, hnd => by
    intro q
    rw [List.nodup_cons] at hnd
    rw [incAll, incAll_spec ps _ hnd.2 q]
    show upd n.tokens p (n.tokens p + 1) q + _ = _
    by_cases hqp : q = p
    · subst hqp
      rw [upd_self, if_neg hnd.1, if_pos (by simp)]; omega
    · rw [upd_ne _ _ hqp]
      simp [hqp]

theorem fire_spec {n : Net} (hw : n.WF) {t : String} (ht : t ∈ n.transitions) :
    (Enabled (n.pre t) n.tokens ∧ (n.fire t).2 = .ok () ∧ (n.fire t).1.tokens = after (n.pre t) (n.post t) n.tokens) ∨
    (¬ Enabled (n.pre t) n.tokens ∧ (n.fire t).2 = .error .value) := by
  unfold Net.fire
  rcases decAll_spec (n.pre t) n (hw.pre t ht).1 with ⟨h1, h2, h3⟩ | ⟨h1, h2⟩
  · refine .inl ⟨h1, ?_⟩
    match hd : decAll n (n.pre t), h2, h3 with
    | (n', .ok u), _, h3 =>
      refine ⟨rfl, ?_⟩
      funext p
      rw [incAll_spec _ _ (hw.post t ht).1 p]
      show n'.tokens p + _ = _
      have := h3 p
      simp only at this
      rw [this]; rfl
  · refine .inr ⟨h1, ?_⟩
    match hd : decAll n (n.pre t), h2 with
    | (n', .error e), h2 => exact h2

theorem filterPy_ok {β : Type} (f : β → Py Bool) : ∀ (l r : List β), filterPy f l = .ok r →
    r = l.filter (fun x => decide (f x = .ok true)) ∧ ∀ x ∈ l, ∃ b, f x = .ok b
  | [], r, h => by
    obtain rfl := Except.ok.inj h
    exact ⟨rfl, by simp⟩
  | x :: xs, r, h => by
    rw [filterPy] at h
    cases hx : f x with
    | error e => rw [hx] at h; cases h
    | ok b =>
      rw [hx] at h
      change (filterPy f xs >>= _) = _ at h
      cases hxs : filterPy f xs with
      | error e => rw [hxs] at h; cases h
      | ok r' =>
        rw [hxs] at h
        obtain ⟨h1, h2⟩ := filterPy_ok f xs r' hxs
        obtain rfl := Except.ok.inj h
        refine ⟨?_, ?_⟩
        · rw [List.filter_cons, hx, h1]
          cases b <;> simp
        · intro y hy
          rcases List.mem_cons.1 hy with rfl | hy
          · exact ⟨b, hx⟩
          · exact h2 y hy

theorem ok_filterPy {β : Type} (f : β → Py Bool) : ∀ (l : List β), (∀ x ∈ l, ∃ b, f x = .ok b) → ∃ r, filterPy f l = .ok r
  | [], _ => ⟨[], rfl⟩
  | x :: xs, h => by
    obtain ⟨r, hr⟩ := ok_filterPy f xs fun y hy => h y (by simp [hy])
    obtain ⟨b, hb⟩ := h x (by simp)
    exact ⟨_, by rw [filterPy, hb, hr]; rfl⟩

end Prolothar.Petri
