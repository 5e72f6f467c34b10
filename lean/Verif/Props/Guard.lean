import Verif.Spec.Guard
import Verif.Props.Petri
/-
C143: guards of transitions, data_petri_net.py 88-166, and the numeric view of variables, 24-86.
-/
namespace Prolothar.Petri
open Prolothar.Spec.Petri

mutual
theorem accept_true (h : Heap) : ∀ g : Guard, g.accept h = .ok true → Holds h g
  | .always, _ => .always
  | .lambda a f, hg => .lambda (by simpa [Guard.accept] using hg)
  | .equal a v, hg => .equal (by simpa [Guard.accept] using hg)
  | .smaller a v, hg => by
    cases hx : h a <;> cases v <;> simp [Guard.accept, cmp, hx] at hg
    exact .smaller hx hg
  | .smallerEq a v, hg => by
    cases hx : h a <;> cases v <;> simp [Guard.accept, cmp, hx] at hg
    exact .smallerEq hx (by omega)
  | .greater a v, hg => by
    cases hx : h a <;> cases v <;> simp [Guard.accept, cmp, hx] at hg
    exact .greater hx hg
  | .greaterEq a v, hg => by
    cases hx : h a <;> cases v <;> simp [Guard.accept, cmp, hx] at hg
    exact .greaterEq hx (by omega)
  | .isTrue a, hg => by
    cases hx : h a <;> simp [Guard.accept, truth, hx] at hg
    exact .isTrue hx hg
  | .isFalse a, hg => by
    cases hx : h a <;> simp [Guard.accept, truth, hx] at hg
    · exact .isFalseUnset hx
    · exact .isFalse (by rw [hx, hg])
  | .allOf gs, hg => .allOf (acceptAll_true h gs (by simpa [Guard.accept] using hg))

theorem acceptAll_true (h : Heap) : ∀ gs : List Guard, acceptAll h gs = .ok true → ∀ g ∈ gs, Holds h g
  | [], _, _, hm => by cases hm
  | g :: gs, hg, g', hm => by
    unfold acceptAll at hg
    cases hb : g.accept h with
    | error e => rw [hb] at hg; cases hg
    | ok b =>
      rw [hb] at hg
      cases b with
      | false => cases hg
      | true =>
        have h1 := accept_true h g hb
        rcases List.mem_cons.mp hm with hm | hm
        · exact hm ▸ h1
        · exact acceptAll_true h gs hg g' hm
end

mutual
theorem accept_false (h : Heap) : ∀ g : Guard, g.accept h = .ok false → Violated h g
  | .always, hg => by cases hg
  | .lambda a f, hg => .lambda (by simpa [Guard.accept] using hg)
  | .equal a v, hg => .equal (by simpa [Guard.accept] using hg)
  | .smaller a v, hg => by
    cases hx : h a <;> cases v <;> simp [Guard.accept, cmp, hx] at hg
    exact .smaller hx (by omega)
  | .smallerEq a v, hg => by
    cases hx : h a <;> cases v <;> simp [Guard.accept, cmp, hx] at hg
    exact .smallerEq hx (by omega)
  | .greater a v, hg => by
    cases hx : h a <;> cases v <;> simp [Guard.accept, cmp, hx] at hg
    exact .greater hx (by omega)
  | .greaterEq a v, hg => by
    cases hx : h a <;> cases v <;> simp [Guard.accept, cmp, hx] at hg
    exact .greaterEq hx (by omega)
  | .isTrue a, hg => by
    cases hx : h a <;> simp [Guard.accept, truth, hx] at hg
    · exact .isTrueUnset hx
    · exact .isTrue (by rw [hx, hg])
  | .isFalse a, hg => by
    cases hx : h a <;> simp [Guard.accept, truth, hx] at hg
    exact .isFalse hx hg
  | .allOf gs, hg => by
    obtain ⟨pre, g, post, rfl, h1, h2⟩ := acceptAll_false h gs (by simpa [Guard.accept] using hg)
    exact .allOf h1 h2

theorem acceptAll_false (h : Heap) : ∀ gs : List Guard, acceptAll h gs = .ok false →
    ∃ pre g post, gs = pre ++ g :: post ∧ (∀ g' ∈ pre, Holds h g') ∧ Violated h g
  | [], hg => by cases hg
  | g :: gs, hg => by
    unfold acceptAll at hg
    cases hb : g.accept h with
    | error e => rw [hb] at hg; cases hg
    | ok b =>
      rw [hb] at hg
      cases b with
      | false => exact ⟨[], g, gs, rfl, by simp, accept_false h g hb⟩
      | true =>
        obtain ⟨pre, g', post, rfl, h1, h2⟩ := acceptAll_false h gs hg
        refine ⟨g :: pre, g', post, rfl, ?_, h2⟩
        have h3 := accept_true h g hb
        intro x hx
        rcases List.mem_cons.mp hx with hx | hx
        · exact hx ▸ h3
        · exact h1 x hx
end

mutual
theorem accept_error (h : Heap) (e : PyErr) : ∀ g : Guard, g.accept h = .error e → Undefined h g e
  | .always, hg => by cases hg
  | .lambda a f, hg => .lambda (by simpa [Guard.accept] using hg)
  | .equal a v, hg => by simp [Guard.accept] at hg
  | .smaller a v, hg => by
    cases hx : h a <;> cases v <;> simp [Guard.accept, cmp, hx] at hg <;> subst hg
    · exact .unset (a := a) ⟨rfl, rfl⟩ (.inl hx)
    · exact .unset (a := a) ⟨rfl, rfl⟩ (.inl hx)
    · exact .unset (a := a) ⟨rfl, rfl⟩ (.inr rfl)
  | .smallerEq a v, hg => by
    cases hx : h a <;> cases v <;> simp [Guard.accept, cmp, hx] at hg <;> subst hg
    · exact .unset (a := a) ⟨rfl, rfl⟩ (.inl hx)
    · exact .unset (a := a) ⟨rfl, rfl⟩ (.inl hx)
    · exact .unset (a := a) ⟨rfl, rfl⟩ (.inr rfl)
  | .greater a v, hg => by
    cases hx : h a <;> cases v <;> simp [Guard.accept, cmp, hx] at hg <;> subst hg
    · exact .unset (a := a) ⟨rfl, rfl⟩ (.inl hx)
    · exact .unset (a := a) ⟨rfl, rfl⟩ (.inl hx)
    · exact .unset (a := a) ⟨rfl, rfl⟩ (.inr rfl)
  | .greaterEq a v, hg => by
    cases hx : h a <;> cases v <;> simp [Guard.accept, cmp, hx] at hg <;> subst hg
    · exact .unset (a := a) ⟨rfl, rfl⟩ (.inl hx)
    · exact .unset (a := a) ⟨rfl, rfl⟩ (.inl hx)
    · exact .unset (a := a) ⟨rfl, rfl⟩ (.inr rfl)
  | .isTrue a, hg => by simp [Guard.accept] at hg
  | .isFalse a, hg => by simp [Guard.accept] at hg
  | .allOf gs, hg => by
    obtain ⟨pre, g, post, rfl, h1, h2⟩ := acceptAll_error h e gs (by simpa [Guard.accept] using hg)
    exact .allOf h1 h2

theorem acceptAll_error (h : Heap) (e : PyErr) : ∀ gs : List Guard, acceptAll h gs = .error e →
    ∃ pre g post, gs = pre ++ g :: post ∧ (∀ g' ∈ pre, Holds h g') ∧ Undefined h g e
  | [], hg => by cases hg
  | g :: gs, hg => by
    unfold acceptAll at hg
    cases hb : g.accept h with
    | error e' =>
      rw [hb] at hg
      cases hg
      exact ⟨[], g, gs, rfl, by simp, accept_error h _ g hb⟩
    | ok b =>
      rw [hb] at hg
      cases b with
      | false => cases hg
      | true =>
        obtain ⟨pre, g', post, rfl, h1, h2⟩ := acceptAll_error h e gs hg
        refine ⟨g :: pre, g', post, rfl, ?_, h2⟩
        have h3 := accept_true h g hb
        intro x hx
        rcases List.mem_cons.mp hx with hx | hx
        · exact hx ▸ h3
        · exact h1 x hx
end

theorem acceptAll_prefix {h : Heap} {g : Guard} {post : List Guard} : ∀ {pre : List Guard}, (∀ x ∈ pre, x.accept h = .ok true) →
    acceptAll h (pre ++ g :: post) = acceptAll h (g :: post)
  | [], _ => rfl
  | x :: pre, hp => by
    show acceptAll h (x :: (pre ++ g :: post)) = _
    rw [acceptAll, hp x List.mem_cons_self]
    exact acceptAll_prefix fun y hy => hp y (List.mem_cons_of_mem _ hy)

theorem acceptAll_of {h : Heap} : ∀ {gs : List Guard}, (∀ x ∈ gs, x.accept h = .ok true) → acceptAll h gs = .ok true
  | [], _ => by rw [acceptAll]
  | x :: gs, hp => by
    rw [acceptAll, hp x List.mem_cons_self]
    exact acceptAll_of fun y hy => hp y (List.mem_cons_of_mem _ hy)

theorem holds_accept {h : Heap} {g : Guard} (hg : Holds h g) : g.accept h = .ok true := by
  induction hg with
  | always => simp [Guard.accept]
  | lambda hf => simpa [Guard.accept] using hf
  | equal hv => simpa [Guard.accept] using hv
  | smaller hx hc => simpa [Guard.accept, cmp, hx] using hc
  | smallerEq hx hc => simp [Guard.accept, cmp, hx]; omega
  | greater hx hc => simpa [Guard.accept, cmp, hx] using hc
  | greaterEq hx hc => simp [Guard.accept, cmp, hx]; omega
  | isTrue hx hc => simpa [Guard.accept, truth, hx] using hc
  | isFalseUnset hx => simp [Guard.accept, truth, hx]
  | isFalse hx => simp [Guard.accept, truth, hx]
  | allOf _ ih => rw [Guard.accept]; exact acceptAll_of ih

theorem violated_accept {h : Heap} {g : Guard} (hg : Violated h g) : g.accept h = .ok false := by
  induction hg with
  | lambda hf => simpa [Guard.accept] using hf
  | equal hv => simpa [Guard.accept] using hv
  | smaller hx hc => simp [Guard.accept, cmp, hx]; omega
  | smallerEq hx hc => simp [Guard.accept, cmp, hx]; omega
  | greater hx hc => simp [Guard.accept, cmp, hx]; omega
  | greaterEq hx hc => simp [Guard.accept, cmp, hx]; omega
  | isTrueUnset hx => simp [Guard.accept, truth, hx]
  | isTrue hx => simp [Guard.accept, truth, hx]
  | isFalse hx hc => simpa [Guard.accept, truth, hx] using hc
  | allOf hp _ ih =>
    rw [Guard.accept, acceptAll_prefix fun x hx => holds_accept (hp x hx), acceptAll, ih]
    rfl

theorem undefined_accept {h : Heap} {g : Guard} {e : PyErr} (hg : Undefined h g e) : g.accept h = .error e := by
  induction hg with
  | lambda hf => simpa [Guard.accept] using hf
  | @unset g a c hc hn =>
    cases g <;> simp only [compares] at hc
    all_goals
      obtain ⟨rfl, rfl⟩ := hc
      rcases hn with hn | hn
      · simp [Guard.accept, cmp, hn]
      · cases hx : h a <;> simp [Guard.accept, cmp, hx, hn]
  | allOf hp _ ih =>
    rw [Guard.accept, acceptAll_prefix fun x hx => holds_accept (hp x hx), acceptAll, ih]
    rfl

/-- C143: a guard accepts exactly if its condition holds, rejects exactly if it is violated, and raises exactly if it cannot be evaluated:
a comparison with None is a TypeError, and a list of guards is evaluated from left to right up to the first guard that does not hold. -/
theorem C143_accept (h : Heap) (g : Guard) :
    (g.accept h = .ok true ↔ Holds h g) ∧ (g.accept h = .ok false ↔ Violated h g) ∧ ∀ e, g.accept h = .error e ↔ Undefined h g e :=
  ⟨⟨accept_true h g, holds_accept⟩, ⟨accept_false h g, violated_accept⟩, fun e => ⟨accept_error h e g, undefined_accept⟩⟩

/-- C143: exactly one of the three happens -/
theorem C143_exclusive (h : Heap) (g : Guard) :
    (Holds h g ∨ Violated h g ∨ ∃ e, Undefined h g e) ∧ ¬ (Holds h g ∧ Violated h g) ∧ (∀ e, ¬ (Holds h g ∧ Undefined h g e)) ∧
    ∀ e, ¬ (Violated h g ∧ Undefined h g e) := by
  refine ⟨?_, ?_, ?_, ?_⟩
  · match hg : g.accept h with
    | .ok true => exact .inl (accept_true h g hg)
    | .ok false => exact .inr (.inl (accept_false h g hg))
    | .error e => exact .inr (.inr ⟨e, accept_error h e g hg⟩)
  · rintro ⟨h1, h2⟩
    have := (holds_accept h1).symm.trans (violated_accept h2)
    cases this
  · rintro e ⟨h1, h2⟩
    have := (holds_accept h1).symm.trans (undefined_accept h2)
    cases this
  · rintro e ⟨h1, h2⟩
    have := (violated_accept h1).symm.trans (undefined_accept h2)
    cases this

mutual
theorem accept_congr {h h' : Heap} : ∀ g : Guard, (∀ a, Reads g a → h a = h' a) → g.accept h = g.accept h'
  | .always, _ => by simp [Guard.accept]
  | .lambda a f, hr => by simp only [Guard.accept, hr a .lambda]
  | .equal a v, hr => by simp only [Guard.accept, hr a .equal]
  | .smaller a v, hr => by simp only [Guard.accept, hr a .smaller]
  | .smallerEq a v, hr => by simp only [Guard.accept, hr a .smallerEq]
  | .greater a v, hr => by simp only [Guard.accept, hr a .greater]
  | .greaterEq a v, hr => by simp only [Guard.accept, hr a .greaterEq]
  | .isTrue a, hr => by simp only [Guard.accept, hr a .isTrue]
  | .isFalse a, hr => by simp only [Guard.accept, hr a .isFalse]
  | .allOf gs, hr => by
    simp only [Guard.accept]
    exact acceptAll_congr gs fun g hg a ha => hr a (.allOf hg ha)

theorem acceptAll_congr {h h' : Heap} : ∀ gs : List Guard, (∀ g ∈ gs, ∀ a, Reads g a → h a = h' a) → acceptAll h gs = acceptAll h' gs
  | [], _ => by simp only [acceptAll]
  | g :: gs, hr => by
    simp only [acceptAll]
    rw [accept_congr g (hr g List.mem_cons_self), acceptAll_congr gs fun x hx => hr x (List.mem_cons_of_mem _ hx)]
end

/-- C143: assigning a variable changes the result of a guard only if the guard refers to this variable object. -/
theorem C143_locality (h : Heap) (g : Guard) (a : Nat) (v : Val) (ha : ¬ Reads g a) : g.accept (upd h a v) = g.accept h :=
  accept_congr g fun _ hb => upd_ne h v (fun hab => ha (hab ▸ hb))

/-- C143: if all guards can be evaluated, the fireable transitions of a safe marking are the enabled ones whose condition holds. -/
theorem C143_fireable (h : Heap) (n : Net) (hsafe : ∀ t ∈ n.transitions, ∀ p ∈ n.pre t, 0 ≤ n.tokens p ∧ n.tokens p ≤ 1)
    (hd : ∀ t ∈ n.transitions, Holds h (n.guard t) ∨ Violated h (n.guard t)) :
    ∃ r, n.fireable h false = .ok r ∧ r.Sublist n.transitions ∧
      ∀ t, t ∈ r ↔ t ∈ n.transitions ∧ Holds h (n.guard t) ∧ Enabled (n.pre t) n.tokens := by
  obtain ⟨r, h1, h2, h3⟩ := C65_safe h n false hsafe (.inr fun t ht => (hd t ht).elim
    (fun hg => ⟨true, holds_accept hg⟩) fun hg => ⟨false, violated_accept hg⟩)
  refine ⟨r, h1, h2, fun t => ?_⟩
  rw [h3 t, (C143_accept h (n.guard t)).1]
  simp

/-- values of three variables: 5, None and 0 -/
def exVals : Heap := fun a => if a = 0 then some 5 else if a = 2 then some 0 else none

example : Holds exVals (.allOf [.smaller 0 (some 6), .isFalse 1, .isFalse 2]) :=
  .allOf (by
    intro g hg
    simp only [List.mem_cons, List.not_mem_nil, or_false] at hg
    rcases hg with rfl | rfl | rfl
    · exact .smaller (x := 5) rfl (by decide)
    · exact .isFalseUnset rfl
    · exact .isFalse rfl)
example : (Guard.allOf [.smaller 0 (some 5), .smaller 1 (some 5)]).accept exVals = .ok false := by decide +kernel
example : (Guard.allOf [.smallerEq 0 (some 5), .smaller 1 (some 5)]).accept exVals = .error .type := by decide +kernel
example : ¬ Reads (.allOf [.smaller 0 (some 5), .isTrue 2]) 1 := by
  intro h
  cases h with
  | allOf hg hr =>
    simp only [List.mem_cons, List.not_mem_nil, or_false] at hg
    rcases hg with rfl | rfl <;> cases hr
example : Holds (fun _ => none) (exNet.guard "t") := accept_true _ _ (by decide)

end Prolothar.Petri
