import Verif.Props.PatternExamples
/-
C169: the algebra of pattern compositions. Expressions that can be transformed into each other by the laws of sequence,
choice, parallel composition and repetition stand for patterns with the same executions.
-/
namespace Prolothar.ActivityPattern
open Prolothar.Petri
open Prolothar.Spec.Petri

/-- expressions that can be transformed into each other by the laws of the operators -/
inductive Expr.Equiv : Expr → Expr → Prop
  | refl (x) : Expr.Equiv x x
  | symm {x y} : Expr.Equiv x y → Expr.Equiv y x
  | trans {x y z} : Expr.Equiv x y → Expr.Equiv y z → Expr.Equiv x z
  | seq {x x' y y'} : Expr.Equiv x x' → Expr.Equiv y y' → Expr.Equiv (.seq x y) (.seq x' y')
  | alt {x x' y y'} : Expr.Equiv x x' → Expr.Equiv y y' → Expr.Equiv (.alt x y) (.alt x' y')
  | par {x x' y y'} : Expr.Equiv x x' → Expr.Equiv y y' → Expr.Equiv (.par x y) (.par x' y')
  | rep {x x'} : Expr.Equiv x x' → Expr.Equiv (.rep x) (.rep x')
  | seq_assoc (x y z) : Expr.Equiv (.seq (.seq x y) z) (.seq x (.seq y z))
  | alt_assoc (x y z) : Expr.Equiv (.alt (.alt x y) z) (.alt x (.alt y z))
  | alt_comm (x y) : Expr.Equiv (.alt x y) (.alt y x)
  | alt_idem (x) : Expr.Equiv (.alt x x) x
  | par_assoc (x y z) : Expr.Equiv (.par (.par x y) z) (.par x (.par y z))
  | par_comm (x y) : Expr.Equiv (.par x y) (.par y x)
  | seq_alt (x y z) : Expr.Equiv (.seq x (.alt y z)) (.alt (.seq x y) (.seq x z))
  | alt_seq (x y z) : Expr.Equiv (.seq (.alt x y) z) (.alt (.seq x z) (.seq y z))
  | par_alt (x y z) : Expr.Equiv (.par x (.alt y z)) (.alt (.par x y) (.par x z))
  | rep_unfold (x) : Expr.Equiv (.rep x) (.alt x (.seq x (.rep x)))
  | rep_commute (x) : Expr.Equiv (.seq x (.rep x)) (.seq (.rep x) x)
  | rep_rep (x) : Expr.Equiv (.rep (.rep x)) (.rep x)

theorem Shuffle.comm {α : Type} {u v w : List α} (h : Shuffle u v w) : Shuffle v u w := by
  induction h with
  | nil => exact .nil
  | left _ ih => exact .right ih
  | right _ ih => exact .left ih

theorem Shuffle.assoc {α : Type} {x z w : List α} (h : Shuffle x z w) : ∀ {u v : List α}, Shuffle u v x →
    ∃ y, Shuffle v z y ∧ Shuffle u y w := by
  induction h with
  | nil =>
    intro u v h
    cases h
    exact ⟨[], .nil, .nil⟩
  | left _ ih =>
    intro u v h
    cases h with
    | left h => obtain ⟨y, h1, h2⟩ := ih h; exact ⟨y, h1, .left h2⟩
    | right h => obtain ⟨y, h1, h2⟩ := ih h; exact ⟨_, .left h1, .right h2⟩
  | right _ ih =>
    intro u v h
    obtain ⟨y, h1, h2⟩ := ih h
    exact ⟨_, .right h1, .right h2⟩

theorem Shuffle.append {α : Type} {u v w u' v' w' : List α} (h : Shuffle u v w) (h' : Shuffle u' v' w') :
    Shuffle (u ++ u') (v ++ v') (w ++ w') := by
  induction h with
  | nil => exact h'
  | left _ ih => exact .left ih
  | right _ ih => exact .right ih

/-- transformed expressions stand for the same executions -/
theorem Expr.Equiv.means (h : Heap) {x y : Expr} (hxy : Expr.Equiv x y) : ∀ w, x.Means h w ↔ y.Means h w := by
  induction hxy with
  | refl => exact fun _ => Iff.rfl
  | symm _ ih => exact fun w => (ih w).symm
  | trans _ _ ih ih' => exact fun w => (ih w).trans (ih' w)
  | seq _ _ ih ih' => intro w; simp only [Expr.Means, ih, ih']
  | alt _ _ ih ih' => intro w; simp only [Expr.Means, ih, ih']
  | par _ _ ih ih' => intro w; simp only [Expr.Means, ih, ih']
  | rep _ ih => intro w; simp only [Expr.Means, ih]
  | seq_assoc x y z =>
    intro w
    simp only [Expr.Means]
    constructor
    · rintro ⟨_, v, ⟨a, b, ha, hb, rfl⟩, hv, rfl⟩
      exact ⟨a, b ++ v, ha, ⟨b, v, hb, hv, rfl⟩, List.append_assoc _ _ _⟩
    · rintro ⟨a, _, ha, ⟨b, v, hb, hv, rfl⟩, rfl⟩
      exact ⟨a ++ b, v, ⟨a, b, ha, hb, rfl⟩, hv, (List.append_assoc _ _ _).symm⟩
  | alt_assoc x y z => intro w; simp only [Expr.Means, or_assoc]
  | alt_comm x y => intro w; simp only [Expr.Means]; exact or_comm
  | alt_idem x => intro w; simp only [Expr.Means, or_self]
  | par_assoc x y z =>
    intro w
    simp only [Expr.Means]
    constructor
    · rintro ⟨u, v, ⟨a, b, ha, hb, hu⟩, hv, hw⟩
      obtain ⟨y, h1, h2⟩ := Shuffle.assoc hw hu
      exact ⟨a, y, ha, ⟨b, v, hb, hv, h1⟩, h2⟩
    · rintro ⟨a, u, ha, ⟨b, v, hb, hv, hu⟩, hw⟩
      obtain ⟨y, h1, h2⟩ := Shuffle.assoc (Shuffle.comm hw) (Shuffle.comm hu)
      exact ⟨y, v, ⟨a, b, ha, hb, Shuffle.comm h1⟩, hv, Shuffle.comm h2⟩
  | par_comm x y =>
    intro w
    simp only [Expr.Means]
    constructor
    · rintro ⟨u, v, hu, hv, hw⟩; exact ⟨v, u, hv, hu, Shuffle.comm hw⟩
    · rintro ⟨u, v, hu, hv, hw⟩; exact ⟨v, u, hv, hu, Shuffle.comm hw⟩
  | seq_alt x y z =>
    intro w
    simp only [Expr.Means]
    constructor
    · rintro ⟨u, v, hu, hv | hv, hw⟩
      · exact .inl ⟨u, v, hu, hv, hw⟩
      · exact .inr ⟨u, v, hu, hv, hw⟩
    · rintro (⟨u, v, hu, hv, hw⟩ | ⟨u, v, hu, hv, hw⟩)
      · exact ⟨u, v, hu, .inl hv, hw⟩
      · exact ⟨u, v, hu, .inr hv, hw⟩
  | alt_seq x y z =>
    intro w
    simp only [Expr.Means]
    constructor
    · rintro ⟨u, v, hu | hu, hv, hw⟩
      · exact .inl ⟨u, v, hu, hv, hw⟩
      · exact .inr ⟨u, v, hu, hv, hw⟩
    · rintro (⟨u, v, hu, hv, hw⟩ | ⟨u, v, hu, hv, hw⟩)
      · exact ⟨u, v, .inl hu, hv, hw⟩
      · exact ⟨u, v, .inr hu, hv, hw⟩
  | par_alt x y z =>
    intro w
    simp only [Expr.Means]
    constructor
    · rintro ⟨u, v, hu, hv | hv, hw⟩
      · exact .inl ⟨u, v, hu, hv, hw⟩
      · exact .inr ⟨u, v, hu, hv, hw⟩
    · rintro (⟨u, v, hu, hv, hw⟩ | ⟨u, v, hu, hv, hw⟩)
      · exact ⟨u, v, hu, .inl hv, hw⟩
      · exact ⟨u, v, hu, .inr hv, hw⟩
  | rep_unfold x =>
    intro w
    simp only [Expr.Means]
    constructor
    · rintro ⟨ws, hne, hws, rfl⟩
      cases ws with
      | nil => exact absurd rfl hne
      | cons u us =>
        cases us with
        | nil => exact .inl (by simpa using hws u (by simp))
        | cons v vs => exact .inr ⟨u, (v :: vs).flatten, hws u (by simp), ⟨v :: vs, by simp, fun y hy => hws y (by simp [hy]), rfl⟩, rfl⟩
    · rintro (h1 | ⟨u, _, hu, ⟨ws, -, hws, rfl⟩, rfl⟩)
      · exact ⟨[w], by simp, by simpa using h1, by simp⟩
      · refine ⟨u :: ws, by simp, ?_, rfl⟩
        intro y hy
        rcases List.mem_cons.1 hy with rfl | hy
        · exact hu
        · exact hws y hy
  | rep_commute x =>
    intro w
    simp only [Expr.Means]
    constructor
    · rintro ⟨u, _, hu, ⟨ws, hne, hws, rfl⟩, rfl⟩
      obtain ⟨vs, v, hvs⟩ : ∃ vs v, ws = vs ++ [v] := ⟨ws.dropLast, ws.getLast hne, (List.dropLast_append_getLast hne).symm⟩
      subst hvs
      refine ⟨(u :: vs).flatten, v, ⟨u :: vs, by simp, fun y hy => ?_, rfl⟩, hws v (by simp), by simp⟩
      rcases List.mem_cons.1 hy with rfl | hy
      · exact hu
      · exact hws y (by simp [hy])
    · rintro ⟨_, u, ⟨ws, hne, hws, rfl⟩, hu, rfl⟩
      cases ws with
      | nil => exact absurd rfl hne
      | cons v vs =>
        refine ⟨v, (vs ++ [u]).flatten, hws v (by simp), ⟨vs ++ [u], by simp, fun y hy => ?_, rfl⟩, by simp⟩
        rcases List.mem_append.1 hy with hy | hy
        · exact hws y (by simp [hy])
        · rw [List.mem_singleton] at hy; subst hy; exact hu
  | rep_rep x =>
    intro w
    simp only [Expr.Means]
    constructor
    · rintro ⟨ws, hne, hws, rfl⟩
      have key : ∀ ws : List (List (String × Option String)), ws ≠ [] →
          (∀ u ∈ ws, ∃ vs : List (List (String × Option String)), vs ≠ [] ∧ (∀ v ∈ vs, x.Means h v) ∧ u = vs.flatten) →
          ∃ vs : List (List (String × Option String)), vs ≠ [] ∧ (∀ v ∈ vs, x.Means h v) ∧ ws.flatten = vs.flatten := by
        intro ws
        induction ws with
        | nil => intro h; exact absurd rfl h
        | cons u us ih =>
          intro _ hall
          obtain ⟨vs, h1, h2, h3⟩ := hall u (by simp)
          by_cases hus : us = []
          · subst hus
            exact ⟨vs, h1, h2, by simpa using h3⟩
          · obtain ⟨vs', h1', h2', h3'⟩ := ih hus (fun y hy => hall y (by simp [hy]))
            refine ⟨vs ++ vs', by simp [h1], fun v hv => ?_, by rw [List.flatten_cons, h3, h3', List.flatten_append]⟩
            rcases List.mem_append.1 hv with hv | hv
            · exact h2 v hv
            · exact h2' v hv
      exact key ws hne hws
    · rintro ⟨ws, hne, hws, rfl⟩
      exact ⟨[ws.flatten], by simp, fun u hu => by rw [List.mem_singleton] at hu; exact ⟨ws, hne, hws, hu⟩, by simp⟩

/-- C169: if two expressions can be transformed into each other by the laws, then the patterns that the library composes
for them have the same executions. -/
theorem C169_laws (h : Heap) {x y : Expr} {r r' : Pattern} (hxy : Expr.Equiv x y)
    (hx : x.All (fun a => a.Valid ∧ a.Clean h)) (hy : y.All (fun a => a.Valid ∧ a.Clean h))
    (hr : x.eval = .ok r) (hr' : y.eval = .ok r') : ∀ w, r.Words h w ↔ r'.Words h w := by
  intro w
  rw [(C113_nested h x r hx hr).2.2 w, (C113_nested h y r' hy hr').2.2 w]
  exact hxy.means h w

/-- C169: all executions of a sequence are executions of the parallel composition, and running two pairs of parallel
patterns one after the other is a special case of running two sequences in parallel. -/
theorem C169_exchange (h : Heap) {x y z u : Expr} {r r' : Pattern}
    (hall : ∀ e ∈ [x, y, z, u], e.All (fun a => a.Valid ∧ a.Clean h)) :
    ((Expr.seq x y).eval = .ok r → (Expr.par x y).eval = .ok r' → ∀ w, r.Words h w → r'.Words h w) ∧
    ((Expr.seq (.par x y) (.par z u)).eval = .ok r → (Expr.par (.seq x z) (.seq y u)).eval = .ok r' →
      ∀ w, r.Words h w → r'.Words h w) := by
  have hx := hall x (by simp)
  have hy := hall y (by simp)
  have hz := hall z (by simp)
  have hu := hall u (by simp)
  constructor
  · intro hr hr' w
    rw [(C113_nested h (.seq x y) r ⟨hx, hy⟩ hr).2.2 w, (C113_nested h (.par x y) r' ⟨hx, hy⟩ hr').2.2 w]
    rintro ⟨a, b, ha, hb, rfl⟩
    refine ⟨a, b, ha, hb, ?_⟩
    have := Shuffle.append (Shuffle.comm (Shuffle.empty_left a)) (Shuffle.empty_left b)
    simpa using this
  · intro hr hr' w
    rw [(C113_nested h (.seq (.par x y) (.par z u)) r ⟨⟨hx, hy⟩, hz, hu⟩ hr).2.2 w,
      (C113_nested h (.par (.seq x z) (.seq y u)) r' ⟨⟨hx, hz⟩, hy, hu⟩ hr').2.2 w]
    rintro ⟨_, _, ⟨a, b, ha, hb, hab⟩, ⟨c, d, hc, hd, hcd⟩, rfl⟩
    exact ⟨a ++ c, b ++ d, ⟨a, c, ha, hc, rfl⟩, ⟨b, d, hb, hd, rfl⟩, Shuffle.append hab hcd⟩

/-- a case in which all hypotheses are met: the library composes both sides of the distributive law -/
example (h : Heap) : ∃ x y : Expr, ∃ r r', Expr.Equiv x y ∧ x ≠ y ∧ x.All (fun a => a.Valid ∧ a.Clean h) ∧
    y.All (fun a => a.Valid ∧ a.Clean h) ∧ x.eval = .ok r ∧ y.eval = .ok r' := by
  obtain ⟨va, ca, -⟩ := exAct_valid "a" "A" h
  obtain ⟨vb, cb, -⟩ := exAct_valid "b" "B" h
  let la := Expr.leaf (exAct "a" "A")
  let lb := Expr.leaf (exAct "b" "B")
  have h1 : (Expr.seq la (.alt lb la)).eval.toOption.isSome = true := by decide +kernel
  have h2 : (Expr.alt (.seq la lb) (.seq la la)).eval.toOption.isSome = true := by decide +kernel
  cases hr : (Expr.seq la (.alt lb la)).eval with
  | error e => rw [hr] at h1; cases h1
  | ok r =>
    cases hr' : (Expr.alt (.seq la lb) (.seq la la)).eval with
    | error e => rw [hr'] at h2; cases h2
    | ok r' => exact ⟨_, _, r, r', .seq_alt la lb la, by simp, ⟨⟨va, ca⟩, ⟨vb, cb⟩, va, ca⟩, ⟨⟨⟨va, ca⟩, vb, cb⟩, ⟨va, ca⟩, va, ca⟩, hr, hr'⟩

end Prolothar.ActivityPattern
