import Verif.Spec.Sound
import Verif.Lemmas.Workflow
/-
Compositions of sound workflow nets are sound.
-/
namespace Prolothar.Spec.Petri

variable {P T α : Type} [DecidableEq P]

theorem Sys.Reaches.start (S : Sys P T α) : S.Reaches (single S.src) := ⟨[], .nil⟩

theorem Sys.Reaches.append {S : Sys P T α} {m m' : P → Int} {ts : List T} (h : S.Reaches m) (hr : Run S.pre S.post S.ok m ts m') : S.Reaches m' := by
  obtain ⟨us, hu⟩ := h
  exact ⟨_, hu.append hr⟩

theorem Sys.Reaches.nonneg {S : Sys P T α} {m : P → Int} (h : S.Reaches m) (p : P) : 0 ≤ m p := by
  obtain ⟨us, hu⟩ := h
  exact hu.nonneg (single_nonneg _) p

theorem Sys.Completes.word {S : Sys P T α} (h : S.Completes) : ∃ us, Run S.pre S.post S.ok (single S.src) us (single S.snk) := h _ (.start S)

/-- one step that moves the only token -/
theorem move {S : Sys P T α} {p q : P} {t : T} (ho : S.ok t) (h1 : ∀ x, x ∈ S.pre t ↔ x = p) (h2 : ∀ x, x ∈ S.post t ↔ x = q) :
    Run S.pre S.post S.ok (single p) [t] (single q) := by
  refine (Run.single ho ?_).trans_eq (after_single h1 h2)
  intro x hx
  rw [(h1 x).1 hx]; simp [single]

theorem enabled_single {p : P} {pre : List P} (h1 : ∀ x, x ∈ pre ↔ x = p) : Enabled pre (single p) := by
  intro x hx
  rw [(h1 x).1 hx]; simp [single]

theorem single_le_one (p q : P) : single p q ≤ 1 := by unfold single; split <;> decide

namespace Part
variable {S M : Sys P T α} {pl : P → Prop} {f : P → P} {g : T → T}

/-- a run of the part, if there are no tokens elsewhere -/
theorem go (h : Part S M pl f g) {m mS mS' : P → Int} {us : List T} (hz : ∀ x, (∀ p, pl p → f p ≠ x) → m x = 0) (hv : View pl f m mS)
    (hr : Run S.pre S.post S.ok mS us mS') :
    ∃ ts m', Run M.pre M.post M.ok m ts m' ∧ View pl f m' mS' ∧ ∀ x, (∀ p, pl p → f p ≠ x) → m' x = 0 := by
  obtain ⟨m', k1, k2, k3, _⟩ := h.lift hv hr
  exact ⟨_, m', k1, k2, fun x hx => by rw [k3 x hx, hz x hx]⟩

theorem finish (h : Part S M pl f g) {m mS : P → Int} {us : List T} (hz : ∀ x, (∀ p, pl p → f p ≠ x) → m x = 0) (hv : View pl f m mS)
    (hr : Run S.pre S.post S.ok mS us (single S.snk)) : ∃ ts, Run M.pre M.post M.ok m ts (single (f S.snk)) := by
  obtain ⟨ts, m', k1, k2, k3⟩ := h.go hz hv hr
  exact ⟨ts, k1.trans_eq (h.eq_of_view h.snk_pl k2 k3)⟩

theorem zero_outside {p0 : P} (h0 : pl p0) : ∀ x, (∀ p, pl p → f p ≠ x) → single (f p0) x = 0 := by
  intro x hx
  unfold single; rw [if_neg]; rintro rfl; exact hx _ h0 rfl

/-- the part can be run from its source to its sink -/
theorem through (h : Part S M pl f g) (hS : S.Completes) : ∃ ts, Run M.pre M.post M.ok (single (f S.src)) ts (single (f S.snk)) := by
  obtain ⟨us, hu⟩ := hS.word
  exact h.finish (zero_outside h.src_pl) (h.view_single h.src_pl) hu

/-- the transitions of the part can be fired after the start of the part -/
theorem alive (h : Part S M pl f g) (hS : S.NoDead) (hm : M.Reaches (single (f S.src))) {t : T} (ht : S.ok t) :
    ∃ m, M.Reaches m ∧ Enabled (M.pre (g t)) m := by
  obtain ⟨mS, ⟨us, hu⟩, he⟩ := hS t ht
  obtain ⟨ts, m, k1, k2, _⟩ := h.go (zero_outside h.src_pl) (h.view_single h.src_pl) hu
  exact ⟨m, hm.append k1, (h.enabled k2 ht).2 he⟩

end Part

section
variable {A B M : Sys P T α} {plA plB : P → Prop} {f1 f2 : P → P} {g1 g2 : T → T} {t0 : T}

theorem SeqOf.completes (h : SeqOf A B M plA plB f1 f2 g1 g2 t0) (hA : A.Proper) (cA : A.Completes) (cB : B.Completes) : M.Completes := by
  rintro m ⟨ts, hr⟩
  obtain ⟨h0, ⟨us, mA, k1, k2, k3, -⟩ | ⟨w, us, mB, -, k1, k2, k3, -⟩⟩ := h.reach hA hr
  · obtain ⟨vs, hv⟩ := cA mA ⟨us, k1⟩
    obtain ⟨ts1, r1⟩ := h.a.finish (m := m) (fun x hx => by
      by_cases hy : ∃ p, plB p ∧ f2 p = x
      · obtain ⟨p, hp, rfl⟩ := hy; exact k3 p hp
      · exact h0 x hx fun p hp he => hy ⟨p, hp, he⟩) k2 hv
    obtain ⟨ts2, r2⟩ := h.b.through cB
    exact ⟨_, (r1.append (move h.ok0 h.pre0 h.post0)).append (r2.trans_eq (by rw [h.snk]))⟩
  · obtain ⟨vs, hv⟩ := cB mB ⟨us, k1⟩
    obtain ⟨ts1, r1⟩ := h.b.finish (m := m) (fun x hx => by
      by_cases hy : ∃ p, plA p ∧ f1 p = x
      · obtain ⟨p, hp, rfl⟩ := hy; exact k3 p hp
      · exact h0 x (fun p hp he => hy ⟨p, hp, he⟩) hx) k2 hv
    exact ⟨_, r1.trans_eq (by rw [h.snk])⟩

theorem SeqOf.noDead (h : SeqOf A B M plA plB f1 f2 g1 g2 t0) (cA : A.Completes) (dA : A.NoDead) (dB : B.NoDead) : M.NoDead := by
  intro u hu
  have r0 : M.Reaches (single (f1 A.src)) := by rw [← h.src]; exact .start M
  obtain ⟨ts, r1⟩ := h.a.through cA
  rcases h.ok u hu with ⟨t, ht, rfl⟩ | ⟨t, ht, rfl⟩ | rfl
  · exact h.a.alive dA r0 ht
  · exact h.b.alive dB ((r0.append r1).append (move h.ok0 h.pre0 h.post0)) ht
  · exact ⟨_, r0.append r1, enabled_single h.pre0⟩

theorem SeqOf.oneSafe (h : SeqOf A B M plA plB f1 f2 g1 g2 t0) (hA : A.Proper) (sA : A.OneSafe) (sB : B.OneSafe) : M.OneSafe := by
  rintro m ⟨ts, hr⟩ x
  obtain ⟨h0, ⟨us, mA, k1, k2, k3, -⟩ | ⟨w, us, mB, -, k1, k2, k3, -⟩⟩ := h.reach hA hr
  · by_cases hx : ∃ p, plA p ∧ f1 p = x
    · obtain ⟨p, hp, rfl⟩ := hx; rw [k2 p hp]; exact sA mA ⟨us, k1⟩ p
    · by_cases hy : ∃ p, plB p ∧ f2 p = x
      · obtain ⟨p, hp, rfl⟩ := hy; rw [k3 p hp]; decide
      · rw [h0 x (fun p hp he => hx ⟨p, hp, he⟩) (fun p hp he => hy ⟨p, hp, he⟩)]; decide
  · by_cases hx : ∃ p, plA p ∧ f1 p = x
    · obtain ⟨p, hp, rfl⟩ := hx; rw [k3 p hp]; decide
    · by_cases hy : ∃ p, plB p ∧ f2 p = x
      · obtain ⟨p, hp, rfl⟩ := hy; rw [k2 p hp]; exact sB mB ⟨us, k1⟩ p
      · rw [h0 x (fun p hp he => hx ⟨p, hp, he⟩) (fun p hp he => hy ⟨p, hp, he⟩)]; decide

theorem SeqOf.sound (h : SeqOf A B M plA plB f1 f2 g1 g2 t0) (hA : A.Sound) (hB : B.Sound) : M.Sound :=
  ⟨h.completes hA.2.1 hA.1 hB.1, h.proper hA.2.1 hB.2.1, h.noDead hA.1 hA.2.2 hB.2.2⟩

end

section
variable {ι : Type} {S : ι → Sys P T α} {M : Sys P T α} {pl : ι → P → Prop} {f : ι → P → P} {g : ι → T → T} {isS isE : ι → T → Prop}

/-- the reachable markings of a choice between nets that complete properly -/
theorem ChoiceOf.reach' (h : ChoiceOf S M pl f g isS isE) (hS : ∀ i, (S i).Proper) {m : P → Int} (hm : M.Reaches m) :
    m = single M.src ∨ m = single M.snk ∨ ∃ i mA, (S i).Reaches mA ∧ View (pl i) (f i) m mA ∧ ∀ x, (∀ p, pl i p → f i p ≠ x) → m x = 0 := by
  have hn := hm.nonneg
  obtain ⟨ts, hr⟩ := hm
  by_cases hs : 1 ≤ m M.snk
  · exact .inr (.inl (h.proper hS ts m hr hs))
  · have hz : m M.snk = 0 := by have := hn M.snk; omega
    rcases h.reach hr with ⟨rfl, -⟩ | ⟨i, us, mA, k1, k2, -, k4, -⟩
    · exact .inl rfl
    · refine .inr (.inr ⟨i, mA, ⟨us, k1⟩, fun p hp => ?_, fun x hx => ?_⟩)
      · rw [k2 p hp, hz]; simp
      · by_cases he : x = M.snk
        · rw [he, hz]
        · exact k4 x he hx

theorem ChoiceOf.enter (h : ChoiceOf S M pl f g isS isE) (i : ι) : M.Reaches (single (f i (S i).src)) := by
  obtain ⟨u, hu, ho⟩ := h.okS i
  exact (Sys.Reaches.start M).append (move ho (h.preS i u hu) (h.postS i u hu))

theorem ChoiceOf.completes (h : ChoiceOf S M pl f g isS isE) (hS : ∀ i, (S i).Proper) (cS : ∀ i, (S i).Completes) (hι : Nonempty ι) : M.Completes := by
  intro m hm
  have leave : ∀ i, ∃ ts, Run M.pre M.post M.ok (single (f i (S i).snk)) ts (single M.snk) := fun i => by
    obtain ⟨u, hu, ho⟩ := h.okE i
    exact ⟨_, move ho (h.preE i u hu) (h.postE i u hu)⟩
  rcases h.reach' hS hm with rfl | rfl | ⟨i, mA, k1, k2, k3⟩
  · obtain ⟨i⟩ := hι
    obtain ⟨u, hu, ho⟩ := h.okS i
    obtain ⟨ts, r1⟩ := (h.part i).through (cS i)
    obtain ⟨ts2, r2⟩ := leave i
    exact ⟨_, ((move ho (h.preS i u hu) (h.postS i u hu)).append r1).append r2⟩
  · exact ⟨[], .nil⟩
  · obtain ⟨us, hu⟩ := cS i mA k1
    obtain ⟨ts, r1⟩ := (h.part i).finish k3 k2 hu
    obtain ⟨ts2, r2⟩ := leave i
    exact ⟨_, r1.append r2⟩

theorem ChoiceOf.noDead (h : ChoiceOf S M pl f g isS isE) (cS : ∀ i, (S i).Completes) (dS : ∀ i, (S i).NoDead) : M.NoDead := by
  intro u hu
  rcases h.ok u hu with ⟨i, t, ht, rfl⟩ | ⟨i, hq⟩ | ⟨i, hq⟩
  · exact (h.part i).alive (dS i) (h.enter i) ht
  · exact ⟨_, .start M, enabled_single (h.preS i u hq)⟩
  · obtain ⟨ts, r1⟩ := (h.part i).through (cS i)
    exact ⟨_, (h.enter i).append r1, enabled_single (h.preE i u hq)⟩

theorem ChoiceOf.oneSafe (h : ChoiceOf S M pl f g isS isE) (hS : ∀ i, (S i).Proper) (sS : ∀ i, (S i).OneSafe) : M.OneSafe := by
  intro m hm x
  rcases h.reach' hS hm with rfl | rfl | ⟨i, mA, k1, k2, k3⟩
  · exact single_le_one _ _
  · exact single_le_one _ _
  · by_cases hx : ∃ p, pl i p ∧ f i p = x
    · obtain ⟨p, hp, rfl⟩ := hx; rw [k2 p hp]; exact sS i mA k1 p
    · rw [k3 x fun p hp he => hx ⟨p, hp, he⟩]; decide

theorem ChoiceOf.sound (h : ChoiceOf S M pl f g isS isE) (hS : ∀ i, (S i).Sound) (hι : Nonempty ι) : M.Sound :=
  ⟨h.completes (fun i => (hS i).2.1) (fun i => (hS i).1) hι, h.proper fun i => (hS i).2.1, h.noDead (fun i => (hS i).1) fun i => (hS i).2.2⟩

end

section
variable {A B M : Sys P T α} {plA plB : P → Prop} {f1 f2 : P → P} {g1 g2 : T → T} {tS tE : T}

/-- the reachable markings of a parallel composition of nets that complete properly -/
theorem ParOf.reach' (h : ParOf A B M plA plB f1 f2 g1 g2 tS tE) (hA : A.Proper) (hB : B.Proper) {m : P → Int} (hm : M.Reaches m) :
    m = single M.src ∨ m = single M.snk ∨ ∃ mA mB, A.Reaches mA ∧ B.Reaches mB ∧ View plA f1 m mA ∧ View plB f2 m mB ∧
      ∀ x, (∀ p, plA p → f1 p ≠ x) → (∀ p, plB p → f2 p ≠ x) → m x = 0 := by
  have hn := hm.nonneg
  obtain ⟨ts, hr⟩ := hm
  by_cases hs : 1 ≤ m M.snk
  · exact .inr (.inl (h.proper hA hB ts m hr hs))
  · have hz : m M.snk = 0 := by have := hn M.snk; omega
    rcases h.reach hr with ⟨rfl, -⟩ | ⟨us, vs, mA, mB, k1, k1', k2, k2', -, k4, -⟩
    · exact .inl rfl
    · refine .inr (.inr ⟨mA, mB, ⟨us, k1⟩, ⟨vs, k1'⟩, fun p hp => ?_, fun p hp => ?_, fun x hx hy => ?_⟩)
      · rw [k2 p hp, hz]; simp
      · rw [k2' p hp, hz]; simp
      · by_cases he : x = M.snk
        · rw [he, hz]
        · exact k4 x he hx hy

/-- the marking after the start of a parallel composition -/
theorem ParOf.enter (h : ParOf A B M plA plB f1 f2 g1 g2 tS tE) : ∃ m, Run M.pre M.post M.ok (single M.src) [tS] m ∧
    View plA f1 m (single A.src) ∧ View plB f2 m (single B.src) ∧ ∀ x, (∀ p, plA p → f1 p ≠ x) → (∀ p, plB p → f2 p ≠ x) → m x = 0 := by
  have hz : ∀ x, after (M.pre tS) (M.post tS) (single M.src) x = if x = f1 A.src ∨ x = f2 B.src then 1 else 0 := by
    intro x
    unfold after single
    simp only [h.preS, h.postS]
    ring
  refine ⟨_, Run.single h.okS (enabled_single h.preS), fun p hp => ?_, fun p hp => ?_, fun x hx hy => ?_⟩
  · rw [hz]
    unfold single
    by_cases hps : p = A.src
    · rw [if_pos (.inl (by rw [hps])), if_pos hps]
    · rw [if_neg (by rw [not_or]; exact ⟨fun hx => hps (h.a.inj _ _ hp h.a.src_pl hx), h.disj _ _ hp h.b.src_pl⟩), if_neg hps]
  · rw [hz]
    unfold single
    by_cases hps : p = B.src
    · rw [if_pos (.inr (by rw [hps])), if_pos hps]
    · rw [if_neg (by rw [not_or]; exact ⟨fun hx => h.disj _ _ h.a.src_pl hp hx.symm, fun hx => hps (h.b.inj _ _ hp h.b.src_pl hx)⟩), if_neg hps]
  · rw [hz, if_neg]
    rw [not_or]
    exact ⟨fun he => hx _ h.a.src_pl he.symm, fun he => hy _ h.b.src_pl he.symm⟩

/-- both parts can be run to their ends -/
theorem ParOf.both (h : ParOf A B M plA plB f1 f2 g1 g2 tS tE) {m mA mB : P → Int} (cA : A.Completes) (cB : B.Completes) (rA : A.Reaches mA)
    (rB : B.Reaches mB) (vA : View plA f1 m mA) (vB : View plB f2 m mB)
    (hz : ∀ x, (∀ p, plA p → f1 p ≠ x) → (∀ p, plB p → f2 p ≠ x) → m x = 0) :
    ∃ ts m', Run M.pre M.post M.ok m ts m' ∧ Enabled (M.pre tE) m' ∧ after (M.pre tE) (M.post tE) m' = single M.snk := by
  have hab : ∀ p q, plA p → plB q → f2 q ≠ f1 p := fun p q hp hq hx => h.disj _ _ hp hq hx.symm
  obtain ⟨us, hu⟩ := cA mA rA
  obtain ⟨vs, hv⟩ := cB mB rB
  obtain ⟨m1, k1, k2, k3, -⟩ := h.a.lift vA hu
  obtain ⟨m2, l1, l2, l3, -⟩ := h.b.lift (m0 := m1) (fun p hp => by rw [k3 _ fun q hq => h.disj q p hq hp, vB p hp]) hv
  have v2 : View plA f1 m2 (single A.snk) := fun p hp => by rw [l3 _ fun q hq => hab p q hp hq, k2 p hp]
  refine ⟨_, m2, k1.append l1, ?_, ?_⟩
  · intro x hx
    rcases (h.preE x).1 hx with rfl | rfl
    · rw [v2 _ h.a.snk_pl]; simp [single]
    · rw [l2 _ h.b.snk_pl]; simp [single]
  · funext x
    unfold after
    simp only [h.preE, h.postE]
    by_cases hx : ∃ p, plA p ∧ f1 p = x
    · obtain ⟨p, hp, rfl⟩ := hx
      rw [v2 p hp]
      unfold single
      by_cases hps : p = A.snk
      · subst hps; simp
      · have hps' : f1 p ≠ f1 A.snk := fun hx => hps (h.a.inj _ _ hp h.a.snk_pl hx)
        simp [hps, hps', h.snk_a p hp, h.disj _ _ hp h.b.snk_pl]
    · have hx' : ∀ p, plA p → f1 p ≠ x := fun p hp he => hx ⟨p, hp, he⟩
      by_cases hy : ∃ p, plB p ∧ f2 p = x
      · obtain ⟨p, hp, rfl⟩ := hy
        rw [l2 p hp]
        unfold single
        by_cases hps : p = B.snk
        · subst hps; simp
        · have hps' : f2 p ≠ f2 B.snk := fun hx => hps (h.b.inj _ _ hp h.b.snk_pl hx)
          simp [hps, hps', h.snk_b p hp, hab _ _ h.a.snk_pl hp]
      · have hy' : ∀ p, plB p → f2 p ≠ x := fun p hp he => hy ⟨p, hp, he⟩
        rw [l3 x hy', k3 x hx', hz x hx' hy']
        unfold single
        simp [(hx' _ h.a.snk_pl).symm, (hy' _ h.b.snk_pl).symm]

theorem ParOf.completes (h : ParOf A B M plA plB f1 f2 g1 g2 tS tE) (hA : A.Proper) (hB : B.Proper) (cA : A.Completes) (cB : B.Completes) :
    M.Completes := by
  intro m hm
  rcases h.reach' hA hB hm with rfl | rfl | ⟨mA, mB, k1, k2, k3, k4, k5⟩
  · obtain ⟨m, r0, k3, k4, k5⟩ := h.enter
    obtain ⟨ts, m', r1, r2, r3⟩ := h.both cA cB (.start A) (.start B) k3 k4 k5
    exact ⟨_, r0.append ((r1.snoc h.okE r2).trans_eq r3)⟩
  · exact ⟨[], .nil⟩
  · obtain ⟨ts, m', r1, r2, r3⟩ := h.both cA cB k1 k2 k3 k4 k5
    exact ⟨_, (r1.snoc h.okE r2).trans_eq r3⟩

theorem ParOf.noDead (h : ParOf A B M plA plB f1 f2 g1 g2 tS tE) (cA : A.Completes) (cB : B.Completes) (dA : A.NoDead) (dB : B.NoDead) :
    M.NoDead := by
  intro u hu
  obtain ⟨m, r0, k3, k4, k5⟩ := h.enter
  have r0 : M.Reaches m := ⟨_, r0⟩
  rcases h.ok u hu with ⟨t, ht, rfl⟩ | ⟨t, ht, rfl⟩ | rfl | rfl
  · obtain ⟨mA, ⟨us, hu⟩, he⟩ := dA t ht
    obtain ⟨m1, l1, l2, -, -⟩ := h.a.lift k3 hu
    exact ⟨m1, r0.append l1, (h.a.enabled l2 ht).2 he⟩
  · obtain ⟨mB, ⟨us, hu⟩, he⟩ := dB t ht
    obtain ⟨m1, l1, l2, -, -⟩ := h.b.lift k4 hu
    exact ⟨m1, r0.append l1, (h.b.enabled l2 ht).2 he⟩
  · exact ⟨_, .start M, enabled_single h.preS⟩
  · obtain ⟨ts, m', r1, r2, -⟩ := h.both cA cB (.start A) (.start B) k3 k4 k5
    exact ⟨m', r0.append r1, r2⟩

theorem ParOf.oneSafe (h : ParOf A B M plA plB f1 f2 g1 g2 tS tE) (hA : A.Proper) (hB : B.Proper) (sA : A.OneSafe) (sB : B.OneSafe) :
    M.OneSafe := by
  intro m hm x
  rcases h.reach' hA hB hm with rfl | rfl | ⟨mA, mB, k1, k2, k3, k4, k5⟩
  · exact single_le_one _ _
  · exact single_le_one _ _
  · by_cases hx : ∃ p, plA p ∧ f1 p = x
    · obtain ⟨p, hp, rfl⟩ := hx; rw [k3 p hp]; exact sA mA k1 p
    · by_cases hy : ∃ p, plB p ∧ f2 p = x
      · obtain ⟨p, hp, rfl⟩ := hy; rw [k4 p hp]; exact sB mB k2 p
      · rw [k5 x (fun p hp he => hx ⟨p, hp, he⟩) (fun p hp he => hy ⟨p, hp, he⟩)]; decide

theorem ParOf.sound (h : ParOf A B M plA plB f1 f2 g1 g2 tS tE) (hA : A.Sound) (hB : B.Sound) : M.Sound :=
  ⟨h.completes hA.2.1 hB.2.1 hA.1 hB.1, h.proper hA.2.1 hB.2.1, h.noDead hA.1 hB.1 hA.2.2 hB.2.2⟩

end

section
variable {A M : Sys P T α} {pl : P → Prop} {f : P → P} {g : T → T} {tS tE tR : T}

theorem RepOf.completes (h : RepOf A M pl f g tS tE tR) (hA : A.Proper) (cA : A.Completes) : M.Completes := by
  rintro m ⟨ts, hr⟩
  have leave := move h.okE h.preE h.postE
  rcases h.reach hA hr with ⟨rfl, -⟩ | ⟨-, us, mA, -, k1, k2, k3, -⟩ | ⟨-, -, -, rfl, -⟩
  · obtain ⟨ts, r1⟩ := h.a.through cA
    exact ⟨_, ((move h.okS h.preS h.postS).append r1).append leave⟩
  · obtain ⟨vs, hv⟩ := cA mA ⟨us, k1⟩
    obtain ⟨ts, r1⟩ := h.a.finish k3 k2 hv
    exact ⟨_, r1.append leave⟩
  · exact ⟨[], .nil⟩

theorem RepOf.noDead (h : RepOf A M pl f g tS tE tR) (cA : A.Completes) (dA : A.NoDead) : M.NoDead := by
  intro u hu
  have r0 := (Sys.Reaches.start M).append (move h.okS h.preS h.postS)
  obtain ⟨ts, r1⟩ := h.a.through cA
  rcases h.ok u hu with ⟨t, ht, rfl⟩ | rfl | rfl | rfl
  · exact h.a.alive dA r0 ht
  · exact ⟨_, .start M, enabled_single h.preS⟩
  · exact ⟨_, r0.append r1, enabled_single h.preE⟩
  · exact ⟨_, r0.append r1, enabled_single h.preR⟩

theorem RepOf.oneSafe (h : RepOf A M pl f g tS tE tR) (hA : A.Proper) (sA : A.OneSafe) : M.OneSafe := by
  rintro m ⟨ts, hr⟩ x
  rcases h.reach hA hr with ⟨rfl, -⟩ | ⟨-, us, mA, -, k1, k2, k3, -⟩ | ⟨-, -, -, rfl, -⟩
  · exact single_le_one _ _
  · by_cases hx : ∃ p, pl p ∧ f p = x
    · obtain ⟨p, hp, rfl⟩ := hx; rw [k2 p hp]; exact sA mA ⟨us, k1⟩ p
    · rw [k3 x fun p hp he => hx ⟨p, hp, he⟩]; decide
  · exact single_le_one _ _

theorem RepOf.sound (h : RepOf A M pl f g tS tE tR) (hA : A.Sound) : M.Sound :=
  ⟨h.completes hA.2.1 hA.1, h.proper hA.2.1, h.noDead hA.1 hA.2.2⟩

end

/-- if every execution can be completed, the partial executions are the beginnings of the complete executions -/
theorem Sys.Completes.partial {S : Sys P T α} (h : S.Completes) (w : List α) : S.Partial w ↔ ∃ v, S.Lang (w ++ v) := by
  constructor
  · rintro ⟨ts, m, hr, rfl⟩
    obtain ⟨us, hu⟩ := h m ⟨ts, hr⟩
    exact ⟨us.filterMap S.obs, ts ++ us, hr.append hu, List.filterMap_append⟩
  · rintro ⟨v, ts, hr, he⟩
    have : ∀ (ts : List T) (w v : List α), ts.filterMap S.obs = w ++ v → ∃ us vs, ts = us ++ vs ∧ us.filterMap S.obs = w := by
      intro ts
      induction ts with
      | nil =>
        intro w v he
        obtain ⟨rfl, -⟩ := List.append_eq_nil_iff.1 (show w ++ v = [] from he.symm)
        exact ⟨[], [], rfl, rfl⟩
      | cons t ts ih =>
        intro w v he
        cases w with
        | nil => exact ⟨[], t :: ts, rfl, rfl⟩
        | cons a w =>
          cases ho : S.obs t with
          | none =>
            rw [List.filterMap_cons, ho] at he
            obtain ⟨us, vs, rfl, h2⟩ := ih _ _ he
            exact ⟨t :: us, vs, rfl, by rw [List.filterMap_cons, ho]; exact h2⟩
          | some b =>
            rw [List.filterMap_cons, ho] at he
            obtain ⟨hb, he'⟩ := List.cons.inj (show b :: ts.filterMap S.obs = a :: (w ++ v) from he)
            obtain ⟨us, vs, rfl, h2⟩ := ih _ _ he'
            exact ⟨t :: us, vs, rfl, by rw [List.filterMap_cons, ho, hb, h2]⟩
    obtain ⟨us, vs, rfl, h2⟩ := this ts w v he
    obtain ⟨m1, r1, -⟩ := Run.split vs hr
    exact ⟨us, m1, r1, h2⟩

end Prolothar.Spec.Petri
