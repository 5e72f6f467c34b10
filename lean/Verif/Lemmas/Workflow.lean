import Verif.Spec.Workflow
import Verif.Lemmas.PetriPrune
import Mathlib.Tactic.Ring
/-
Composition of workflow nets: sequence, choice, parallel execution and repetition of nets that are parts of a larger net.
-/
namespace Prolothar.Spec.Petri

variable {P T α : Type} [DecidableEq P]

theorem Run.split {pre post : T → List P} {ok : T → Prop} {m m2 : P → Int} {us : List T} : ∀ (ts : List T),
    Run pre post ok m (us ++ ts) m2 → ∃ m1, Run pre post ok m us m1 ∧ Run pre post ok m1 ts m2 := by
  intro ts
  generalize hl : us ++ ts = l
  intro h
  induction h generalizing ts with
  | nil =>
    obtain ⟨rfl, rfl⟩ := List.append_eq_nil_iff.1 hl
    exact ⟨m, .nil, .nil⟩
  | @snoc l m' t hr ho he ih =>
    rcases List.eq_nil_or_concat ts with rfl | ⟨ts', t', rfl⟩
    · rw [List.append_nil] at hl
      subst hl
      exact ⟨_, hr.snoc ho he, .nil⟩
    · rw [List.concat_eq_append, ← List.append_assoc] at hl
      obtain ⟨h1, h2⟩ := List.append_inj' hl rfl
      obtain rfl := List.singleton_inj.1 h2
      obtain ⟨m1, k1, k2⟩ := ih ts' h1
      exact ⟨m1, k1, by rw [List.concat_eq_append]; exact k2.snoc ho he⟩

theorem Run.cons_inv {pre post : T → List P} {ok : T → Prop} {m m2 : P → Int} {t : T} {ts : List T}
    (h : Run pre post ok m (t :: ts) m2) : ok t ∧ Enabled (pre t) m ∧ Run pre post ok (after (pre t) (post t) m) ts m2 := by
  obtain ⟨m1, h1, h2⟩ := Run.split (us := [t]) ts h
  generalize hl : [t] = l at h1
  cases h1 with
  | nil => cases hl
  | @snoc l' m' t' hr ho he =>
    rcases l' with _ | ⟨x, l'⟩
    · obtain rfl := List.singleton_inj.1 hl
      generalize hl' : ([] : List T) = l at hr
      cases hr with
      | nil => exact ⟨ho, he, h2⟩
      | snoc => simp at hl'
    · simp at hl

theorem Run.cons {pre post : T → List P} {ok : T → Prop} {m m2 : P → Int} {t : T} {ts : List T} (ho : ok t) (he : Enabled (pre t) m)
    (h : Run pre post ok (after (pre t) (post t) m) ts m2) : Run pre post ok m (t :: ts) m2 :=
  (Run.single ho he).append h

theorem Run.trans_eq {pre post : T → List P} {ok : T → Prop} {m m1 m2 : P → Int} {ts : List T} (h : Run pre post ok m ts m1) (he : m1 = m2) :
    Run pre post ok m ts m2 := he ▸ h

theorem single_nonneg (p q : P) : 0 ≤ single p q := by unfold single; split <;> decide

/-- the net `S`, whose places satisfy `pl`, is a part of `M` with renamed places and transitions -/
structure Part (S M : Sys P T α) (pl : P → Prop) (f : P → P) (g : T → T) : Prop where
  inj : ∀ p q, pl p → pl q → f p = f q → p = q
  ok : ∀ t, S.ok t → M.ok (g t)
  pre : ∀ t, S.ok t → ∀ x, x ∈ M.pre (g t) ↔ ∃ p ∈ S.pre t, f p = x
  post : ∀ t, S.ok t → ∀ x, x ∈ M.post (g t) ↔ ∃ p ∈ S.post t, f p = x
  obs : ∀ t, S.ok t → M.obs (g t) = S.obs t
  pre_pl : ∀ t, S.ok t → ∀ p ∈ S.pre t, pl p
  post_pl : ∀ t, S.ok t → ∀ p ∈ S.post t, pl p
  pre_ne : ∀ t, S.ok t → S.pre t ≠ []
  src_pl : pl S.src
  snk_pl : pl S.snk
  snk_out : ∀ t, S.ok t → S.snk ∉ S.pre t

/-- what the marking `m` is on the part -/
def View (pl : P → Prop) (f : P → P) (m mS : P → Int) : Prop := ∀ p, pl p → m (f p) = mS p

namespace Part
variable {S M : Sys P T α} {pl : P → Prop} {f : P → P} {g : T → T}

theorem outside (h : Part S M pl f g) {ts : List T} {mS : P → Int} (hr : Run S.pre S.post S.ok (single S.src) ts mS) :
    ∀ p, ¬ pl p → mS p = 0 := by
  induction hr with
  | nil => intro p hp; unfold single; rw [if_neg]; rintro rfl; exact hp h.src_pl
  | snoc hr ho he ih =>
    intro p hp
    unfold after
    rw [ih p hp, if_neg (fun hx => hp (h.pre_pl _ ho p hx)), if_neg (fun hx => hp (h.post_pl _ ho p hx))]
    rfl

theorem eq_single (h : Part S M pl f g) {ts : List T} {mS : P → Int} (hr : Run S.pre S.post S.ok (single S.src) ts mS)
    (he : ∀ p, pl p → mS p = single S.snk p) : mS = single S.snk := by
  funext p
  by_cases hp : pl p
  · exact he p hp
  · rw [h.outside hr p hp]
    unfold single
    rw [if_neg]; rintro rfl; exact hp h.snk_pl

omit [DecidableEq P] in
theorem enabled (h : Part S M pl f g) {m mS : P → Int} (hv : View pl f m mS) {t : T} (ho : S.ok t) :
    Enabled (M.pre (g t)) m ↔ Enabled (S.pre t) mS := by
  constructor
  · intro he p hp
    rw [← hv p (h.pre_pl t ho p hp)]
    exact he _ ((h.pre t ho _).2 ⟨p, hp, rfl⟩)
  · intro he x hx
    obtain ⟨p, hp, rfl⟩ := (h.pre t ho x).1 hx
    rw [hv p (h.pre_pl t ho p hp)]
    exact he p hp

omit [DecidableEq P] in
theorem mem_pre (h : Part S M pl f g) {t : T} (ho : S.ok t) {p : P} (hp : pl p) : f p ∈ M.pre (g t) ↔ p ∈ S.pre t := by
  rw [h.pre t ho]
  constructor
  · rintro ⟨q, hq, he⟩; rw [← h.inj q p (h.pre_pl t ho q hq) hp he]; exact hq
  · exact fun hx => ⟨p, hx, rfl⟩

omit [DecidableEq P] in
theorem mem_post (h : Part S M pl f g) {t : T} (ho : S.ok t) {p : P} (hp : pl p) : f p ∈ M.post (g t) ↔ p ∈ S.post t := by
  rw [h.post t ho]
  constructor
  · rintro ⟨q, hq, he⟩; rw [← h.inj q p (h.post_pl t ho q hq) hp he]; exact hq
  · exact fun hx => ⟨p, hx, rfl⟩

theorem after_at (h : Part S M pl f g) (m : P → Int) {t : T} (ho : S.ok t) {p : P} (hp : pl p) :
    after (M.pre (g t)) (M.post (g t)) m (f p) = m (f p) - (if p ∈ S.pre t then 1 else 0) + (if p ∈ S.post t then 1 else 0) := by
  unfold after
  simp only [h.mem_pre ho hp, h.mem_post ho hp]

theorem view_after (h : Part S M pl f g) {m mS : P → Int} (hv : View pl f m mS) {t : T} (ho : S.ok t) :
    View pl f (after (M.pre (g t)) (M.post (g t)) m) (after (S.pre t) (S.post t) mS) := by
  intro p hp
  rw [h.after_at m ho hp, hv p hp]
  rfl

theorem after_other (h : Part S M pl f g) (m : P → Int) {t : T} (ho : S.ok t) {x : P} (hx : ∀ p, pl p → f p ≠ x) :
    after (M.pre (g t)) (M.post (g t)) m x = m x := by
  unfold after
  rw [if_neg, if_neg]
  · omega
  · rw [h.post t ho]; rintro ⟨p, hp, he⟩; exact hx p (h.post_pl t ho p hp) he
  · rw [h.pre t ho]; rintro ⟨p, hp, he⟩; exact hx p (h.pre_pl t ho p hp) he

omit [DecidableEq P] in
/-- a part without tokens cannot do anything -/
theorem dead (h : Part S M pl f g) {m : P → Int} (hv : ∀ p, pl p → m (f p) = 0) {t : T} (ho : S.ok t) : ¬ Enabled (M.pre (g t)) m := by
  intro he
  obtain ⟨p, hp⟩ := List.exists_mem_of_ne_nil _ (h.pre_ne t ho)
  have := he (f p) ((h.mem_pre ho (h.pre_pl t ho p hp)).2 hp)
  rw [hv p (h.pre_pl t ho p hp)] at this
  omega

/-- runs of the part are runs of the net -/
theorem lift (h : Part S M pl f g) {m0 mS0 mS : P → Int} (hv : View pl f m0 mS0) {ts : List T} (hr : Run S.pre S.post S.ok mS0 ts mS) :
    ∃ m, Run M.pre M.post M.ok m0 (ts.map g) m ∧ View pl f m mS ∧ (∀ x, (∀ p, pl p → f p ≠ x) → m x = m0 x) ∧
      (ts.map g).filterMap M.obs = ts.filterMap S.obs := by
  induction hr with
  | nil => exact ⟨m0, .nil, hv, fun _ _ => rfl, rfl⟩
  | @snoc ts m' t hr ho he ih =>
    obtain ⟨m, h1, h2, h3, h4⟩ := ih
    refine ⟨after (M.pre (g t)) (M.post (g t)) m, ?_, h.view_after h2 ho, fun x hx => by rw [h.after_other m ho hx, h3 x hx], ?_⟩
    · rw [List.map_append]
      exact h1.snoc (h.ok t ho) ((h.enabled h2 ho).2 he)
    · rw [List.map_append, List.filterMap_append, List.filterMap_append, h4]
      simp [h.obs t ho, List.filterMap_cons]

/-- no token is taken from the sink, so what is enabled with fewer tokens on the sink is enabled -/
theorem enabled_sub (h : Part S M pl f g) {m mS : P → Int} {k : Int} (hv : View pl f m fun p => mS p - k * single S.snk p) {t : T} (ho : S.ok t) :
    Enabled (M.pre (g t)) m → Enabled (S.pre t) mS := by
  intro he p hp
  have := (h.enabled hv ho).1 he p hp
  have hne : p ≠ S.snk := fun hx => h.snk_out t ho (hx ▸ hp)
  simpa [single, hne] using this

theorem view_after_sub (h : Part S M pl f g) {m mS : P → Int} {k : Int} (hv : View pl f m fun p => mS p - k * single S.snk p) {t : T} (ho : S.ok t) :
    View pl f (after (M.pre (g t)) (M.post (g t)) m) fun p => after (S.pre t) (S.post t) mS p - k * single S.snk p := by
  intro p hp
  rw [h.after_at m ho hp, hv p hp]
  unfold after
  ring

theorem view_single (h : Part S M pl f g) {p0 : P} (h0 : pl p0) : View pl f (single (f p0)) (single p0) := by
  intro p hp
  unfold single
  by_cases he : p = p0
  · rw [if_pos (by rw [he]), if_pos he]
  · rw [if_neg (fun hx => he (h.inj _ _ hp h0 hx)), if_neg he]

end Part

theorem filterMap_snoc {β : Type} (ob : T → Option β) (ts : List T) (t : T) :
    (ts ++ [t]).filterMap ob = ts.filterMap ob ++ (ob t).toList := by
  rw [List.filterMap_append, List.filterMap_cons, List.filterMap_nil]
  cases ob t <;> rfl

/-- the transition `t0` takes a token from the sink of the first part and puts one on the source of the second part -/
structure SeqOf (A B M : Sys P T α) (plA plB : P → Prop) (f1 f2 : P → P) (g1 g2 : T → T) (t0 : T) : Prop where
  a : Part A M plA f1 g1
  b : Part B M plB f2 g2
  disj : ∀ p q, plA p → plB q → f1 p ≠ f2 q
  ok0 : M.ok t0
  ok : ∀ u, M.ok u → (∃ t, A.ok t ∧ u = g1 t) ∨ (∃ t, B.ok t ∧ u = g2 t) ∨ u = t0
  pre0 : ∀ x, x ∈ M.pre t0 ↔ x = f1 A.snk
  post0 : ∀ x, x ∈ M.post t0 ↔ x = f2 B.src
  obs0 : M.obs t0 = none
  src : M.src = f1 A.src
  snk : M.snk = f2 B.snk

section
variable {A B M : Sys P T α} {plA plB : P → Prop} {f1 f2 : P → P} {g1 g2 : T → T} {t0 : T}

theorem SeqOf.reach (h : SeqOf A B M plA plB f1 f2 g1 g2 t0) (hA : A.Proper) {ts : List T} {m : P → Int}
    (hr : Run M.pre M.post M.ok (single M.src) ts m) :
    (∀ x, (∀ p, plA p → f1 p ≠ x) → (∀ p, plB p → f2 p ≠ x) → m x = 0) ∧
    ((∃ us mA, Run A.pre A.post A.ok (single A.src) us mA ∧ View plA f1 m mA ∧ (∀ p, plB p → m (f2 p) = 0) ∧ ts.filterMap M.obs = us.filterMap A.obs) ∨
     (∃ w us mB, A.Lang w ∧ Run B.pre B.post B.ok (single B.src) us mB ∧ View plB f2 m mB ∧ (∀ p, plA p → m (f1 p) = 0) ∧
       ts.filterMap M.obs = w ++ us.filterMap B.obs)) := by
  induction hr with
  | nil =>
    refine ⟨fun x hx _ => ?_, .inl ⟨[], single A.src, .nil, fun p hp => ?_, fun p hp => ?_, rfl⟩⟩
    · unfold single; rw [if_neg]; rintro rfl; exact hx A.src h.a.src_pl h.src.symm
    · unfold single; rw [h.src]
      by_cases he : p = A.src
      · rw [if_pos (by rw [he]), if_pos he]
      · rw [if_neg (fun hx => he (h.a.inj _ _ hp h.a.src_pl hx)), if_neg he]
    · unfold single; rw [h.src, if_neg]; exact fun hx => h.disj _ _ h.a.src_pl hp hx.symm
  | @snoc ts m t hr ho he ih =>
    obtain ⟨h0, ih⟩ := ih
    have hother : ∀ x, (∀ p, plA p → f1 p ≠ x) → (∀ p, plB p → f2 p ≠ x) → after (M.pre t) (M.post t) m x = 0 := by
      intro x hx1 hx2
      rcases h.ok t ho with ⟨u, hu, rfl⟩ | ⟨u, hu, rfl⟩ | rfl
      · rw [h.a.after_other m hu hx1, h0 x hx1 hx2]
      · rw [h.b.after_other m hu hx2, h0 x hx1 hx2]
      · unfold after
        rw [h0 x hx1 hx2, if_neg, if_neg]
        · rfl
        · rw [h.post0]; exact fun hx => hx2 _ h.b.src_pl hx.symm
        · rw [h.pre0]; exact fun hx => hx1 _ h.a.snk_pl hx.symm
    refine ⟨hother, ?_⟩
    rw [filterMap_snoc]
    rcases ih with ⟨us, mA, k1, k2, k3, k4⟩ | ⟨w, us, mB, kw, k1, k2, k3, k4⟩
    · rcases h.ok t ho with ⟨u, hu, rfl⟩ | ⟨u, hu, rfl⟩ | rfl
      · refine .inl ⟨us ++ [u], _, k1.snoc hu ((h.a.enabled k2 hu).1 he), h.a.view_after k2 hu, fun p hp => ?_, ?_⟩
        · rw [h.a.after_other m hu (fun q hq => h.disj q p hq hp), k3 p hp]
        · rw [k4, filterMap_snoc, h.a.obs u hu]
      · exact absurd he (h.b.dead k3 hu)
      · have hsnk := he _ ((h.pre0 _).2 rfl)
        rw [k2 _ h.a.snk_pl] at hsnk
        have hmA := hA us mA k1 hsnk
        subst hmA
        refine .inr ⟨us.filterMap A.obs, [], single B.src, ⟨us, k1, rfl⟩, .nil, fun p hp => ?_, fun p hp => ?_, ?_⟩
        · unfold after
          rw [k3 p hp, if_neg (by rw [h.pre0]; exact fun hx => h.disj _ _ h.a.snk_pl hp hx.symm)]
          unfold single
          by_cases hps : p = B.src
          · rw [if_pos (by rw [h.post0, hps]), if_pos hps]; rfl
          · rw [if_neg (by rw [h.post0]; exact fun hx => hps (h.b.inj _ _ hp h.b.src_pl hx)), if_neg hps]; rfl
        · unfold after
          rw [k2 p hp, if_neg (c := f1 p ∈ M.post t) (by rw [h.post0]; exact fun hx => h.disj _ _ hp h.b.src_pl hx)]
          unfold single
          by_cases hps : p = A.snk
          · rw [if_pos hps, if_pos (by rw [h.pre0, hps])]; rfl
          · rw [if_neg hps, if_neg (by rw [h.pre0]; exact fun hx => hps (h.a.inj _ _ hp h.a.snk_pl hx))]; rfl
        · rw [k4, h.obs0]; simp
    · rcases h.ok t ho with ⟨u, hu, rfl⟩ | ⟨u, hu, rfl⟩ | rfl
      · exact absurd he (h.a.dead k3 hu)
      · refine .inr ⟨w, us ++ [u], _, kw, k1.snoc hu ((h.b.enabled k2 hu).1 he), h.b.view_after k2 hu, fun p hp => ?_, ?_⟩
        · rw [h.b.after_other m hu (fun q hq hx => h.disj p q hp hq hx.symm), k3 p hp]
        · rw [k4, filterMap_snoc, h.b.obs u hu, List.append_assoc]
      · have hsnk := he _ ((h.pre0 _).2 rfl)
        rw [k3 _ h.a.snk_pl] at hsnk
        omega

theorem SeqOf.final (h : SeqOf A B M plA plB f1 f2 g1 g2 t0) {m : P → Int} (h0 : ∀ x, (∀ p, plA p → f1 p ≠ x) → (∀ p, plB p → f2 p ≠ x) → m x = 0)
    (hB : View plB f2 m (single B.snk)) (hA : ∀ p, plA p → m (f1 p) = 0) : m = single M.snk := by
  funext x
  rw [h.snk]
  by_cases hx2 : ∃ p, plB p ∧ f2 p = x
  · obtain ⟨p, hp, rfl⟩ := hx2
    rw [hB p hp]
    unfold single
    by_cases hps : p = B.snk
    · rw [if_pos hps, if_pos (by rw [hps])]
    · rw [if_neg hps, if_neg (fun hx => hps (h.b.inj _ _ hp h.b.snk_pl hx))]
  · have : m x = 0 := by
      by_cases hx1 : ∃ p, plA p ∧ f1 p = x
      · obtain ⟨p, hp, rfl⟩ := hx1; exact hA p hp
      · exact h0 x (fun p hp he => hx1 ⟨p, hp, he⟩) (fun p hp he => hx2 ⟨p, hp, he⟩)
    rw [this]
    unfold single
    rw [if_neg]; exact fun hx => hx2 ⟨_, h.b.snk_pl, hx.symm⟩

/-- the words of a sequence are a word of the first part followed by one of the second part -/
theorem SeqOf.lang (h : SeqOf A B M plA plB f1 f2 g1 g2 t0) (hA : A.Proper) (w : List α) :
    M.Lang w ↔ ∃ u v, A.Lang u ∧ B.Lang v ∧ w = u ++ v := by
  constructor
  · rintro ⟨ts, hr, rfl⟩
    obtain ⟨_, ⟨us, mA, k1, k2, k3, k4⟩ | ⟨w, us, mB, kw, k1, k2, k3, k4⟩⟩ := h.reach hA hr
    · have := k3 _ h.b.snk_pl
      rw [h.snk] at this
      simp [single] at this
    · refine ⟨w, _, kw, ⟨us, ?_, rfl⟩, k4⟩
      rw [h.b.eq_single k1 fun p hp => ?_] at k1
      · exact k1
      · rw [← k2 p hp, h.snk]
        unfold single
        by_cases hps : p = B.snk
        · rw [if_pos hps, if_pos (by rw [hps])]
        · rw [if_neg hps, if_neg (fun hx => hps (h.b.inj _ _ hp h.b.snk_pl hx))]
  · rintro ⟨_, _, ⟨us, h1, rfl⟩, ⟨vs, h2, rfl⟩, rfl⟩
    have hv0 : View plA f1 (single M.src) (single A.src) := by
      intro p hp
      unfold single; rw [h.src]
      by_cases he : p = A.src
      · rw [if_pos (by rw [he]), if_pos he]
      · rw [if_neg (fun hx => he (h.a.inj _ _ hp h.a.src_pl hx)), if_neg he]
    obtain ⟨m1, k1, k2, k3, k4⟩ := h.a.lift hv0 h1
    have hz : ∀ x, (∀ p, plA p → f1 p ≠ x) → m1 x = 0 := by
      intro x hx
      rw [k3 x hx]; unfold single; rw [if_neg]; rintro rfl; exact hx _ h.a.src_pl h.src.symm
    have he : Enabled (M.pre t0) m1 := by
      intro x hx
      rw [(h.pre0 x).1 hx, k2 _ h.a.snk_pl]; simp [single]
    have hv1 : View plB f2 (after (M.pre t0) (M.post t0) m1) (single B.src) := by
      intro p hp
      unfold after
      rw [hz _ (fun q hq => h.disj q p hq hp), if_neg (by rw [h.pre0]; exact fun hx => h.disj _ _ h.a.snk_pl hp hx.symm)]
      unfold single
      by_cases hps : p = B.src
      · rw [if_pos (by rw [h.post0, hps]), if_pos hps]; rfl
      · rw [if_neg (by rw [h.post0]; exact fun hx => hps (h.b.inj _ _ hp h.b.src_pl hx)), if_neg hps]; rfl
    obtain ⟨m2, l1, l2, l3, l4⟩ := h.b.lift hv1 h2
    have hm2 : m2 = single M.snk := by
      refine h.final (fun x hx1 hx2 => ?_) l2 fun p hp => ?_
      · rw [l3 x hx2]; unfold after
        rw [hz x hx1, if_neg, if_neg]
        · rfl
        · rw [h.post0]; exact fun hx => hx2 _ h.b.src_pl hx.symm
        · rw [h.pre0]; exact fun hx => hx1 _ h.a.snk_pl hx.symm
      · rw [l3 _ (fun q hq hx => h.disj p q hp hq hx.symm)]
        unfold after
        rw [k2 p hp, if_neg (c := f1 p ∈ M.post t0) (by rw [h.post0]; exact fun hx => h.disj _ _ hp h.b.src_pl hx)]
        unfold single
        by_cases hps : p = A.snk
        · rw [if_pos hps, if_pos (by rw [h.pre0, hps])]; rfl
        · rw [if_neg hps, if_neg (by rw [h.pre0]; exact fun hx => hps (h.a.inj _ _ hp h.a.snk_pl hx))]; rfl
    subst hm2
    refine ⟨_, (k1.snoc h.ok0 he).append l1, ?_⟩
    rw [List.filterMap_append, filterMap_snoc, k4, l4, h.obs0]
    simp

theorem SeqOf.proper (h : SeqOf A B M plA plB f1 f2 g1 g2 t0) (hA : A.Proper) (hB : B.Proper) : M.Proper := by
  intro ts m hr hm
  obtain ⟨h0, ⟨us, mA, k1, k2, k3, k4⟩ | ⟨w, us, mB, kw, k1, k2, k3, k4⟩⟩ := h.reach hA hr
  · rw [h.snk, k3 _ h.b.snk_pl] at hm; omega
  · rw [h.snk, k2 _ h.b.snk_pl] at hm
    have := hB us mB k1 hm
    subst this
    exact h.final h0 k2 k3

end

/-- `ns` is connected with the sources of the parts, the sinks of the parts are connected with `ne` -/
structure ChoiceOf {ι : Type} (S : ι → Sys P T α) (M : Sys P T α) (pl : ι → P → Prop) (f : ι → P → P) (g : ι → T → T) (isS isE : ι → T → Prop) : Prop where
  part : ∀ i, Part (S i) M (pl i) (f i) (g i)
  disj : ∀ i j, i ≠ j → ∀ p q, pl i p → pl j q → f i p ≠ f j q
  src_new : ∀ i p, pl i p → f i p ≠ M.src
  snk_new : ∀ i p, pl i p → f i p ≠ M.snk
  ne : M.src ≠ M.snk
  okS : ∀ i, ∃ u, isS i u ∧ M.ok u
  okE : ∀ i, ∃ u, isE i u ∧ M.ok u
  ok : ∀ u, M.ok u → (∃ i t, (S i).ok t ∧ u = g i t) ∨ (∃ i, isS i u) ∨ (∃ i, isE i u)
  preS : ∀ i u, isS i u → ∀ x, x ∈ M.pre u ↔ x = M.src
  postS : ∀ i u, isS i u → ∀ x, x ∈ M.post u ↔ x = f i (S i).src
  preE : ∀ i u, isE i u → ∀ x, x ∈ M.pre u ↔ x = f i (S i).snk
  postE : ∀ i u, isE i u → ∀ x, x ∈ M.post u ↔ x = M.snk
  obsS : ∀ i u, isS i u → M.obs u = none
  obsE : ∀ i u, isE i u → M.obs u = none

section
variable {ι : Type} {S : ι → Sys P T α} {M : Sys P T α} {pl : ι → P → Prop} {f : ι → P → P} {g : ι → T → T} {isS isE : ι → T → Prop}

theorem ChoiceOf.reach (h : ChoiceOf S M pl f g isS isE) {ts : List T} {m : P → Int}
    (hr : Run M.pre M.post M.ok (single M.src) ts m) :
    (m = single M.src ∧ ts.filterMap M.obs = []) ∨
    ∃ i us mA, Run (S i).pre (S i).post (S i).ok (single (S i).src) us mA ∧
      View (pl i) (f i) m (fun p => mA p - m M.snk * single (S i).snk p) ∧ 0 ≤ m M.snk ∧
      (∀ x, x ≠ M.snk → (∀ p, pl i p → f i p ≠ x) → m x = 0) ∧ ts.filterMap M.obs = us.filterMap (S i).obs := by
  induction hr with
  | nil => exact .inl ⟨rfl, rfl⟩
  | @snoc ts m t hr ho he ih =>
    rw [filterMap_snoc]
    rcases ih with ⟨rfl, k⟩ | ⟨i, us, mA, k1, k2, k3, k4, k5⟩
    · rcases h.ok t ho with ⟨i, u, hu, rfl⟩ | ⟨i, hq⟩ | ⟨i, hq⟩
      · refine absurd he ((h.part i).dead (fun p hp => ?_) hu)
        unfold single; rw [if_neg (h.src_new i p hp)]
      · have hsnk : after (M.pre t) (M.post t) (single M.src) M.snk = 0 := by
          unfold after single
          rw [if_neg (Ne.symm h.ne), if_neg (by rw [h.preS i _ hq]; exact Ne.symm h.ne), if_neg (by rw [h.postS i _ hq]; exact (h.snk_new i _ (h.part i).src_pl).symm)]
          rfl
        refine .inr ⟨i, [], single (S i).src, .nil, fun p hp => ?_, by rw [hsnk], fun x hx1 hx2 => ?_, by rw [k, h.obsS i _ hq]; rfl⟩
        · rw [hsnk]
          unfold after single
          rw [if_neg (h.src_new i p hp), if_neg (by rw [h.preS i _ hq]; exact h.src_new i p hp)]
          beta_reduce
          by_cases hps : p = (S i).src
          · rw [if_pos (by rw [h.postS i _ hq, hps]), if_pos hps]; simp
          · rw [if_neg (by rw [h.postS i _ hq]; exact fun hx => hps ((h.part i).inj _ _ hp (h.part i).src_pl hx)), if_neg hps]; simp
        · unfold after
          rw [if_neg (c := x ∈ M.post t) (by rw [h.postS i _ hq]; exact fun hx => hx2 _ (h.part i).src_pl hx.symm)]
          unfold single
          by_cases hxs : x = M.src
          · rw [if_pos hxs, if_pos (by rw [h.preS i _ hq, hxs])]; rfl
          · rw [if_neg hxs, if_neg (by rw [h.preS i _ hq]; exact hxs)]; rfl
      · have := he _ ((h.preE i _ hq _).2 rfl)
        unfold single at this
        rw [if_neg (h.src_new i _ (h.part i).snk_pl)] at this
        omega
    · refine .inr ?_
      rcases h.ok t ho with ⟨j, u, hu, rfl⟩ | ⟨j, hq⟩ | ⟨j, hq⟩
      · by_cases hij : i = j
        · subst hij
          have hsnk := (h.part i).after_other m hu (fun p hp => h.snk_new i p hp)
          refine ⟨i, us ++ [u], _, k1.snoc hu ((h.part i).enabled_sub k2 hu he), ?_, by rw [hsnk]; exact k3, fun x hx1 hx2 => ?_, ?_⟩
          · rw [hsnk]; exact (h.part i).view_after_sub k2 hu
          · rw [(h.part i).after_other m hu hx2, k4 x hx1 hx2]
          · rw [k5, filterMap_snoc, (h.part i).obs u hu]
        · refine absurd he ((h.part j).dead (fun p hp => k4 _ (h.snk_new j p hp) fun q hq => h.disj i j hij q p hq hp) hu)
      · have := he _ ((h.preS j _ hq _).2 rfl)
        rw [k4 _ h.ne fun p hp => h.src_new i p hp] at this
        omega
      · by_cases hij : i = j
        · subst hij
          have hsnk : after (M.pre t) (M.post t) m M.snk = m M.snk + 1 := by
            unfold after
            rw [if_neg (by rw [h.preE i _ hq]; exact (h.snk_new i _ (h.part i).snk_pl).symm), if_pos (by rw [h.postE i _ hq])]
            omega
          refine ⟨i, us, mA, k1, fun p hp => ?_, by rw [hsnk]; omega, fun x hx1 hx2 => ?_, by rw [k5, h.obsE i _ hq]; simp⟩
          · rw [hsnk]
            unfold after
            rw [k2 p hp, if_neg (c := f i p ∈ M.post t) (by rw [h.postE i _ hq]; exact h.snk_new i p hp)]
            unfold single
            beta_reduce
            by_cases hps : p = (S i).snk
            · rw [if_pos hps, if_pos (by rw [h.preE i _ hq, hps])]; ring
            · rw [if_neg hps, if_neg (by rw [h.preE i _ hq]; exact fun hx => hps ((h.part i).inj _ _ hp (h.part i).snk_pl hx))]; ring
          · unfold after
            rw [k4 x hx1 hx2, if_neg (by rw [h.preE i _ hq]; exact fun hx => hx2 _ (h.part i).snk_pl hx.symm), if_neg (by rw [h.postE i _ hq]; exact hx1)]
            rfl
        · have := he _ ((h.preE j _ hq _).2 rfl)
          rw [k4 _ (h.snk_new j _ (h.part j).snk_pl) fun q hq => h.disj i j hij q _ hq (h.part j).snk_pl] at this
          omega

/-- the words of a choice are those of the parts -/
theorem ChoiceOf.lang (h : ChoiceOf S M pl f g isS isE) (w : List α) : M.Lang w ↔ ∃ i, (S i).Lang w := by
  constructor
  · rintro ⟨ts, hr, rfl⟩
    rcases h.reach hr with ⟨k1, _⟩ | ⟨i, us, mA, k1, k2, k3, k4, k5⟩
    · have := congrFun k1 M.src
      simp [single, h.ne] at this
    · refine ⟨i, us, ?_, k5.symm⟩
      rw [(h.part i).eq_single k1 fun p hp => ?_] at k1
      · exact k1
      · have := k2 p hp
        unfold single at this ⊢
        rw [if_neg (h.snk_new i p hp), if_pos rfl] at this
        linarith
  · rintro ⟨i, us, h1, rfl⟩
    obtain ⟨tS, hqS, hoS⟩ := h.okS i
    obtain ⟨tE, hqE, hoE⟩ := h.okE i
    have he0 : Enabled (M.pre tS) (single M.src) := by
      intro x hx; rw [(h.preS i _ hqS x).1 hx]; simp [single]
    have hm1 : after (M.pre tS) (M.post tS) (single M.src) = single (f i (S i).src) := by
      funext x
      unfold after single
      simp only [h.preS i _ hqS, h.postS i _ hqS]
      ring
    obtain ⟨m, k1, k2, k3, k4⟩ := (h.part i).lift ((h.part i).view_single (h.part i).src_pl) h1
    have he1 : Enabled (M.pre tE) m := by
      intro x hx; rw [(h.preE i _ hqE x).1 hx, k2 _ (h.part i).snk_pl]; simp [single]
    have hm2 : after (M.pre tE) (M.post tE) m = single M.snk := by
      funext x
      unfold after single
      simp only [h.preE i _ hqE, h.postE i _ hqE]
      by_cases hx : ∃ p, pl i p ∧ f i p = x
      · obtain ⟨p, hp, rfl⟩ := hx
        rw [k2 p hp]
        unfold single
        by_cases hps : p = (S i).snk
        · subst hps; simp
        · have hps' : f i p ≠ f i (S i).snk := fun hx => hps ((h.part i).inj _ _ hp (h.part i).snk_pl hx)
          simp [hps, hps', h.snk_new i p hp]
      · have hx' : ∀ p, pl i p → f i p ≠ x := fun p hp he => hx ⟨p, hp, he⟩
        rw [k3 x hx']
        unfold single
        simp [(hx' _ (h.part i).src_pl).symm, (hx' _ (h.part i).snk_pl).symm]
    refine ⟨_, ((Run.cons hoS he0 (by rw [hm1]; exact k1)).snoc hoE he1).trans_eq hm2, ?_⟩
    rw [filterMap_snoc, List.filterMap_cons, h.obsS i _ hqS, k4, h.obsE i _ hqE]
    simp

theorem ChoiceOf.proper (h : ChoiceOf S M pl f g isS isE) (hS : ∀ i, (S i).Proper) : M.Proper := by
  intro ts m hr hm
  rcases h.reach hr with ⟨rfl, _⟩ | ⟨i, us, mA, k1, k2, k3, k4, k5⟩
  · simp [single, h.ne.symm] at hm
  · have hn : 0 ≤ m (f i (S i).snk) := hr.nonneg (single_nonneg _) _
    have hk := k2 _ (h.part i).snk_pl
    simp only [single, if_true, mul_one] at hk
    have hmA := hS i us mA k1 (by linarith)
    subst hmA
    simp only [single, if_true] at hk
    have h1 : m M.snk = 1 := by omega
    funext x
    by_cases hxe : x = M.snk
    · subst hxe; simp [single, h1]
    · by_cases hx : ∃ p, pl i p ∧ f i p = x
      · obtain ⟨p, hp, rfl⟩ := hx
        rw [k2 p hp, h1]
        simp [single, hxe]
      · rw [k4 x hxe fun p hp he => hx ⟨p, hp, he⟩]
        simp [single, hxe]

end

theorem Shuffle.empty_left : ∀ v : List α, Shuffle [] v v
  | [] => .nil
  | _ :: v => .right (Shuffle.empty_left v)

theorem Shuffle.snoc_left {u v w : List α} (h : Shuffle u v w) (a : α) : Shuffle (u ++ [a]) v (w ++ [a]) := by
  induction h with
  | nil => exact .left .nil
  | left _ ih => exact .left ih
  | right _ ih => exact .right ih

theorem Shuffle.snoc_right {u v w : List α} (h : Shuffle u v w) (a : α) : Shuffle u (v ++ [a]) (w ++ [a]) := by
  induction h with
  | nil => exact .right .nil
  | left _ ih => exact .left ih
  | right _ ih => exact .right ih

theorem Shuffle.append_left {u v w : List α} (h : Shuffle u v w) (o : Option α) : Shuffle (u ++ o.toList) v (w ++ o.toList) := by
  cases o with
  | none => simpa using h
  | some a => exact h.snoc_left a

theorem Shuffle.append_right {u v w : List α} (h : Shuffle u v w) (o : Option α) : Shuffle u (v ++ o.toList) (w ++ o.toList) := by
  cases o with
  | none => simpa using h
  | some a => exact h.snoc_right a

/-- `tS` puts a token on the sources of both parts, `tE` takes a token from the sinks of both parts -/
structure ParOf (A B M : Sys P T α) (plA plB : P → Prop) (f1 f2 : P → P) (g1 g2 : T → T) (tS tE : T) : Prop where
  a : Part A M plA f1 g1
  b : Part B M plB f2 g2
  disj : ∀ p q, plA p → plB q → f1 p ≠ f2 q
  src_a : ∀ p, plA p → f1 p ≠ M.src
  src_b : ∀ p, plB p → f2 p ≠ M.src
  snk_a : ∀ p, plA p → f1 p ≠ M.snk
  snk_b : ∀ p, plB p → f2 p ≠ M.snk
  ne : M.src ≠ M.snk
  okS : M.ok tS
  okE : M.ok tE
  ok : ∀ u, M.ok u → (∃ t, A.ok t ∧ u = g1 t) ∨ (∃ t, B.ok t ∧ u = g2 t) ∨ u = tS ∨ u = tE
  preS : ∀ x, x ∈ M.pre tS ↔ x = M.src
  postS : ∀ x, x ∈ M.post tS ↔ x = f1 A.src ∨ x = f2 B.src
  preE : ∀ x, x ∈ M.pre tE ↔ x = f1 A.snk ∨ x = f2 B.snk
  postE : ∀ x, x ∈ M.post tE ↔ x = M.snk
  obsS : M.obs tS = none
  obsE : M.obs tE = none

section
variable {A B M : Sys P T α} {plA plB : P → Prop} {f1 f2 : P → P} {g1 g2 : T → T} {tS tE : T}

theorem ParOf.reach (h : ParOf A B M plA plB f1 f2 g1 g2 tS tE) {ts : List T} {m : P → Int}
    (hr : Run M.pre M.post M.ok (single M.src) ts m) :
    (m = single M.src ∧ ts.filterMap M.obs = []) ∨
    ∃ us vs mA mB, Run A.pre A.post A.ok (single A.src) us mA ∧ Run B.pre B.post B.ok (single B.src) vs mB ∧
      View plA f1 m (fun p => mA p - m M.snk * single A.snk p) ∧ View plB f2 m (fun p => mB p - m M.snk * single B.snk p) ∧ 0 ≤ m M.snk ∧
      (∀ x, x ≠ M.snk → (∀ p, plA p → f1 p ≠ x) → (∀ p, plB p → f2 p ≠ x) → m x = 0) ∧
      Shuffle (us.filterMap A.obs) (vs.filterMap B.obs) (ts.filterMap M.obs) := by
  induction hr with
  | nil => exact .inl ⟨rfl, rfl⟩
  | @snoc ts m t hr ho he ih =>
    rw [filterMap_snoc]
    have hab : ∀ {p q}, plA p → plB q → f2 q ≠ f1 p := fun hp hq hx => h.disj _ _ hp hq hx.symm
    rcases ih with ⟨rfl, k⟩ | ⟨us, vs, mA, mB, k1, k1', k2, k2', k3, k4, k5⟩
    · rcases h.ok t ho with ⟨u, hu, rfl⟩ | ⟨u, hu, rfl⟩ | rfl | rfl
      · refine absurd he (h.a.dead (fun p hp => ?_) hu)
        unfold single; rw [if_neg (h.src_a p hp)]
      · refine absurd he (h.b.dead (fun p hp => ?_) hu)
        unfold single; rw [if_neg (h.src_b p hp)]
      · have hsnk : after (M.pre t) (M.post t) (single M.src) M.snk = 0 := by
          unfold after single
          rw [if_neg (Ne.symm h.ne), if_neg (by rw [h.preS]; exact Ne.symm h.ne),
            if_neg (by rw [h.postS, not_or]; exact ⟨(h.snk_a _ h.a.src_pl).symm, (h.snk_b _ h.b.src_pl).symm⟩)]
          rfl
        refine .inr ⟨[], [], single A.src, single B.src, .nil, .nil, fun p hp => ?_, fun p hp => ?_, by rw [hsnk], fun x hx1 hx2 hx3 => ?_, ?_⟩
        · rw [hsnk]
          unfold after single
          rw [if_neg (h.src_a p hp), if_neg (by rw [h.preS]; exact h.src_a p hp)]
          beta_reduce
          by_cases hps : p = A.src
          · rw [if_pos (by rw [h.postS, hps]; exact .inl rfl), if_pos hps]; simp
          · rw [if_neg (by rw [h.postS, not_or]; exact ⟨fun hx => hps (h.a.inj _ _ hp h.a.src_pl hx), h.disj _ _ hp h.b.src_pl⟩), if_neg hps]; simp
        · rw [hsnk]
          unfold after single
          rw [if_neg (h.src_b p hp), if_neg (by rw [h.preS]; exact h.src_b p hp)]
          beta_reduce
          by_cases hps : p = B.src
          · rw [if_pos (by rw [h.postS, hps]; exact .inr rfl), if_pos hps]; simp
          · rw [if_neg (by rw [h.postS, not_or]; exact ⟨hab h.a.src_pl hp, fun hx => hps (h.b.inj _ _ hp h.b.src_pl hx)⟩), if_neg hps]; simp
        · unfold after
          rw [if_neg (c := x ∈ M.post t) (by rw [h.postS, not_or]; exact ⟨(hx2 _ h.a.src_pl).symm, (hx3 _ h.b.src_pl).symm⟩)]
          unfold single
          by_cases hxs : x = M.src
          · rw [if_pos hxs, if_pos (by rw [h.preS, hxs])]; rfl
          · rw [if_neg hxs, if_neg (by rw [h.preS]; exact hxs)]; rfl
        · rw [k, h.obsS]; exact .nil
      · have := he _ ((h.preE _).2 (.inl rfl))
        unfold single at this
        rw [if_neg (h.src_a _ h.a.snk_pl)] at this
        omega
    · refine .inr ?_
      rcases h.ok t ho with ⟨u, hu, rfl⟩ | ⟨u, hu, rfl⟩ | rfl | rfl
      · have hsnk := h.a.after_other m hu h.snk_a
        refine ⟨us ++ [u], vs, _, mB, k1.snoc hu (h.a.enabled_sub k2 hu he), k1', ?_, fun p hp => ?_, by rw [hsnk]; exact k3, fun x hx1 hx2 hx3 => ?_, ?_⟩
        · rw [hsnk]; exact h.a.view_after_sub k2 hu
        · rw [hsnk, h.a.after_other m hu fun q hq => h.disj q p hq hp, k2' p hp]
        · rw [h.a.after_other m hu hx2, k4 x hx1 hx2 hx3]
        · rw [filterMap_snoc, h.a.obs u hu]; exact k5.append_left _
      · have hsnk := h.b.after_other m hu h.snk_b
        refine ⟨us, vs ++ [u], mA, _, k1, k1'.snoc hu (h.b.enabled_sub k2' hu he), fun p hp => ?_, ?_, by rw [hsnk]; exact k3, fun x hx1 hx2 hx3 => ?_, ?_⟩
        · rw [hsnk, h.b.after_other m hu fun q hq => hab hp hq, k2 p hp]
        · rw [hsnk]; exact h.b.view_after_sub k2' hu
        · rw [h.b.after_other m hu hx3, k4 x hx1 hx2 hx3]
        · rw [filterMap_snoc, h.b.obs u hu]; exact k5.append_right _
      · have := he _ ((h.preS _).2 rfl)
        rw [k4 _ h.ne h.src_a h.src_b] at this
        omega
      · have hsnk : after (M.pre t) (M.post t) m M.snk = m M.snk + 1 := by
          unfold after
          rw [if_neg (by rw [h.preE, not_or]; exact ⟨(h.snk_a _ h.a.snk_pl).symm, (h.snk_b _ h.b.snk_pl).symm⟩), if_pos (by rw [h.postE])]
          omega
        refine ⟨us, vs, mA, mB, k1, k1', fun p hp => ?_, fun p hp => ?_, by rw [hsnk]; omega, fun x hx1 hx2 hx3 => ?_, by rw [h.obsE]; simpa using k5⟩
        · rw [hsnk]
          unfold after
          rw [k2 p hp, if_neg (c := f1 p ∈ M.post t) (by rw [h.postE]; exact h.snk_a p hp)]
          unfold single
          beta_reduce
          by_cases hps : p = A.snk
          · rw [if_pos hps, if_pos (by rw [h.preE, hps]; exact .inl rfl)]; ring
          · rw [if_neg hps, if_neg (by rw [h.preE, not_or]; exact ⟨fun hx => hps (h.a.inj _ _ hp h.a.snk_pl hx), h.disj _ _ hp h.b.snk_pl⟩)]; ring
        · rw [hsnk]
          unfold after
          rw [k2' p hp, if_neg (c := f2 p ∈ M.post t) (by rw [h.postE]; exact h.snk_b p hp)]
          unfold single
          beta_reduce
          by_cases hps : p = B.snk
          · rw [if_pos hps, if_pos (by rw [h.preE, hps]; exact .inr rfl)]; ring
          · rw [if_neg hps, if_neg (by rw [h.preE, not_or]; exact ⟨hab h.a.snk_pl hp, fun hx => hps (h.b.inj _ _ hp h.b.snk_pl hx)⟩)]; ring
        · unfold after
          rw [k4 x hx1 hx2 hx3, if_neg (by rw [h.preE, not_or]; exact ⟨(hx2 _ h.a.snk_pl).symm, (hx3 _ h.b.snk_pl).symm⟩), if_neg (by rw [h.postE]; exact hx1)]
          rfl

/-- a visible step of a run -/
theorem Run.first_visible {S : Sys P T α} {a : α} {w : List α} : ∀ {ts : List T} {m m' : P → Int}, Run S.pre S.post S.ok m ts m' →
    ts.filterMap S.obs = a :: w → ∃ us vs m1, Run S.pre S.post S.ok m us m1 ∧ Run S.pre S.post S.ok m1 vs m' ∧ us.filterMap S.obs = [a] ∧
      vs.filterMap S.obs = w := by
  intro ts
  induction ts with
  | nil => intro m m' _ h; cases h
  | cons t ts ih =>
    intro m m' hr hw
    obtain ⟨ho, he, hr'⟩ := hr.cons_inv
    cases hob : S.obs t with
    | none =>
      rw [List.filterMap_cons, hob] at hw
      obtain ⟨us, vs, m1, k1, k2, k3, k4⟩ := ih hr' hw
      exact ⟨t :: us, vs, m1, k1.cons ho he, k2, by rw [List.filterMap_cons, hob]; exact k3, k4⟩
    | some b =>
      rw [List.filterMap_cons, hob] at hw
      obtain ⟨rfl, hw'⟩ := List.cons.inj hw
      exact ⟨[t], ts, _, .single ho he, hr', by simp [hob], hw'⟩

/-- runs of both parts can be interleaved -/
theorem ParOf.interleave (h : ParOf A B M plA plB f1 f2 g1 g2 tS tE) {u v w : List α} (hs : Shuffle u v w) :
    ∀ {us vs : List T} {mA mA' mB mB' m : P → Int}, Run A.pre A.post A.ok mA us mA' → Run B.pre B.post B.ok mB vs mB' →
    us.filterMap A.obs = u → vs.filterMap B.obs = v → View plA f1 m mA → View plB f2 m mB →
    ∃ ts m', Run M.pre M.post M.ok m ts m' ∧ View plA f1 m' mA' ∧ View plB f2 m' mB' ∧
      (∀ x, (∀ p, plA p → f1 p ≠ x) → (∀ p, plB p → f2 p ≠ x) → m' x = m x) ∧ ts.filterMap M.obs = w := by
  have hab : ∀ p q, plA p → plB q → f2 q ≠ f1 p := fun p q hp hq hx => h.disj _ _ hp hq hx.symm
  induction hs with
  | nil =>
    intro us vs mA mA' mB mB' m hA hB hu hv vA vB
    obtain ⟨m1, k1, k2, k3, k4⟩ := h.a.lift vA hA
    obtain ⟨m2, l1, l2, l3, l4⟩ := h.b.lift (m0 := m1) (fun p hp => by rw [k3 _ fun q hq => h.disj q p hq hp, vB p hp]) hB
    refine ⟨_, m2, k1.append l1, fun p hp => ?_, l2, fun x hx1 hx2 => by rw [l3 x hx2, k3 x hx1], by rw [List.filterMap_append, k4, l4, hu, hv]; rfl⟩
    rw [l3 _ fun q hq => hab p q hp hq, k2 p hp]
  | left _ ih =>
    intro us vs mA mA' mB mB' m hA hB hu hv vA vB
    obtain ⟨us1, us2, mA1, r1, r2, r3, r4⟩ := hA.first_visible hu
    obtain ⟨m1, k1, k2, k3, k4⟩ := h.a.lift vA r1
    obtain ⟨ts, m', l1, l2, l3, l4, l5⟩ := ih r2 hB r4 hv k2 (fun p hp => by rw [k3 _ fun q hq => h.disj q p hq hp, vB p hp])
    exact ⟨_, m', k1.append l1, l2, l3, fun x hx1 hx2 => by rw [l4 x hx1 hx2, k3 x hx1], by rw [List.filterMap_append, k4, l5, r3]; rfl⟩
  | right _ ih =>
    intro us vs mA mA' mB mB' m hA hB hu hv vA vB
    obtain ⟨vs1, vs2, mB1, r1, r2, r3, r4⟩ := hB.first_visible hv
    obtain ⟨m1, k1, k2, k3, k4⟩ := h.b.lift vB r1
    obtain ⟨ts, m', l1, l2, l3, l4, l5⟩ := ih hA r2 hu r4 (fun p hp => by rw [k3 _ fun q hq => hab p q hp hq, vA p hp]) k2
    exact ⟨_, m', k1.append l1, l2, l3, fun x hx1 hx2 => by rw [l4 x hx1 hx2, k3 x hx2], by rw [List.filterMap_append, k4, l5, r3]; rfl⟩

/-- the words of a parallel composition are the interleavings of a word of the first part and one of the second part -/
theorem ParOf.lang (h : ParOf A B M plA plB f1 f2 g1 g2 tS tE) (w : List α) : M.Lang w ↔ ∃ u v, A.Lang u ∧ B.Lang v ∧ Shuffle u v w := by
  have hab : ∀ p q, plA p → plB q → f2 q ≠ f1 p := fun p q hp hq hx => h.disj _ _ hp hq hx.symm
  constructor
  · rintro ⟨ts, hr, rfl⟩
    rcases h.reach hr with ⟨k1, _⟩ | ⟨us, vs, mA, mB, k1, k1', k2, k2', k3, k4, k5⟩
    · have := congrFun k1 M.src
      simp [single, h.ne] at this
    · refine ⟨_, _, ⟨us, ?_, rfl⟩, ⟨vs, ?_, rfl⟩, k5⟩
      · rw [h.a.eq_single k1 fun p hp => ?_] at k1
        · exact k1
        · have := k2 p hp
          unfold single at this ⊢
          rw [if_neg (h.snk_a p hp), if_pos rfl] at this
          linarith
      · rw [h.b.eq_single k1' fun p hp => ?_] at k1'
        · exact k1'
        · have := k2' p hp
          unfold single at this ⊢
          rw [if_neg (h.snk_b p hp), if_pos rfl] at this
          linarith
  · rintro ⟨u, v, ⟨us, h1, hu⟩, ⟨vs, h2, hv⟩, hs⟩
    have he0 : Enabled (M.pre tS) (single M.src) := by
      intro x hx; rw [(h.preS x).1 hx]; simp [single]
    have hz : ∀ x, after (M.pre tS) (M.post tS) (single M.src) x = if x = f1 A.src ∨ x = f2 B.src then 1 else 0 := by
      intro x
      unfold after single
      simp only [h.preS, h.postS]
      ring
    have vA : View plA f1 (after (M.pre tS) (M.post tS) (single M.src)) (single A.src) := by
      intro p hp
      rw [hz]
      unfold single
      by_cases hps : p = A.src
      · rw [if_pos (.inl (by rw [hps])), if_pos hps]
      · rw [if_neg (by rw [not_or]; exact ⟨fun hx => hps (h.a.inj _ _ hp h.a.src_pl hx), h.disj _ _ hp h.b.src_pl⟩), if_neg hps]
    have vB : View plB f2 (after (M.pre tS) (M.post tS) (single M.src)) (single B.src) := by
      intro p hp
      rw [hz]
      unfold single
      by_cases hps : p = B.src
      · rw [if_pos (.inr (by rw [hps])), if_pos hps]
      · rw [if_neg (by rw [not_or]; exact ⟨hab _ _ h.a.src_pl hp, fun hx => hps (h.b.inj _ _ hp h.b.src_pl hx)⟩), if_neg hps]
    obtain ⟨ts, m, k1, k2, k3, k4, k5⟩ := h.interleave hs h1 h2 hu hv vA vB
    have he1 : Enabled (M.pre tE) m := by
      intro x hx
      rcases (h.preE x).1 hx with rfl | rfl
      · rw [k2 _ h.a.snk_pl]; simp [single]
      · rw [k3 _ h.b.snk_pl]; simp [single]
    have hm2 : after (M.pre tE) (M.post tE) m = single M.snk := by
      funext x
      unfold after
      simp only [h.preE, h.postE]
      by_cases hx : ∃ p, plA p ∧ f1 p = x
      · obtain ⟨p, hp, rfl⟩ := hx
        rw [k2 p hp]
        unfold single
        by_cases hps : p = A.snk
        · subst hps; simp
        · have hps' : f1 p ≠ f1 A.snk := fun hx => hps (h.a.inj _ _ hp h.a.snk_pl hx)
          simp [hps, hps', h.snk_a p hp, h.disj _ _ hp h.b.snk_pl]
      · have hx' : ∀ p, plA p → f1 p ≠ x := fun p hp he => hx ⟨p, hp, he⟩
        by_cases hy : ∃ p, plB p ∧ f2 p = x
        · obtain ⟨p, hp, rfl⟩ := hy
          rw [k3 p hp]
          unfold single
          by_cases hps : p = B.snk
          · subst hps; simp
          · have hps' : f2 p ≠ f2 B.snk := fun hx => hps (h.b.inj _ _ hp h.b.snk_pl hx)
            simp [hps, hps', h.snk_b p hp, hab _ _ h.a.snk_pl hp]
        · have hy' : ∀ p, plB p → f2 p ≠ x := fun p hp he => hy ⟨p, hp, he⟩
          rw [k4 x hx' hy', hz]
          unfold single
          simp [(hx' _ h.a.src_pl).symm, (hx' _ h.a.snk_pl).symm, (hy' _ h.b.src_pl).symm, (hy' _ h.b.snk_pl).symm]
    refine ⟨_, ((Run.cons h.okS he0 k1).snoc h.okE he1).trans_eq hm2, ?_⟩
    rw [filterMap_snoc, List.filterMap_cons, h.obsS, k5, h.obsE]
    simp

theorem ParOf.proper (h : ParOf A B M plA plB f1 f2 g1 g2 tS tE) (hA : A.Proper) (hB : B.Proper) : M.Proper := by
  intro ts m hr hm
  rcases h.reach hr with ⟨rfl, _⟩ | ⟨us, vs, mA, mB, k1, k1', k2, k2', k3, k4, k5⟩
  · simp [single, h.ne.symm] at hm
  · have hn : 0 ≤ m (f1 A.snk) := hr.nonneg (single_nonneg _) _
    have hn' : 0 ≤ m (f2 B.snk) := hr.nonneg (single_nonneg _) _
    have hk := k2 _ h.a.snk_pl
    have hk' := k2' _ h.b.snk_pl
    simp only [single, if_true, mul_one] at hk hk'
    have hmA := hA us mA k1 (by linarith)
    have hmB := hB vs mB k1' (by linarith)
    subst hmA hmB
    simp only [single, if_true] at hk
    have h1 : m M.snk = 1 := by omega
    funext x
    by_cases hxe : x = M.snk
    · subst hxe; simp [single, h1]
    · by_cases hx : ∃ p, plA p ∧ f1 p = x
      · obtain ⟨p, hp, rfl⟩ := hx
        rw [k2 p hp, h1]
        simp [single, hxe]
      · by_cases hy : ∃ p, plB p ∧ f2 p = x
        · obtain ⟨p, hp, rfl⟩ := hy
          rw [k2' p hp, h1]
          simp [single, hxe]
        · rw [k4 x hxe (fun p hp he => hx ⟨p, hp, he⟩) (fun p hp he => hy ⟨p, hp, he⟩)]
          simp [single, hxe]

end

/-- `tR` takes a token from the sink of the part and puts one on its source -/
structure RepOf (A M : Sys P T α) (pl : P → Prop) (f : P → P) (g : T → T) (tS tE tR : T) : Prop where
  a : Part A M pl f g
  src_new : ∀ p, pl p → f p ≠ M.src
  snk_new : ∀ p, pl p → f p ≠ M.snk
  ne : M.src ≠ M.snk
  okS : M.ok tS
  okE : M.ok tE
  okR : M.ok tR
  ok : ∀ u, M.ok u → (∃ t, A.ok t ∧ u = g t) ∨ u = tS ∨ u = tE ∨ u = tR
  preS : ∀ x, x ∈ M.pre tS ↔ x = M.src
  postS : ∀ x, x ∈ M.post tS ↔ x = f A.src
  preE : ∀ x, x ∈ M.pre tE ↔ x = f A.snk
  postE : ∀ x, x ∈ M.post tE ↔ x = M.snk
  preR : ∀ x, x ∈ M.pre tR ↔ x = f A.snk
  postR : ∀ x, x ∈ M.post tR ↔ x = f A.src
  obsS : M.obs tS = none
  obsE : M.obs tE = none
  obsR : M.obs tR = none

section
variable {A M : Sys P T α} {pl : P → Prop} {f : P → P} {g : T → T} {tS tE tR : T}

theorem after_single {p q : P} {pre post : List P} (h1 : ∀ x, x ∈ pre ↔ x = p) (h2 : ∀ x, x ∈ post ↔ x = q) :
    after pre post (single p) = single q := by
  funext x
  unfold after single
  simp only [h1, h2]
  ring

theorem Part.eq_of_view {S : Sys P T α} (h : Part S M pl f g) {m : P → Int} {p0 : P} (h0 : pl p0) (hv : View pl f m (single p0))
    (hz : ∀ x, (∀ p, pl p → f p ≠ x) → m x = 0) : m = single (f p0) := by
  funext x
  by_cases hx : ∃ p, pl p ∧ f p = x
  · obtain ⟨p, hp, rfl⟩ := hx
    rw [hv p hp, h.view_single h0 p hp]
  · rw [hz x fun p hp he => hx ⟨p, hp, he⟩]
    unfold single
    rw [if_neg]; rintro rfl; exact hx ⟨p0, h0, rfl⟩

theorem RepOf.reach (h : RepOf A M pl f g tS tE tR) (hA : A.Proper) {ts : List T} {m : P → Int}
    (hr : Run M.pre M.post M.ok (single M.src) ts m) :
    (m = single M.src ∧ ts.filterMap M.obs = []) ∨
    (∃ (ws : List (List α)) (us : List T) (mA : P → Int), (∀ w ∈ ws, A.Lang w) ∧ Run A.pre A.post A.ok (single A.src) us mA ∧ View pl f m mA ∧
      (∀ x, (∀ p, pl p → f p ≠ x) → m x = 0) ∧ ts.filterMap M.obs = ws.flatten ++ us.filterMap A.obs) ∨
    (∃ ws : List (List α), ws ≠ [] ∧ (∀ w ∈ ws, A.Lang w) ∧ m = single M.snk ∧ ts.filterMap M.obs = ws.flatten) := by
  induction hr with
  | nil => exact .inl ⟨rfl, rfl⟩
  | @snoc ts m t hr ho he ih =>
    rw [filterMap_snoc]
    rcases ih with ⟨rfl, k⟩ | ⟨ws, us, mA, k0, k1, k2, k3, k4⟩ | ⟨ws, k1, k2, rfl, k3⟩
    · have hno : ∀ p, pl p → ¬ 1 ≤ single M.src (f p) := by
        intro p hp; unfold single; rw [if_neg (h.src_new p hp)]; omega
      rcases h.ok t ho with ⟨u, hu, rfl⟩ | rfl | rfl | rfl
      · refine absurd he (h.a.dead (fun p hp => ?_) hu)
        unfold single; rw [if_neg (h.src_new p hp)]
      · refine .inr (.inl ⟨[], [], single A.src, by simp, .nil, ?_, fun x hx => ?_, by rw [k, h.obsS]; rfl⟩)
        · rw [after_single h.preS h.postS]; exact h.a.view_single h.a.src_pl
        · rw [after_single h.preS h.postS]
          unfold single; rw [if_neg]; rintro rfl; exact hx _ h.a.src_pl rfl
      · exact absurd (he _ ((h.preE _).2 rfl)) (hno _ h.a.snk_pl)
      · exact absurd (he _ ((h.preR _).2 rfl)) (hno _ h.a.snk_pl)
    · rcases h.ok t ho with ⟨u, hu, rfl⟩ | rfl | rfl | rfl
      · refine .inr (.inl ⟨ws, us ++ [u], _, k0, k1.snoc hu ((h.a.enabled k2 hu).1 he), h.a.view_after k2 hu, fun x hx => ?_, ?_⟩)
        · rw [h.a.after_other m hu hx, k3 x hx]
        · rw [k4, filterMap_snoc, h.a.obs u hu, List.append_assoc]
      · have := he _ ((h.preS _).2 rfl)
        rw [k3 _ h.src_new] at this
        omega
      · have hsnk := he _ ((h.preE _).2 rfl)
        rw [k2 _ h.a.snk_pl] at hsnk
        have hmA := hA us mA k1 hsnk
        subst hmA
        have hm := h.a.eq_of_view h.a.snk_pl k2 k3
        subst hm
        refine .inr (.inr ⟨ws ++ [us.filterMap A.obs], by simp, ?_, after_single h.preE h.postE, by rw [k4, h.obsE]; simp⟩)
        intro w hw
        rcases List.mem_append.1 hw with hw | hw
        · exact k0 w hw
        · rw [List.mem_singleton.1 hw]; exact ⟨us, k1, rfl⟩
      · have hsnk := he _ ((h.preR _).2 rfl)
        rw [k2 _ h.a.snk_pl] at hsnk
        have hmA := hA us mA k1 hsnk
        subst hmA
        have hm := h.a.eq_of_view h.a.snk_pl k2 k3
        subst hm
        refine .inr (.inl ⟨ws ++ [us.filterMap A.obs], [], single A.src, ?_, .nil, ?_, fun x hx => ?_, by rw [k4, h.obsR]; simp⟩)
        · intro w hw
          rcases List.mem_append.1 hw with hw | hw
          · exact k0 w hw
          · rw [List.mem_singleton.1 hw]; exact ⟨us, k1, rfl⟩
        · rw [after_single h.preR h.postR]; exact h.a.view_single h.a.src_pl
        · rw [after_single h.preR h.postR]
          unfold single; rw [if_neg]; rintro rfl; exact hx _ h.a.src_pl rfl
    · have hno : ∀ p, pl p → ¬ 1 ≤ single M.snk (f p) := by
        intro p hp; unfold single; rw [if_neg (h.snk_new p hp)]; omega
      rcases h.ok t ho with ⟨u, hu, rfl⟩ | rfl | rfl | rfl
      · refine absurd he (h.a.dead (fun p hp => ?_) hu)
        unfold single; rw [if_neg (h.snk_new p hp)]
      · have := he _ ((h.preS _).2 rfl)
        simp [single, h.ne] at this
      · exact absurd (he _ ((h.preE _).2 rfl)) (hno _ h.a.snk_pl)
      · exact absurd (he _ ((h.preR _).2 rfl)) (hno _ h.a.snk_pl)

/-- the words of a repetition consist of one or more words of the part -/
theorem RepOf.lang (h : RepOf A M pl f g tS tE tR) (hA : A.Proper) (w : List α) :
    M.Lang w ↔ ∃ ws : List (List α), ws ≠ [] ∧ (∀ w ∈ ws, A.Lang w) ∧ w = ws.flatten := by
  constructor
  · rintro ⟨ts, hr, rfl⟩
    rcases h.reach hA hr with ⟨k1, _⟩ | ⟨ws, us, mA, k0, k1, k2, k3, k4⟩ | ⟨ws, k1, k2, _, k3⟩
    · have := congrFun k1 M.src
      simp [single, h.ne] at this
    · have := k3 _ h.snk_new
      simp [single] at this
    · exact ⟨ws, k1, k2, k3⟩
  · rintro ⟨ws, hne, hws, rfl⟩
    have hone : ∀ w, A.Lang w → ∃ ts, Run M.pre M.post M.ok (single (f A.src)) ts (single (f A.snk)) ∧ ts.filterMap M.obs = w := by
      rintro w ⟨us, h1, rfl⟩
      obtain ⟨m, k1, k2, k3, k4⟩ := h.a.lift (h.a.view_single h.a.src_pl) h1
      have := h.a.eq_of_view h.a.snk_pl k2 fun x hx => by
        rw [k3 x hx]; unfold single; rw [if_neg]; rintro rfl; exact hx _ h.a.src_pl rfl
      subst this
      exact ⟨_, k1, k4⟩
    have hall : ∀ ws : List (List α), ws ≠ [] → (∀ w ∈ ws, A.Lang w) →
        ∃ ts, Run M.pre M.post M.ok (single (f A.src)) ts (single (f A.snk)) ∧ ts.filterMap M.obs = ws.flatten := by
      intro ws
      induction ws with
      | nil => intro h; exact absurd rfl h
      | cons w ws ih =>
        intro _ hw
        obtain ⟨ts, k1, k2⟩ := hone w (hw w List.mem_cons_self)
        by_cases hws : ws = []
        · subst hws; exact ⟨ts, k1, by simp [k2]⟩
        · obtain ⟨us, l1, l2⟩ := ih hws fun v hv => hw v (List.mem_cons_of_mem _ hv)
          have he : Enabled (M.pre tR) (single (f A.snk)) := by
            intro x hx; rw [(h.preR x).1 hx]; simp [single]
          refine ⟨_, (k1.snoc h.okR he).append (by rw [after_single h.preR h.postR]; exact l1), ?_⟩
          rw [List.filterMap_append, filterMap_snoc, h.obsR, k2, l2]; simp
    obtain ⟨ts, k1, k2⟩ := hall ws hne hws
    have he0 : Enabled (M.pre tS) (single M.src) := by
      intro x hx; rw [(h.preS x).1 hx]; simp [single]
    have he1 : Enabled (M.pre tE) (single (f A.snk)) := by
      intro x hx; rw [(h.preE x).1 hx]; simp [single]
    refine ⟨_, ((Run.cons h.okS he0 (by rw [after_single h.preS h.postS]; exact k1)).snoc h.okE he1).trans_eq (after_single h.preE h.postE), ?_⟩
    rw [filterMap_snoc, List.filterMap_cons, h.obsS, k2, h.obsE]
    simp

theorem RepOf.proper (h : RepOf A M pl f g tS tE tR) (hA : A.Proper) : M.Proper := by
  intro ts m hr hm
  rcases h.reach hA hr with ⟨rfl, _⟩ | ⟨ws, us, mA, k0, k1, k2, k3, k4⟩ | ⟨ws, k1, k2, k3, _⟩
  · simp [single, h.ne.symm] at hm
  · rw [k3 _ h.snk_new] at hm; omega
  · exact k3

end

end Prolothar.Spec.Petri
