import Verif.Props.PetriSimRun
/-
C199: what calls that raise leave behind in a Petri net, and how to undo them.
-/
namespace Prolothar.Petri
open Prolothar.Spec.Petri

/-! ### the loop over the input places -/

/-- the loop stops at the first place without a token -/
theorem decAll_stops : ∀ (ps : List String) (n : Net), ps.Nodup → ¬ Enabled ps n.tokens →
    ∃ taken b rest, ps = taken ++ b :: rest ∧ Enabled taken n.tokens ∧ n.tokens b ≤ 0 ∧ (decAll n ps).2 = .error .value ∧
      ∀ p, (decAll n ps).1.tokens p = n.tokens p - (if p ∈ taken then 1 else 0)
  | [], n, _, h => absurd (by simp [Enabled]) h
  | q :: ps, n, hnd, h => by
    rw [List.nodup_cons] at hnd
    rw [decAll]
    by_cases hq : n.tokens q ≤ 0
    · rw [if_pos hq]
      exact ⟨[], q, ps, rfl, by simp [Enabled], hq, rfl, by simp⟩
    · rw [if_neg hq]
      have hen : ∀ l : List String, q ∉ l → (Enabled l (upd n.tokens q (n.tokens q - 1)) ↔ Enabled l n.tokens) := by
        intro l hl
        refine forall_congr' fun p => forall_congr' fun hp => ?_
        rw [upd_ne _ _ (by rintro rfl; exact hl hp)]
      have h' : ¬ Enabled ps n.tokens := fun hp => h fun p hm => by
        rcases List.mem_cons.1 hm with rfl | hm
        · omega
        · exact hp p hm
      obtain ⟨taken, b, rest, h1, h2, h3, h4, h5⟩ :=
        decAll_stops ps { n with tokens := upd n.tokens q (n.tokens q - 1) } hnd.2 (fun hp => h' ((hen ps hnd.1).1 hp))
      have hnt : q ∉ taken := fun hm => hnd.1 (by rw [h1]; simp [hm])
      have hnb : b ≠ q := by rintro rfl; exact hnd.1 (by rw [h1]; simp)
      refine ⟨q :: taken, b, rest, by rw [h1]; rfl, ?_, ?_, h4, fun p => ?_⟩
      · intro p hp
        rcases List.mem_cons.1 hp with rfl | hp
        · omega
        · exact (hen taken hnt).1 h2 p hp
      · have h3 : upd n.tokens q (n.tokens q - 1) b ≤ 0 := h3
        rwa [upd_ne _ _ hnb] at h3
      · rw [h5 p]
        show upd n.tokens q (n.tokens q - 1) p - _ = _
        by_cases hpq : p = q
        · subst hpq; rw [upd_self, if_neg hnt, if_pos (by simp)]; omega
        · rw [upd_ne _ _ hpq]; simp [hpq]

/-- two nets that differ in nothing are equal -/
theorem Net.SameArcs.eq {n n' : Net} (h : n.SameArcs n') (ht : n'.tokens = n.tokens) : n' = n := by
  obtain ⟨h1, h2, h3, h4, h5, h6, h7, h8, h9, h10⟩ := h
  cases n; cases n'; simp_all

/-! ### C199 `force_transition` -/

/-- C199: an unknown transition id changes nothing -/
theorem C199_unknown_transition {n : Net} {t : String} (ht : t ∉ n.transitions) : n.force t = (n, .error .value) := by
  unfold Net.force; rw [if_pos ht]

/-- C199: if `force_transition` is called for a transition that is not enabled, it raises a ValueError at the first input place (in the
order of the set) without a token. The places before it have lost one token each; all other places have the tokens they had, and nothing
else of the net has changed. -/
theorem C199_rejected {n : Net} (hw : n.WF) {t : String} (ht : t ∈ n.transitions) (h : ¬ Enabled (n.pre t) n.tokens) :
    ∃ taken b rest, n.pre t = taken ++ b :: rest ∧ Enabled taken n.tokens ∧ n.tokens b ≤ 0 ∧ (n.force t).2 = .error .value ∧
      (∀ p, (n.force t).1.tokens p = n.tokens p - (if p ∈ taken then 1 else 0)) ∧ n.SameArcs (n.force t).1 := by
  obtain ⟨taken, b, rest, h1, h2, h3, h4, h5⟩ := decAll_stops (n.pre t) n (hw.pre t ht).1 h
  have hf : n.force t = decAll n (n.pre t) := by
    unfold Net.force Net.fire
    rw [if_neg (by simpa using ht)]
    match decAll n (n.pre t), h4 with
    | (n', .error e), _ => rfl
  refine ⟨taken, b, rest, h1, h2, h3, ?_, ?_, force_same n t⟩
  · rw [hf]; exact h4
  · rw [hf]; exact h5

/-- C199: a transition with a single input place is fired or not fired as a whole: if it is rejected the net is as before -/
theorem C199_single_input {n : Net} (hw : n.WF) {t p : String} (hp : n.pre t = [p]) (h : (n.force t).2 ≠ .ok ()) : (n.force t).1 = n := by
  by_cases ht : t ∈ n.transitions
  · by_cases he : Enabled (n.pre t) n.tokens
    · exact absurd (C64_fire hw ht he).1 h
    · obtain ⟨taken, b, rest, h1, _, _, _, h5, h6⟩ := C199_rejected hw ht he
      have h0 : taken = [] := by
        rw [hp] at h1
        cases taken with
        | nil => rfl
        | cons a l => simp at h1
      exact h6.eq (funext fun q => by rw [h5 q, h0]; simp)
  · rw [C199_unknown_transition ht]

/-- C199: which tokens get lost is open, as sets have no defined order: for every selection `S` of the input places with tokens and every
input place `b` without token there is an order of the set of input places for which exactly the tokens of `S` are taken -/
theorem C199_any_selection {n : Net} (hw : n.WF) {t b : String} {S : List String} (ht : t ∈ n.transitions) (hb : b ∈ n.pre t)
    (hb0 : n.tokens b ≤ 0) (hS : S.Nodup) (hSp : ∀ p ∈ S, p ∈ n.pre t) (hS1 : Enabled S n.tokens) :
    ∃ order : List String, order.Perm (n.pre t) ∧
      let n' : Net := { n with pre := upd n.pre t order }
      (n'.force t).2 = .error .value ∧ ∀ p, (n'.force t).1.tokens p = n.tokens p - (if p ∈ S then 1 else 0) := by
  have hbS : b ∉ S := fun hm => by have := hS1 b hm; omega
  have hnd := (hw.pre t ht).1
  refine ⟨S ++ b :: (n.pre t).filter (fun p => decide (p ∉ S ∧ p ≠ b)), ?_, ?_⟩
  · refine (List.perm_ext_iff_of_nodup ?_ hnd).2 fun p => ?_
    · refine List.nodup_append.2 ⟨hS, ?_, ?_⟩
      · rw [List.nodup_cons]
        exact ⟨by simp, hnd.filter _⟩
      · rintro x hx y hy rfl
        rcases List.mem_cons.1 hy with rfl | hy
        · exact hbS hx
        · simp at hy; exact hy.2.1 hx
    · simp only [List.mem_append, List.mem_cons, List.mem_filter, decide_eq_true_eq]
      constructor
      · rintro (h | rfl | h)
        · exact hSp p h
        · exact hb
        · exact h.1
      · intro h
        by_cases h1 : p ∈ S
        · exact .inl h1
        · by_cases h2 : p = b
          · exact .inr (.inl h2)
          · exact .inr (.inr ⟨h, h1, h2⟩)
  · intro n'
    have key : ∀ (S : List String) (m : Net) (rest : List String), S.Nodup → Enabled S m.tokens → m.tokens b ≤ 0 → b ∉ S →
        (decAll m (S ++ b :: rest)).2 = .error .value ∧
          ∀ p, (decAll m (S ++ b :: rest)).1.tokens p = m.tokens p - (if p ∈ S then 1 else 0) := by
      intro S
      induction S with
      | nil => intro m rest _ _ h0 _; simp [decAll, h0]
      | cons q S ih =>
        intro m rest hnd he h0 hb
        rw [List.nodup_cons] at hnd
        have hq := he q (by simp)
        rw [List.cons_append, decAll, if_neg (by omega)]
        obtain ⟨r1, r2⟩ := ih { m with tokens := upd m.tokens q (m.tokens q - 1) } rest hnd.2
          (fun p hp => by
            show 1 ≤ upd m.tokens q (m.tokens q - 1) p
            rw [upd_ne _ _ (by rintro rfl; exact hnd.1 hp)]; exact he p (by simp [hp]))
          (by
            show upd m.tokens q (m.tokens q - 1) b ≤ 0
            rw [upd_ne _ _ (by rintro rfl; exact hb (by simp))]; exact h0)
          (fun h => hb (by simp [h]))
        refine ⟨r1, fun p => ?_⟩
        rw [r2 p]
        show upd m.tokens q (m.tokens q - 1) p - _ = _
        by_cases hpq : p = q
        · subst hpq; rw [upd_self, if_neg hnd.1, if_pos (by simp)]; omega
        · rw [upd_ne _ _ hpq]; simp [hpq]
    have hk := key S n' ((n.pre t).filter (fun p => decide (p ∉ S ∧ p ≠ b))) hS hS1 hb0 hbS
    have hf : n'.force t = decAll n' (S ++ b :: (n.pre t).filter (fun p => decide (p ∉ S ∧ p ≠ b))) := by
      have hp : n'.pre t = S ++ b :: (n.pre t).filter (fun p => decide (p ∉ S ∧ p ≠ b)) := upd_self _ _ _
      have ht' : t ∈ n'.transitions := ht
      unfold Net.force Net.fire
      rw [if_neg (by simpa using ht'), hp]
      match decAll n' _, hk.1 with
      | (_, .error e), _ => rfl
    rw [hf]; exact hk

/-- C199: a rejected call never helps: every sequence of firings that is possible after it was possible before -/
theorem C199_never_helps {n : Net} (hw : n.WF) {t : String} (h : (n.force t).2 ≠ .ok ()) {ts : List String}
    (hts : (forceAll (n.force t).1 ts).2 = .ok ()) : (forceAll n ts).2 = .ok () := by
  have hs := force_same n t
  refine (C166_monotone (n := (n.force t).1) (n' := n) (hs.wf hw)
    ⟨hs.1.symm, hs.2.symm, hs.3.symm, hs.4.symm, hs.5.symm, hs.6.symm, hs.7.symm, hs.8.symm, hs.9.symm, hs.10.symm⟩ (fun p => ?_) hts).1
  by_cases ht : t ∈ n.transitions
  · by_cases he : Enabled (n.pre t) n.tokens
    · exact absurd (C64_fire hw ht he).1 h
    · obtain ⟨taken, b, rest, _, _, _, _, h5, _⟩ := C199_rejected hw ht he
      rw [h5 p]; split <;> omega
  · rw [C199_unknown_transition ht]

/-- C199: a sequence of calls that raises: all calls before the failing one have had their whole effect, the failing one has taken the
tokens of the input places before the first empty one, and the calls after it have had no effect -/
theorem C199_sequence {ts : List String} {n : Net} (hw : n.WF) (h : (forceAll n ts).2 ≠ .ok ()) :
    ∃ fired t later taken, ts = fired ++ t :: later ∧ (forceAll n fired).2 = .ok () ∧ (forceAll n ts).2 = .error .value ∧
      (t ∉ n.transitions ∧ taken = [] ∨
        t ∈ n.transitions ∧ ∃ b rest, n.pre t = taken ++ b :: rest ∧ Enabled taken (forceAll n fired).1.tokens ∧
          (forceAll n fired).1.tokens b ≤ 0) ∧
      ∀ p, (forceAll n ts).1.tokens p = n.tokens p - takes n fired p + puts n fired p - (if p ∈ taken then 1 else 0) := by
  induction ts generalizing n with
  | nil => exact absurd rfl h
  | cons t ts ih =>
    by_cases ht : t ∈ n.transitions
    · by_cases he : Enabled (n.pre t) n.tokens
      · have hs := force_same n t
        rw [forceAll_cons hw ts ht he] at h
        obtain ⟨fired, u, later, taken, h1, h2, h3, h4, h5⟩ := ih (hs.wf hw) h
        have hcons := forceAll_cons hw fired ht he
        refine ⟨t :: fired, u, later, taken, by rw [h1]; rfl, by rw [hcons]; exact h2, by rw [forceAll_cons hw ts ht he]; exact h3, ?_, fun p => ?_⟩
        · rw [hcons]
          rw [hs.transitions, hs.pre] at h4
          exact h4
        · rw [forceAll_cons hw ts ht he, h5 p, (C64_fire hw ht he).2.1 p, takes_same hs, puts_same hs, takes_cons, puts_cons]
          split <;> split <;> push_cast <;> omega
      · obtain ⟨taken, b, rest, h1, h2, h3, h4, h5, _⟩ := C199_rejected hw ht he
        have hf : forceAll n (t :: ts) = n.force t := by
          rw [forceAll]
          match n.force t, h4 with
          | (n', .error e), _ => rfl
        exact ⟨[], t, ts, taken, rfl, rfl, by rw [hf]; exact h4, .inr ⟨ht, b, rest, h1, h2, h3⟩, fun p => by rw [hf, h5 p]; simp [takes, puts]⟩
    · have hf : forceAll n (t :: ts) = (n, .error .value) := by rw [forceAll, C199_unknown_transition ht]
      exact ⟨[], t, ts, [], rfl, rfl, by rw [hf], .inl ⟨ht, rfl⟩, fun p => by rw [hf]; simp [takes, puts]⟩

/-! ### C199 `set_marking` -/

/-- C199: `set_marking` with an unknown place id raises a KeyError; exactly the entries before the first unknown one have been set -/
theorem C199_set_marking {n : Net} {m : Dict String Int} (hm : m.WF) (h : ∃ p ∈ m.keys, p ∉ n.places) :
    ∃ m₁ m₂ : Dict String Int, ∃ p k, m = m₁ ++ (p, k) :: m₂ ∧ (∀ q ∈ m₁.keys, q ∈ n.places) ∧ p ∉ n.places ∧
      (n.setMarking m).2 = .error .key ∧ n.SameArcs (n.setMarking m).1 ∧
      ∀ q, (n.setMarking m).1.tokens q = (m₁.get? q).getD (n.tokens q) := by
  induction m generalizing n with
  | nil => obtain ⟨p, hp, _⟩ := h; cases hp
  | cons e m ih =>
    obtain ⟨x, k⟩ := e
    by_cases hx : x ∉ n.places
    · refine ⟨[], m, x, k, rfl, (by intro q hq; cases hq), hx, ?_, ?_, fun q => ?_⟩
      · rw [Net.setMarking, if_pos hx]
      · exact setMarking_same _ _
      · rw [Net.setMarking, if_pos hx]; rfl
    · have hx' := hx
      rw [not_not] at hx'
      have hm2 : (x ∉ Dict.keys m) ∧ Dict.WF m := by
        have : (x :: Dict.keys m).Nodup := hm
        rw [List.nodup_cons] at this
        exact this
      obtain ⟨p, hp, hpn⟩ := h
      have hp : p ∈ x :: Dict.keys m := hp
      have hpm : p ∈ Dict.keys m := by
        rcases List.mem_cons.1 hp with rfl | hp
        · exact absurd hx' hpn
        · exact hp
      obtain ⟨m₁, m₂, y, j, h1, h2, h3, h4, h5, h6⟩ := ih (n := { n with tokens := upd n.tokens x k }) hm2.2 ⟨p, hpm, hpn⟩
      have hstep : n.setMarking ((x, k) :: m) = Net.setMarking { n with tokens := upd n.tokens x k } m := by
        conv_lhs => rw [Net.setMarking, if_neg hx]
      refine ⟨(x, k) :: m₁, m₂, y, j, by rw [h1]; rfl, ?_, h3, by rw [hstep]; exact h4, setMarking_same _ _, fun q => ?_⟩
      · intro q hq
        have hq : q ∈ x :: Dict.keys m₁ := hq
        rcases List.mem_cons.1 hq with rfl | hq
        · exact hx'
        · exact h2 q hq
      · rw [hstep, h6 q]
        show (Dict.get? m₁ q).getD (upd n.tokens x k q) = _
        by_cases hq : q = x
        · subst hq
          have hnone : Dict.get? m₁ q = none := by
            rw [Dict.get?_eq_none_iff]
            intro hm1
            apply hm2.1
            rw [h1]
            unfold Dict.keys at hm1 ⊢
            rw [List.map_append]
            exact List.mem_append_left _ hm1
          rw [hnone, upd_self]
          simp [Dict.get?]
        · rw [upd_ne _ _ hq]
          have : Dict.get? ((x, k) :: m₁) q = Dict.get? m₁ q := by
            simp [Dict.get?, Ne.symm hq]
          rw [this]

/-! ### C199 `simulate_one_timestep` -/

/-- the net `n` with other guards -/
def Net.withGuard (n : Net) (g : String → Guard) : Net := { n with guard := g }

theorem decAll_withGuard (g : String → Guard) : ∀ (ps : List String) (n : Net),
    decAll (n.withGuard g) ps = ((decAll n ps).1.withGuard g, (decAll n ps).2)
  | [], n => rfl
  | p :: ps, n => by
    rw [decAll, decAll]
    show (if n.tokens p ≤ 0 then _ else _) = _
    by_cases h : n.tokens p ≤ 0
    · rw [if_pos h, if_pos h]
    · rw [if_neg h, if_neg h]
      exact decAll_withGuard g ps { n with tokens := upd n.tokens p (n.tokens p - 1) }

theorem incAll_withGuard (g : String → Guard) : ∀ (ps : List String) (n : Net), incAll (n.withGuard g) ps = (incAll n ps).withGuard g
  | [], _ => rfl
  | p :: ps, n => incAll_withGuard g ps { n with tokens := upd n.tokens p (n.tokens p + 1) }

theorem fire_withGuard (g : String → Guard) (n : Net) (t : String) :
    (n.withGuard g).fire t = ((n.fire t).1.withGuard g, (n.fire t).2) := by
  unfold Net.fire
  rw [show (n.withGuard g).pre = n.pre from rfl, show (n.withGuard g).post = n.post from rfl, decAll_withGuard]
  match decAll n (n.pre t) with
  | (n', .ok _) => exact congrArg (·, Except.ok ()) (incAll_withGuard g _ n')
  | (n', .error e) => rfl

theorem force_withGuard (g : String → Guard) (n : Net) (t : String) :
    (n.withGuard g).force t = ((n.force t).1.withGuard g, (n.force t).2) := by
  unfold Net.force
  rw [show (n.withGuard g).transitions = n.transitions from rfl]
  split
  · rfl
  · exact fire_withGuard g n t

theorem fireSelected_withGuard (g : String → Guard) : ∀ (d : List (String × Nat)) (n : Net),
    fireSelected (n.withGuard g) d = ((fireSelected n d).1.withGuard g, (fireSelected n d).2)
  | [], n => rfl
  | (t, k) :: d, n => by
    rw [fireSelected, fireSelected, fire_withGuard]
    rw [show (n.withGuard g).pre = n.pre from rfl]
    split
    · match n.fire t with
      | (n', .ok _) => exact fireSelected_withGuard g d n'
      | (n', .error e) => rfl
    · exact fireSelected_withGuard g d n

theorem forceAll_withGuard (g : String → Guard) : ∀ (ts : List String) (n : Net),
    forceAll (n.withGuard g) ts = ((forceAll n ts).1.withGuard g, (forceAll n ts).2)
  | [], n => rfl
  | t :: ts, n => by
    rw [forceAll, forceAll, force_withGuard]
    match n.force t with
    | (n', .ok _) => exact forceAll_withGuard g ts n'
    | (n', .error e) => rfl

theorem filterPy_mono {β : Type} {f f' : β → Py Bool} (hf : ∀ x b, f x = .ok b → f' x = .ok b) :
    ∀ (l r : List β), filterPy f l = .ok r → filterPy f' l = .ok r
  | [], r, h => h
  | x :: l, r, h => by
    rw [filterPy] at h ⊢
    obtain ⟨b, hb, h⟩ := bind_eq_ok h
    obtain ⟨s, hs, h⟩ := bind_eq_ok h
    rw [hf x b hb]
    show (filterPy f' l >>= _) = _
    rw [filterPy_mono hf l s hs]
    exact h

theorem select_mono {h : Heap} {n : Net} {g : String → Guard} (pick : String → Nat)
    (hg : ∀ t b, (n.guard t).accept h = .ok b → (g t).accept h = .ok b) :
    ∀ (ps : List String) (d r : Dict String Nat), select h n pick ps d = .ok r → select h (n.withGuard g) pick ps d = .ok r
  | [], d, r, hr => hr
  | p :: ps, d, r, hr => by
    rw [select] at hr ⊢
    show (if n.tokens p > 0 then _ else _) = _
    by_cases h0 : n.tokens p > 0
    · rw [if_pos h0] at hr ⊢
      obtain ⟨ts, hts, hr⟩ := bind_eq_ok hr
      show (filterPy (fun t => (g t).accept h) (n.out p) >>= _) = _
      rw [filterPy_mono (f := fun t => (n.guard t).accept h) hg _ _ hts]
      show (match ts[pick p % ts.length]? with | none => _ | some t => _) = _
      split at hr
      · next hn => rw [hn]; exact select_mono pick hg ps _ _ hr
      · next t hn => rw [hn]; exact select_mono pick hg ps _ _ hr
    · rw [if_neg h0] at hr ⊢
      exact select_mono pick hg ps _ _ hr

theorem select_error {h : Heap} {n : Net} (pick : String → Nat) (hw : n.WF) {e : PyErr} :
    ∀ (ps : List String) (d : Dict String Nat), (∀ p ∈ ps, p ∈ n.places) → select h n pick ps d = .error e →
      ∃ t ∈ n.transitions, ∃ p ∈ n.pre t, 0 < n.tokens p ∧ (n.guard t).accept h = .error e
  | [], d, _, hr => by cases hr
  | p :: ps, d, hps, hr => by
    rw [select] at hr
    by_cases h0 : n.tokens p > 0
    · rw [if_pos h0] at hr
      cases hf : filterPy (fun t => (n.guard t).accept h) (n.out p) with
      | error e' =>
        rw [hf] at hr
        cases hr
        obtain ⟨u, hu, hue⟩ := filterPy_error_mem hf
        have := ((hw.out p (hps p (by simp))).2 u).1 hu
        exact ⟨u, this.1, p, this.2, h0, hue⟩
      | ok ts =>
        rw [hf] at hr
        have hr : (match ts[pick p % ts.length]? with
              | none => select h n pick ps d
              | some t => select h n pick ps (d.put t ((d.get? t).getD 0 + 1))) = .error e := hr
        split at hr
        · exact select_error pick hw ps _ (fun q hq => hps q (by simp [hq])) hr
        · exact select_error pick hw ps _ (fun q hq => hps q (by simp [hq])) hr
    · rw [if_neg h0] at hr
      exact select_error pick hw ps _ (fun q hq => hps q (by simp [hq])) hr

theorem fireSelected_same : ∀ (d : List (String × Nat)) (n : Net), n.SameArcs (fireSelected n d).1
  | [], n => .refl n
  | (t, k) :: d, n => by
    have h1 := fire_same n t
    rw [fireSelected]
    split
    · match hf : n.fire t with
      | (n', .ok _) => rw [hf] at h1; exact h1.trans (fireSelected_same d n')
      | (n', .error e) => rw [hf] at h1; exact h1
    · exact fireSelected_same d n

theorem simulate_same (h : Heap) (n : Net) (pick : String → Nat) : n.SameArcs (n.simulate h pick).1 := by
  unfold Net.simulate
  split
  · exact .refl n
  · exact fireSelected_same _ n

/-- C199: a simulation step is done as a whole or not at all, whatever the guards do. If it raises, then the guard of a transition with a
marked input place has raised this exception, and the net is as before. If it returns, it has fired a set of enabled transitions as
successful calls of `force_transition` do. -/
theorem C199_simulate (h : Heap) {n : Net} (hw : n.WF) (pick : String → Nat) :
    (∃ e, n.simulate h pick = (n, .error e) ∧
      ∃ t ∈ n.transitions, ∃ p ∈ n.pre t, 0 < n.tokens p ∧ (n.guard t).accept h = .error e) ∨
    ∃ F : List String, F.Nodup ∧ n.simulate h pick = forceAll n F ∧ (forceAll n F).2 = .ok () := by
  cases hsel : select h n pick n.places [] with
  | error e =>
    refine .inl ⟨e, by unfold Net.simulate; rw [hsel], select_error pick hw _ _ (fun p hp => hp) hsel⟩
  | ok d =>
    right
    let g : String → Guard := fun t => match (n.guard t).accept h with
      | .ok _ => n.guard t
      | .error _ => .always
    have hg1 : ∀ t b, (n.guard t).accept h = .ok b → (g t).accept h = .ok b := by
      intro t b hb
      show (match (n.guard t).accept h with | .ok _ => n.guard t | .error _ => Guard.always).accept h = _
      rw [hb]; exact hb
    have hg2 : ∀ t ∈ (n.withGuard g).transitions, ∃ b, ((n.withGuard g).guard t).accept h = .ok b := by
      intro t _
      show ∃ b, (match (n.guard t).accept h with | .ok _ => n.guard t | .error _ => Guard.always).accept h = _
      cases hb : (n.guard t).accept h with
      | ok b => exact ⟨b, hb⟩
      | error e => exact ⟨true, by simp [Guard.accept]⟩
    have hw' : (n.withGuard g).WF := hw.congr rfl rfl rfl rfl rfl
    obtain ⟨F, f1, _, f3, f4⟩ := simulate_exact h hw' hg2 pick
    have hs' : (n.withGuard g).simulate h pick = fireSelected (n.withGuard g) d := by
      unfold Net.simulate
      rw [show (n.withGuard g).places = n.places from rfl, select_mono pick hg1 _ _ _ hsel]
    have hs : n.simulate h pick = fireSelected n d := by unfold Net.simulate; rw [hsel]
    rw [hs', fireSelected_withGuard, forceAll_withGuard] at f3
    rw [forceAll_withGuard] at f4
    have e1 := congrArg Prod.fst f3
    have e2 := congrArg Prod.snd f3
    dsimp only at e1 e2 f4
    refine ⟨F, f1, ?_, f4⟩
    rw [hs]
    refine Prod.ext ?_ e2
    have hsame := forceAll_same F n
    have hfs : n.SameArcs (fireSelected n d).1 := by rw [← hs]; exact simulate_same h n pick
    refine Net.SameArcs.eq ?_ ?_
    · exact ⟨by rw [hfs.1, hsame.1], by rw [hfs.2, hsame.2], by rw [hfs.3, hsame.3], by rw [hfs.4, hsame.4], by rw [hfs.5, hsame.5],
        by rw [hfs.6, hsame.6], by rw [hfs.7, hsame.7], by rw [hfs.8, hsame.8], by rw [hfs.9, hsame.9], by rw [hfs.10, hsame.10]⟩
    · have e3 := congrArg (fun x : Net => x.tokens) e1
      exact e3

/-! ### C199 undo -/

/-- the calls that change tokens: `force_transition`, `simulate_one_timestep` (with the values of the variables and the random choices) and
`set_marking`; data_petri_net.py 268-285, 301-303, 317-327 -/
inductive TokenCall
  | force (t : String)
  | simulate (h : Heap) (pick : String → Nat)
  | setMarking (m : Dict String Int)

/-- one call -/
def Net.call (n : Net) : TokenCall → Net × Py Unit
  | .force t => n.force t
  | .simulate h pick => n.simulate h pick
  | .setMarking m => n.setMarking m

/-- a program that makes the calls one after the other and catches all exceptions -/
def Net.calls (n : Net) : List TokenCall → Net
  | [] => n
  | c :: cs => (n.call c).1.calls cs

/-- a property of nets that all single calls keep is kept by all programs -/
theorem calls_induct (P : Net → Prop) (hP : ∀ n c, P n → P (n.call c).1) : ∀ (cs : List TokenCall) (n : Net), P n → P (n.calls cs)
  | [], _, h => h
  | c :: cs, n, h => calls_induct P hP cs _ (hP n c h)

theorem setMarking_off : ∀ (m : Dict String Int) (n : Net) (p : String), p ∉ n.places → (n.setMarking m).1.tokens p = n.tokens p
  | [], n, p, _ => rfl
  | (x, k) :: m, n, p, hp => by
    rw [Net.setMarking]
    split
    · rfl
    · next hx =>
      rw [setMarking_off m { n with tokens := upd n.tokens x k } p hp]
      exact upd_ne _ _ (by rintro rfl; exact hx hp)

theorem force_off {n : Net} (hw : n.WF) (t : String) {p : String} (hp : p ∉ n.places) : (n.force t).1.tokens p = n.tokens p := by
  by_cases ht : t ∈ n.transitions
  · have hpre : p ∉ n.pre t := fun h => hp ((hw.pre t ht).2 p h)
    have hpost : p ∉ n.post t := fun h => hp ((hw.post t ht).2 p h)
    by_cases he : Enabled (n.pre t) n.tokens
    · rw [(C64_fire hw ht he).2.1 p, if_neg hpre, if_neg hpost]; omega
    · obtain ⟨taken, b, rest, h1, _, _, _, h5, _⟩ := C199_rejected hw ht he
      rw [h5 p, if_neg (fun h => hpre (by rw [h1]; simp [h]))]; omega
  · rw [C199_unknown_transition ht]

theorem forceAll_off : ∀ (ts : List String) {n : Net}, n.WF → ∀ {p : String}, p ∉ n.places → (forceAll n ts).1.tokens p = n.tokens p
  | [], n, _, p, _ => rfl
  | t :: ts, n, hw, p, hp => by
    have h1 := force_off hw t hp
    have h2 := force_same n t
    rw [forceAll]
    match hf : n.force t with
    | (n', .ok _) =>
      rw [hf] at h1 h2
      show (forceAll n' ts).1.tokens p = _
      rw [forceAll_off ts (h2.wf hw) (by rw [h2.places]; exact hp), h1]
    | (n', .error e) => rw [hf] at h1; exact h1

theorem call_same (n : Net) (c : TokenCall) : n.SameArcs (n.call c).1 := by
  cases c with
  | force t => exact force_same n t
  | simulate h pick => exact simulate_same h n pick
  | setMarking m => exact setMarking_same m n

theorem call_off {n : Net} (hw : n.WF) (c : TokenCall) {p : String} (hp : p ∉ n.places) : (n.call c).1.tokens p = n.tokens p := by
  cases c with
  | force t => exact force_off hw t hp
  | simulate h pick =>
    rcases C199_simulate h hw pick with ⟨e, he, _⟩ | ⟨F, _, hF, _⟩
    · show (n.simulate h pick).1.tokens p = _; rw [he]
    · show (n.simulate h pick).1.tokens p = _; rw [hF]; exact forceAll_off F hw hp
  | setMarking m => exact setMarking_off m n p hp

/-- C199: undo. Whatever calls that change tokens a program makes, and whether they return or raise: setting the marking that was read
before gives the net as it was, in all respects. -/
theorem C199_undo {n : Net} (hw : n.WF) (cs : List TokenCall) : (n.calls cs).setMarking n.getMarking = (n, .ok ()) := by
  have key : n.SameArcs (n.calls cs) ∧ ∀ p, p ∉ n.places → (n.calls cs).tokens p = n.tokens p := by
    refine calls_induct (fun x => n.SameArcs x ∧ ∀ p, p ∉ n.places → x.tokens p = n.tokens p) ?_ cs n ⟨.refl n, fun _ _ => rfl⟩
    rintro x c ⟨h1, h2⟩
    refine ⟨h1.trans (call_same x c), fun p hp => ?_⟩
    rw [call_off (h1.wf hw) c (by rw [h1.places]; exact hp), h2 p hp]
  obtain ⟨r1, r2⟩ := C66_round_trip hw key.1
  refine Prod.ext ?_ r1
  refine (key.1.trans (setMarking_same _ _)).eq (funext fun p => ?_)
  by_cases hp : p ∈ n.places
  · exact r2 p hp
  · rw [setMarking_off _ _ p (by rw [key.1.places]; exact hp), key.2 p hp]

/-- C199: only the tokens change, and they stay nonnegative if `set_marking` is called with nonnegative numbers only -/
theorem C199_only_tokens {n : Net} (hw : n.WF) (h0 : ∀ p, 0 ≤ n.tokens p) (cs : List TokenCall)
    (hcs : ∀ m, TokenCall.setMarking m ∈ cs → ∀ e ∈ m, 0 ≤ e.2) :
    n.SameArcs (n.calls cs) ∧ ∀ p, 0 ≤ (n.calls cs).tokens p := by
  induction cs generalizing n with
  | nil => exact ⟨.refl n, h0⟩
  | cons c cs ih =>
    have hs := call_same n c
    have hnn : ∀ p, 0 ≤ (n.call c).1.tokens p := by
      cases c with
      | force t => exact C64_nonneg hw t h0
      | simulate h pick =>
        intro p
        rcases C199_simulate h hw pick with ⟨e, he, _⟩ | ⟨F, hN, hF, hOk⟩
        · show 0 ≤ (n.simulate h pick).1.tokens p; rw [he]; exact h0 p
        · show 0 ≤ (n.simulate h pick).1.tokens p
          rw [hF]
          clear hF ih hs hcs hN hOk
          induction F generalizing n with
          | nil => exact h0 p
          | cons t F ih =>
            have a := C64_nonneg hw t h0
            have b := (force_same n t).wf hw
            rw [forceAll]
            match hf : n.force t with
            | (n', .ok _) => rw [hf] at a b; exact ih b a
            | (n', .error e) => rw [hf] at a; exact a p
      | setMarking m =>
        have hm := hcs m (by simp)
        show ∀ p, 0 ≤ (n.setMarking m).1.tokens p
        clear hcs ih hs
        induction m generalizing n with
        | nil => exact h0
        | cons e m ih =>
          obtain ⟨x, k⟩ := e
          intro p
          rw [Net.setMarking]
          split
          · exact h0 p
          · refine ih (n := { n with tokens := upd n.tokens x k }) (hw.congr rfl rfl rfl rfl rfl) (fun q => ?_) (fun e he => hm e (by simp [he])) p
            show 0 ≤ upd n.tokens x k q
            by_cases hq : q = x
            · subst hq; rw [upd_self]; exact hm (q, k) (by simp)
            · rw [upd_ne _ _ hq]; exact h0 q
    obtain ⟨r1, r2⟩ := ih (hs.wf hw) hnn (fun m hm => hcs m (by simp [hm]))
    exact ⟨hs.trans r1, r2⟩

/-- a program around `force_transition`: read the marking, call, and set the marking again if the call raises -/
def Net.forceOrRestore (n : Net) (t : String) : Net × Py Unit :=
  match n.force t with
  | (n', .ok _) => (n', .ok ())
  | (n', .error e) => ((n'.setMarking n.getMarking).1, .error e)

/-- C199: with this program a transition is fired as a whole or not at all -/
theorem C199_restore {n : Net} (hw : n.WF) (t : String) :
    (t ∈ n.transitions ∧ Enabled (n.pre t) n.tokens ∧ n.forceOrRestore t = n.force t ∧ (n.force t).2 = .ok ()) ∨
    ((t ∉ n.transitions ∨ ¬ Enabled (n.pre t) n.tokens) ∧ n.forceOrRestore t = (n, .error .value)) := by
  by_cases h : t ∈ n.transitions ∧ Enabled (n.pre t) n.tokens
  · have hok := (C64_fire hw h.1 h.2).1
    refine .inl ⟨h.1, h.2, ?_, hok⟩
    unfold Net.forceOrRestore
    match n.force t, hok with
    | (n', .ok _), _ => rfl
  · have h' : t ∉ n.transitions ∨ ¬ Enabled (n.pre t) n.tokens := by
      by_cases ht : t ∈ n.transitions
      · exact .inr fun he => h ⟨ht, he⟩
      · exact .inl ht
    have hr := C64_rejected hw h'
    have hu := C199_undo hw [.force t]
    refine .inr ⟨h', ?_⟩
    have hu : (n.force t).1.setMarking n.getMarking = (n, .ok ()) := hu
    unfold Net.forceOrRestore
    match hf : n.force t, hr with
    | (n', .error e), hr =>
      rw [hf] at hu
      cases hr
      show ((n'.setMarking n.getMarking).1, _) = _
      rw [show n'.setMarking n.getMarking = (n, .ok ()) from hu]

/-- the hypotheses of the theorems are met, and the exceptions have the effects described: a rejected firing takes the token of the place
`a`, so that the transition cannot be fired any more when `b` gets a token; a marking with an unknown place is set in part -/
example :
    let n := (exNet.setMarking [("b", 0)]).1
    n.WF ∧ (n.force "t").2 = .error .value ∧ (n.force "t").1.tokens "a" = 0 ∧
    (((n.force "t").1.setMarking [("b", 1)]).1.force "t").2 = .error .value ∧
    ((n.setMarking [("b", 1)]).1.force "t").2 = .ok () ∧
    (n.forceOrRestore "t").1.tokens "a" = 1 ∧
    (n.setMarking [("c", 5), ("z", 1), ("a", 7)]).2 = .error .key ∧
    (n.setMarking [("c", 5), ("z", 1), ("a", 7)]).1.getMarking = [("a", 1), ("b", 0), ("c", 5)] := by
  refine ⟨(setMarking_same _ _).wf exNet_wf, by decide, by decide, by decide, by decide, by decide, by decide, by decide⟩

end Prolothar.Petri
