import Verif.Model.Pm4py
import Verif.Lemmas.PetriWf
/-
Lemmas on the conversion of Petri nets to and from pm4py.
-/
namespace Prolothar.Pm4py
open Prolothar.Petri

/-! ### the arcs of a transition -/

/-- the invariant of the loops over the arcs of the transition `t` -/
structure ArcInv (pre post : List String) (t : String) (st : List (String × String) × List (Arc String String)) : Prop where
  nodup : st.2.Nodup
  input : ∀ s ∈ pre, ((s, t) ∈ st.1 ↔ .input s t ∈ st.2)
  output : ∀ e ∈ post, ((t, e) ∈ st.1 ↔ .output t e ∈ st.2)

theorem arcStep_inv {places pre post : List String} {t s e : String} {st : List (String × String) × List (Arc String String)}
    (hid : ¬ (t ∈ pre ∧ t ∈ post)) (hs : s ∈ pre) (he : e ∈ post) (hsp : s ∈ places) (hep : e ∈ places) (hi : ArcInv pre post t st) :
    ∃ st', arcStep places t s st e = .ok st' ∧ ArcInv pre post t st' ∧ ∀ a, a ∈ st'.2 ↔ a ∈ st.2 ∨ a = .input s t ∨ a = .output t e := by
  have h1 : ∃ st1 : List (String × String) × List (Arc String String), addInput places t s st = .ok st1 ∧ ArcInv pre post t st1 ∧
      ∀ a, a ∈ st1.2 ↔ a ∈ st.2 ∨ a = .input s t := by
    by_cases h : (s, t) ∈ st.1
    · refine ⟨st, by unfold addInput; rw [if_pos h], hi, fun a => ⟨.inl, ?_⟩⟩
      rintro (ha | rfl)
      · exact ha
      · exact (hi.input s hs).1 h
    · refine ⟨_, by unfold addInput; rw [if_neg h, if_pos hsp], ⟨?_, ?_, ?_⟩, fun a => by simp⟩
      · refine List.nodup_append.2 ⟨hi.nodup, by simp, ?_⟩
        rintro a ha b hb rfl
        rw [List.mem_singleton] at hb
        subst hb
        exact h ((hi.input s hs).2 ha)
      · intro s' hs'
        rw [List.mem_append, List.mem_append, hi.input s' hs']
        simp
      · intro e' he'
        rw [List.mem_append, List.mem_append, hi.output e' he']
        simp only [List.mem_singleton, Prod.mk.injEq, reduceCtorEq, or_false, or_iff_left_iff_imp]
        rintro ⟨rfl, rfl⟩
        exact absurd ⟨hs, he'⟩ hid
  obtain ⟨st1, e1, i1, m1⟩ := h1
  have h2 : ∃ st2 : List (String × String) × List (Arc String String), addOutput places t e st1 = .ok st2 ∧ ArcInv pre post t st2 ∧
      ∀ a, a ∈ st2.2 ↔ a ∈ st1.2 ∨ a = .output t e := by
    by_cases h : (t, e) ∈ st1.1
    · refine ⟨st1, by unfold addOutput; rw [if_pos h], i1, fun a => ⟨.inl, ?_⟩⟩
      rintro (ha | rfl)
      · exact ha
      · exact (i1.output e he).1 h
    · refine ⟨_, by unfold addOutput; rw [if_neg h, if_pos hep], ⟨?_, ?_, ?_⟩, fun a => by simp⟩
      · refine List.nodup_append.2 ⟨i1.nodup, by simp, ?_⟩
        rintro a ha b hb rfl
        rw [List.mem_singleton] at hb
        subst hb
        exact h ((i1.output e he).2 ha)
      · intro s' hs'
        rw [List.mem_append, List.mem_append, i1.input s' hs']
        simp only [List.mem_singleton, Prod.mk.injEq, reduceCtorEq, or_false, or_iff_left_iff_imp]
        rintro ⟨rfl, rfl⟩
        exact absurd ⟨hs', he⟩ hid
      · intro e' he'
        rw [List.mem_append, List.mem_append, i1.output e' he']
        simp
  obtain ⟨st2, e2, i2, m2⟩ := h2
  refine ⟨st2, ?_, i2, fun a => by rw [m2, m1, or_assoc]⟩
  unfold arcStep
  rw [e1]
  exact e2

theorem inner_inv {places pre post : List String} {t s : String} (hid : ¬ (t ∈ pre ∧ t ∈ post)) (hs : s ∈ pre) (hsp : s ∈ places)
    (hpp : ∀ e ∈ post, e ∈ places) : ∀ (es : List String) (st : List (String × String) × List (Arc String String)), (∀ e ∈ es, e ∈ post) →
    ArcInv pre post t st → ∃ st', es.foldlM (arcStep places t s) st = .ok st' ∧ ArcInv pre post t st' ∧
      ∀ a, a ∈ st'.2 ↔ a ∈ st.2 ∨ (es ≠ [] ∧ a = .input s t) ∨ ∃ e ∈ es, a = .output t e
  | [], st, _, hi => ⟨st, rfl, hi, fun a => by simp⟩
  | e :: es, st, h, hi => by
    have he := h e List.mem_cons_self
    obtain ⟨st1, e1, i1, m1⟩ := arcStep_inv hid hs he hsp (hpp e he) hi
    obtain ⟨st2, e2, i2, m2⟩ := inner_inv hid hs hsp hpp es st1 (fun x hx => h x (List.mem_cons_of_mem _ hx)) i1
    refine ⟨st2, ?_, i2, fun a => ?_⟩
    · rw [List.foldlM_cons, e1]; exact e2
    · rw [m2, m1]
      simp only [ne_eq, reduceCtorEq, not_false_eq_true, true_and, List.mem_cons, exists_eq_or_imp]
      tauto

theorem outer_inv {places pre post : List String} {t : String} (hid : ¬ (t ∈ pre ∧ t ∈ post)) (hsp : ∀ s ∈ pre, s ∈ places)
    (hpp : ∀ e ∈ post, e ∈ places) : ∀ (ss : List String) (st : List (String × String) × List (Arc String String)), (∀ s ∈ ss, s ∈ pre) →
    ArcInv pre post t st → ∃ st', ss.foldlM (fun st s => post.foldlM (arcStep places t s) st) st = .ok st' ∧ ArcInv pre post t st' ∧
      ∀ a, a ∈ st'.2 ↔ a ∈ st.2 ∨ (post ≠ [] ∧ ∃ s ∈ ss, a = .input s t) ∨ (ss ≠ [] ∧ ∃ e ∈ post, a = .output t e)
  | [], st, _, hi => ⟨st, rfl, hi, fun a => by simp⟩
  | s :: ss, st, h, hi => by
    have hs := h s List.mem_cons_self
    obtain ⟨st1, e1, i1, m1⟩ := inner_inv hid hs (hsp s hs) hpp post st (fun _ he => he) hi
    obtain ⟨st2, e2, i2, m2⟩ := outer_inv hid hsp hpp ss st1 (fun x hx => h x (List.mem_cons_of_mem _ hx)) i1
    refine ⟨st2, ?_, i2, fun a => ?_⟩
    · rw [List.foldlM_cons, e1]; exact e2
    · rw [m2, m1]
      simp only [ne_eq, reduceCtorEq, not_false_eq_true, true_and, List.mem_cons, exists_eq_or_imp]
      generalize (∃ e ∈ post, a = .output t e) = A
      generalize (∃ s ∈ ss, a = .input s t) = B
      by_cases hp : post = [] <;> by_cases hA : A <;> simp [hp, hA] <;> tauto

theorem transArcs_spec {n : Net} (hw : n.WF) {t : String} (ht : t ∈ n.transitions) (hid : ¬ (t ∈ n.pre t ∧ t ∈ n.post t)) :
    ∃ l, transArcs n t = .ok l ∧ l.Nodup ∧ ∀ a, a ∈ l ↔ (n.post t ≠ [] ∧ ∃ s ∈ n.pre t, a = .input s t) ∨ (n.pre t ≠ [] ∧ ∃ e ∈ n.post t, a = .output t e) := by
  obtain ⟨st, e1, i1, m1⟩ := outer_inv hid (hw.pre t ht).2 (hw.post t ht).2 (n.pre t) ([], []) (fun _ h => h) ⟨by simp, by simp, by simp⟩
  refine ⟨st.2, ?_, i1.nodup, fun a => by rw [m1]; simp⟩
  unfold transArcs
  rw [e1]; rfl

theorem mapM_flatten_spec {α β : Type} (f : α → Py (List β)) (Q : α → β → Prop) (g : β → α) : ∀ (l : List α), l.Nodup →
    (∀ x ∈ l, ∃ r, f x = .ok r ∧ r.Nodup ∧ (∀ b, b ∈ r ↔ Q x b) ∧ ∀ b, b ∈ r → g b = x) →
    ∃ rs, l.mapM f = .ok rs ∧ rs.flatten.Nodup ∧ ∀ b, b ∈ rs.flatten ↔ ∃ x ∈ l, Q x b
  | [], _, _ => ⟨[], rfl, by simp, by simp⟩
  | x :: l, hn, h => by
    rw [List.nodup_cons] at hn
    obtain ⟨r, h1, h2, h3, h4⟩ := h x List.mem_cons_self
    obtain ⟨rs, k1, k2, k3⟩ := mapM_flatten_spec f Q g l hn.2 fun y hy => h y (List.mem_cons_of_mem _ hy)
    refine ⟨r :: rs, ?_, ?_, fun b => ?_⟩
    · rw [List.mapM_cons, h1]
      show (l.mapM f >>= _ : Py _) = _
      rw [k1]; rfl
    · rw [List.flatten_cons]
      refine List.nodup_append.2 ⟨h2, k2, ?_⟩
      rintro a ha b hb rfl
      obtain ⟨y, hy, hq⟩ := (k3 a).1 hb
      obtain ⟨r', e1, _, e3, e4⟩ := h y (List.mem_cons_of_mem _ hy)
      have := e4 a ((e3 a).2 hq)
      rw [h4 a ha] at this
      subst this
      exact hn.1 hy
    · rw [List.flatten_cons, List.mem_append, h3, k3]
      simp

theorem marking_spec {places : List String} : ∀ (ids : List String) (m : Dict String Int), (∀ p ∈ ids, p ∈ places) →
    ∃ m', ids.foldlM (fun (m : Dict String Int) p => if p ∈ places then .ok (m.put p 1) else .error .key) m = (.ok m' : Py _) ∧
      ∀ p, m'.get? p = if p ∈ ids then some 1 else m.get? p
  | [], m, _ => ⟨m, rfl, by simp⟩
  | i :: ids, m, h => by
    obtain ⟨m', h1, h2⟩ := marking_spec ids (m.put i 1) fun p hp => h p (List.mem_cons_of_mem _ hp)
    refine ⟨m', ?_, fun p => ?_⟩
    · rw [List.foldlM_cons, if_pos (h i List.mem_cons_self)]; exact h1
    · rw [h2, Dict.get?_put]
      by_cases hp : p ∈ ids
      · simp [hp]
      · by_cases hi : i = p
        · subst hi; simp
        · have hi' : p ≠ i := fun e => hi e.symm
          simp [hp, hi, hi']

theorem built_connected {n : Net} (h : Built n) : ∀ t, n.pre t = [] ↔ n.post t = [] := by
  induction h with
  | empty => intro t; rfl
  | @addPlace n n' id label k _ he ih =>
    unfold Net.addPlace at he
    split at he
    · cases he
    split at he
    · cases he
    obtain rfl := Except.ok.inj he
    exact ih
  | @addTransition n n' id label v _ he ih =>
    unfold Net.addTransition at he
    split at he
    · cases he
    obtain rfl := Except.ok.inj he
    intro t
    by_cases ht : t = id
    · subst ht; simp [upd_self]
    · simpa [upd_ne _ _ ht] using ih t
  | @addVariable n n' name a _ he ih =>
    unfold Net.addVariable at he
    split at he
    · cases he
    obtain rfl := Except.ok.inj he
    exact ih
  | @addConnection n n' s t e _ he ih =>
    unfold Net.addConnection at he
    split at he
    · cases he
    split at he
    · cases he
    split at he
    · cases he
    obtain rfl := Except.ok.inj he
    intro x
    by_cases hx : x = t
    · subst hx
      have hne : ∀ (l : List String) (a : String), setAdd l a ≠ [] := by
        intro l a h
        have : a ∈ setAdd l a := mem_setAdd.2 (.inr rfl)
        rw [h] at this; cases this
      simp [upd_self, hne]
    · simpa [upd_ne _ _ hx] using ih x
  | setGuard t g _ ih => exact ih
  | @setMarking n m _ ih =>
    have := setMarking_same m n
    rw [this.pre, this.post]; exact ih
  | @force n t _ ih =>
    have := force_same n t
    rw [this.pre, this.post]; exact ih

/-! ### nets from pm4py -/

variable {P T : Type}

theorem places_back (pn : P → String) (mk : P → Int) : ∀ (ps : List P) (n : Net), (n.places ++ ps.map pn).Nodup → (∀ p ∈ ps, 0 ≤ mk p) →
    ∃ n', ps.foldlM (fun (n : Net) p => n.addPlace (pn p) "" (mk p)) n = .ok n' ∧ n'.places = n.places ++ ps.map pn ∧
      n'.transitions = n.transitions ∧ n'.pre = n.pre ∧ n'.post = n.post ∧ ((∀ q, n.out q = []) → ∀ q, n'.out q = []) ∧
      (∀ p ∈ ps, n'.tokens (pn p) = mk p) ∧ ∀ q, q ∉ ps.map pn → n'.tokens q = n.tokens q
  | [], n, _, _ => ⟨n, rfl, by simp, rfl, rfl, rfl, id, by simp, by simp⟩
  | p :: ps, n, hn, hm => by
    have hp : pn p ∉ n.places := fun h => (List.nodup_append.1 hn).2.2 _ h _ (by simp) rfl
    have hp' : pn p ∉ ps.map pn := by
      have := (List.nodup_append.1 hn).2.1
      rw [List.map_cons, List.nodup_cons] at this
      exact this.1
    let n1 : Net := { n with places := n.places ++ [pn p], placeLabel := upd n.placeLabel (pn p) "", tokens := upd n.tokens (pn p) (mk p), out := upd n.out (pn p) [] }
    have h1 : n.addPlace (pn p) "" (mk p) = .ok n1 := by
      unfold Net.addPlace
      rw [if_neg (by have := hm p List.mem_cons_self; omega), if_neg hp]
    obtain ⟨n', k1, k2, k3, k4, k5, k6, k7, k8⟩ := places_back pn mk ps n1 (by
      show ((n.places ++ [pn p]) ++ ps.map pn).Nodup
      simpa using hn) fun x hx => hm x (List.mem_cons_of_mem _ hx)
    refine ⟨n', ?_, by rw [k2]; simp [n1], k3, k4, k5, fun h => k6 ?_, ?_, ?_⟩
    · rw [List.foldlM_cons, h1]; exact k1
    · intro q
      by_cases hq : q = pn p
      · subst hq; exact upd_self _ _ _
      · exact (upd_ne _ _ hq).trans (h q)
    · intro x hx
      by_cases hxs : pn x ∈ ps.map pn
      · obtain ⟨y, hy, he⟩ := List.mem_map.1 hxs
        rcases List.mem_cons.1 hx with rfl | hx
        · exact absurd hxs hp'
        · exact k7 x hx
      · rw [k8 _ hxs]
        rcases List.mem_cons.1 hx with rfl | hx
        · exact upd_self _ _ _
        · exact absurd (List.mem_map_of_mem hx) hxs
    · intro q hq
      rw [List.map_cons, List.mem_cons, not_or] at hq
      rw [k8 q hq.2]
      exact upd_ne _ _ hq.1

theorem transitions_back (tn : T → String) (lab : T → Option String) : ∀ (ts : List T) (n : Net), (n.transitions ++ ts.map tn).Nodup →
    ∃ n', ts.foldlM (fun (n : Net) t => n.addTransition (tn t) (lab t) (lab t).isSome) n = .ok n' ∧ n'.places = n.places ∧
      n'.transitions = n.transitions ++ ts.map tn ∧ ((∀ x, n.pre x = []) → ∀ x, n'.pre x = []) ∧ ((∀ x, n.post x = []) → ∀ x, n'.post x = []) ∧
      n'.out = n.out ∧ n'.tokens = n.tokens ∧
      (∀ t ∈ ts, n'.visible (tn t) = (lab t).isSome ∧ n'.transLabel (tn t) = (lab t).getD (tn t) ∧ n'.guard (tn t) = .always) ∧
      ∀ x, x ∉ ts.map tn → n'.visible x = n.visible x ∧ n'.transLabel x = n.transLabel x ∧ n'.guard x = n.guard x
  | [], n, _ => ⟨n, rfl, rfl, by simp, id, id, rfl, rfl, by simp, by simp⟩
  | t :: ts, n, hn => by
    have ht : tn t ∉ n.transitions := fun h => (List.nodup_append.1 hn).2.2 _ h _ (by simp) rfl
    have ht' : tn t ∉ ts.map tn := by
      have := (List.nodup_append.1 hn).2.1
      rw [List.map_cons, List.nodup_cons] at this
      exact this.1
    let n1 : Net := { n with transitions := n.transitions ++ [tn t], transLabel := upd n.transLabel (tn t) ((lab t).getD (tn t)), visible := upd n.visible (tn t) (lab t).isSome, pre := upd n.pre (tn t) [], post := upd n.post (tn t) [], guard := upd n.guard (tn t) .always }
    have h1 : n.addTransition (tn t) (lab t) (lab t).isSome = .ok n1 := by
      unfold Net.addTransition
      rw [if_neg ht]
    obtain ⟨n', k1, k2, k3, k4, k5, k6, k7, k8, k9⟩ := transitions_back tn lab ts n1 (by
      show ((n.transitions ++ [tn t]) ++ ts.map tn).Nodup
      simpa using hn)
    refine ⟨n', ?_, k2, by rw [k3]; simp [n1], fun h => k4 ?_, fun h => k5 ?_, k6, k7, ?_, ?_⟩
    · rw [List.foldlM_cons, h1]; exact k1
    · intro q
      by_cases hq : q = tn t
      · subst hq; exact upd_self _ _ _
      · exact (upd_ne _ _ hq).trans (h q)
    · intro q
      by_cases hq : q = tn t
      · subst hq; exact upd_self _ _ _
      · exact (upd_ne _ _ hq).trans (h q)
    · intro x hx
      rcases List.mem_cons.1 hx with rfl | hx
      · obtain ⟨e1, e2, e3⟩ := k9 _ ht'
        exact ⟨e1.trans (upd_self _ _ _), e2.trans (upd_self _ _ _), e3.trans (upd_self _ _ _)⟩
      · exact k8 x hx
    · intro x hx
      rw [List.map_cons, List.mem_cons, not_or] at hx
      obtain ⟨e1, e2, e3⟩ := k9 _ hx.2
      exact ⟨e1.trans (upd_ne _ _ hx.1), e2.trans (upd_ne _ _ hx.1), e3.trans (upd_ne _ _ hx.1)⟩

/-- the ends of an arc have names in the net -/
def ArcIn (net : PmNet P T) (n : Net) : Arc P T → Prop
  | .input p t => net.transName t ∈ n.transitions ∧ net.placeName p ∈ n.places
  | .output t p => net.transName t ∈ n.transitions ∧ net.placeName p ∈ n.places

theorem nodup_setAdd {s : List String} {a : String} (h : s.Nodup) : (setAdd s a).Nodup := by
  unfold setAdd
  split
  · exact h
  · next hn => exact List.nodup_append.2 ⟨h, by simp, by rintro x hx y hy rfl; simp at hy; subst hy; exact hn hx⟩

theorem arcs_back (net : PmNet P T) : ∀ (as : List (Arc P T)) (n : Net), (∀ a ∈ as, ArcIn net n a) →
    ∃ n', as.foldlM (arcBack net) n = .ok n' ∧ n'.places = n.places ∧ n'.transitions = n.transitions ∧ n'.tokens = n.tokens ∧
      n'.visible = n.visible ∧ n'.transLabel = n.transLabel ∧ n'.guard = n.guard ∧
      (∀ x q, q ∈ n'.pre x ↔ q ∈ n.pre x ∨ ∃ p t, .input p t ∈ as ∧ net.transName t = x ∧ net.placeName p = q) ∧
      (∀ x q, q ∈ n'.post x ↔ q ∈ n.post x ∨ ∃ p t, .output t p ∈ as ∧ net.transName t = x ∧ net.placeName p = q) ∧
      (∀ x q, x ∈ n'.out q ↔ x ∈ n.out q ∨ ∃ p t, .input p t ∈ as ∧ net.transName t = x ∧ net.placeName p = q) ∧
      ((∀ x, (n.pre x).Nodup ∧ (n.post x).Nodup ∧ (n.out x).Nodup) → ∀ x, (n'.pre x).Nodup ∧ (n'.post x).Nodup ∧ (n'.out x).Nodup)
  | [], n, _ => ⟨n, rfl, rfl, rfl, rfl, rfl, rfl, rfl, by simp, by simp, by simp, id⟩
  | .input p t :: as, n, h => by
    have ha := h _ List.mem_cons_self
    let n1 : Net := { n with
      out := upd n.out (net.placeName p) (setAdd (n.out (net.placeName p)) (net.transName t))
      pre := upd n.pre (net.transName t) (setAdd (n.pre (net.transName t)) (net.placeName p)) }
    have h1 : arcBack net n (.input p t) = .ok n1 := by
      simp only [arcBack]
      rw [if_neg (not_not.2 ha.1), if_neg (not_not.2 ha.2)]
    have f_places : n1.places = n.places := rfl
    have f_transitions : n1.transitions = n.transitions := rfl
    have f_tokens : n1.tokens = n.tokens := rfl
    have f_visible : n1.visible = n.visible := rfl
    have f_transLabel : n1.transLabel = n.transLabel := rfl
    have f_guard : n1.guard = n.guard := rfl
    have f_out : n1.out = upd n.out (net.placeName p) (setAdd (n.out (net.placeName p)) (net.transName t)) := rfl
    have f_pre : n1.pre = upd n.pre (net.transName t) (setAdd (n.pre (net.transName t)) (net.placeName p)) := rfl
    have f_post : n1.post = n.post := rfl
    clear_value n1
    obtain ⟨n', k0, k1, k2, k3, k4, k5, k6, k7, k8, k9, k10⟩ := arcs_back net as n1 (fun a hm => by
      have := h a (List.mem_cons_of_mem _ hm)
      cases a <;> simpa only [ArcIn, f_transitions, f_places] using this)
    refine ⟨n', by rw [List.foldlM_cons, h1]; exact k0, k1.trans f_places, k2.trans f_transitions, k3.trans f_tokens, k4.trans f_visible, k5.trans f_transLabel, k6.trans f_guard, fun x q => ?_, fun x q => ?_, fun x q => ?_, fun hn => k10 ?_⟩
    · rw [k7, f_pre]
      by_cases hx : x = net.transName t
      · subst hx
        simp only [upd_self, mem_setAdd, List.mem_cons, Arc.input.injEq]
        constructor
        · rintro ((h | rfl) | ⟨p', t', h1, h2, h3⟩)
          · exact .inl h
          · exact .inr ⟨p, t, .inl ⟨rfl, rfl⟩, rfl, rfl⟩
          · exact .inr ⟨p', t', .inr h1, h2, h3⟩
        · rintro (h | ⟨p', t', ⟨rfl, rfl⟩ | h1, h2, h3⟩)
          · exact .inl (.inl h)
          · exact .inl (.inr h3.symm)
          · exact .inr ⟨p', t', h1, h2, h3⟩
      · simp only [upd_ne _ _ hx, List.mem_cons, Arc.input.injEq]
        constructor
        · rintro (h | ⟨p', t', h1, h2, h3⟩)
          · exact .inl h
          · exact .inr ⟨p', t', .inr h1, h2, h3⟩
        · rintro (h | ⟨p', t', ⟨rfl, rfl⟩ | h1, h2, h3⟩)
          · exact .inl h
          · exact absurd h2.symm hx
          · exact .inr ⟨p', t', h1, h2, h3⟩
    · rw [k8, f_post]; simp
    · rw [k9, f_out]
      by_cases hq : q = net.placeName p
      · subst hq
        simp only [upd_self, mem_setAdd, List.mem_cons, Arc.input.injEq]
        constructor
        · rintro ((h | rfl) | ⟨p', t', h1, h2, h3⟩)
          · exact .inl h
          · exact .inr ⟨p, t, .inl ⟨rfl, rfl⟩, rfl, rfl⟩
          · exact .inr ⟨p', t', .inr h1, h2, h3⟩
        · rintro (h | ⟨p', t', ⟨rfl, rfl⟩ | h1, h2, h3⟩)
          · exact .inl (.inl h)
          · exact .inl (.inr h2.symm)
          · exact .inr ⟨p', t', h1, h2, h3⟩
      · simp only [upd_ne _ _ hq, List.mem_cons, Arc.input.injEq]
        constructor
        · rintro (h | ⟨p', t', h1, h2, h3⟩)
          · exact .inl h
          · exact .inr ⟨p', t', .inr h1, h2, h3⟩
        · rintro (h | ⟨p', t', ⟨rfl, rfl⟩ | h1, h2, h3⟩)
          · exact .inl h
          · exact absurd h3.symm hq
          · exact .inr ⟨p', t', h1, h2, h3⟩
    · intro x
      rw [f_pre, f_post, f_out]
      refine ⟨?_, (hn x).2.1, ?_⟩
      · by_cases hx : x = net.transName t
        · subst hx; simp only [upd_self]; exact nodup_setAdd (hn _).1
        · simp only [upd_ne _ _ hx]; exact (hn x).1
      · by_cases hx : x = net.placeName p
        · subst hx; simp only [upd_self]; exact nodup_setAdd (hn _).2.2
        · simp only [upd_ne _ _ hx]; exact (hn x).2.2
  | .output t p :: as, n, h => by
    have ha := h _ List.mem_cons_self
    let n1 : Net := { n with post := upd n.post (net.transName t) (setAdd (n.post (net.transName t)) (net.placeName p)) }
    have h1 : arcBack net n (.output t p) = .ok n1 := by
      simp only [arcBack]
      rw [if_neg (not_not.2 ha.1), if_neg (not_not.2 ha.2)]
    have f_places : n1.places = n.places := rfl
    have f_transitions : n1.transitions = n.transitions := rfl
    have f_tokens : n1.tokens = n.tokens := rfl
    have f_visible : n1.visible = n.visible := rfl
    have f_transLabel : n1.transLabel = n.transLabel := rfl
    have f_guard : n1.guard = n.guard := rfl
    have f_out : n1.out = n.out := rfl
    have f_pre : n1.pre = n.pre := rfl
    have f_post : n1.post = upd n.post (net.transName t) (setAdd (n.post (net.transName t)) (net.placeName p)) := rfl
    clear_value n1
    obtain ⟨n', k0, k1, k2, k3, k4, k5, k6, k7, k8, k9, k10⟩ := arcs_back net as n1 (fun a hm => by
      have := h a (List.mem_cons_of_mem _ hm)
      cases a <;> simpa only [ArcIn, f_transitions, f_places] using this)
    refine ⟨n', by rw [List.foldlM_cons, h1]; exact k0, k1.trans f_places, k2.trans f_transitions, k3.trans f_tokens, k4.trans f_visible, k5.trans f_transLabel, k6.trans f_guard, fun x q => ?_, fun x q => ?_, fun x q => ?_, fun hn => k10 ?_⟩
    · rw [k7, f_pre]; simp
    · rw [k8, f_post]
      by_cases hx : x = net.transName t
      · subst hx
        simp only [upd_self, mem_setAdd, List.mem_cons, Arc.output.injEq]
        constructor
        · rintro ((h | rfl) | ⟨p', t', h1, h2, h3⟩)
          · exact .inl h
          · exact .inr ⟨p, t, .inl ⟨rfl, rfl⟩, rfl, rfl⟩
          · exact .inr ⟨p', t', .inr h1, h2, h3⟩
        · rintro (h | ⟨p', t', ⟨rfl, rfl⟩ | h1, h2, h3⟩)
          · exact .inl (.inl h)
          · exact .inl (.inr h3.symm)
          · exact .inr ⟨p', t', h1, h2, h3⟩
      · simp only [upd_ne _ _ hx, List.mem_cons, Arc.output.injEq]
        constructor
        · rintro (h | ⟨p', t', h1, h2, h3⟩)
          · exact .inl h
          · exact .inr ⟨p', t', .inr h1, h2, h3⟩
        · rintro (h | ⟨p', t', ⟨rfl, rfl⟩ | h1, h2, h3⟩)
          · exact .inl h
          · exact absurd h2.symm hx
          · exact .inr ⟨p', t', h1, h2, h3⟩
    · rw [k9, f_out]; simp
    · intro x
      rw [f_pre, f_post, f_out]
      refine ⟨(hn x).1, ?_, (hn x).2.2⟩
      by_cases hx : x = net.transName t
      · subst hx; simp only [upd_self]; exact nodup_setAdd (hn _).2.1
      · simp only [upd_ne _ _ hx]; exact (hn x).2.1

end Prolothar.Pm4py
