import Verif.Model.Hash
import Verif.Spec.Hash
import Mathlib.Data.List.Induction
/-
C130: equality and hashing of the model classes; sets of them.
-/
namespace Prolothar.Hash
open Prolothar.EventLog
open Prolothar.Spec.Hash

variable {V : Type} {H : Hashes V}

/-- what is assumed of attribute values: equality is an equivalence and equal values have equal hashes -/
structure Lawful (H : Hashes V) : Prop where
  refl : ∀ v, H.eqVal v v = true
  symm : ∀ v w, H.eqVal v w = true → H.eqVal w v = true
  trans : ∀ u v w, H.eqVal u v = true → H.eqVal v w = true → H.eqVal u w = true
  hash : ∀ v w, H.eqVal v w = true → H.val v = H.val w

/-! ### dictionaries -/

theorem perm_del {e : Dict String V} {k : String} {w : V} (h : e.get? k = some w) : e.Perm ((k, w) :: e.del k) := by
  induction e with
  | nil => cases h
  | cons p e ih =>
    obtain ⟨k', v'⟩ := p
    simp only [Dict.get?, Dict.del] at h ⊢
    by_cases hk : k' = k
    · subst hk; rw [if_pos rfl] at h ⊢; cases h; exact .refl _
    · rw [if_neg hk] at h ⊢
      exact ((ih h).cons _).trans (.swap ..)

/-- equal dictionaries have the same entries in some order, up to equality of the values -/
theorem dictEq_iff {d e : Dict String V} (hd : d.WF) (he : e.WF) : dictEq H d e = true ↔
    ∃ e', e'.Perm e ∧ List.Forall₂ (fun x y : String × V => x.1 = y.1 ∧ H.eqVal x.2 y.2 = true) d e' := by
  unfold dictEq
  rw [Bool.and_eq_true, decide_eq_true_eq, List.all_eq_true]
  constructor
  · rintro ⟨hl, hall⟩
    induction d generalizing e with
    | nil =>
      obtain rfl : e = [] := List.length_eq_zero_iff.1 hl.symm
      exact ⟨[], .refl _, .nil⟩
    | cons p d ih =>
      obtain ⟨k, v⟩ := p
      have hd' : k ∉ Dict.keys d ∧ Dict.WF d := List.nodup_cons.1 hd
      have h0 := hall (k, v) List.mem_cons_self
      cases hg : e.get? k with
      | none => rw [hg] at h0; cases h0
      | some w =>
        rw [hg] at h0
        have hp := perm_del hg
        obtain ⟨e', h1, h2⟩ := ih (e := e.del k) hd'.2 (he.del k)
          (by have := hp.length_eq; simp only [List.length_cons] at this hl; omega) (by
            intro x hx
            have := hall x (List.mem_cons_of_mem _ hx)
            have hne : k ≠ x.1 := by
              rintro rfl
              exact hd'.1 (List.mem_map_of_mem hx)
            rw [Dict.get?_del he, if_neg hne]
            exact this)
        exact ⟨(k, w) :: e', (h1.cons _).trans hp.symm, .cons ⟨rfl, h0⟩ h2⟩
  · rintro ⟨e', h1, h2⟩
    refine ⟨h2.length_eq.trans h1.length_eq, fun x hx => ?_⟩
    obtain ⟨y, hy, e1, e2⟩ : ∃ y ∈ e', x.1 = y.1 ∧ H.eqVal x.2 y.2 = true := by
      clear h1 hd he
      induction h2 with
      | nil => cases hx
      | cons h _ ih =>
        rcases List.mem_cons.1 hx with rfl | hx
        · exact ⟨_, List.mem_cons_self, h⟩
        · obtain ⟨y, hy, h⟩ := ih hx
          exact ⟨y, List.mem_cons_of_mem _ hy, h⟩
    rw [e1, Dict.get?_of_mem he (v := y.2) (h1.mem_iff.1 hy)]
    exact e2

theorem dictEq_hash (hl : Lawful H) {d e : Dict String V} (hd : d.WF) (he : e.WF) (h : dictEq H d e = true) :
    dictHash H d = dictHash H e := by
  obtain ⟨e', h1, h2⟩ := (dictEq_iff hd he).1 h
  have h3 : dictHash H d = dictHash H e' := by
    have a1 : (d.all fun kv => (H.val kv.2).isSome) = e'.all fun kv => (H.val kv.2).isSome := by
      clear h h1 hd he
      induction h2 with
      | nil => rfl
      | cons h _ ih => rw [List.all_cons, List.all_cons, ih, hl.hash _ _ h.2]
    have a2 : (d.map fun kv => H.tuple [H.str kv.1, (H.val kv.2).getD 0]) = e'.map fun kv => H.tuple [H.str kv.1, (H.val kv.2).getD 0] := by
      clear h h1 hd he a1
      induction h2 with
      | nil => rfl
      | cons h _ ih => rw [List.map_cons, List.map_cons, ih, h.1, hl.hash _ _ h.2]
    unfold dictHash
    rw [a1, a2]
  rw [h3]
  unfold dictHash
  have a1 : (e'.all fun kv => (H.val kv.2).isSome) = e.all fun kv => (H.val kv.2).isSome := by
    rw [Bool.eq_iff_iff, List.all_eq_true, List.all_eq_true]
    exact ⟨fun h x hx => h x (h1.mem_iff.2 hx), fun h x hx => h x (h1.mem_iff.1 hx)⟩
  have a2 : Multiset.ofList (e'.map fun kv => H.tuple [H.str kv.1, (H.val kv.2).getD 0]) =
      Multiset.ofList (e.map fun kv => H.tuple [H.str kv.1, (H.val kv.2).getD 0]) := Multiset.coe_eq_coe.2 (h1.map _)
  rw [a1, a2]

theorem forall₂_flip {α : Type} {R S : α → α → Prop} (h : ∀ a b, R a b → S b a) {l m : List α} (hf : List.Forall₂ R l m) : List.Forall₂ S m l := by
  induction hf with
  | nil => exact .nil
  | cons h1 _ ih => exact .cons (h _ _ h1) ih

theorem forall₂_comp {α : Type} {R : α → α → Prop} (h : ∀ a b c, R a b → R b c → R a c) {l m k : List α} (h1 : List.Forall₂ R l m)
    (h2 : List.Forall₂ R m k) : List.Forall₂ R l k := by
  induction h1 generalizing k with
  | nil => cases h2; exact .nil
  | cons a _ ih => cases h2 with | cons b bs => exact .cons (h _ _ _ a b) (ih bs)

theorem dictEq_refl (hl : Lawful H) {d : Dict String V} (hd : d.WF) : dictEq H d d = true :=
  (dictEq_iff hd hd).2 ⟨d, .refl _, List.forall₂_same.2 fun x _ => ⟨rfl, hl.refl _⟩⟩

/-- a permutation of the second list can be carried over to the first -/
theorem forall₂_perm {α β : Type} {R : α → β → Prop} {l : List α} {m m' : List β} (h : List.Forall₂ R l m) (hp : m.Perm m') :
    ∃ l', l.Perm l' ∧ List.Forall₂ R l' m' := by
  induction hp generalizing l with
  | nil => exact ⟨l, .refl _, h⟩
  | cons x _ ih =>
    cases h with
    | cons a as =>
      obtain ⟨l', h1, h2⟩ := ih as
      exact ⟨_, h1.cons _, .cons a h2⟩
  | swap x y _ =>
    cases h with
    | cons a as =>
      cases as with
      | cons b bs => exact ⟨_, .swap .., .cons b (.cons a bs)⟩
  | trans _ _ ih1 ih2 =>
    obtain ⟨l1, h1, h2⟩ := ih1 h
    obtain ⟨l2, h3, h4⟩ := ih2 h2
    exact ⟨l2, h1.trans h3, h4⟩

theorem dictEq_symm (hl : Lawful H) {d e : Dict String V} (hd : d.WF) (he : e.WF) (h : dictEq H d e = true) : dictEq H e d = true := by
  obtain ⟨e', h1, h2⟩ := (dictEq_iff hd he).1 h
  obtain ⟨d', h3, h4⟩ := forall₂_perm h2 h1
  exact (dictEq_iff he hd).2 ⟨d', h3.symm, forall₂_flip (fun a b h => ⟨h.1.symm, hl.symm _ _ h.2⟩) h4⟩

theorem dictEq_trans (hl : Lawful H) {d e f : Dict String V} (hd : d.WF) (he : e.WF) (hf : f.WF) (h1 : dictEq H d e = true)
    (h2 : dictEq H e f = true) : dictEq H d f = true := by
  obtain ⟨e', a1, a2⟩ := (dictEq_iff hd he).1 h1
  obtain ⟨f', b1, b2⟩ := (dictEq_iff he hf).1 h2
  obtain ⟨f'', c1, c2⟩ := forall₂_perm (R := fun (x y : String × V) => y.1 = x.1 ∧ H.eqVal y.2 x.2 = true) (forall₂_flip (fun a b h => h) b2) a1.symm
  exact (dictEq_iff hd hf).2 ⟨f'', c1.symm.trans b1, forall₂_comp (R := fun x y : String × V => x.1 = y.1 ∧ H.eqVal x.2 y.2 = true)
    (fun a b c h h' => ⟨h.1.trans h'.1, hl.trans _ _ _ h.2 h'.2⟩) a2 (forall₂_flip (fun a b h => h) c2)⟩

/-! ### events -/

theorem eventEq_iff {a b : Ev V} : eventEq H a b = true ↔ a.activity = b.activity ∧ a.transition = b.transition ∧ dictEq H a.attributes b.attributes = true := by
  unfold eventEq
  rw [Bool.and_eq_true, Bool.and_eq_true, decide_eq_true_eq, Bool.or_eq_true, Bool.and_eq_true, decide_eq_true_eq, Option.isNone_iff_eq_none,
    Option.isNone_iff_eq_none]
  constructor
  · rintro ⟨⟨⟨h1, h2⟩ | h, h3⟩, h4⟩
    · exact ⟨h1.trans h2.symm, h3, h4⟩
    · exact ⟨h, h3, h4⟩
  · rintro ⟨h1, h2, h3⟩; exact ⟨⟨.inr h1, h2⟩, h3⟩

/-- C130: `==` on events is an equivalence, and equal events have the same hash or both cannot be hashed -/
theorem C130_event (hl : Lawful H) :
    Equivalence (fun a b : { e : Ev V // e.attributes.WF } => eventEq H a.1 b.1 = true) ∧
    Contract (fun a b : { e : Ev V // e.attributes.WF } => eventEq H a.1 b.1 = true) (fun a => eventHash H a.1) := by
  refine ⟨⟨fun a => ?_, fun {a b} h => ?_, fun {a b c} h1 h2 => ?_⟩, fun a b h => ?_⟩
  · exact eventEq_iff.2 ⟨rfl, rfl, dictEq_refl hl a.2⟩
  · obtain ⟨h1, h2, h3⟩ := eventEq_iff.1 h
    exact eventEq_iff.2 ⟨h1.symm, h2.symm, dictEq_symm hl a.2 b.2 h3⟩
  · obtain ⟨a1, a2, a3⟩ := eventEq_iff.1 h1
    obtain ⟨b1, b2, b3⟩ := eventEq_iff.1 h2
    exact eventEq_iff.2 ⟨a1.trans b1, a2.trans b2, dictEq_trans hl a.2 b.2 c.2 a3 b3⟩
  · obtain ⟨h1, _, h3⟩ := eventEq_iff.1 h
    simp only [eventHash, dictEq_hash hl a.2 b.2 h3, h1]

/-- C130: an event with an attribute value that cannot be hashed cannot be hashed -/
theorem C130_unhashable (e : Ev V) (kv : String × V) (h : kv ∈ e.attributes) (hv : H.val kv.2 = none) : eventHash H e = .error .type := by
  unfold eventHash dictHash
  rw [if_neg]
  · rfl
  · rw [List.all_eq_true]
    intro hc
    have := hc kv h
    rw [hv] at this
    cases this

/-! ### complex events -/

/-- C130: a ComplexEvent needs children -/
theorem C130_complex_children (a : Option String) (d : Dict String V) (t : Option String) (cs : List (AnyEvent V)) :
    (cs = [] → newComplex a cs d t = .error .value) ∧ (cs ≠ [] → newComplex a cs d t = .ok (.complex a d t cs)) := by
  unfold newComplex
  constructor
  · rintro rfl; rfl
  · intro h; rw [if_neg (by simpa using h)]

/-- C130: events that compare equal, complex or not, have the same hash -/
theorem C130_complex (hl : Lawful H) (a b : AnyEvent V) (ha : ∀ e, a = .simple e → e.attributes.WF) (hb : ∀ e, b = .simple e → e.attributes.WF)
    (h : anyEq H a b = .ok true) : anyHash H a = anyHash H b := by
  match a, b with
  | .simple a, .simple b =>
    rw [anyEq] at h
    exact (C130_event hl).2 ⟨a, ha a rfl⟩ ⟨b, hb b rfl⟩ (Except.ok.inj h)
  | .complex a _ _ _, .simple b =>
    rw [anyEq] at h
    split at h <;> cases h
  | .simple a, .complex b _ _ _ =>
    rw [anyEq] at h
    split at h <;> cases h
  | .complex a d _ cs, .complex b e _ es =>
    rw [anyEq] at h
    split at h
    · next hab => subst hab; rfl
    · cases h

/-- C130: a ComplexEvent and an Event of the same activity cannot be compared (AttributeError); with different activities they
are different -/
theorem C130_complex_mixed (e : Ev V) (a : Option String) (d : Dict String V) (t : Option String) (cs : List (AnyEvent V)) :
    (a = e.activity → anyEq H (.simple e) (.complex a d t cs) = .error .attribute ∧ anyEq H (.complex a d t cs) (.simple e) = .error .attribute) ∧
    (a ≠ e.activity → anyEq H (.simple e) (.complex a d t cs) = .ok false ∧ anyEq H (.complex a d t cs) (.simple e) = .ok false) := by
  constructor
  · rintro rfl
    rw [anyEq, anyEq, if_pos rfl]
    exact ⟨rfl, rfl⟩
  · intro h
    rw [anyEq, anyEq, if_neg h, if_neg (Ne.symm h)]
    exact ⟨rfl, rfl⟩

/-- C130: `==` on complex events ignores the transitions that produced them, unlike `==` on events -/
theorem C130_complex_transition (hl : Lawful H) (a : Option String) (d : Dict String V) (hd : d.WF) (t u : Option String) (e : Ev V)
    (he : e.attributes.WF) : anyEq H (.complex a d t [.simple e]) (.complex a d u [.simple e]) = .ok true := by
  rw [anyEq, if_pos rfl, anyListEq, if_neg (by simp), anyEq, (C130_event hl).1.refl ⟨e, he⟩]
  show (do if ← anyListEq H [] [] then return dictEq H d d else return false : Py Bool) = _
  rw [anyListEq]
  show (.ok (dictEq H d d) : Py Bool) = _
  rw [dictEq_refl hl hd]

/-- dictionaries with the same keys and equal values, in any order -/
def SameDict (H : Hashes V) (d e : Dict String V) : Prop :=
  ∃ e', e'.Perm e ∧ List.Forall₂ (fun p q : String × V => p.1 = q.1 ∧ H.eqVal p.2 q.2 = true) d e'

/-- equal events: of the same class with the same activity, equal attributes and the same children, or the same transition if there are
no children -/
inductive SameEvent (H : Hashes V) : AnyEvent V → AnyEvent V → Prop
  | simple {a b : Ev V} : a.activity = b.activity → a.transition = b.transition → SameDict H a.attributes b.attributes →
      SameEvent H (.simple a) (.simple b)
  | complex {a t u} {d e : Dict String V} {cs es : List (AnyEvent V)} : SameDict H d e → List.Forall₂ (SameEvent H) cs es →
      SameEvent H (.complex a d t cs) (.complex a e u es)

/-- all dictionaries in an event have different keys -/
inductive AnyEvent.Proper : AnyEvent V → Prop
  | simple {a : Ev V} : a.attributes.WF → Proper (.simple a)
  | complex {a t} {d : Dict String V} {cs : List (AnyEvent V)} : d.WF → (∀ c ∈ cs, Proper c) → Proper (.complex a d t cs)

mutual
theorem anyEq_iff {H : Hashes V} : ∀ a b : AnyEvent V, a.Proper → b.Proper → (anyEq H a b = .ok true ↔ SameEvent H a b)
  | .simple a, .simple b, .simple ha, .simple hb => by
    rw [anyEq, show ((.ok (eventEq H a b) : Py Bool) = .ok true ↔ eventEq H a b = true) from ⟨fun h => Except.ok.inj h, fun h => by rw [h]⟩,
      eventEq_iff, dictEq_iff ha hb]
    constructor
    · rintro ⟨h1, h2, h3⟩; exact .simple h1 h2 h3
    · rintro (⟨h1, h2, h3⟩ | _); exact ⟨h1, h2, h3⟩
  | .simple a, .complex b _ _ _, _, _ => by
    rw [anyEq]
    constructor
    · intro h; split at h <;> cases h
    · intro h; cases h
  | .complex a _ _ _, .simple b, _, _ => by
    rw [anyEq]
    constructor
    · intro h; split at h <;> cases h
    · intro h; cases h
  | .complex a d t cs, .complex b e u es, .complex hd hcs, .complex he hes => by
    rw [anyEq]
    have ih := anyListEq_iff (H := H) cs es hcs hes
    by_cases hab : a = b
    · subst hab
      rw [if_pos rfl]
      cases hl : anyListEq H cs es with
      | error err =>
        rw [hl] at ih
        constructor
        · intro h; cases h
        · rintro (_ | ⟨h1, h2⟩); cases ih.2 h2
      | ok r =>
        rw [hl] at ih
        cases r with
        | false =>
          constructor
          · intro h; cases h
          · rintro (_ | ⟨h1, h2⟩); cases ih.2 h2
        | true =>
          show ((.ok (dictEq H d e) : Py Bool) = .ok true) ↔ _
          constructor
          · intro h; exact .complex ((dictEq_iff hd he).1 (Except.ok.inj h)) (ih.1 rfl)
          · rintro (_ | ⟨h1, h2⟩); rw [(dictEq_iff hd he).2 h1]
    · rw [if_neg hab]
      constructor
      · intro h; cases h
      · intro h; cases h; exact absurd rfl hab
theorem anyListEq_iff {H : Hashes V} : ∀ as bs : List (AnyEvent V), (∀ c ∈ as, c.Proper) → (∀ c ∈ bs, c.Proper) →
    (anyListEq H as bs = .ok true ↔ List.Forall₂ (SameEvent H) as bs)
  | [], [], _, _ => by rw [anyListEq]; simp
  | [], _ :: _, _, _ => by
    rw [anyListEq]
    · constructor
      · intro h; cases h
      · intro h; cases h
    all_goals simp
  | _ :: _, [], _, _ => by
    rw [anyListEq]
    · constructor
      · intro h; cases h
      · intro h; cases h
    all_goals simp
  | a :: as, b :: bs, ha, hb => by
    have i1 := anyEq_iff (H := H) a b (ha a (by simp)) (hb b (by simp))
    have i2 := anyListEq_iff (H := H) as bs (fun c hc => ha c (by simp [hc])) (fun c hc => hb c (by simp [hc]))
    rw [anyListEq, List.forall₂_cons]
    by_cases hlen : as.length = bs.length
    · rw [if_neg (by simpa using hlen)]
      cases hl : anyEq H a b with
      | error err =>
        rw [hl] at i1
        constructor
        · intro h; cases h
        · rintro ⟨h1, _⟩; cases i1.2 h1
      | ok r =>
        rw [hl] at i1
        cases r with
        | false =>
          constructor
          · intro h; cases h
          · rintro ⟨h1, _⟩; cases i1.2 h1
        | true =>
          show anyListEq H as bs = .ok true ↔ _
          rw [i2]
          exact ⟨fun h => ⟨i1.1 rfl, h⟩, fun h => h.2⟩
    · rw [if_pos hlen]
      constructor
      · intro h; cases h
      · rintro ⟨_, h2⟩; exact absurd h2.length_eq hlen
end

/-- C130: two events, complex or not, compare equal iff they have the same class, activity, children (recursively) and attributes; simple
events must have the same transition as well. -/
theorem C130_complex_equal (a b : AnyEvent V) (ha : a.Proper) (hb : b.Proper) : anyEq H a b = .ok true ↔ SameEvent H a b :=
  anyEq_iff a b ha hb

/-! ### other classes -/

theorem dedgeEq_iff {a b : DEdge} : dedgeEq a b = true ↔ a = b := by
  cases a; cases b
  simp [dedgeEq, and_assoc]

theorem listEq_iff {α : Type} {eq : α → α → Bool} : ∀ {l m : List α}, listEq eq l m = true ↔ List.Forall₂ (fun a b => eq a b = true) l m
  | [], [] => by simp [listEq]
  | [], _ :: _ => by simp [listEq]
  | _ :: _, [] => by simp [listEq]
  | a :: l, b :: m => by rw [listEq, Bool.and_eq_true, listEq_iff, List.forall₂_cons]

/-- C130: edges and nodes of directly-follows graphs and nodes and edges of nested graphs: equal objects have equal hashes;
edges are equal iff activities and counts agree -/
theorem C130_graph_objects :
    (∀ a b : DEdge, dedgeEq a b = true ↔ a.start = b.start ∧ a.stop = b.stop ∧ a.count = b.count) ∧
    Contract (fun a b : DEdge => dedgeEq a b = true) (dedgeHash H) ∧ Contract (fun a b : DNode => dnodeEq a b = true) (dnodeHash H) ∧
    Contract (fun a b : NNode V => nnodeEq H a b = true) (nnodeHash H) ∧ Contract (fun a b : NEdge V => nedgeEq H a b = true) (nedgeHash H) := by
  refine ⟨fun a b => ?_, fun a b h => ?_, fun a b h => ?_, fun a b h => ?_, fun a b h => ?_⟩
  · simp [dedgeEq, and_assoc]
  · rw [dedgeEq_iff.1 h]
  · simp only [dnodeEq, Bool.and_eq_true, decide_eq_true_eq] at h
    simp only [dnodeHash, h.1]
  · simp only [nnodeEq, Bool.and_eq_true, decide_eq_true_eq] at h
    simp only [nnodeHash, h.1.1]
  · simp only [nedgeEq, Bool.and_eq_true, decide_eq_true_eq] at h
    simp only [nedgeHash, h.1.1.1]

/-- C130: nodes of directly-follows graphs are equal iff they have the same activity and the same list of outgoing edges; nodes
of nested graphs are equal iff they have the same id, parent and attributes, whatever their labels -/
theorem C130_nodes (a b : DNode) (x y : NNode V) (hx : x.attributes.WF) (hy : y.attributes.WF) :
    (dnodeEq a b = true ↔ a.activity = b.activity ∧ a.edges = b.edges) ∧
    (nnodeEq H x y = true ↔ x.id = y.id ∧ x.parent = y.parent ∧
      ∃ e', e'.Perm y.attributes ∧ List.Forall₂ (fun p q : String × V => p.1 = q.1 ∧ H.eqVal p.2 q.2 = true) x.attributes e') := by
  constructor
  · simp only [dnodeEq, Bool.and_eq_true, decide_eq_true_eq, listEq_iff, dedgeEq_iff, List.forall₂_eq_eq_eq]
  · simp only [nnodeEq, Bool.and_eq_true, decide_eq_true_eq, dictEq_iff hx hy, and_assoc]

/-- C130: `<` on edges of directly-follows graphs is not an order: two edges can be smaller than each other. Only among edges
between the same activities it is the order of the counts. -/
theorem C130_edge_order :
    (∃ a b : DEdge, dedgeLt a b = true ∧ dedgeLt b a = true) ∧
    ∀ a b : DEdge, a.start = b.start → a.stop = b.stop → (dedgeLt a b = true ↔ a.count < b.count) := by
  refine ⟨⟨⟨"a", "b", 0⟩, ⟨"b", "a", 0⟩, by decide, by decide⟩, fun a b h1 h2 => ?_⟩
  unfold dedgeLt
  simp [h1, h2]

/-! ### sets -/

section sets
variable {α : Type} {eq : α → α → Bool} {hash : α → Int}

theorem inSet_iff {s : List α} {x : α} : inSet eq hash s x = true ↔ Found (fun a b => eq a b = true) hash s x := by
  simp [inSet, Found, List.any_eq_true]

theorem pySet_spec (he : Equivalence fun a b => eq a b = true) (l : List α) :
    (∀ x ∈ pySet eq hash l, x ∈ l) ∧ (∀ x ∈ l, inSet eq hash (pySet eq hash l) x = true) ∧
    (pySet eq hash l).Pairwise (fun a b => ¬ (hash a = hash b ∧ eq a b = true)) := by
  induction l using List.reverseRecOn with
  | nil => exact ⟨by simp [pySet], by simp, .nil⟩
  | append_singleton l x ih =>
    obtain ⟨h1, h2, h3⟩ := ih
    have hstep : pySet eq hash (l ++ [x]) = if inSet eq hash (pySet eq hash l) x = true then pySet eq hash l else pySet eq hash l ++ [x] := by
      unfold pySet inSet
      rw [List.foldl_append]
      rfl
    rw [hstep]
    by_cases hx : inSet eq hash (pySet eq hash l) x = true
    · rw [if_pos hx]
      refine ⟨fun y hy => List.mem_append_left _ (h1 y hy), fun y hy => ?_, h3⟩
      rcases List.mem_append.1 hy with hy | hy
      · exact h2 y hy
      · rw [List.mem_singleton.1 hy]; exact hx
    · rw [if_neg hx]
      refine ⟨fun y hy => ?_, fun y hy => ?_, ?_⟩
      · rcases List.mem_append.1 hy with hy | hy
        · exact List.mem_append_left _ (h1 y hy)
        · exact List.mem_append_right _ hy
      · rw [inSet_iff]
        rcases List.mem_append.1 hy with hy | hy
        · obtain ⟨z, hz, h⟩ := inSet_iff.1 (h2 y hy)
          exact ⟨z, List.mem_append_left _ hz, h⟩
        · rw [List.mem_singleton.1 hy]
          exact ⟨x, by simp, rfl, he.refl x⟩
      · refine List.pairwise_append.2 ⟨h3, by simp, fun a ha b hb => ?_⟩
        rw [List.mem_singleton.1 hb]
        rintro ⟨e1, e2⟩
        exact hx (inSet_iff.2 ⟨a, ha, e1, e2⟩)

/-- C130: if equality is an equivalence and equal objects have equal hashes then a set of objects behaves as expected: it
contains no two equal elements, and `x in set(l)` holds iff an element of `l` is equal to `x` -/
theorem C130_set (he : Equivalence fun a b => eq a b = true) (hc : Contract (fun a b => eq a b = true) hash) (l : List α) :
    (∀ x ∈ pySet eq hash l, x ∈ l) ∧ (pySet eq hash l).Pairwise (fun a b => ¬ eq a b = true) ∧
    ∀ x, inSet eq hash (pySet eq hash l) x = true ↔ ∃ y ∈ l, eq y x = true := by
  obtain ⟨h1, h2, h3⟩ := pySet_spec (hash := hash) he l
  refine ⟨h1, h3.imp fun {a b} h he => h ⟨hc _ _ he, he⟩, fun x => ⟨fun h => ?_, fun ⟨y, hy, h⟩ => ?_⟩⟩
  · obtain ⟨y, hy, _, h⟩ := inSet_iff.1 h
    exact ⟨y, h1 y hy, h⟩
  · obtain ⟨z, hz, e1, e2⟩ := inSet_iff.1 (h2 y hy)
    exact inSet_iff.2 ⟨z, hz, e1.trans (hc _ _ h), he.trans e2 h⟩

end sets

/-! ### traces -/

theorem traceEq_equiv (hl : Lawful H) :
    Equivalence (fun a b : { t : Tr V // t.attributes.WF ∧ ∀ e ∈ t.events, e.attributes.WF } => traceEq H a.1 b.1 = true) := by
  have hev := (C130_event hl).1
  have key : ∀ a b : Tr V, traceEq H a b = true ↔ List.Forall₂ (fun x y => eventEq H x y = true) a.events b.events ∧ dictEq H a.attributes b.attributes = true := by
    intro a b; rw [traceEq, Bool.and_eq_true, listEq_iff]
  have hsym : ∀ l m : List (Ev V), (∀ e ∈ l, e.attributes.WF) → (∀ e ∈ m, e.attributes.WF) → List.Forall₂ (fun x y => eventEq H x y = true) l m →
      List.Forall₂ (fun x y => eventEq H x y = true) m l := by
    intro l m h1 h2 h
    induction h with
    | nil => exact .nil
    | cons a _ ih =>
      exact .cons (hev.symm (x := ⟨_, h1 _ List.mem_cons_self⟩) (y := ⟨_, h2 _ List.mem_cons_self⟩) a)
        (ih (fun e he => h1 e (List.mem_cons_of_mem _ he)) (fun e he => h2 e (List.mem_cons_of_mem _ he)))
  have htr : ∀ l m k : List (Ev V), (∀ e ∈ l, e.attributes.WF) → (∀ e ∈ m, e.attributes.WF) → (∀ e ∈ k, e.attributes.WF) →
      List.Forall₂ (fun x y => eventEq H x y = true) l m → List.Forall₂ (fun x y => eventEq H x y = true) m k →
      List.Forall₂ (fun x y => eventEq H x y = true) l k := by
    intro l m k h1 h2 h3 h h'
    induction h generalizing k with
    | nil => cases h'; exact .nil
    | cons a _ ih =>
      cases h' with
      | cons b bs =>
        exact .cons (hev.trans (x := ⟨_, h1 _ List.mem_cons_self⟩) (y := ⟨_, h2 _ List.mem_cons_self⟩) (z := ⟨_, h3 _ List.mem_cons_self⟩) a b)
          (ih _ (fun e he => h1 e (List.mem_cons_of_mem _ he)) (fun e he => h2 e (List.mem_cons_of_mem _ he))
            (fun e he => h3 e (List.mem_cons_of_mem _ he)) bs)
  refine ⟨fun a => ?_, fun {a b} h => ?_, fun {a b c} h1 h2 => ?_⟩
  · exact (key _ _).2 ⟨List.forall₂_same.2 fun e he => hev.refl ⟨e, a.2.2 e he⟩, dictEq_refl hl a.2.1⟩
  · obtain ⟨h1, h2⟩ := (key _ _).1 h
    exact (key _ _).2 ⟨hsym _ _ a.2.2 b.2.2 h1, dictEq_symm hl a.2.1 b.2.1 h2⟩
  · obtain ⟨a1, a2⟩ := (key _ _).1 h1
    obtain ⟨b1, b2⟩ := (key _ _).1 h2
    exact (key _ _).2 ⟨htr _ _ _ a.2.2 b.2.2 c.2.2 a1 b1, dictEq_trans hl a.2.1 b.2.1 c.2.1 a2 b2⟩

/-- C130: traces break the contract: `==` is an equivalence that ignores the ids, but the hash is the hash of the id. A set of
traces finds `x` iff it was given an equal trace whose id has the same hash; hence a trace with another id is not found
although it is equal to an element, and a set can contain equal traces. -/
theorem C130_trace (hl : Lawful H) (hashId : Int → Int) :
    (∀ l : List { t : Tr V // t.attributes.WF ∧ ∀ e ∈ t.events, e.attributes.WF }, ∀ x,
      inSet (fun a b => traceEq H a.1 b.1) (fun a => traceHash hashId a.1) (pySet (fun a b => traceEq H a.1 b.1) (fun a => traceHash hashId a.1) l) x = true ↔
        ∃ y ∈ l, hashId y.1.id = hashId x.1.id ∧ traceEq H y.1 x.1 = true) ∧
    ∀ t : Tr V, t.attributes.WF → (∀ e ∈ t.events, e.attributes.WF) → ∀ i, hashId i ≠ hashId t.id →
      traceEq H t { t with id := i } = true ∧ traceHash hashId t ≠ traceHash hashId { t with id := i } ∧
      inSet (traceEq H) (traceHash hashId) (pySet (traceEq H) (traceHash hashId) [t]) { t with id := i } = false ∧
      pySet (traceEq H) (traceHash hashId) [t, { t with id := i }] = [t, { t with id := i }] := by
  have he := traceEq_equiv hl
  refine ⟨fun l x => ?_, fun t h1 h2 i hi => ?_⟩
  · obtain ⟨g1, g2, _⟩ := pySet_spec (eq := fun a b : { t : Tr V // t.attributes.WF ∧ ∀ e ∈ t.events, e.attributes.WF } => traceEq H a.1 b.1)
      (hash := fun a => traceHash hashId a.1) he l
    rw [inSet_iff]
    constructor
    · rintro ⟨y, hy, e1, e2⟩
      exact ⟨y, g1 y hy, e1, e2⟩
    · rintro ⟨y, hy, e1, e2⟩
      obtain ⟨z, hz, f1, f2⟩ := inSet_iff.1 (g2 y hy)
      exact ⟨z, hz, f1.trans e1, he.trans f2 e2⟩
  · have heq : traceEq H t { t with id := i } = true := he.refl ⟨t, h1, h2⟩
    refine ⟨heq, fun h => hi h.symm, ?_, ?_⟩
    · simp [inSet, pySet, traceHash, Ne.symm hi]
    · simp [pySet, traceHash, Ne.symm hi]

/-! ### examples -/

/-- attribute values: numbers, and lists, which cannot be hashed -/
def exHashes : Hashes (Int ⊕ List Int) where
  str s := s.length
  none := 7
  tuple l := l.foldl (fun a b => 31 * a + b) 1
  items m := m.card
  val v := match v with | .inl i => some i | .inr _ => Option.none
  eqVal v w := decide (v = w)

/-- C130: the assumptions on values are met -/
example : Lawful exHashes := by
  refine ⟨by simp [exHashes], ?_, ?_, ?_⟩
  · intro v w h; simp only [exHashes, decide_eq_true_eq] at h ⊢; exact h.symm
  · intro u v w h h'; simp only [exHashes, decide_eq_true_eq] at h h' ⊢; exact h.trans h'
  · intro v w h; simp only [exHashes, decide_eq_true_eq] at h ⊢; rw [h]

/-- C130: two equal events whose attributes were set in different orders -/
example : eventEq exHashes ⟨some "a", [("x", .inl 1), ("y", .inl 2)], none⟩ ⟨some "a", [("y", .inl 2), ("x", .inl 1)], none⟩ = true := by decide

/-- C130: two equal traces with different ids that a set keeps apart -/
example : let t : Tr (Int ⊕ List Int) := ⟨1, [⟨some "a", [], none⟩, ⟨some "b", [("x", .inl 1)], none⟩], []⟩
    traceEq exHashes t { t with id := 2 } = true ∧
    inSet (traceEq exHashes) (traceHash id) (pySet (traceEq exHashes) (traceHash id) [t]) { t with id := 2 } = false := by decide

end Prolothar.Hash
