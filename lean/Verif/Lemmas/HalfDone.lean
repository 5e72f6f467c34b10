import Verif.Lemmas.DatasetExc
/-
Loops over the attributes of a dataset whose body raises before it changes anything.
-/
namespace Prolothar.Data
open Prolothar.Spec.Data Prolothar.Spec.QBins

variable {τ : Type}

/-- both ways of adding an attribute -/
def addAttrA (c : Bool) (name : String) (values : List Val) : Act τ Unit :=
  if c then addCategoricalA name values else addNumericalA name values

theorem exists_map {α β : Type} [Inhabited β] [DecidableEq α] : ∀ (l : List α) (vs : List β), l.Nodup → l.length = vs.length → ∃ k : α → β, l.map k = vs
  | [], [], _, _ => ⟨fun _ => default, rfl⟩
  | [], _ :: _, _, h => by cases h
  | _ :: _, [], _, h => by cases h
  | a :: l, v :: vs, hnd, h => by
    rw [List.nodup_cons] at hnd
    obtain ⟨k, hk⟩ := exists_map l vs hnd.2 (by simpa using h)
    refine ⟨fun x => if x = a then v else k x, ?_⟩
    rw [List.map_cons, if_pos rfl, ← hk]
    congr 1
    apply List.map_congr_left
    intro x hx
    have hxa : x ≠ a := fun e => hnd.1 (e ▸ hx)
    exact if_neg hxa

instance : Inhabited Val := ⟨.num 0⟩

/-- removing an attribute and adding it again with new values -/
theorem replaceA {h : Heap τ} {d : Dataset} (hc : Consistent h d) {n : String} (hn : n ∈ d.attrs.keys) (c : Bool) {vs : List Val}
    (hl : vs.length = d.instances.length) :
    ∃ h' d', (removeAttributeA n >>= fun _ => addAttrA c n vs) (h, d) = (.ok (), (h', d')) ∧ Step (· = n) h d h' d' ∧
      d'.attrs.get? n = some ⟨c, toSet vs⟩ ∧ d.instances.map (fun a => (h' a).features.get? n) = vs.map some := by
  obtain ⟨h1, d1, e1, s1, g1, _⟩ := remove_step hc hn
  have hrun : removeAttributeA n (h, d) = (.ok (), (h1, d1)) := by
    have := agree_removeAttribute n (h, d)
    dsimp only at this
    rw [e1] at this; exact this
  obtain ⟨k, hk⟩ := exists_map d1.instances vs s1.consistent.nodup (by rw [s1.instances]; exact hl.symm)
  obtain ⟨h2, d2, e2, s2, _, g2⟩ := add_step c s1.consistent (name := n) (by rw [Dict.mem_keys_iff, g1]; simp) k
  rw [hk] at e2
  have hrun2 : addAttrA c n vs (h1, d1) = (.ok (), (h2, d2)) ∧ d2.attrs = d1.attrs.put n ⟨c, toSet vs⟩ := by
    unfold Dataset.addAttr at e2
    unfold addAttrA
    cases c with
    | true =>
      rw [if_pos rfl] at e2 ⊢
      have a := agree_addCategorical n vs (h1, d1)
      dsimp only at a
      rw [e2] at a
      refine ⟨a, ?_⟩
      unfold Dataset.addCategorical at e2
      split at e2
      · cases e2
      · cases e2; rfl
    | false =>
      rw [if_neg (by simp)] at e2 ⊢
      have a := agree_addNumerical n vs (h1, d1)
      dsimp only at a
      rw [e2] at a
      refine ⟨a, ?_⟩
      unfold Dataset.addNumerical at e2
      split at e2
      · cases e2
      · cases e2; rfl
  refine ⟨h2, d2, ?_, s1.trans s2 (fun _ h => h) fun _ h => h, ?_, ?_⟩
  · rw [act_bind, hrun]; exact hrun2.1
  · rw [hrun2.2, Dict.get?_put_self]
  · rw [s1.instances] at hk g2
    rw [← hk, List.map_map]
    exact List.map_congr_left fun a ha => g2 a ha

/-- the values of an attribute -/
def col (h : Heap τ) (d : Dataset) (n : String) : List Val := d.instances.map (val h n)

/-- the new values of an attribute (or `none` if it is left alone), computed from its name, the attribute and its values -/
abbrev Enc := String → Attr → List Val → Py (Option (Bool × List Val))

/-- the body of the loop: it replaces the values by the new ones -/
structure Replaces (enc : Enc) (body : String × Attr → Act τ Unit) : Prop where
  length : ∀ n at' vs c ws, enc n at' vs = .ok (some (c, ws)) → ws.length = vs.length
  run : ∀ n at' h d, Consistent h d → d.attrs.get? n = some at' → body (n, at') (h, d) =
    match enc n at' (col h d n) with
    | .error e => (.error e, (h, d))
    | .ok none => (.ok (), (h, d))
    | .ok (some (c, ws)) => (removeAttributeA n >>= fun _ => addAttrA c n ws) (h, d)

/-- attribute `n` has the new values -/
def Done (enc : Enc) (h : Heap τ) (d : Dataset) (h' : Heap τ) (d' : Dataset) (n : String) (at' : Attr) : Prop :=
  match enc n at' (col h d n) with
  | .error _ => False
  | .ok none => SameColumn h d h' d' n
  | .ok (some (c, ws)) => d'.attrs.get? n = some ⟨c, toSet ws⟩ ∧ d.instances.map (fun a => (h' a).features.get? n) = ws.map some

theorem Step.sameColumn {N : String → Prop} {h : Heap τ} {d : Dataset} {h' : Heap τ} {d' : Dataset} (s : Step N h d h' d') {n : String} (hn : ¬ N n) :
    SameColumn h d h' d' n := ⟨s.attrs n hn, fun a ha => s.values a ha n hn⟩

theorem sameColumn_col {h : Heap τ} {d : Dataset} {h' : Heap τ} {d' : Dataset} {n : String} (s : SameColumn h d h' d' n)
    (hi : d'.instances = d.instances) : col h' d' n = col h d n := by
  unfold Data.col
  rw [hi]
  exact List.map_congr_left fun a ha => by unfold val; rw [s.2 a ha]

theorem sameColumn_trans {h : Heap τ} {d : Dataset} {h1 : Heap τ} {d1 : Dataset} {h2 : Heap τ} {d2 : Dataset} {n : String}
    (s : SameColumn h d h1 d1 n) (hi : d1.instances = d.instances) (s' : SameColumn h1 d1 h2 d2 n) : SameColumn h d h2 d2 n :=
  ⟨s'.1.trans s.1, fun a ha => (s'.2 a (by rw [hi]; exact ha)).trans (s.2 a ha)⟩

theorem Done.after {enc : Enc} {h : Heap τ} {d : Dataset} {h1 : Heap τ} {d1 : Dataset} {h2 : Heap τ} {d2 : Dataset} {n : String} {at' : Attr}
    (hd : Done enc h d h1 d1 n at') (hi : d1.instances = d.instances) (s : SameColumn h1 d1 h2 d2 n) : Done enc h d h2 d2 n at' := by
  unfold Done at hd ⊢
  split
  · next he => rw [he] at hd; exact hd
  · next he => rw [he] at hd; exact sameColumn_trans hd hi s
  · next c ws he =>
    rw [he] at hd
    refine ⟨s.1.trans hd.1, ?_⟩
    rw [← hd.2]
    exact List.map_congr_left fun a ha => s.2 a (by rw [hi]; exact ha)

theorem Done.before {enc : Enc} {h : Heap τ} {d : Dataset} {h1 : Heap τ} {d1 : Dataset} {h2 : Heap τ} {d2 : Dataset} {n : String} {at' : Attr}
    (s : SameColumn h d h1 d1 n) (hi : d1.instances = d.instances) (hd : Done enc h1 d1 h2 d2 n at') : Done enc h d h2 d2 n at' := by
  unfold Done at hd ⊢
  rw [sameColumn_col s hi, hi] at hd
  split
  · next he => rw [he] at hd; exact hd
  · next he => rw [he] at hd; exact sameColumn_trans s hi hd
  · next c ws he => rw [he] at hd; exact hd

/-- what the loop leaves behind -/
theorem loop_outcome {enc : Enc} {body : String × Attr → Act τ Unit} (hb : Replaces enc body) :
    ∀ (l : List (String × Attr)) (h : Heap τ) (d : Dataset), (l.map (·.1)).Nodup → Consistent h d → (∀ e ∈ l, d.attrs.get? e.1 = some e.2) →
    match forAll body l (h, d) with
    | (.ok _, (h', d')) => Step (fun n => n ∈ l.map (·.1)) h d h' d' ∧ ∀ e ∈ l, Done enc h d h' d' e.1 e.2
    | (.error err, (h', d')) => ∃ done bad rest, l = done ++ bad :: rest ∧ Step (fun n => n ∈ done.map (·.1)) h d h' d' ∧
        (∀ e ∈ done, Done enc h d h' d' e.1 e.2) ∧ enc bad.1 bad.2 (col h d bad.1) = .error err
  | [], h, d, _, hc, _ => ⟨Step.refl hc _, fun e he => by cases he⟩
  | (n0, at0) :: l, h, d, hnd, hc, hat => by
    rw [List.map_cons, List.nodup_cons] at hnd
    have e : forAll body ((n0, at0) :: l) (h, d) = (body (n0, at0) >>= fun _ => forAll body l) (h, d) := rfl
    have hat0 := hat (n0, at0) (by simp)
    have hrun := hb.run n0 at0 h d hc hat0
    have hne : ∀ x ∈ l, x.1 ≠ n0 := by
      intro x hx hh
      have := List.mem_map_of_mem (f := Prod.fst) hx
      rw [hh] at this; exact hnd.1 this
    rw [e, act_bind, hrun]
    -- the first step
    have hfirst : (∃ err, enc n0 at0 (col h d n0) = .error err) ∨ ∃ h1 d1, body (n0, at0) (h, d) = (.ok (), (h1, d1)) ∧
        Step (· = n0) h d h1 d1 ∧ Done enc h d h1 d1 n0 at0 := by
      cases henc : enc n0 at0 (col h d n0) with
      | error err => exact .inl ⟨err, rfl⟩
      | ok o =>
        right
        cases o with
        | none =>
          refine ⟨h, d, ?_, Step.refl hc _, ?_⟩
          · rw [hrun, henc]
          · unfold Done; rw [henc]; exact ⟨rfl, fun _ _ => rfl⟩
        | some cw =>
          obtain ⟨c, ws⟩ := cw
          have hl := hb.length _ _ _ _ _ henc
          obtain ⟨h1, d1, r1, r2, r3, r4⟩ := replaceA hc (Dict.mem_keys_iff.2 ⟨at0, hat0⟩) c (vs := ws)
            (by rw [hl]; unfold col; simp)
          refine ⟨h1, d1, ?_, r2, ?_⟩
          · rw [hrun, henc]; exact r1
          · unfold Done; rw [henc]; exact ⟨r3, r4⟩
    rcases hfirst with ⟨err, herr⟩ | ⟨h1, d1, r1, r2, r3⟩
    · rw [herr]
      exact ⟨[], (n0, at0), l, rfl, Step.refl hc _, (fun e he => nomatch he), herr⟩
    · rw [← hrun, r1]
      dsimp only
      have hsame : ∀ x ∈ l, SameColumn h d h1 d1 x.1 := fun x hx => r2.sameColumn (hne x hx)
      have ih := loop_outcome hb l h1 d1 hnd.2 r2.consistent fun e he => by
        rw [(hsame e he).1]; exact hat e (List.mem_cons_of_mem _ he)
      revert ih
      cases hr : forAll body l (h1, d1) with
      | mk res s' =>
        obtain ⟨h', d'⟩ := s'
        cases res with
        | ok u =>
          dsimp only
          rintro ⟨i1, i2⟩
          refine ⟨r2.trans i1 (fun n hn => by subst hn; simp) (fun n hn => by rw [List.map_cons]; exact List.mem_cons_of_mem _ hn), ?_⟩
          intro x hx
          rcases List.mem_cons.1 hx with rfl | hx
          · exact r3.after r2.instances (i1.sameColumn hnd.1)
          · exact Done.before (hsame x hx) r2.instances (i2 x hx)
        | error err =>
          dsimp only
          rintro ⟨done, bad, rest, i1, i2, i3, i4⟩
          have hd : ∀ x ∈ done, x ∈ l := fun x hx => by rw [i1]; exact List.mem_append_left _ hx
          refine ⟨(n0, at0) :: done, bad, rest, by rw [i1]; rfl,
            r2.trans i2 (fun n hn => by subst hn; simp) (fun n hn => by rw [List.map_cons]; exact List.mem_cons_of_mem _ hn), ?_, ?_⟩
          · intro x hx
            rcases List.mem_cons.1 hx with rfl | hx
            · refine r3.after r2.instances (i2.sameColumn fun hm => ?_)
              obtain ⟨y, hy, hyn⟩ := List.mem_map.1 hm
              exact hne y (hd y hy) hyn
            · exact Done.before (hsame x (hd x hx)) r2.instances (i3 x hx)
          · rw [← sameColumn_col (hsame bad (by rw [i1]; simp)) r2.instances]; exact i4

/-- two datasets with the same new values -/
theorem Done.same {enc : Enc} {h : Heap τ} {d : Dataset} {h1 : Heap τ} {d1 : Dataset} {h2 : Heap τ} {d2 : Dataset} {n : String} {at' : Attr}
    (a1 : Done enc h d h1 d1 n at') (a2 : Done enc h d h2 d2 n at') (hi : d1.instances = d.instances) : SameColumn h1 d1 h2 d2 n := by
  unfold Done at a1 a2
  cases henc : enc n at' (col h d n) with
  | error e => rw [henc] at a1; exact a1.elim
  | ok o =>
    rw [henc] at a1 a2
    cases o with
    | none => exact ⟨a2.1.trans a1.1.symm, fun a ha => by rw [hi] at ha; exact (a2.2 a ha).trans (a1.2 a ha).symm⟩
    | some cw =>
      refine ⟨a2.1.trans a1.1.symm, fun a ha => ?_⟩
      rw [hi] at ha
      exact List.map_inj_left.1 (a2.2.trans a1.2.symm) a ha

end Prolothar.Data
