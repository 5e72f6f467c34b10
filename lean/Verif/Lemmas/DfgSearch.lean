import Verif.Lemmas.DfgOps
import Verif.Spec.Graph
import Mathlib.Data.List.Perm.Basic
import Mathlib.Data.Finset.Card
import Mathlib.Data.List.NodupEquivFin
/- Sources, sinks, closures, components, pruning. -/
set_option linter.unusedSimpArgs false
set_option linter.unusedVariables false
set_option linter.unusedSectionVars false
namespace Prolothar.Dfg
open Prolothar.Spec.Graph
variable {A : Type} [DecidableEq A]

/-- there is an edge from `a` to `b` -/
def Edge (g : Graph A) (a b : A) : Prop := (cnt g a b).isSome

theorem Edge.nodes {g : Graph A} (h : WF g) {a b : A} (he : Edge g a b) : a ∈ g.nodes.keys ∧ b ∈ g.nodes.keys := by
  obtain ⟨c, hc⟩ := Option.isSome_iff_exists.1 he
  exact h.node_of_cnt hc

theorem edge_iff_key {g : Graph A} (h : Core g) (a b : A) : Edge g a b ↔ ∃ e, g.edges.get? (a, b) = some e := by
  unfold Edge; rw [h.cnt_isSome, Dict.mem_keys_iff]

/-! ### sources and sinks -/

theorem isFollowedBy_iff {g : Graph A} (h : Core g) {a : A} {n : NodeObj} (hn : g.nodes.get? a = some n) (b : A) :
    isFollowedBy g n b = true ↔ Edge g a b := by
  unfold isFollowedBy
  simp only [List.any_eq_true, decide_eq_true_eq]
  constructor
  · rintro ⟨o, ho, rfl⟩
    have := ((mem_outObjs h hn o).1 ho).2
    unfold Edge; rw [this]; rfl
  · intro he
    obtain ⟨c, hc⟩ := Option.isSome_iff_exists.1 he
    exact ⟨⟨a, b, c⟩, (mem_outObjs h hn _).2 ⟨rfl, hc⟩, rfl⟩

theorem mem_sources {g : Graph A} (h : WF g) (a : A) :
    a ∈ sources g ↔ a ∈ g.nodes.keys ∧ ∀ b, Edge g b a → b = a := by
  unfold sources
  rw [List.mem_map]
  constructor
  · rintro ⟨⟨a', n⟩, hm, rfl⟩
    obtain ⟨hm, hc⟩ := List.mem_filter.1 hm
    have hn := Dict.get?_of_mem h.nodesWF hm
    refine ⟨Dict.mem_keys_iff.2 ⟨n, hn⟩, ?_⟩
    intro b hb
    obtain ⟨e, he⟩ := (edge_iff_key h.toCore _ _).1 hb
    obtain ⟨h1, h2⟩ := h.ing _ n hn
    have hin : e ∈ n.ing := (h2 e).2 ⟨b, he⟩
    simp only [decide_eq_true_eq] at hc
    rcases hc with hc | ⟨hc, hl⟩
    · rw [List.length_eq_zero_iff.1 hc] at hin; cases hin
    · rw [isFollowedBy_iff h.toCore hn] at hl
      obtain ⟨f, hf⟩ := (edge_iff_key h.toCore _ _).1 hl
      have hfin : f ∈ n.ing := (h2 f).2 ⟨a', hf⟩
      obtain ⟨x, hx⟩ := List.length_eq_one_iff.1 hc
      rw [hx, List.mem_singleton] at hin hfin
      subst hin
      rw [hfin] at hf
      have := h.inj he hf
      simpa using this
  · rintro ⟨ha, hall⟩
    obtain ⟨n, hn⟩ := Dict.mem_keys_iff.1 ha
    refine ⟨(a, n), List.mem_filter.2 ⟨Dict.mem_of_get? hn, ?_⟩, rfl⟩
    simp only [decide_eq_true_eq]
    obtain ⟨h1, h2⟩ := h.ing a n hn
    have hself : ∀ e ∈ n.ing, g.edges.get? (a, a) = some e := by
      intro e he
      obtain ⟨b, hb⟩ := (h2 e).1 he
      have := hall b ((edge_iff_key h.toCore _ _).2 ⟨e, hb⟩)
      subst this; exact hb
    cases hing : n.ing with
    | nil => exact .inl rfl
    | cons e l =>
      right
      have he := hself e (by simp [hing])
      refine ⟨?_, (isFollowedBy_iff h.toCore hn a).2 ((edge_iff_key h.toCore _ _).2 ⟨e, he⟩)⟩
      cases l with
      | nil => rfl
      | cons f l =>
        have hf := hself f (by simp [hing])
        rw [he] at hf
        simp only [Option.some.injEq] at hf
        rw [hing, hf] at h1
        simp at h1

theorem mem_sinks {g : Graph A} (h : WF g) (a : A) :
    a ∈ sinks g ↔ a ∈ g.nodes.keys ∧ ∀ b, Edge g a b → b = a := by
  unfold sinks
  rw [List.mem_map]
  constructor
  · rintro ⟨⟨a', n⟩, hm, rfl⟩
    obtain ⟨hm, hc⟩ := List.mem_filter.1 hm
    have hn := Dict.get?_of_mem h.nodesWF hm
    refine ⟨Dict.mem_keys_iff.2 ⟨n, hn⟩, ?_⟩
    intro b hb
    obtain ⟨e, he⟩ := (edge_iff_key h.toCore _ _).1 hb
    obtain ⟨h1, h2⟩ := h.out _ n hn
    have hin : e ∈ n.out := (h2 e).2 ⟨b, he⟩
    simp only [decide_eq_true_eq] at hc
    rcases hc with hc | ⟨hc, hl⟩
    · rw [List.length_eq_zero_iff.1 hc] at hin; cases hin
    · rw [isFollowedBy_iff h.toCore hn] at hl
      obtain ⟨f, hf⟩ := (edge_iff_key h.toCore _ _).1 hl
      have hfin : f ∈ n.out := (h2 f).2 ⟨a', hf⟩
      obtain ⟨x, hx⟩ := List.length_eq_one_iff.1 hc
      rw [hx, List.mem_singleton] at hin hfin
      subst hin
      rw [hfin] at hf
      have := h.inj he hf
      simpa using this
  · rintro ⟨ha, hall⟩
    obtain ⟨n, hn⟩ := Dict.mem_keys_iff.1 ha
    refine ⟨(a, n), List.mem_filter.2 ⟨Dict.mem_of_get? hn, ?_⟩, rfl⟩
    simp only [decide_eq_true_eq]
    obtain ⟨h1, h2⟩ := h.out a n hn
    have hself : ∀ e ∈ n.out, g.edges.get? (a, a) = some e := by
      intro e he
      obtain ⟨b, hb⟩ := (h2 e).1 he
      have := hall b ((edge_iff_key h.toCore _ _).2 ⟨e, hb⟩)
      subst this; exact hb
    cases hing : n.out with
    | nil => exact .inl rfl
    | cons e l =>
      right
      have he := hself e (by simp [hing])
      refine ⟨?_, (isFollowedBy_iff h.toCore hn a).2 ((edge_iff_key h.toCore _ _).2 ⟨e, he⟩)⟩
      cases l with
      | nil => rfl
      | cons f l =>
        have hf := hself f (by simp [hing])
        rw [he] at hf
        simp only [Option.some.injEq] at hf
        rw [hing, hf] at h1
        simp at h1

theorem sources_nodup {g : Graph A} (h : WF g) : (sources g).Nodup :=
  List.Nodup.sublist (List.Sublist.map _ List.filter_sublist) h.nodesWF

theorem sinks_nodup {g : Graph A} (h : WF g) : (sinks g).Nodup :=
  List.Nodup.sublist (List.Sublist.map _ List.filter_sublist) h.nodesWF

/-! ### set.pop -/

theorem setPop_spec (pick : List A → Nat) (l : List A) :
    match setPop pick l with
    | none => l = []
    | some (a, l') => l.Perm (a :: l') := by
  cases l with
  | nil => rfl
  | cons x xs =>
    unfold setPop
    simp only
    have hi : pick (x :: xs) % (xs.length + 1) < (x :: xs).length := by
      simp only [List.length_cons]
      exact Nat.mod_lt _ (by omega)
    rw [List.getElem?_eq_getElem hi, Option.getD_some]
    exact (List.getElem_cons_eraseIdx_perm hi).symm

/-! ### closures -/

theorem mem_todo (l todo done : List A) (x : A) :
    x ∈ l.foldl (fun t b => if b ∈ done then t else setAdd t b) todo ↔ x ∈ todo ∨ x ∈ l ∧ x ∉ done := by
  induction l generalizing todo with
  | nil => simp
  | cons b l ih =>
    rw [List.foldl_cons, ih]
    by_cases hb : b ∈ done
    · rw [if_pos hb]
      constructor
      · rintro (h | ⟨h, h'⟩)
        · exact .inl h
        · exact .inr ⟨by simp [h], h'⟩
      · rintro (h | ⟨h, h'⟩)
        · exact .inl h
        · rcases List.mem_cons.1 h with rfl | h
          · exact absurd hb h'
          · exact .inr ⟨h, h'⟩
    · rw [if_neg hb, mem_setAdd']
      constructor
      · rintro ((h | rfl) | ⟨h, h'⟩)
        · exact .inl h
        · exact .inr ⟨by simp, hb⟩
        · exact .inr ⟨by simp [h], h'⟩
      · rintro (h | ⟨h, h'⟩)
        · exact .inl (.inl h)
        · rcases List.mem_cons.1 h with rfl | h
          · exact .inl (.inr rfl)
          · exact .inr ⟨h, h'⟩

theorem nodup_todo (l todo done : List A) (h : todo.Nodup) :
    (l.foldl (fun t b => if b ∈ done then t else setAdd t b) todo).Nodup := by
  induction l generalizing todo with
  | nil => exact h
  | cons b l ih =>
    rw [List.foldl_cons]
    apply ih
    split
    · exact h
    · exact nodup_setAdd' h

theorem length_lt_of_new {nodes done : List A} (hd : done.Nodup) (hs : ∀ x ∈ done, x ∈ nodes) {a : A}
    (ha : a ∈ nodes) (hn : a ∉ done) : done.length < nodes.length := by
  have h1 : (a :: done).Nodup := List.nodup_cons.2 ⟨hn, hd⟩
  have h2 : (a :: done) ⊆ nodes := by
    intro x hx
    rcases List.mem_cons.1 hx with rfl | hx
    · exact ha
    · exact hs x hx
  have := (List.subperm_of_subset h1 h2).length_le
  simp only [List.length_cons] at this
  omega

theorem closureLoop_ok (pick : List A → Nat) (next : A → Py (List A)) (step : A → A → Prop) (nodes S0 : List A)
    (hnext : ∀ a ∈ nodes, ∃ l, next a = .ok l ∧ ∀ b, b ∈ l ↔ step a b)
    (hstep : ∀ a b, step a b → b ∈ nodes) (fuel : Nat) (todo done : List A)
    (htn : todo.Nodup) (hdn : done.Nodup) (hdis : ∀ x ∈ todo, x ∉ done)
    (htin : ∀ x ∈ todo, x ∈ nodes) (hdin : ∀ x ∈ done, x ∈ nodes)
    (hfuel : nodes.length < fuel + done.length)
    (hreach : ∀ x, x ∈ todo ∨ x ∈ done → ∃ s ∈ S0, Reach step s x)
    (hS0 : ∀ s ∈ S0, s ∈ todo ∨ s ∈ done)
    (hclosed : ∀ x ∈ done, ∀ y, step x y → y ∈ todo ∨ y ∈ done) :
    ∃ r, closureLoop pick next fuel todo done = .ok r ∧ r.Nodup ∧ ∀ x, x ∈ r ↔ ∃ s ∈ S0, Reach step s x := by
  induction fuel generalizing todo done with
  | zero =>
    have := (List.subperm_of_subset hdn hdin).length_le
    omega
  | succ fuel ih =>
    unfold closureLoop
    have hpop := setPop_spec pick todo
    cases hp : setPop pick todo with
    | none =>
      rw [hp] at hpop
      simp only at hpop ⊢
      subst hpop
      refine ⟨done, rfl, hdn, ?_⟩
      intro x
      constructor
      · exact fun hx => hreach x (.inr hx)
      · rintro ⟨s, hs, hr⟩
        have hs' : s ∈ done := by simpa using hS0 s hs
        induction hr with
        | refl => exact hs'
        | tail _ hbc ihr => simpa using hclosed _ ihr _ hbc
    | some p =>
      obtain ⟨a, todo'⟩ := p
      rw [hp] at hpop
      simp only at hpop ⊢
      have hmem : ∀ x, x ∈ todo ↔ x = a ∨ x ∈ todo' := by
        intro x; rw [hpop.mem_iff, List.mem_cons]
      have hnd' : a ∉ todo' ∧ todo'.Nodup := List.nodup_cons.1 (hpop.nodup_iff.1 htn)
      have hat : a ∈ todo := (hmem a).2 (.inl rfl)
      have han := htin a hat
      have had : a ∉ done := hdis a hat
      obtain ⟨l, hl, hlm⟩ := hnext a han
      rw [hl]
      have hset : setAdd done a = done ++ [a] := by unfold setAdd; rw [if_neg had]
      show ∃ r, closureLoop pick next fuel (l.foldl (fun t b => if b ∈ setAdd done a then t else setAdd t b) todo')
        (setAdd done a) = .ok r ∧ _
      have hlt := length_lt_of_new hdn hdin han had
      apply ih
      · exact nodup_todo _ _ _ hnd'.2
      · exact nodup_setAdd' hdn
      · intro x hx
        rw [mem_todo] at hx
        rcases hx with hx | hx
        · rw [mem_setAdd']
          rintro (h | rfl)
          · exact hdis x ((hmem x).2 (.inr hx)) h
          · exact hnd'.1 hx
        · exact hx.2
      · intro x hx
        rw [mem_todo] at hx
        rcases hx with hx | hx
        · exact htin x ((hmem x).2 (.inr hx))
        · exact hstep a x ((hlm x).1 hx.1)
      · intro x hx
        rw [mem_setAdd'] at hx
        rcases hx with hx | rfl
        · exact hdin x hx
        · exact han
      · rw [hset]; simp; omega
      · intro x hx
        rw [mem_todo, mem_setAdd'] at hx
        rcases hx with (hx | hx) | (hx | rfl)
        · exact hreach x (.inl ((hmem x).2 (.inr hx)))
        · obtain ⟨s, hs, hr⟩ := hreach a (.inl hat)
          exact ⟨s, hs, hr.tail ((hlm x).1 hx.1)⟩
        · exact hreach x (.inr hx)
        · exact hreach x (.inl hat)
      · intro s hs
        rw [mem_todo, mem_setAdd']
        rcases hS0 s hs with h | h
        · rcases (hmem s).1 h with rfl | h
          · exact .inr (.inr rfl)
          · exact .inl (.inl h)
        · exact .inr (.inl h)
      · intro x hx y hxy
        rw [mem_todo]
        by_cases hy : y ∈ setAdd done a
        · exact .inr hy
        · left
          rw [mem_setAdd'] at hx
          rcases hx with hx | rfl
          · rcases hclosed x hx y hxy with h | h
            · rcases (hmem y).1 h with rfl | h
              · exact absurd (mem_setAdd'.2 (.inr rfl)) hy
              · exact .inl h
            · exact absurd (mem_setAdd'.2 (.inl h)) hy
          · exact .inr ⟨(hlm y).2 hxy, hy⟩

theorem transGen_iff {step : A → A → Prop} (a x : A) :
    (∃ s, step a s ∧ Reach step s x) ↔ Relation.TransGen step a x := by
  rw [Relation.TransGen.head'_iff]

theorem reachable_ok (pick : List A → Nat) {g : Graph A} (h : WF g) {a : A} (ha : a ∈ g.nodes.keys) :
    ∃ r, reachable pick g a = .ok r ∧ r.Nodup ∧ ∀ x, x ∈ r ↔ Relation.TransGen (Edge g) a x := by
  obtain ⟨l, hl, _, hm⟩ := following_ok h.toCore ha
  have hin : ∀ x, x ∈ l → x ∈ g.nodes.keys := fun x hx => (Edge.nodes h ((hm x).1 hx)).2
  obtain ⟨r, h1, h2, h3⟩ := closureLoop_ok pick (following g) (Edge g) g.nodes.keys l
    (fun b hb => by
      obtain ⟨l, h1, _, h2⟩ := following_ok h.toCore hb
      exact ⟨l, h1, h2⟩)
    (fun a b hab => (Edge.nodes h hab).2) (g.nodes.length + 1) (l.foldl setAdd []) []
    (nodup_foldl_setAdd _ _ List.nodup_nil) List.nodup_nil (by simp)
    (fun x hx => hin x (by simpa [mem_foldl_setAdd] using hx)) (by simp) (by simp [Dict.keys])
    (fun x hx => ⟨x, by simpa [mem_foldl_setAdd] using hx, .refl⟩)
    (fun s hs => by simp [mem_foldl_setAdd, hs]) (by simp)
  refine ⟨r, ?_, h2, ?_⟩
  · unfold reachable; rw [hl]; exact h1
  · intro x
    rw [h3, ← transGen_iff]
    simp only [hm]
    rfl

theorem thatReach_ok (pick : List A → Nat) {g : Graph A} (h : WF g) {a : A} (ha : a ∈ g.nodes.keys) :
    ∃ r, thatReach pick g a = .ok r ∧ r.Nodup ∧ ∀ x, x ∈ r ↔ Relation.TransGen (Edge g) x a := by
  obtain ⟨l, hl, _, hm⟩ := preceding_ok h.toCore ha
  have hin : ∀ x, x ∈ l → x ∈ g.nodes.keys := fun x hx => (Edge.nodes h ((hm x).1 hx)).1
  obtain ⟨r, h1, h2, h3⟩ := closureLoop_ok pick (preceding g) (fun a b => Edge g b a) g.nodes.keys l
    (fun b hb => by
      obtain ⟨l, h1, _, h2⟩ := preceding_ok h.toCore hb
      exact ⟨l, h1, h2⟩)
    (fun a b hab => (Edge.nodes h hab).1) (g.nodes.length + 1) (l.foldl setAdd []) []
    (nodup_foldl_setAdd _ _ List.nodup_nil) List.nodup_nil (by simp)
    (fun x hx => hin x (by simpa [mem_foldl_setAdd] using hx)) (by simp) (by simp [Dict.keys])
    (fun x hx => ⟨x, by simpa [mem_foldl_setAdd] using hx, .refl⟩)
    (fun s hs => by simp [mem_foldl_setAdd, hs]) (by simp)
  refine ⟨r, ?_, h2, ?_⟩
  · unfold thatReach; rw [hl]; exact h1
  · intro x
    rw [h3]
    have : Relation.TransGen (Edge g) x a ↔ Relation.TransGen (fun a b => Edge g b a) a x := by
      rw [← Relation.transGen_swap]
    rw [this, ← transGen_iff]
    simp only [hm]
    rfl

/-! ### weakly connected components -/

/-- connected when directions are ignored -/
def Weak (g : Graph A) : A → A → Prop := Reach fun a b => Edge g a b ∨ Edge g b a

theorem Weak.symm {g : Graph A} {a b : A} (h : Weak g a b) : Weak g b a := by
  induction h with
  | refl => exact .refl
  | tail _ hbc ih => exact .head (hbc.symm) ih

theorem foldl_weakStep (l : List A) (st : List A × List A) (hnd : (st.1 ++ st.2).Nodup) :
    ((l.foldl weakStep st).1 ++ (l.foldl weakStep st).2).Perm (st.1 ++ st.2) ∧
    (∀ x ∈ l, x ∉ (l.foldl weakStep st).1) ∧
    (∀ x ∈ (l.foldl weakStep st).1, x ∈ st.1) ∧
    (∀ x ∈ (l.foldl weakStep st).2, x ∈ st.2 ∨ x ∈ l) := by
  induction l generalizing st with
  | nil => exact ⟨List.Perm.refl _, by simp, fun _ h => h, fun _ h => .inl h⟩
  | cons b l ih =>
    rw [List.foldl_cons]
    have hstep : ((weakStep st b).1 ++ (weakStep st b).2).Perm (st.1 ++ st.2) ∧
        b ∉ (weakStep st b).1 ∧ (∀ x ∈ (weakStep st b).1, x ∈ st.1) ∧
        (∀ x ∈ (weakStep st b).2, x ∈ st.2 ∨ x = b) := by
      unfold weakStep
      split
      · rename_i hb
        have hnd1 : st.1.Nodup := (List.nodup_append.1 hnd).1
        refine ⟨?_, fun hc => (hnd1.mem_erase_iff.1 hc).1 rfl, fun x hx => List.mem_of_mem_erase hx, ?_⟩
        · simp only
          refine List.perm_middle.trans ?_
          rw [← List.cons_append]
          exact (List.perm_cons_erase hb).symm.append_right _
        · intro x hx
          rcases List.mem_cons.1 hx with rfl | hx
          · exact .inr rfl
          · exact .inl hx
      · rename_i hb
        exact ⟨List.Perm.refl _, hb, fun _ h => h, fun _ h => .inl h⟩
    obtain ⟨s1, s2, s3, s4⟩ := hstep
    obtain ⟨i1, i2, i3, i4⟩ := ih (weakStep st b) (s1.nodup_iff.2 hnd)
    refine ⟨i1.trans s1, ?_, fun x hx => s3 x (i3 x hx), ?_⟩
    · intro x hx hc
      rcases List.mem_cons.1 hx with rfl | hx
      · exact s2 (i3 x hc)
      · exact i2 x hx hc
    · intro x hx
      rcases i4 x hx with h | h
      · rcases s4 x h with h | rfl
        · exact .inl h
        · exact .inr (by simp)
      · exact .inr (by simp [h])

theorem weakLoop_ok {g : Graph A} (h : WF g) (s : A) (U0 : List A) (hU0 : ∀ x ∈ U0, x ∈ g.nodes.keys)
    (hclosed0 : ∀ x ∈ U0, ∀ y, Weak g x y → y ∈ U0) (fuel : Nat) (unseen stack comp : List A)
    (hperm : (unseen ++ stack ++ comp).Perm U0) (hnd : U0.Nodup) (hfuel : unseen.length + stack.length < fuel)
    (hs : s ∈ stack ∨ s ∈ comp)
    (hclass : ∀ x, x ∈ stack ∨ x ∈ comp → Weak g s x)
    (hdone : ∀ x ∈ comp, ∀ y, Edge g x y ∨ Edge g y x → y ∉ unseen) :
    ∃ r, weakLoop g fuel unseen stack comp = .ok r ∧ (r.1 ++ r.2).Perm U0 ∧
      ∀ x, x ∈ r.2 ↔ Weak g s x := by
  induction fuel generalizing unseen stack comp with
  | zero => omega
  | succ fuel ih =>
    cases stack with
    | nil =>
      refine ⟨(unseen, comp), rfl, by simpa using hperm, ?_⟩
      intro x
      constructor
      · exact fun hx => hclass x (.inr hx)
      · intro hx
        have hs' : s ∈ comp := by simpa using hs
        induction hx with
        | refl => exact hs'
        | @tail b c hsb hbc ihr =>
          have hnu := hdone b ihr c hbc
          have hcU : c ∈ U0 := hclosed0 s (hperm.mem_iff.1 (by simp [hs'])) c (hsb.tail hbc)
          have := hperm.mem_iff.2 hcU
          simp only [List.append_nil, List.mem_append] at this
          exact this.resolve_left hnu
    | cons a stack =>
      have haU : a ∈ U0 := hperm.mem_iff.1 (by simp)
      have han := hU0 a haU
      obtain ⟨ps, hps, _, hpm⟩ := preceding_ok h.toCore han
      obtain ⟨fs, hfs, _, hfm⟩ := following_ok h.toCore han
      have hndall : (unseen ++ (a :: stack) ++ comp).Nodup := hperm.nodup_iff.2 hnd
      have hnd1 : (unseen ++ stack).Nodup := by
        refine List.Nodup.sublist ?_ hndall
        rw [List.append_assoc]
        refine List.Sublist.append_left ?_ _
        exact (List.Sublist.cons _ (List.Sublist.refl _)).trans (List.sublist_append_left _ _)
      obtain ⟨w1, w2, w3, w4⟩ := foldl_weakStep (ps ++ fs) (unseen, stack) hnd1
      unfold weakLoop
      rw [hps]
      show ∃ r, (following g a >>= _) = _ ∧ _
      rw [hfs]
      show ∃ r, weakLoop g fuel ((ps ++ fs).foldl weakStep (unseen, stack)).1
        ((ps ++ fs).foldl weakStep (unseen, stack)).2 (comp ++ [a]) = .ok r ∧ _
      generalize (ps ++ fs).foldl weakStep (unseen, stack) = st at *
      simp only at w1 w3 w4
      have hlen := w1.length_eq
      simp only [List.length_append, List.length_cons] at hlen hfuel
      apply ih
      · refine List.Perm.trans ?_ hperm
        have e1 : (st.1 ++ st.2 ++ (comp ++ [a])).Perm (unseen ++ stack ++ (comp ++ [a])) := w1.append_right _
        refine e1.trans ?_
        rw [List.append_assoc, List.append_assoc]
        apply List.Perm.append_left
        rw [← List.append_assoc]
        exact List.perm_append_comm
      · omega
      · rcases hs with hs | hs
        · rcases List.mem_cons.1 hs with rfl | hs
          · exact .inr (by simp)
          · have h1 : s ∈ st.1 ++ st.2 := w1.mem_iff.2 (by simp [hs])
            rcases List.mem_append.1 h1 with h1 | h1
            · have := w3 s h1
              exact absurd rfl ((List.nodup_append.1 hnd1).2.2 s this s hs)
            · exact .inl h1
        · exact .inr (by simp [hs])
      · intro x hx
        have ha' := hclass a (.inl (by simp))
        rcases hx with hx | hx
        · rcases w4 x hx with hx | hx
          · exact hclass x (.inl (by simp [hx]))
          · refine ha'.tail ?_
            rcases List.mem_append.1 hx with hx | hx
            · exact .inr ((hpm x).1 hx)
            · exact .inl ((hfm x).1 hx)
        · rcases List.mem_append.1 hx with hx | hx
          · exact hclass x (.inr hx)
          · rw [List.mem_singleton.1 hx]; exact ha'
      · intro x hx y hxy hy
        rcases List.mem_append.1 hx with hx | hx
        · exact hdone x hx y hxy (w3 y hy)
        · rw [List.mem_singleton.1 hx] at hxy
          refine w2 y ?_ hy
          rw [List.mem_append]
          rcases hxy with hxy | hxy
          · exact .inr ((hfm y).2 hxy)
          · exact .inl ((hpm y).2 hxy)

theorem weakComponentsLoop_ok (pick : List A → Nat) {g : Graph A} (h : WF g) (fuel : Nat) (unseen : List A)
    (comps : List (List A)) (hperm : (comps.flatten ++ unseen).Perm g.nodes.keys)
    (hfuel : unseen.length < fuel) (hclosed : ∀ x ∈ unseen, ∀ y, Weak g x y → y ∈ unseen)
    (hc : ∀ c ∈ comps, ∃ s ∈ c, ∀ x, x ∈ c ↔ Weak g s x) :
    ∃ r, weakComponentsLoop pick g fuel unseen comps = .ok r ∧ r.flatten.Perm g.nodes.keys ∧
      ∀ c ∈ r, ∃ s ∈ c, ∀ x, x ∈ c ↔ Weak g s x := by
  induction fuel generalizing unseen comps with
  | zero => omega
  | succ fuel ih =>
    unfold weakComponentsLoop
    have hpop := setPop_spec pick unseen
    cases hp : setPop pick unseen with
    | none =>
      rw [hp] at hpop
      simp only at hpop ⊢
      subst hpop
      exact ⟨comps, rfl, by simpa using hperm, hc⟩
    | some p =>
      obtain ⟨a, unseen'⟩ := p
      rw [hp] at hpop
      simp only at hpop ⊢
      have hndk : g.nodes.keys.Nodup := h.nodesWF
      have hnd : unseen.Nodup := (List.nodup_append.1 (hperm.nodup_iff.2 hndk)).2.1
      have hsub : unseen.length ≤ g.nodes.length := by
        have := hperm.length_eq
        simp [Dict.keys] at this
        omega
      have hlen := hpop.length_eq
      simp only [List.length_cons] at hlen
      obtain ⟨r, r1, r2, r3⟩ := weakLoop_ok h a unseen
        (fun x hx => hperm.mem_iff.1 (by simp [hx])) hclosed (g.nodes.length + 1) unseen' [a] []
        (by
          simp only [List.append_nil]
          exact List.perm_append_comm.trans hpop.symm) hnd (by simp; omega) (.inl (by simp))
        (by
          rintro x (hx | hx)
          · rw [List.mem_singleton.1 hx]; exact .refl
          · cases hx) (by simp)
      rw [r1]
      show ∃ r', weakComponentsLoop pick g fuel r.1 (comps ++ [r.2]) = .ok r' ∧ _
      have har : a ∈ r.2 := (r3 a).2 .refl
      have hrl := r2.length_eq
      simp only [List.length_append] at hrl
      have : 0 < r.2.length := List.length_pos_of_mem har
      apply ih
      · refine List.Perm.trans ?_ hperm
        rw [List.flatten_append, List.append_assoc]
        apply List.Perm.append_left
        simp only [List.flatten_cons, List.flatten_nil, List.append_nil]
        exact List.perm_append_comm.trans r2
      · omega
      · intro x hx y hxy
        have hy : y ∈ unseen := hclosed x (r2.mem_iff.1 (by simp [hx])) y hxy
        have hy' := r2.mem_iff.2 hy
        rcases List.mem_append.1 hy' with h' | h'
        · exact h'
        · have hx2 : x ∈ r.2 := (r3 x).2 (((r3 y).1 h').trans hxy.symm)
          have := r2.nodup_iff.2 hnd
          exact absurd rfl ((List.nodup_append.1 this).2.2 x hx x hx2)
      · intro c hcm
        rcases List.mem_append.1 hcm with hcm | hcm
        · exact hc c hcm
        · rw [List.mem_singleton.1 hcm]
          exact ⟨a, har, r3⟩

theorem weakComponents_ok (pick : List A → Nat) {g : Graph A} (h : WF g) :
    ∃ r, weakComponents pick g = .ok r ∧ r.flatten.Perm g.nodes.keys ∧
      ∀ c ∈ r, ∃ s ∈ c, ∀ x, x ∈ c ↔ Weak g s x := by
  refine weakComponentsLoop_ok pick h _ _ _ (by simp) (by simp [Dict.keys]) ?_ (by simp)
  intro x hx y hxy
  cases hxy with
  | refl => exact hx
  | tail _ hbc =>
    rcases hbc with hbc | hbc
    · exact (Edge.nodes h hbc).2
    · exact (Edge.nodes h hbc).1

/-! ### select_nodes -/

theorem selectLoop_ok (keep : A → Bool) (l : List A) (hl : l.Nodup) {g : Graph A} (h : WF g)
    (hin : ∀ a ∈ l, a ∈ g.nodes.keys) :
    ∃ f, l.foldlM (fun c a => if keep a then .ok c else removeNode c a) g = .ok f ∧ WF f ∧
      (∀ x, x ∈ f.nodes.keys ↔ x ∈ g.nodes.keys ∧ (x ∈ l → keep x = true)) ∧
      ∀ x y, cnt f x y = if (x ∈ l → keep x = true) ∧ (y ∈ l → keep y = true) then cnt g x y else none := by
  induction l generalizing g with
  | nil => exact ⟨g, rfl, h, by simp, by simp⟩
  | cons a l ih =>
    rw [List.nodup_cons] at hl
    rw [List.foldlM_cons]
    by_cases hk : keep a = true
    · rw [if_pos hk]
      obtain ⟨f, i1, i2, i3, i4⟩ := ih hl.2 h fun x hx => hin x (by simp [hx])
      have hiff : ∀ x, (x ∈ a :: l → keep x = true) ↔ (x ∈ l → keep x = true) := by
        intro x
        constructor
        · exact fun hh hx => hh (by simp [hx])
        · intro hh hx
          rcases List.mem_cons.1 hx with rfl | hx
          · exact hk
          · exact hh hx
      refine ⟨f, i1, i2, ?_, ?_⟩
      · intro x; rw [i3, hiff]
      · intro x y; rw [i4]; simp only [hiff]
    · rw [if_neg hk]
      obtain ⟨g1, r1, r2, r3, r4⟩ := removeNode_plain h (hin a (by simp))
      have hndk : g.nodes.keys.Nodup := h.nodesWF
      obtain ⟨f, i1, i2, i3, i4⟩ := ih hl.2 r2 fun x hx => by
        rw [r3, hndk.mem_erase_iff]
        exact ⟨fun hc => hl.1 (hc ▸ hx), hin x (by simp [hx])⟩
      rw [r1]
      have hiff : ∀ x, (x ∈ a :: l → keep x = true) ↔ x ≠ a ∧ (x ∈ l → keep x = true) := by
        intro x
        constructor
        · intro hh
          refine ⟨?_, fun hx => hh (by simp [hx])⟩
          rintro rfl
          exact hk (hh (by simp))
        · rintro ⟨h1, h2⟩ hx
          rcases List.mem_cons.1 hx with rfl | hx
          · exact absurd rfl h1
          · exact h2 hx
      refine ⟨f, i1, i2, ?_, ?_⟩
      · intro x
        rw [i3, r3, hndk.mem_erase_iff, hiff]; tauto
      · intro x y
        rw [i4, r4]
        simp only [hiff]
        by_cases hxa : x = a <;> by_cases hya : y = a <;> simp [hxa, hya]

theorem selectNodes_ok {g : Graph A} (h : WF g) (keep : A → Bool) :
    ∃ f, selectNodes g keep = .ok f ∧ WF f ∧
      (∀ x, x ∈ f.nodes.keys ↔ x ∈ g.nodes.keys ∧ keep x = true) ∧
      ∀ x y, cnt f x y = if keep x = true ∧ keep y = true then cnt g x y else none := by
  obtain ⟨c1, c2, c3⟩ := copy_ok h
  obtain ⟨f, i1, i2, i3, i4⟩ := selectLoop_ok keep (copy g).nodes.keys c1.nodesWF c1 fun _ h => h
  refine ⟨f, i1, i2, ?_, ?_⟩
  · intro x
    rw [i3, c2]
    constructor
    · exact fun hh => ⟨hh.1, hh.2 hh.1⟩
    · exact fun hh => ⟨hh.1, fun _ => hh.2⟩
  · intro x y
    rw [i4, c3, c2]
    cases hc : cnt g x y with
    | none => simp
    | some c =>
      have := h.node_of_cnt hc
      simp [this.1, this.2]

/-! ### pruning -/

/-- a node that must go: not allowed and all its other predecessors (with respect to `into`) go -/
inductive Forced (into : A → A → Prop) (allowed : A → Bool) : A → Prop
  | intro (a : A) (h : allowed a = false) (hp : ∀ b, into b a → b ≠ a → Forced into allowed b) :
      Forced into allowed a

theorem pruneFold_ok (allowed : A → Bool) (l : List A) (hl : l.Nodup) (st : Graph A × Bool) (h : WF st.1)
    (hin : ∀ a ∈ l, a ∈ st.1.nodes.keys) :
    ∃ r, l.foldlM (pruneStep allowed) st = .ok r ∧ WF r.1 ∧
      (r.2 = true ↔ st.2 = true ∨ ∃ a ∈ l, allowed a = false) ∧
      r.1.nodes.keys.length + (l.filter fun a => !allowed a).length = st.1.nodes.keys.length ∧
      (∀ x, x ∈ r.1.nodes.keys ↔ x ∈ st.1.nodes.keys ∧ ¬ (x ∈ l ∧ allowed x = false)) ∧
      ∀ x y, cnt r.1 x y = if (x ∈ l ∧ allowed x = false) ∨ (y ∈ l ∧ allowed y = false) then none
        else cnt st.1 x y := by
  induction l generalizing st with
  | nil => exact ⟨st, rfl, h, by simp, by simp, by simp, by simp⟩
  | cons a l ih =>
    rw [List.nodup_cons] at hl
    rw [List.foldlM_cons]
    unfold pruneStep
    by_cases hk : allowed a = true
    · rw [if_pos hk]
      obtain ⟨r, i1, i2, i3, i4, i5, i6⟩ := ih hl.2 st h fun x hx => hin x (by simp [hx])
      have hiff : ∀ x, (x ∈ a :: l ∧ allowed x = false) ↔ (x ∈ l ∧ allowed x = false) := by
        intro x
        rw [List.mem_cons]
        constructor
        · rintro ⟨rfl | hx, h'⟩
          · rw [hk] at h'; cases h'
          · exact ⟨hx, h'⟩
        · exact fun hh => ⟨.inr hh.1, hh.2⟩
      refine ⟨r, i1, i2, ?_, ?_, ?_, ?_⟩
      · rw [i3]
        simp only [hiff]
      · rw [List.filter_cons_of_neg (by simp [hk])]; exact i4
      · intro x; rw [i5, hiff]
      · intro x y; rw [i6]; simp only [hiff]
    · rw [if_neg hk]
      have hk' : allowed a = false := by simpa using hk
      obtain ⟨g1, r1, r2, r3, r4⟩ := removeNode_plain h (hin a (by simp))
      have hndk : st.1.nodes.keys.Nodup := h.nodesWF
      obtain ⟨r, i1, i2, i3, i4, i5, i6⟩ := ih hl.2 (g1, true) r2 fun x hx => by
        show x ∈ g1.nodes.keys
        rw [r3, hndk.mem_erase_iff]
        exact ⟨fun hc => hl.1 (hc ▸ hx), hin x (by simp [hx])⟩
      simp only at i3 i4 i5 i6
      have hiff : ∀ x, (x ∈ a :: l ∧ allowed x = false) ↔ x = a ∨ (x ∈ l ∧ allowed x = false) := by
        intro x
        rw [List.mem_cons]
        constructor
        · rintro ⟨rfl | hx, h'⟩
          · exact .inl rfl
          · exact .inr ⟨hx, h'⟩
        · rintro (rfl | hh)
          · exact ⟨.inl rfl, hk'⟩
          · exact ⟨.inr hh.1, hh.2⟩
      refine ⟨r, ?_, i2, ?_, ?_, ?_, ?_⟩
      · rw [r1]; exact i1
      · rw [i3]
        simp only [true_or, true_iff]
        exact .inr ⟨a, by simp, hk'⟩
      · rw [List.filter_cons_of_pos (by simp [hk']), List.length_cons]
        have : st.1.nodes.keys.length = g1.nodes.keys.length + 1 := by
          rw [r3, List.length_erase_of_mem (hin a (by simp))]
          have := List.length_pos_of_mem (hin a (by simp))
          omega
        omega
      · intro x
        rw [i5, r3, hndk.mem_erase_iff, hiff]; tauto
      · intro x y
        rw [i6, r4]
        simp only [hiff]
        by_cases hxa : x = a <;> by_cases hya : y = a <;> simp [hxa, hya]

theorem prune_ok (ends : Graph A → List A) (into : Graph A → A → A → Prop) (allowed : A → Bool)
    (hends : ∀ g : Graph A, WF g → (ends g).Nodup ∧ ∀ a, a ∈ ends g ↔ a ∈ g.nodes.keys ∧ ∀ b, into g b a → b = a)
    (hinto : ∀ (g g' : Graph A) (K : A → Prop), WF g → (∀ x y, cnt g' x y = cnt g x y ∨ (¬ (K x ∧ K y) ∧ cnt g' x y = none)) →
      (∀ x y, K x → K y → cnt g' x y = cnt g x y) → (∀ b a, K b → K a → (into g' b a ↔ into g b a)))
    (hkeysinto : ∀ g : Graph A, WF g → ∀ b a, into g b a → b ∈ g.nodes.keys ∧ a ∈ g.nodes.keys)
    (g0 : Graph A) (h0 : WF g0) (fuel : Nat) (g : Graph A) (h : WF g) (hfuel : g.nodes.keys.length < fuel)
    (hsub : ∀ x ∈ g.nodes.keys, x ∈ g0.nodes.keys)
    (hforced : ∀ x ∈ g0.nodes.keys, x ∉ g.nodes.keys → Forced (into g0) allowed x)
    (hcnt : ∀ x y, x ∈ g.nodes.keys → y ∈ g.nodes.keys → cnt g x y = cnt g0 x y) :
    ∃ r, prune ends allowed fuel g = .ok r ∧ WF r ∧
      (∀ x, x ∈ r.nodes.keys ↔ x ∈ g0.nodes.keys ∧ ¬ Forced (into g0) allowed x) ∧
      ∀ x y, x ∈ r.nodes.keys → y ∈ r.nodes.keys → cnt r x y = cnt g0 x y := by
  induction fuel generalizing g with
  | zero => omega
  | succ fuel ih =>
    obtain ⟨hnd, hmem⟩ := hends g h
    obtain ⟨r, p1, p2, p3, p4, p5, p6⟩ := pruneFold_ok allowed (ends g) hnd (g, false) h
      fun a ha => ((hmem a).1 ha).1
    simp only at p3 p4 p5 p6
    have hoff : ∀ x y, ¬ (x ∈ g.nodes.keys ∧ y ∈ g.nodes.keys) → cnt g x y = none := by
      intro x y hxy
      cases hc : cnt g x y with
      | none => rfl
      | some c => exact absurd (h.node_of_cnt hc) hxy
    have hintog : ∀ b a, b ∈ g.nodes.keys → a ∈ g.nodes.keys → (into g b a ↔ into g0 b a) := by
      refine hinto g0 g (· ∈ g.nodes.keys) h0 ?_ hcnt
      intro x y
      by_cases hxy : x ∈ g.nodes.keys ∧ y ∈ g.nodes.keys
      · exact .inl (hcnt x y hxy.1 hxy.2)
      · exact .inr ⟨hxy, hoff x y hxy⟩
    unfold prune
    rw [p1]
    show ∃ r', (if r.2 then prune ends allowed fuel r.1 else .ok r.1) = .ok r' ∧ _
    by_cases hflag : r.2 = true
    · rw [if_pos hflag]
      have hex := (p3.1 hflag).resolve_left (by simp)
      apply ih r.1 p2
      · obtain ⟨a, ha, hna⟩ := hex
        have : 0 < ((ends g).filter fun a => !allowed a).length :=
          List.length_pos_of_mem (List.mem_filter.2 ⟨ha, by simp [hna]⟩)
        omega
      · intro x hx
        exact hsub x ((p5 x).1 hx).1
      · intro x hx hxr
        by_cases hxg : x ∈ g.nodes.keys
        · rw [p5] at hxr
          have hxe : x ∈ ends g ∧ allowed x = false := by
            by_contra hc
            exact hxr ⟨hxg, hc⟩
          refine .intro x hxe.2 fun b hb hne => ?_
          have hbk := (hkeysinto g0 h0 b x hb).1
          apply hforced b hbk
          intro hbg
          exact hne (((hmem x).1 hxe.1).2 b ((hintog b x hbg hxg).2 hb))
        · exact hforced x hx hxg
      · intro x y hx hy
        have hx' := (p5 x).1 hx
        have hy' := (p5 y).1 hy
        rw [p6, if_neg (by tauto)]
        exact hcnt x y hx'.1 hy'.1
    · rw [if_neg hflag]
      have hno : ∀ a ∈ ends g, allowed a = true := by
        intro a ha
        by_contra hc
        exact hflag (p3.2 (.inr ⟨a, ha, by simpa using hc⟩))
      have hkeys : ∀ x, x ∈ r.1.nodes.keys ↔ x ∈ g.nodes.keys := by
        intro x
        rw [p5]
        constructor
        · exact fun hh => hh.1
        · refine fun hh => ⟨hh, ?_⟩
          rintro ⟨h1, h2⟩
          rw [hno x h1] at h2; cases h2
      refine ⟨r.1, rfl, p2, ?_, ?_⟩
      · intro x
        rw [hkeys]
        constructor
        · intro hx
          refine ⟨hsub x hx, ?_⟩
          intro hf
          induction hf with
          | intro a hna _ ihf =>
            have : a ∈ ends g := by
              rw [hmem]
              refine ⟨hx, fun b hb => ?_⟩
              by_contra hne
              have hbg := (hkeysinto g h b a hb).1
              exact ihf b ((hintog b a hbg hx).1 hb) hne hbg
            rw [hno a this] at hna; cases hna
        · rintro ⟨hx, hnf⟩
          by_contra hc
          exact hnf (hforced x hx hc)
      · intro x y hx hy
        rw [p6, if_neg]
        · exact hcnt x y ((hkeys x).1 hx) ((hkeys y).1 hy)
        · rintro (⟨h1, h2⟩ | ⟨h1, h2⟩)
          · rw [hno _ h1] at h2; cases h2
          · rw [hno _ h1] at h2; cases h2

theorem removeNotAllowedStart_ok {g : Graph A} (h : WF g) (allowed : A → Bool) :
    ∃ r, removeNotAllowedStart g allowed = .ok r ∧ WF r ∧
      (∀ x, x ∈ r.nodes.keys ↔ x ∈ g.nodes.keys ∧ ¬ Forced (Edge g) allowed x) ∧
      ∀ x y, x ∈ r.nodes.keys → y ∈ r.nodes.keys → cnt r x y = cnt g x y :=
  prune_ok sources Edge allowed (fun g hg => ⟨sources_nodup hg, mem_sources hg⟩)
    (fun g g' K _ _ h2 b a hb ha => by unfold Edge; rw [h2 b a hb ha])
    (fun g hg b a hba => Edge.nodes hg hba) g h _ g h (by simp [Dict.keys]) (fun _ h => h)
    (fun x h1 h2 => absurd h1 h2) (fun _ _ _ _ => rfl)

theorem removeNotAllowedEnd_ok {g : Graph A} (h : WF g) (allowed : A → Bool) :
    ∃ r, removeNotAllowedEnd g allowed = .ok r ∧ WF r ∧
      (∀ x, x ∈ r.nodes.keys ↔ x ∈ g.nodes.keys ∧ ¬ Forced (fun b a => Edge g a b) allowed x) ∧
      ∀ x y, x ∈ r.nodes.keys → y ∈ r.nodes.keys → cnt r x y = cnt g x y :=
  prune_ok sinks (fun g b a => Edge g a b) allowed (fun g hg => ⟨sinks_nodup hg, mem_sinks hg⟩)
    (fun g g' K _ _ h2 b a hb ha => by unfold Edge; rw [h2 a b ha hb])
    (fun g hg b a hba => (Edge.nodes hg hba).symm) g h _ g h (by simp [Dict.keys]) (fun _ h => h)
    (fun x h1 h2 => absurd h1 h2) (fun _ _ _ _ => rfl)

end Prolothar.Dfg
