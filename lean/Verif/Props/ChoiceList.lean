import Verif.Lemmas.ChoiceList
import Mathlib.Data.List.Pairwise
/-
The choice between any number of activity patterns.
-/
namespace Prolothar.ActivityPattern
open Prolothar.Petri
open Prolothar.Spec.Petri

section
variable {l : List Item} {n0 n : Net} (hm : Multi l n0) (hv : ∀ e ∈ l, e.1.Valid)
include hm

theorem multi_pre (x : String) : (InPre n0 x ↔ ∃ e ∈ l, ∃ p, InPre e.1.net p ∧ e.2.1 p = x) ∧ (InPost n0 x ↔ ∃ e ∈ l, ∃ p, InPost e.1.net p ∧ e.2.1 p = x) := by
  refine ⟨⟨?_, ?_⟩, ?_, ?_⟩
  · rintro ⟨t, ht, hx⟩
    obtain ⟨e, he, u, hu, rfl⟩ := (hm.trans t).1 ht
    rw [(hm.fb e he u hu).1] at hx
    obtain ⟨p, hp, rfl⟩ := List.mem_map.1 hx
    exact ⟨e, he, p, ⟨u, hu, hp⟩, rfl⟩
  · rintro ⟨e, he, p, ⟨u, hu, hp⟩, rfl⟩
    exact ⟨_, (hm.trans _).2 ⟨e, he, u, hu, rfl⟩, by rw [(hm.fb e he u hu).1]; exact List.mem_map.2 ⟨p, hp, rfl⟩⟩
  · rintro ⟨t, ht, hx⟩
    obtain ⟨e, he, u, hu, rfl⟩ := (hm.trans t).1 ht
    rw [(hm.fb e he u hu).2.1] at hx
    obtain ⟨p, hp, rfl⟩ := List.mem_map.1 hx
    exact ⟨e, he, p, ⟨u, hu, hp⟩, rfl⟩
  · rintro ⟨e, he, p, ⟨u, hu, hp⟩, rfl⟩
    exact ⟨_, (hm.trans _).2 ⟨e, he, u, hu, rfl⟩, by rw [(hm.fb e he u hu).2.1]; exact List.mem_map.2 ⟨p, hp, rfl⟩⟩

include hv

theorem multi_part {ps : List String} {ts : List (String × List String × List String)} (hn : Added n0 n ps ts) {d : Dict String String}
    (hd : ∀ e ∈ l, ∀ t ∈ e.1.net.transitions, d.get? (e.2.2 t) = e.1.map.get? t) {e : Item} (he : e ∈ l) (h : Heap) (s t : String) :
    Part (e.1.sys h (srcOf e.1) (snkOf e.1)) (Pattern.sys h ⟨n, d⟩ s t) (· ∈ e.1.net.places) e.2.1 e.2.2 := by
  have hg := (hv e he).good
  have hin : ∀ u ∈ e.1.net.transitions, e.2.2 u ∈ n0.transitions := fun u hu => (hm.trans _).2 ⟨e, he, u, hu, rfl⟩
  exact
  { inj := fun p q hp hq => hm.inj e he p hp q hq
    ok := fun u hu => ⟨by show e.2.2 u ∈ n.transitions; rw [hn.trans]; exact List.mem_append_left _ (hin u hu.1), by
      show (n.guard (e.2.2 u)).accept h = _; rw [(hn.old _ (hin u hu.1)).2.2.1, (hm.fb e he u hu.1).2.2.1]; exact hu.2⟩
    pre := fun u hu x => by
      show x ∈ n.pre (e.2.2 u) ↔ _
      rw [(hn.old _ (hin u hu.1)).1, (hm.fb e he u hu.1).1]
      exact List.mem_map
    post := fun u hu x => by
      show x ∈ n.post (e.2.2 u) ↔ _
      rw [(hn.old _ (hin u hu.1)).2.1, (hm.fb e he u hu.1).2.1]
      exact List.mem_map
    obs := fun u hu => by
      show (if n.visible (e.2.2 u) then some (n.transLabel (e.2.2 u), d.get? (e.2.2 u)) else none) =
        if e.1.net.visible u then some (e.1.net.transLabel u, e.1.map.get? u) else none
      rw [(hn.old _ (hin u hu.1)).2.2.2.1, (hn.old _ (hin u hu.1)).2.2.2.2, (hm.fb e he u hu.1).2.2.2.1, (hm.fb e he u hu.1).2.2.2.2, hd e he u hu.1]
    pre_pl := fun u hu => (hg.wf.pre u hu.1).2
    post_pl := fun u hu => (hg.wf.post u hu.1).2
    pre_ne := fun u hu => hg.pre_ne u hu.1
    src_pl := hg.source_mem
    snk_pl := hg.sink_mem
    snk_out := fun u hu hx => ((hg.sink _).2 rfl).2 ⟨u, hu.1, hx⟩ }

/-- the transitions from the new source and to the new sink -/
def choiceNew (l : List Item) (S E : String) : List (String × List String × List String) :=
  (l.map fun e => (S ++ "," ++ e.2.1 (srcOf e.1), [S], [e.2.1 (srcOf e.1)])) ++
    l.map fun e => (e.2.1 (snkOf e.1) ++ "," ++ E, [e.2.1 (snkOf e.1)], [E])

omit hm hv in
theorem mem_choiceNew {S E : String} {x : String × List String × List String} : x ∈ choiceNew l S E ↔
    (∃ e ∈ l, x = (S ++ "," ++ e.2.1 (srcOf e.1), [S], [e.2.1 (srcOf e.1)])) ∨
    ∃ e ∈ l, x = (e.2.1 (snkOf e.1) ++ "," ++ E, [e.2.1 (snkOf e.1)], [E]) := by
  unfold choiceNew
  simp only [List.mem_append, List.mem_map, eq_comm]

theorem multi_good {S E : String} (hne : l ≠ []) (hS : S ∉ n0.places) (hE : E ∉ n0.places) (hSE : S ≠ E) (hn : Added n0 n [S, E] (choiceNew l S E))
    {d : Dict String String} (hd : ∀ e ∈ l, ∀ t ∈ e.1.net.transitions, d.get? (e.2.2 t) = e.1.map.get? t) : Pattern.Good ⟨n, d⟩ S E := by
  have hpl : ∀ e ∈ l, ∀ p ∈ e.1.net.places, e.2.1 p ∈ n0.places := fun e he p hp => (hm.places _).2 ⟨e, he, p, hp, rfl⟩
  have hold : ∀ x, InPre n0 x ∨ InPost n0 x → x ∈ n0.places := by
    rintro x (⟨t, ht, hx⟩ | ⟨t, ht, hx⟩)
    · exact (hm.wf.pre t ht).2 x hx
    · exact (hm.wf.post t ht).2 x hx
  have hnew : ∀ x, ((∃ y ∈ choiceNew l S E, x ∈ y.2.1) ↔ x = S ∨ ∃ e ∈ l, x = e.2.1 (snkOf e.1)) ∧
      ((∃ y ∈ choiceNew l S E, x ∈ y.2.2) ↔ x = E ∨ ∃ e ∈ l, x = e.2.1 (srcOf e.1)) := by
    obtain ⟨e0, he0⟩ := List.exists_mem_of_ne_nil _ hne
    intro x
    refine ⟨⟨?_, ?_⟩, ?_, ?_⟩
    · rintro ⟨y, hy, hx⟩
      rcases mem_choiceNew.1 hy with ⟨e, he, rfl⟩ | ⟨e, he, rfl⟩
      · exact .inl (List.mem_singleton.1 hx)
      · exact .inr ⟨e, he, List.mem_singleton.1 hx⟩
    · rintro (rfl | ⟨e, he, rfl⟩)
      · exact ⟨_, mem_choiceNew.2 (.inl ⟨e0, he0, rfl⟩), List.mem_singleton_self _⟩
      · exact ⟨_, mem_choiceNew.2 (.inr ⟨e, he, rfl⟩), List.mem_singleton_self _⟩
    · rintro ⟨y, hy, hx⟩
      rcases mem_choiceNew.1 hy with ⟨e, he, rfl⟩ | ⟨e, he, rfl⟩
      · exact .inr ⟨e, he, List.mem_singleton.1 hx⟩
      · exact .inl (List.mem_singleton.1 hx)
    · rintro (rfl | ⟨e, he, rfl⟩)
      · exact ⟨_, mem_choiceNew.2 (.inr ⟨e0, he0, rfl⟩), List.mem_singleton_self _⟩
      · exact ⟨_, mem_choiceNew.2 (.inl ⟨e, he, rfl⟩), List.mem_singleton_self _⟩
  refine ⟨hn.wf, hn.tokens, ?_, ?_, ?_, ?_⟩
  · intro x
    show IsSource n.transitions n.pre n.post x ↔ _
    rw [isSource_iff, (extend_pre hn x).1, (extend_pre hn x).2, (hnew x).1, (hnew x).2]
    constructor
    · rintro ⟨h1 | rfl | ⟨e, he, rfl⟩, h2⟩
      · rw [not_or, not_or] at h2
        obtain ⟨e, he, p, hp, rfl⟩ := (multi_pre hm x).1.1 h1
        have hp' : p = srcOf e.1 := ((hv e he).good.source p).1 ⟨hp, fun hq => h2.1 ((multi_pre hm _).2.2 ⟨e, he, p, hq, rfl⟩)⟩
        exact absurd ⟨e, he, by rw [hp']⟩ h2.2.2
      · rfl
      · rw [not_or] at h2
        exact absurd ((multi_pre hm _).2.2 ⟨e, he, _, (((hv e he).good.sink _).2 rfl).1, rfl⟩) h2.1
    · rintro rfl
      refine ⟨.inr (.inl rfl), ?_⟩
      rintro (h | h | ⟨e, he, h⟩)
      · exact hS (hold _ (.inr h))
      · exact hSE h
      · exact hS (h ▸ hpl e he _ (hv e he).good.source_mem)
  · intro x
    show IsSink n.transitions n.pre n.post x ↔ _
    rw [isSink_iff, (extend_pre hn x).1, (extend_pre hn x).2, (hnew x).1, (hnew x).2]
    constructor
    · rintro ⟨h1 | rfl | ⟨e, he, rfl⟩, h2⟩
      · rw [not_or, not_or] at h2
        obtain ⟨e, he, p, hp, rfl⟩ := (multi_pre hm x).2.1 h1
        have hp' : p = snkOf e.1 := ((hv e he).good.sink p).1 ⟨hp, fun hq => h2.1 ((multi_pre hm _).1.2 ⟨e, he, p, hq, rfl⟩)⟩
        exact absurd ⟨e, he, by rw [hp']⟩ h2.2.2
      · rfl
      · rw [not_or] at h2
        exact absurd ((multi_pre hm _).1.2 ⟨e, he, _, (((hv e he).good.source _).2 rfl).1, rfl⟩) h2.1
    · rintro rfl
      refine ⟨.inr (.inl rfl), ?_⟩
      rintro (h | h | ⟨e, he, h⟩)
      · exact hE (hold _ (.inl h))
      · exact hSE h.symm
      · exact hE (h ▸ hpl e he _ (hv e he).good.sink_mem)
  · intro t ht
    change t ∈ n.transitions at ht
    show n.pre t ≠ []
    rw [hn.trans, List.mem_append] at ht
    rcases ht with ht | ht
    · rw [(hn.old t ht).1]
      obtain ⟨e, he, u, hu, rfl⟩ := (hm.trans t).1 ht
      rw [(hm.fb e he u hu).1]
      exact fun h => (hv e he).good.pre_ne u hu (List.map_eq_nil_iff.1 h)
    · obtain ⟨y, hy, rfl⟩ := List.mem_map.1 ht
      rw [(hn.new y hy).1]
      rcases mem_choiceNew.1 hy with ⟨e, he, rfl⟩ | ⟨e, he, rfl⟩ <;> exact List.cons_ne_nil _ _
  · intro t ht hvis
    change t ∈ n.transitions at ht
    change n.visible t = true at hvis
    show ∃ x, d.get? t = some x
    rw [hn.trans, List.mem_append] at ht
    rcases ht with ht | ht
    · rw [(hn.old t ht).2.2.2.1] at hvis
      obtain ⟨e, he, u, hu, rfl⟩ := (hm.trans t).1 ht
      rw [(hm.fb e he u hu).2.2.2.1] at hvis
      rw [hd e he u hu]
      exact (hv e he).good.names u hu hvis
    · obtain ⟨y, hy, rfl⟩ := List.mem_map.1 ht
      rw [(hn.new y hy).2.2.2] at hvis; cases hvis

theorem multi_choice {S E : String} (hS : S ∉ n0.places) (hE : E ∉ n0.places) (hSE : S ≠ E) (hn : Added n0 n [S, E] (choiceNew l S E))
    {d : Dict String String} (hd : ∀ e ∈ l, ∀ t ∈ e.1.net.transitions, d.get? (e.2.2 t) = e.1.map.get? t) (h : Heap) :
    ChoiceOf (fun e : { e // e ∈ l } => e.1.1.sys h (srcOf e.1.1) (snkOf e.1.1)) (Pattern.sys h ⟨n, d⟩ S E) (fun e p => p ∈ e.1.1.net.places)
      (fun e => e.1.2.1) (fun e => e.1.2.2) (fun e u => u = S ++ "," ++ e.1.2.1 (srcOf e.1.1)) (fun e u => u = e.1.2.1 (snkOf e.1.1) ++ "," ++ E) := by
  have hpl : ∀ e ∈ l, ∀ p ∈ e.1.net.places, e.2.1 p ∈ n0.places := fun e he p hp => (hm.places _).2 ⟨e, he, p, hp, rfl⟩
  have inS : ∀ e ∈ l, (S ++ "," ++ e.2.1 (srcOf e.1), [S], [e.2.1 (srcOf e.1)]) ∈ choiceNew l S E := fun e he => mem_choiceNew.2 (.inl ⟨e, he, rfl⟩)
  have inE : ∀ e ∈ l, (e.2.1 (snkOf e.1) ++ "," ++ E, [e.2.1 (snkOf e.1)], [E]) ∈ choiceNew l S E := fun e he => mem_choiceNew.2 (.inr ⟨e, he, rfl⟩)
  have okN : ∀ x ∈ choiceNew l S E, (Pattern.sys h ⟨n, d⟩ S E).ok x.1 := fun x hx =>
    ⟨by show x.1 ∈ n.transitions; rw [hn.trans]; exact List.mem_append_right _ (List.mem_map.2 ⟨x, hx, rfl⟩), by
      show (n.guard x.1).accept h = _; rw [(hn.new x hx).2.2.1]; exact accept_always rfl⟩
  have obsN : ∀ x ∈ choiceNew l S E, (Pattern.sys h ⟨n, d⟩ S E).obs x.1 = none := fun x hx => by
    show (if n.visible x.1 then _ else _) = none
    rw [(hn.new x hx).2.2.2]; rfl
  refine
  { part := fun e => multi_part hm hv hn hd e.2 h S E
    disj := ?_
    src_new := fun e p hp he => hS ((show e.1.2.1 p = S from he) ▸ hpl e.1 e.2 p hp)
    snk_new := fun e p hp he => hE ((show e.1.2.1 p = E from he) ▸ hpl e.1 e.2 p hp)
    ne := hSE
    okS := fun e => ⟨_, rfl, okN _ (inS e.1 e.2)⟩
    okE := fun e => ⟨_, rfl, okN _ (inE e.1 e.2)⟩
    ok := ?_
    preS := fun e u hu x => by subst hu; show x ∈ n.pre _ ↔ _; rw [(hn.new _ (inS e.1 e.2)).1]; exact List.mem_singleton
    postS := fun e u hu x => by subst hu; show x ∈ n.post _ ↔ _; rw [(hn.new _ (inS e.1 e.2)).2.1]; exact List.mem_singleton
    preE := fun e u hu x => by subst hu; show x ∈ n.pre _ ↔ _; rw [(hn.new _ (inE e.1 e.2)).1]; exact List.mem_singleton
    postE := fun e u hu x => by subst hu; show x ∈ n.post _ ↔ _; rw [(hn.new _ (inE e.1 e.2)).2.1]; exact List.mem_singleton
    obsS := fun e u hu => by subst hu; exact obsN _ (inS e.1 e.2)
    obsE := fun e u hu => by subst hu; exact obsN _ (inE e.1 e.2) }
  · intro i j hij p q hp hq
    have : Std.Symm fun (e e' : Item) => ∀ p ∈ e.1.net.places, ∀ q ∈ e'.1.net.places, e.2.1 p ≠ e'.2.1 q :=
      ⟨fun a b hab p hp q hq he => hab q hq p hp he.symm⟩
    exact hm.disj.forall i.2 j.2 (fun he => hij (Subtype.ext he)) p hp q hq
  · intro u hu
    have hu1 : u ∈ n.transitions := hu.1
    rw [hn.trans, List.mem_append] at hu1
    rcases hu1 with h1 | h1
    · obtain ⟨e, he, t, ht, rfl⟩ := (hm.trans u).1 h1
      refine .inl ⟨⟨e, he⟩, t, ⟨ht, ?_⟩, rfl⟩
      have h2 : (n.guard (e.2.2 t)).accept h = _ := hu.2
      rw [(hn.old _ h1).2.2.1, (hm.fb e he t ht).2.2.1] at h2
      exact h2
    · obtain ⟨y, hy, rfl⟩ := List.mem_map.1 h1
      rcases mem_choiceNew.1 hy with ⟨e, he, rfl⟩ | ⟨e, he, rfl⟩
      · exact .inr (.inl ⟨⟨e, he⟩, rfl⟩)
      · exact .inr (.inr ⟨⟨e, he⟩, rfl⟩)

end

theorem fold_added_start {n0 n n' : Net} {ps : List String} {ts : List (String × List String × List String)} {S : String} {l : List String}
    (h : Added n0 n ps ts) (hr : l.foldlM (fun n p => do
      let n ← n.addTransition (S ++ "," ++ p) none false
      n.addConnection S (S ++ "," ++ p) p) n = (.ok n' : Py Net)) :
    Added n0 n' ps (ts ++ l.map fun p => (S ++ "," ++ p, [S], [p])) :=
  fold_added (fun p => S ++ "," ++ p) (fun _ => S) id l n n' ts h hr

theorem fold_added_end {n0 n n' : Net} {ps : List String} {ts : List (String × List String × List String)} {E : String} {l : List String}
    (h : Added n0 n ps ts) (hr : l.foldlM (fun n p => do
      let n ← n.addTransition (p ++ "," ++ E) none false
      n.addConnection p (p ++ "," ++ E) E) n = (.ok n' : Py Net)) :
    Added n0 n' ps (ts ++ l.map fun p => (p ++ "," ++ E, [p], [E])) :=
  fold_added (fun p => p ++ "," ++ E) id (fun _ => E) l n n' ts h hr

/-- the last steps of `choiceList` -/
def choiceTail (starts ends : List String) (n0 : Net) (d : Dict String String) : Py Pattern := do
  let n ← n0.addPlace (",".intercalate starts) "" 0
  let n ← starts.foldlM (fun n p => do
    let n ← n.addTransition (",".intercalate starts ++ "," ++ p) none false
    n.addConnection (",".intercalate starts) (",".intercalate starts ++ "," ++ p) p) n
  let n ← n.addPlace (",".intercalate ends) "" 0
  let n ← ends.foldlM (fun n p => do
    let n ← n.addTransition (p ++ "," ++ ",".intercalate ends) none false
    n.addConnection p (p ++ "," ++ ",".intercalate ends) (",".intercalate ends)) n
  mkPattern n (.dict d)

theorem ok_bind {α β : Type} (x : α) (f : α → Py β) : (Except.ok x >>= f) = f x := rfl

theorem choiceList_eq {cs : List Pattern} (hv : ∀ a ∈ cs, a.Valid) (hq : ∀ a ∈ cs, ∀ p ∈ a.net.places, '\'' ∉ p.toList) :
    ∃ l n0 d, Multi l n0 ∧ List.Forall₂ (fun a (e : Item) => (∃ v, e.1 = ⟨{ a.net with vars := v }, a.map⟩) ∧
        (∀ p ∈ a.net.places, ∃ k, e.2.1 p = (List.replicate k "'").foldl (· ++ ·) p) ∧
        ∀ t ∈ a.net.transitions, ∃ k, e.2.2 t = (List.replicate k "'").foldl (· ++ ·) t) cs l ∧
      (∀ e ∈ l, ∀ t ∈ e.1.net.transitions, d.get? (e.2.2 t) = e.1.map.get? t) ∧
      choiceList cs = choiceTail (l.map fun e => e.2.1 (srcOf e.1)) (l.map fun e => e.2.1 (snkOf e.1)) n0 d := by
  obtain ⟨cs', h1, h2⟩ := copies_ok cs hv
  have hto : ∀ a' ∈ cs', ∃ a ∈ cs, ∃ v, a' = ⟨{ a.net with vars := v }, a.map⟩ := by
    clear h1 hq hv
    induction h2 with
    | nil => simp
    | cons hx _ ih =>
      intro a' ha'
      rcases List.mem_cons.1 ha' with rfl | ha'
      · exact ⟨_, List.mem_cons_self, hx⟩
      · obtain ⟨a, ha, h⟩ := ih a' ha'
        exact ⟨a, List.mem_cons_of_mem _ ha, h⟩
  have hv' : ∀ a ∈ cs', a.Valid := by
    intro a' ha'
    obtain ⟨a, ha, v, rfl⟩ := hto a' ha'
    exact valid_vars v (hv a ha)
  have hq' : ∀ a ∈ cs', ∀ p ∈ a.net.places, '\'' ∉ p.toList := by
    intro a' ha'
    obtain ⟨a, ha, v, rfl⟩ := hto a' ha'
    exact hq a ha
  obtain ⟨rts, h3, hT⟩ := renamesAll_ok (cs'.map fun a => a.net.transitions) []
  obtain ⟨rps, h4, hP⟩ := renamesAll_ok (cs'.map fun a => a.net.places) []
  have h5 := ends_ok cs' rts rps _ _ hv' hT hP
  obtain ⟨n0, h6, hm⟩ := choiceNets_ok cs' rts rps [] [] Net.empty [] hv' hq' hT hP (fun _ h => by cases h) (fun _ h => by cases h) Multi.nil
  rw [List.nil_append] at hm
  have hd := (choiceNames_ok cs' rts rps [] [] hv' hT fun _ _ => rfl).1
  refine ⟨items cs' rts rps, n0, choiceNames (cs'.zip rts) [], hm, ?_, hd, ?_⟩
  · clear h1 h3 h4 h5 h6 hm hd hto hq' hq hv
    generalize hexT : ([] : List String) = exT at hT
    generalize hexP : ([] : List String) = exP at hP
    clear hexT hexP
    induction h2 generalizing exT exP rts rps with
    | nil => cases hT; cases hP; exact .nil
    | @cons a a' cs cs' hx h2 ih =>
      rw [List.map_cons] at hT hP
      cases hT with
      | @cons _ _ _ rt rts hrt hrt' hT =>
      cases hP with
      | @cons _ _ _ rp rps hrp hrp' hP =>
      refine .cons ⟨hx, ?_, ?_⟩ (ih (fun b hb => hv' b (List.mem_cons_of_mem _ hb)) rts rps _ hT _ hP)
      · obtain ⟨v, rfl⟩ := hx
        intro p hp
        exact renames_pair _ _ _ hrp' _ (hrp.mem_new (hv' _ List.mem_cons_self).good.wf.places hp)
      · obtain ⟨v, rfl⟩ := hx
        intro p hp
        exact renames_pair _ _ _ hrt' _ (hrt.mem_new (hv' _ List.mem_cons_self).good.wf.transitions hp)
  · unfold choiceList
    rw [h1, ok_bind, h3, ok_bind, h4, ok_bind, h5, ok_bind, h6, ok_bind, List.map_map, List.map_map]
    rfl

/-- a choice between a list of patterns is a choice between copies of these patterns -/
theorem choiceList_of {cs : List Pattern} {r : Pattern} (hv : ∀ a ∈ cs, a.Valid) (hq : ∀ a ∈ cs, ∀ p ∈ a.net.places, '\'' ∉ p.toList)
    (hr : choiceList cs = .ok r) :
    ∃ (l : List Item) (S E : String) (isS isE : { e // e ∈ l } → String → Prop),
      (∀ e ∈ l, ∃ a ∈ cs, ∃ v, e.1 = ⟨{ a.net with vars := v }, a.map⟩) ∧
      (∀ a ∈ cs, ∃ e ∈ l, ∃ v, e.1 = ⟨{ a.net with vars := v }, a.map⟩) ∧ l ≠ [] ∧ (∀ e ∈ l, e.1.Valid) ∧ r.Good S E ∧
      ∀ h, ChoiceOf (fun e : { e // e ∈ l } => e.1.1.sys h (srcOf e.1.1) (snkOf e.1.1)) (r.sys h S E) (fun e p => p ∈ e.1.1.net.places)
        (fun e => e.1.2.1) (fun e => e.1.2.2) isS isE := by
  obtain ⟨l, n0, d, hm, h2, hd, heq⟩ := choiceList_eq hv hq
  rw [heq] at hr
  clear heq hq
  have hto : ∀ e ∈ l, ∃ a ∈ cs, ∃ v, e.1 = ⟨{ a.net with vars := v }, a.map⟩ := by
    clear hr hv hm hd
    induction h2 with
    | nil => simp
    | cons hx _ ih =>
      intro a' ha'
      rcases List.mem_cons.1 ha' with rfl | ha'
      · exact ⟨_, List.mem_cons_self, hx.1⟩
      · obtain ⟨a, ha, h⟩ := ih a' ha'
        exact ⟨a, List.mem_cons_of_mem _ ha, h⟩
  have hfrom : ∀ a ∈ cs, ∃ e ∈ l, ∃ v, e.1 = ⟨{ a.net with vars := v }, a.map⟩ := by
    clear hr hv hm hd hto
    induction h2 with
    | nil => simp
    | cons hx _ ih =>
      intro a' ha'
      rcases List.mem_cons.1 ha' with rfl | ha'
      · exact ⟨_, List.mem_cons_self, hx.1⟩
      · obtain ⟨a, ha, h⟩ := ih a' ha'
        exact ⟨a, List.mem_cons_of_mem _ ha, h⟩
  have hvl : ∀ e ∈ l, e.1.Valid := by
    intro e he
    obtain ⟨a, ha, v, h⟩ := hto e he
    rw [h]; exact valid_vars v (hv a ha)
  unfold choiceTail at hr
  obtain ⟨n1, e1, hr⟩ := bind_eq_ok hr
  obtain ⟨hS, k1⟩ := (Added.refl hm.wf hm.tokens).addPlace e1
  obtain ⟨n2, e2, hr⟩ := bind_eq_ok hr
  have k2 := fold_added_start k1 e2
  obtain ⟨n3, e3, hr⟩ := bind_eq_ok hr
  obtain ⟨hE, k3⟩ := k2.addPlace e3
  obtain ⟨n4, e4, hr⟩ := bind_eq_ok hr
  have k4 := fold_added_end k3 e4
  have hE' : ",".intercalate (l.map fun e : Item => e.2.1 (snkOf e.1)) ∉ n0.places ++ [",".intercalate (l.map fun e : Item => e.2.1 (srcOf e.1))] := by
    rw [k2.places] at hE; exact hE
  have hne : l ≠ [] := by
    rintro rfl
    exact hE' (List.mem_append_right _ (List.mem_singleton_self _))
  clear k1 k2 k3 e1 e2 e3 e4 hE
  generalize ",".intercalate (l.map fun e : Item => e.2.1 (srcOf e.1)) = S at hS hE' k4
  generalize ",".intercalate (l.map fun e : Item => e.2.1 (snkOf e.1)) = E at hE' k4
  rw [List.mem_append, not_or, List.mem_singleton] at hE'
  have k : Added n0 n4 [S, E] (choiceNew l S E) := by
    have := k4
    rw [List.map_map, List.map_map] at this
    exact this
  have hg := multi_good hm hvl hne hS hE'.1 (Ne.symm hE'.2) k hd
  rw [mkPattern_ok hg] at hr
  obtain rfl := Except.ok.inj hr
  exact ⟨l, S, E, _, _, hto, hfrom, hne, hvl, hg, fun h => multi_choice hm hvl hS hE'.1 (Ne.symm hE'.2) k hd h⟩

/-- if the ids of places contain no quotes and the choice between well-formed patterns exists, then it is well-formed, its executions are exactly
the executions of the patterns, and it completes properly, if all patterns do -/
theorem C115_choice_list {cs : List Pattern} {r : Pattern} (hv : ∀ a ∈ cs, a.Valid) (hq : ∀ a ∈ cs, ∀ p ∈ a.net.places, '\'' ∉ p.toList)
    (hr : choiceList cs = .ok r) :
    r.Valid ∧ ∀ h, (∀ w, r.Words h w ↔ ∃ a ∈ cs, a.Words h w) ∧ ((∀ a ∈ cs, a.Clean h) → r.Clean h) := by
  obtain ⟨l, S, E, isS, isE, hto, hfrom, hne, hvl, hg, hc⟩ := choiceList_of hv hq hr
  refine ⟨⟨S, E, hg⟩, fun h => ?_⟩
  have hc := hc h
  refine ⟨fun w => ?_, fun hcl => ?_⟩
  · rw [hg.words, hc.lang]
    constructor
    · rintro ⟨⟨e, he⟩, hw⟩
      obtain ⟨a, ha, v, hav⟩ := hto e he
      refine ⟨a, ha, ?_⟩
      have hw' : e.1.Words h w := (hvl e he).good.words.2 hw
      rw [hav] at hw'
      exact hw'
    · rintro ⟨a, ha, hw⟩
      obtain ⟨e, he, v, hav⟩ := hfrom a ha
      have hw' : e.1.Words h w := by rw [hav]; exact hw
      exact ⟨⟨e, he⟩, (hvl e he).good.words.1 hw'⟩
  · rw [hg.clean]
    refine hc.proper fun ⟨e, he⟩ => ?_
    obtain ⟨a, ha, v, hav⟩ := hto e he
    have : e.1.Clean h := by rw [hav]; exact hcl a ha
    exact (hvl e he).good.clean.1 this

theorem fold_total (tid a b : String → String) : ∀ (l : List String) (n : Net), (∀ p ∈ l, tid p ∉ n.transitions) → (l.map tid).Nodup →
    (∀ p ∈ l, a p ∈ n.places ∧ b p ∈ n.places) → ∃ n', l.foldlM (fun n p => do
      let n ← n.addTransition (tid p) none false
      n.addConnection (a p) (tid p) (b p)) n = (.ok n' : Py Net)
  | [], n, _, _, _ => ⟨n, rfl⟩
  | p :: l, n, hf, hn, hp => by
    rw [List.map_cons, List.nodup_cons] at hn
    rcases addTransition_cases n (tid p) with ⟨h, _⟩ | ⟨h, n1, h2⟩
    · exact absurd h (hf p List.mem_cons_self)
    have h2' : n1.places = n.places ∧ n1.transitions = n.transitions ++ [tid p] := by
      unfold Net.addTransition at h2
      rw [if_neg h] at h2
      rw [← Except.ok.inj h2]
      exact ⟨rfl, rfl⟩
    obtain ⟨n2, h3⟩ := addConnection_total (n := n1) (s := a p) (t := tid p) (e := b p) (by rw [h2'.1]; exact (hp p List.mem_cons_self).1)
      (by rw [h2'.2]; simp) (by rw [h2'.1]; exact (hp p List.mem_cons_self).2)
    have h3' : n2.places = n.places ∧ n2.transitions = n.transitions ++ [tid p] := by
      unfold Net.addConnection at h3
      split at h3
      · cases h3
      split at h3
      · cases h3
      split at h3
      · cases h3
      rw [← Except.ok.inj h3]; exact h2'
    obtain ⟨n3, h4⟩ := fold_total tid a b l n2 (fun q hq hm => by
        rw [h3'.2, List.mem_append, List.mem_singleton] at hm
        rcases hm with hm | hm
        · exact hf q (List.mem_cons_of_mem _ hq) hm
        · exact hn.1 (hm ▸ List.mem_map.2 ⟨q, hq, rfl⟩)) hn.2
      (fun q hq => by rw [h3'.1]; exact hp q (List.mem_cons_of_mem _ hq))
    refine ⟨n3, ?_⟩
    rw [List.foldlM_cons]
    show ((n.addTransition (tid p) none false >>= fun n => n.addConnection (a p) (tid p) (b p)) >>= _) = _
    rw [h2, ok_bind, h3, ok_bind]
    exact h4

theorem comma_right {x y z : String} (h : x ++ "," ++ y = x ++ "," ++ z) : y = z := by
  have h1 := congrArg String.toList h
  simp only [String.toList_append] at h1
  exact String.toList_inj.1 (List.append_cancel_left h1)

theorem comma_left {x y z : String} (h : x ++ "," ++ z = y ++ "," ++ z) : x = y := by
  have h1 := congrArg String.toList h
  simp only [String.toList_append, List.append_assoc] at h1
  exact String.toList_inj.1 (List.append_cancel_right h1)

/-- the choice between two or more well-formed patterns exists, if their ids contain no commas, and the ids of their places no quotes -/
theorem C115_choice_list_plain {cs : List Pattern} (hv : ∀ a ∈ cs, a.Valid) (hq : ∀ a ∈ cs, ∀ p ∈ a.net.places, '\'' ∉ p.toList)
    (hp : ∀ a ∈ cs, ∀ x ∈ a.net.places ++ a.net.transitions, Plain x) (hlen : 2 ≤ cs.length) : ∃ r, choiceList cs = .ok r := by
  obtain ⟨l, n0, d, hm, h2, hd, heq⟩ := choiceList_eq hv hq
  have hl2 : 2 ≤ l.length := by rw [← h2.length_eq]; exact hlen
  have hto : ∀ e ∈ l, ∃ a ∈ cs, (∃ v, e.1 = ⟨{ a.net with vars := v }, a.map⟩) ∧
        (∀ p ∈ a.net.places, ∃ k, e.2.1 p = (List.replicate k "'").foldl (· ++ ·) p) ∧
        ∀ t ∈ a.net.transitions, ∃ k, e.2.2 t = (List.replicate k "'").foldl (· ++ ·) t := by
    clear hv hm hd hl2 heq hlen hp hq
    induction h2 with
    | nil => simp
    | cons hx _ ih =>
      intro a' ha'
      rcases List.mem_cons.1 ha' with rfl | ha'
      · exact ⟨_, List.mem_cons_self, hx⟩
      · obtain ⟨a, ha, h⟩ := ih a' ha'
        exact ⟨a, List.mem_cons_of_mem _ ha, h⟩
  have hvl : ∀ e ∈ l, e.1.Valid := by
    intro e he
    obtain ⟨a, ha, ⟨v, h⟩, _⟩ := hto e he
    rw [h]; exact valid_vars v (hv a ha)
  have plP : ∀ x ∈ n0.places, Plain x := by
    intro x hx
    obtain ⟨e, he, p, hpp, rfl⟩ := (hm.places x).1 hx
    obtain ⟨a, ha, ⟨v, h⟩, h1, _⟩ := hto e he
    rw [h] at hpp
    obtain ⟨k, hk⟩ := h1 p hpp
    rw [hk]
    exact plain_quotes (hp a ha p (List.mem_append_left _ hpp)) k
  have plT : ∀ x ∈ n0.transitions, Plain x := by
    intro x hx
    obtain ⟨e, he, p, hpp, rfl⟩ := (hm.trans x).1 hx
    obtain ⟨a, ha, ⟨v, h⟩, _, h1⟩ := hto e he
    rw [h] at hpp
    obtain ⟨k, hk⟩ := h1 p hpp
    rw [hk]
    exact plain_quotes (hp a ha p (List.mem_append_right _ hpp)) k
  have srcP : ∀ e ∈ l, e.2.1 (srcOf e.1) ∈ n0.places := fun e he => (hm.places _).2 ⟨e, he, _, (hvl e he).good.source_mem, rfl⟩
  have snkP : ∀ e ∈ l, e.2.1 (snkOf e.1) ∈ n0.places := fun e he => (hm.places _).2 ⟨e, he, _, (hvl e he).good.sink_mem, rfl⟩
  have hsym : Std.Symm fun (e e' : Item) => ∀ p ∈ e.1.net.places, ∀ q ∈ e'.1.net.places, e.2.1 p ≠ e'.2.1 q :=
      ⟨fun a b hab p hp q hq he => hab q hq p hp he.symm⟩
  have hsep : ∀ e ∈ l, ∀ e' ∈ l, e.2.1 (snkOf e.1) ≠ e'.2.1 (srcOf e'.1) := by
    intro e he e' he' h
    by_cases hee : e = e'
    · subst hee
      have h' := hm.inj e he _ (hvl e he).good.sink_mem _ (hvl e he).good.source_mem h
      have h1 := ((hvl e he).good.sink _).2 rfl
      have h2 := ((hvl e he).good.source _).2 rfl
      rw [← h'] at h2
      exact h1.2 h2.1
    · exact hm.disj.forall he he' hee _ (hvl e he).good.sink_mem _ (hvl e' he').good.source_mem h
  have ndS : (l.map fun e => e.2.1 (srcOf e.1)).Nodup := by
    rw [List.Nodup, List.pairwise_map]
    exact hm.disj.imp_of_mem fun {e e'} he he' h => h _ (hvl e he).good.source_mem _ (hvl e' he').good.source_mem
  have ndE : (l.map fun e => e.2.1 (snkOf e.1)).Nodup := by
    rw [List.Nodup, List.pairwise_map]
    exact hm.disj.imp_of_mem fun {e e'} he he' h => h _ (hvl e he).good.sink_mem _ (hvl e' he').good.sink_mem
  obtain ⟨e0, rs, hS⟩ : ∃ e0 ∈ l, ∃ x, ",".intercalate (l.map fun e => e.2.1 (srcOf e.1)) = e0.2.1 (srcOf e0.1) ++ "," ++ x := by
    match l, hl2 with
    | e0 :: e1 :: l, _ => exact ⟨e0, List.mem_cons_self, _, String.intercalate_cons_cons ..⟩
  obtain ⟨e1, re, hE⟩ : ∃ e0 ∈ l, ∃ x, ",".intercalate (l.map fun e => e.2.1 (snkOf e.1)) = e0.2.1 (snkOf e0.1) ++ "," ++ x := by
    match l, hl2 with
    | e0 :: e1 :: l, _ => exact ⟨e0, List.mem_cons_self, _, String.intercalate_cons_cons ..⟩
  obtain ⟨xS, hS⟩ := hS
  obtain ⟨xE, hE⟩ := hE
  rw [heq]
  unfold choiceTail
  rw [hS, hE]
  rcases addPlace_cases n0 (e0.2.1 (srcOf e0.1) ++ "," ++ xS) with ⟨h, _⟩ | ⟨hS0, n1, h1⟩
  · exact absurd (plP _ h) (not_plain _ _)
  have k1 := ((Added.refl hm.wf hm.tokens).addPlace h1).2
  rw [h1, ok_bind]
  obtain ⟨n2, h2⟩ := fold_total (fun p => e0.2.1 (srcOf e0.1) ++ "," ++ xS ++ "," ++ p) (fun _ => e0.2.1 (srcOf e0.1) ++ "," ++ xS) id
    (l.map fun e => e.2.1 (srcOf e.1)) n1 (by
      intro p _ h
      rw [k1.trans, List.map_nil, List.append_nil] at h
      exact not_plain _ _ (plT _ h)) (List.Nodup.map (fun _ _ h => comma_right h) ndS) (by
      intro p hpp
      obtain ⟨e, he, rfl⟩ := List.mem_map.1 hpp
      rw [k1.places]
      exact ⟨by simp, List.mem_append_left _ (srcP e he)⟩)
  have h2' := h2
  simp only [id] at h2
  rw [h2, ok_bind]
  have k2 := fold_added_start k1 h2
  rcases addPlace_cases n2 (e1.2.1 (snkOf e1.1) ++ "," ++ xE) with ⟨h, _⟩ | ⟨hE0, n3, h3⟩
  · rw [k2.places, List.nil_append, List.mem_append, List.mem_singleton] at h
    rcases h with h | h
    · exact absurd (plP _ h) (not_plain _ _)
    · exact absurd (comma_inj (plP _ (snkP e1 re)) (plP _ (srcP e0 rs)) h).1 (hsep e1 re e0 rs)
  have k3 := (k2.addPlace h3).2
  rw [h3, ok_bind]
  obtain ⟨n4, h4⟩ := fold_total (fun p => p ++ "," ++ (e1.2.1 (snkOf e1.1) ++ "," ++ xE)) id (fun _ => e1.2.1 (snkOf e1.1) ++ "," ++ xE)
    (l.map fun e => e.2.1 (snkOf e.1)) n3 (by
      intro p hpp h
      obtain ⟨e, he, rfl⟩ := List.mem_map.1 hpp
      rw [k3.trans, List.mem_append] at h
      rcases h with h | h
      · exact not_plain _ _ (plT _ h)
      · rw [List.nil_append, List.map_map, List.mem_map] at h
        obtain ⟨q, _, h⟩ := h
        change e0.2.1 (srcOf e0.1) ++ "," ++ xS ++ "," ++ q = _ at h
        have h' : e0.2.1 (srcOf e0.1) ++ "," ++ (xS ++ "," ++ q) = e.2.1 (snkOf e.1) ++ "," ++ (e1.2.1 (snkOf e1.1) ++ "," ++ xE) := by
          rw [← h]; simp only [String.append_assoc]
        exact absurd (comma_inj (plP _ (srcP e0 rs)) (plP _ (snkP e he)) h').1.symm (hsep e he e0 rs)) (List.Nodup.map (fun _ _ h => comma_left h) ndE) (by
      intro p hpp
      obtain ⟨e, he, rfl⟩ := List.mem_map.1 hpp
      rw [k3.places]
      exact ⟨List.mem_append_left _ (snkP e he), by simp⟩)
  simp only [id] at h4
  rw [h4, ok_bind]
  have k4 := fold_added_end k3 h4
  have k : Added n0 n4 [e0.2.1 (srcOf e0.1) ++ "," ++ xS, e1.2.1 (snkOf e1.1) ++ "," ++ xE]
      (choiceNew l (e0.2.1 (srcOf e0.1) ++ "," ++ xS) (e1.2.1 (snkOf e1.1) ++ "," ++ xE)) := by
    have := k4
    rw [List.map_map, List.map_map] at this
    exact this
  exact ⟨_, mkPattern_ok (multi_good hm hvl (by rintro rfl; simp at hl2) hS0 (fun h => not_plain _ _ (plP _ h))
    (fun h => hsep e1 re e0 rs (comma_inj (plP _ (srcP e0 rs)) (plP _ (snkP e1 re)) h).1.symm) k hd)⟩

/-- the choice between no patterns and the choice between one pattern always raise a ValueError -/
theorem C115_choice_list_few {cs : List Pattern} (hv : ∀ a ∈ cs, a.Valid) (hq : ∀ a ∈ cs, ∀ p ∈ a.net.places, '\'' ∉ p.toList)
    (hlen : cs.length < 2) : choiceList cs = .error .value := by
  obtain ⟨l, n0, d, hm, h2, hd, heq⟩ := choiceList_eq hv hq
  rw [heq]
  unfold choiceTail
  match cs, l, h2, hlen with
  | [], [], _, _ =>
    rcases addPlace_cases n0 "" with ⟨h, _⟩ | ⟨hS0, n1, h1⟩
    · obtain ⟨e, he, _⟩ := (hm.places _).1 h
      cases he
    have k1 := ((Added.refl hm.wf hm.tokens).addPlace h1).2
    show (n0.addPlace "" "" 0 >>= _) = _
    rw [h1, ok_bind]
    show (n1.addPlace "" "" 0 >>= _) = _
    rcases addPlace_cases n1 "" with ⟨h, h3⟩ | ⟨h, _⟩
    · rw [h3]; rfl
    · exact absurd (by rw [k1.places]; simp) h
  | [a], [e], h2, _ =>
    have he : e.1.Valid := by
      cases h2 with
      | cons hx _ => obtain ⟨v, h⟩ := hx.1; rw [h]; exact valid_vars v (hv a List.mem_cons_self)
    rcases addPlace_cases n0 (e.2.1 (srcOf e.1)) with ⟨h, h3⟩ | ⟨h, _⟩
    · show (n0.addPlace (",".intercalate [e.2.1 (srcOf e.1)]) "" 0 >>= _) = _
      rw [show ",".intercalate [e.2.1 (srcOf e.1)] = e.2.1 (srcOf e.1) by simp, h3]; rfl
    · exact absurd ((hm.places _).2 ⟨e, List.mem_cons_self, _, he.good.source_mem, rfl⟩) h

end Prolothar.ActivityPattern
