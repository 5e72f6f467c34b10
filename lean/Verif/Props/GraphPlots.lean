import Verif.Spec.GraphPlots
import Verif.Props.Petri
import Verif.Props.PrefixTree
import Verif.Props.Lts
import Verif.Props.DfgPlot
/-
C144: the graphs drawn by the `plot` methods.
-/
set_option linter.unusedSectionVars false
namespace Prolothar.GraphPlots
open Prolothar.Spec.GraphPlots

theorem takeWhile_all {α : Type} {p : α → Bool} {l : List α} : l.takeWhile p = l ↔ ∀ x ∈ l, p x = true := by
  induction l with
  | nil => simp
  | cons a l ih =>
    by_cases h : p a = true
    · simp [h, ih]
    · simp [h]

theorem addressed_eq {s : String} : addressed s = s ↔ ':' ∉ s.toList := by
  unfold addressed
  rw [← String.toList_inj, String.toList_ofList, takeWhile_all]
  constructor
  · intro h hc; simpa using h _ hc
  · intro h x hx
    simp only [decide_eq_true_eq]
    rintro rfl; exact h hx

theorem takeWhile_append_all {α : Type} {p : α → Bool} {l l' : List α} (h : ∀ x ∈ l, p x = true) :
    (l ++ l').takeWhile p = l ++ l'.takeWhile p := by
  induction l with
  | nil => rfl
  | cons a l ih =>
    rw [List.cons_append, List.takeWhile_cons, if_pos (h a List.mem_cons_self), ih fun x hx => h x (List.mem_cons_of_mem _ hx)]
    rfl

theorem addressed_append {s t : String} (h : ':' ∉ s.toList) : addressed (s ++ t) = s ++ addressed t := by
  unfold addressed
  rw [← String.toList_inj, String.toList_ofList, String.toList_append, String.toList_append, String.toList_ofList]
  apply takeWhile_append_all
  intro x hx
  simp only [decide_eq_true_eq]
  rintro rfl; exact h hx

theorem append_inj_left {s t t' : String} (h : s ++ t = s ++ t') : t = t' := by
  rw [← String.toList_inj] at h ⊢
  simpa [String.toList_append] using h

theorem place_ne_transition (p t : String) : "place_" ++ p ≠ "transition_" ++ t := by
  intro h
  have := congrArg String.toList h
  simp [String.toList_append] at this

section
variable {N L X : Type}

theorem declared_append (s t : List (Stmt N L)) : declared (s ++ t) = declared s ++ declared t := List.filterMap_append

theorem arrows_append (s t : List (Stmt N L)) : arrows (s ++ t) = arrows s ++ arrows t := List.filterMap_append

theorem declared_cons_node (a : String) (x : N) (t : List (Stmt N L)) : declared (.node a x :: t) = a :: declared t := rfl

theorem arrows_cons_node (a : String) (x : N) (t : List (Stmt N L)) : arrows (.node a x :: t) = arrows t := rfl

theorem declared_nodes {f : X → Stmt N L} {name : X → String} (h : ∀ x, nodeOf (f x) = some (name x)) (l : List X) :
    declared (l.map f) = l.map name := by
  induction l with
  | nil => rfl
  | cons x l ih =>
    rw [List.map_cons, declared, List.filterMap_cons, h x, List.map_cons, ← ih]
    rfl

theorem declared_edges {f : X → Stmt N L} (h : ∀ x, nodeOf (f x) = none) (l : List X) : declared (l.map f) = [] := by
  induction l with
  | nil => rfl
  | cons x l ih =>
    rw [List.map_cons, declared, List.filterMap_cons, h x]
    exact ih

theorem arrows_edges {f : X → Stmt N L} {g : X → String × String × L} (h : ∀ x, arrowOf (f x) = some (g x)) (l : List X) :
    arrows (l.map f) = l.map g := by
  induction l with
  | nil => rfl
  | cons x l ih =>
    rw [List.map_cons, arrows, List.filterMap_cons, h x, List.map_cons, ← ih]
    rfl

theorem arrows_nodes {f : X → Stmt N L} (h : ∀ x, arrowOf (f x) = none) (l : List X) : arrows (l.map f) = [] := by
  induction l with
  | nil => rfl
  | cons x l ih =>
    rw [List.map_cons, arrows, List.filterMap_cons, h x]
    exact ih

theorem mem_declared {s : List (Stmt N L)} {a : String} : a ∈ declared s ↔ ∃ x, Declares s a x := by
  unfold declared Declares
  rw [List.mem_filterMap]
  constructor
  · rintro ⟨st, h, e⟩
    cases st with
    | node b x => simp only [nodeOf, Option.some.injEq] at e; exact ⟨x, e ▸ h⟩
    | edge b c l => simp [nodeOf] at e
  · rintro ⟨x, h⟩
    exact ⟨_, h, rfl⟩

theorem mem_arrows {s : List (Stmt N L)} {a b : String} {l : L} : (a, b, l) ∈ arrows s ↔ Arrow s a b l := by
  unfold arrows Arrow
  rw [List.mem_filterMap]
  constructor
  · rintro ⟨st, h, e⟩
    cases st with
    | node b x => simp [arrowOf] at e
    | edge x y l =>
      simp only [arrowOf, Option.some.injEq, Prod.mk.injEq] at e
      obtain ⟨rfl, rfl, rfl⟩ := e
      exact ⟨x, y, h, rfl, rfl⟩
  · rintro ⟨x, y, h, rfl, rfl⟩
    exact ⟨_, h, rfl⟩

end

section
open Prolothar.Petri

/-- C144 (Petri nets): every place and every transition is drawn as one node of its own, with the number of tokens (nothing if there
are none) and the label, black exactly if the transition is invisible and its label is not wanted; arrows lead from and to the nodes of
the ids up to their first colon. -/
theorem C144_net {n : Net} (hb : Built n) (showLabels : Bool) :
    (declared (netPlot n showLabels)).Nodup ∧
    (∀ x a, Declares (netPlot n showLabels) x a ↔
      (∃ p ∈ n.places, x = "place_" ++ p ∧ a = .place (n.placeLabel p) (if n.tokens p = 0 then "" else toString (n.tokens p))) ∨
      ∃ t ∈ n.transitions, x = "transition_" ++ t ∧
        a = .transition (n.transLabel t) (decide (n.visible t = false)) (decide (n.visible t = false ∧ showLabels = false))) ∧
    ∀ x y, Arrow (netPlot n showLabels) x y () ↔ ∃ t ∈ n.transitions,
      (∃ p ∈ n.pre t, x = "place_" ++ addressed p ∧ y = "transition_" ++ addressed t) ∨
      ∃ p ∈ n.post t, x = "transition_" ++ addressed t ∧ y = "place_" ++ addressed p := by
  have hmem : ∀ st, st ∈ netPlot n showLabels ↔ (∃ p ∈ n.places, placeStmt n p = st) ∨
      ∃ t ∈ n.transitions, st ∈ transitionStmts n showLabels t := by
    intro st
    simp [netPlot, List.mem_append, List.mem_map, List.mem_flatMap]
  refine ⟨?_, fun x a => ?_, fun x y => ?_⟩
  · have hd : declared (netPlot n showLabels) = n.places.map ("place_" ++ ·) ++ n.transitions.map ("transition_" ++ ·) := by
      unfold netPlot
      rw [declared_append, declared_nodes (fun _ => rfl)]
      congr 1
      induction n.transitions with
      | nil => rfl
      | cons t ts ih =>
        rw [List.flatMap_cons, declared_append, ih, List.map_cons, transitionStmts, declared_cons_node, declared_append,
          declared_edges fun _ => rfl, declared_edges fun _ => rfl]
        rfl
    rw [hd, List.nodup_append]
    refine ⟨hb.wf.places.map fun _ _ h => append_inj_left h, hb.wf.transitions.map fun _ _ h => append_inj_left h, ?_⟩
    intro a ha b hb'
    obtain ⟨p, _, rfl⟩ := List.mem_map.1 ha
    obtain ⟨t, _, rfl⟩ := List.mem_map.1 hb'
    exact place_ne_transition p t
  · unfold Declares
    rw [hmem]
    apply or_congr
    · refine exists_congr fun p => and_congr_right fun _ => ?_
      simp [placeStmt, eq_comm]
    · refine exists_congr fun t => and_congr_right fun _ => ?_
      cases hv : n.visible t <;> cases showLabels <;> simp [transitionStmts, hv]
  · constructor
    · rintro ⟨u, v, hm, rfl, rfl⟩
      rcases (hmem _).1 hm with ⟨p, _, h⟩ | ⟨t, ht, h⟩
      · cases h
      · refine ⟨t, ht, ?_⟩
        unfold transitionStmts at h
        rcases List.mem_cons.1 h with h | h
        · cases h
        · rcases List.mem_append.1 h with h | h
          · obtain ⟨p, hp, h⟩ := List.mem_map.1 h
            cases h
            exact .inl ⟨p, hp, addressed_append (by decide), addressed_append (by decide)⟩
          · obtain ⟨p, hp, h⟩ := List.mem_map.1 h
            cases h
            exact .inr ⟨p, hp, addressed_append (by decide), addressed_append (by decide)⟩
    · rintro ⟨t, ht, ⟨p, hp, rfl, rfl⟩ | ⟨p, hp, rfl, rfl⟩⟩
      · refine ⟨"place_" ++ p, "transition_" ++ t, (hmem _).2 (.inr ⟨t, ht, ?_⟩), addressed_append (by decide), addressed_append (by decide)⟩
        exact List.mem_cons_of_mem _ (List.mem_append_left _ (List.mem_map.2 ⟨p, hp, rfl⟩))
      · refine ⟨"transition_" ++ t, "place_" ++ p, (hmem _).2 (.inr ⟨t, ht, ?_⟩), addressed_append (by decide), addressed_append (by decide)⟩
        exact List.mem_cons_of_mem _ (List.mem_append_right _ (List.mem_map.2 ⟨p, hp, rfl⟩))

/-- C144 (Petri nets): if no id contains a colon, the arrows are exactly the arcs of the net, and they connect declared nodes. -/
theorem C144_net_exact {n : Net} (hb : Built n) (showLabels : Bool) (hp : ∀ p ∈ n.places, ':' ∉ p.toList) (ht : ∀ t ∈ n.transitions, ':' ∉ t.toList) :
    Closed (netPlot n showLabels) ∧ (arrows (netPlot n showLabels)).Nodup ∧
    ∀ p ∈ n.places, ∀ t ∈ n.transitions,
      (Arrow (netPlot n showLabels) ("place_" ++ p) ("transition_" ++ t) () ↔ p ∈ n.pre t) ∧
      (Arrow (netPlot n showLabels) ("transition_" ++ t) ("place_" ++ p) () ↔ p ∈ n.post t) := by
  obtain ⟨_, h2, h3⟩ := C144_net hb showLabels
  have hpd : ∀ p ∈ n.places, "place_" ++ p ∈ declared (netPlot n showLabels) := fun p hp' =>
    mem_declared.2 ⟨_, (h2 _ _).2 (.inl ⟨p, hp', rfl, rfl⟩)⟩
  have htd : ∀ t ∈ n.transitions, "transition_" ++ t ∈ declared (netPlot n showLabels) := fun t ht' =>
    mem_declared.2 ⟨_, (h2 _ _).2 (.inr ⟨t, ht', rfl, rfl⟩)⟩
  refine ⟨?_, ?_, fun p hp' t ht' => ⟨?_, ?_⟩⟩
  · intro a b l h
    obtain ⟨t, ht', ⟨p, hp', rfl, rfl⟩ | ⟨p, hp', rfl, rfl⟩⟩ := (h3 a b).1 h
    · have hpl := (hb.wf.pre t ht').2 p hp'
      rw [addressed_eq.2 (hp p hpl), addressed_eq.2 (ht t ht')]
      exact ⟨hpd p hpl, htd t ht'⟩
    · have hpl := (hb.wf.post t ht').2 p hp'
      rw [addressed_eq.2 (hp p hpl), addressed_eq.2 (ht t ht')]
      exact ⟨htd t ht', hpd p hpl⟩
  · have e1 : arrows (netPlot n showLabels) = n.transitions.flatMap fun t =>
        (n.pre t).map (fun p => (addressed ("place_" ++ p), addressed ("transition_" ++ t), ())) ++
        (n.post t).map fun p => (addressed ("transition_" ++ t), addressed ("place_" ++ p), ()) := by
      unfold netPlot
      rw [arrows_append, arrows_nodes fun _ => rfl, List.nil_append]
      induction n.transitions with
      | nil => rfl
      | cons t ts ih =>
        rw [List.flatMap_cons, arrows_append, ih, List.flatMap_cons, transitionStmts, arrows_cons_node, arrows_append,
          arrows_edges fun _ => rfl, arrows_edges fun _ => rfl]
    have hpc : ∀ p ∈ n.places, addressed ("place_" ++ p) = "place_" ++ p := fun p h => by
      rw [addressed_append (by decide), addressed_eq.2 (hp p h)]
    have htc : ∀ t ∈ n.transitions, addressed ("transition_" ++ t) = "transition_" ++ t := fun t h => by
      rw [addressed_append (by decide), addressed_eq.2 (ht t h)]
    rw [e1, List.nodup_flatMap]
    constructor
    · intro t ht'
      rw [List.nodup_append]
      refine ⟨?_, ?_, ?_⟩
      · refine (List.nodup_map_iff_inj_on (hb.wf.pre t ht').1).2 fun p hp1 q hq1 h => ?_
        simp only [Prod.mk.injEq, and_true] at h
        rw [hpc p ((hb.wf.pre t ht').2 p hp1), hpc q ((hb.wf.pre t ht').2 q hq1)] at h
        exact append_inj_left h
      · refine (List.nodup_map_iff_inj_on (hb.wf.post t ht').1).2 fun p hp1 q hq1 h => ?_
        simp only [Prod.mk.injEq, and_true, true_and] at h
        rw [hpc p ((hb.wf.post t ht').2 p hp1), hpc q ((hb.wf.post t ht').2 q hq1)] at h
        exact append_inj_left h
      · intro a ha b hb' hab
        obtain ⟨p, hp1, rfl⟩ := List.mem_map.1 ha
        obtain ⟨q, hq1, rfl⟩ := List.mem_map.1 hb'
        simp only [Prod.mk.injEq, and_true] at hab
        rw [hpc p ((hb.wf.pre t ht').2 p hp1), htc t ht'] at hab
        exact place_ne_transition _ _ hab.1
    · refine hb.wf.transitions.imp_of_mem fun {t u} ht1 hu1 hne => ?_
      intro x hx hx'
      have key : ∀ {v}, v ∈ n.transitions → x ∈ ((n.pre v).map (fun p => (addressed ("place_" ++ p), addressed ("transition_" ++ v), ())) ++
        (n.post v).map fun p => (addressed ("transition_" ++ v), addressed ("place_" ++ p), ())) →
          (∃ p, x = ("place_" ++ p, "transition_" ++ v, ())) ∨ ∃ p, x = ("transition_" ++ v, "place_" ++ p, ()) := by
        intro v hv h
        rcases List.mem_append.1 h with h | h
        · obtain ⟨p, hp1, rfl⟩ := List.mem_map.1 h
          exact .inl ⟨p, by rw [hpc p ((hb.wf.pre v hv).2 p hp1), htc v hv]⟩
        · obtain ⟨p, hp1, rfl⟩ := List.mem_map.1 h
          exact .inr ⟨p, by rw [hpc p ((hb.wf.post v hv).2 p hp1), htc v hv]⟩
      rcases key ht1 hx with ⟨p, rfl⟩ | ⟨p, rfl⟩ <;> rcases key hu1 hx' with ⟨q, h⟩ | ⟨q, h⟩ <;>
        simp only [Prod.mk.injEq, and_true] at h
      · exact hne (append_inj_left h.2)
      · exact place_ne_transition _ _ h.1
      · exact place_ne_transition _ _ h.1.symm
      · exact hne (append_inj_left h.1)
  · rw [h3]
    constructor
    · rintro ⟨u, hu, ⟨q, hq, h1, h2⟩ | ⟨q, hq, h1, h2⟩⟩
      · rw [addressed_eq.2 (hp q ((hb.wf.pre u hu).2 q hq))] at h1
        rw [addressed_eq.2 (ht u hu)] at h2
        rw [append_inj_left h1, append_inj_left h2]
        exact hq
      · exact absurd h1 (place_ne_transition _ _)
    · intro h
      exact ⟨t, ht', .inl ⟨p, h, by rw [addressed_eq.2 (hp p hp')], by rw [addressed_eq.2 (ht t ht')]⟩⟩
  · rw [h3]
    constructor
    · rintro ⟨u, hu, ⟨q, hq, h1, h2⟩ | ⟨q, hq, h1, h2⟩⟩
      · exact absurd h1.symm (place_ne_transition _ _)
      · rw [addressed_eq.2 (ht u hu)] at h1
        rw [addressed_eq.2 (hp q ((hb.wf.post u hu).2 q hq))] at h2
        rw [append_inj_left h1, append_inj_left h2]
        exact hq
    · intro h
      exact ⟨t, ht', .inr ⟨p, h, by rw [addressed_eq.2 (ht t ht')], by rw [addressed_eq.2 (hp p hp')]⟩⟩

end

section
open Prolothar.PrefixTree Prolothar.Spec.PrefixTree
variable {A : Type} [LinearOrder A]

theorem append_id : ∀ (s : List A) (t t' : PrefixTree.Tree A), append s t = .ok t' → t'.id = t.id
  | [], .node _ _ _, t', h => by
    simp only [append, Except.ok.injEq] at h
    subst h; rfl
  | a :: s, .node id n cs, t', h => by
    unfold append at h
    cases hi : findInsertionPoint cs a with
    | error e => rw [hi] at h; cases h
    | ok i =>
      rw [hi] at h
      simp only [bind, Except.bind] at h
      cases hg : cs[i]? with
      | none =>
        rw [hg] at h
        cases hc : append s (new (id ++ "." ++ toString cs.length)) with
        | error e => rw [hc] at h; cases h
        | ok c => rw [hc] at h; cases h; rfl
      | some c =>
        rw [hg] at h
        simp only at h
        split at h
        · cases hc : append s c.2 with
          | error e => rw [hc] at h; cases h
          | ok c => rw [hc] at h; cases h; rfl
        · cases hc : append s (new (id ++ "." ++ toString cs.length)) with
          | error e => rw [hc] at h; cases h
          | ok c => rw [hc] at h; cases h; rfl

theorem build_id (seqs : List (List A)) : ∀ (t t' : PrefixTree.Tree A), seqs.foldlM (fun t s => append s t) t = .ok t' → t'.id = t.id := by
  induction seqs with
  | nil => intro t t' h; cases h; rfl
  | cons s seqs ih =>
    intro t t' h
    rw [List.foldlM_cons] at h
    cases hc : append s t with
    | error e => rw [hc] at h; cases h
    | ok u => rw [hc] at h; exact (ih u t' h).trans (append_id s t u hc)

theorem colon_toString (k : Nat) : ':' ∉ (toString k).toList := by
  rw [Nat.toString_eq_ofList_toDigits, String.toList_ofList]
  intro hc
  have := Nat.isDigit_of_mem_toDigits (by omega) (by omega) hc
  revert this; decide

theorem colon_deepId (ks : List Nat) : ∀ i : String, ':' ∉ i.toList → ':' ∉ (deepId i ks).toList := by
  induction ks with
  | nil => intro i hi; exact hi
  | cons k ks ih =>
    intro i hi
    refine ih (i ++ "." ++ toString k) ?_
    rw [String.toList_append, String.toList_append, List.mem_append, List.mem_append]
    rintro ((h | h) | h)
    · exact hi h
    · revert h; decide
    · exact colon_toString k h

theorem kids_snd (x : Item A) : (kids x).map Prod.snd = x.2.2.children := by
  unfold kids
  rw [List.map_map]
  exact List.map_id _

/-- neither word starts with the other -/
def Apart (u v : List A) : Prop := ¬ u <+: v ∧ ¬ v <+: u

theorem Apart.extend {u v : List A} (h : Apart u v) (a : A) : Apart u (v ++ [a]) := by
  constructor
  · intro hp
    rcases List.prefix_concat_iff.1 hp with rfl | hp
    · exact h.2 (List.prefix_append _ _)
    · exact h.1 hp
  · intro hp
    exact h.2 ((List.prefix_append _ _).trans hp)

theorem tree_ok (N : Nat) : ∀ (q : List (Item A)), total (q.map Prod.snd) ≤ N → q.Pairwise (fun x y => Apart (word x) (word y)) →
    (∀ x ∈ q, Sorted x.2.2) →
    ∃ r : List (Item A), (∀ fuel > N, treeLoop fuel (q.map Prod.snd) = .ok ((r.map Prod.snd).flatMap treeStmts)) ∧
      (r.map word).Nodup ∧
      ∀ w c, (∃ x ∈ r, word x = w ∧ x.2.2 = c) ↔ ∃ y ∈ q, ∃ v, At y.2.2 v c ∧ w = word y ++ v := by
  induction N with
  | zero =>
    intro q hN _ _
    cases q with
    | nil =>
      refine ⟨[], fun fuel hf => ?_, .nil, by simp⟩
      obtain ⟨k, rfl⟩ := Nat.exists_eq_succ_of_ne_zero (by omega : fuel ≠ 0)
      rfl
    | cons x q =>
      exfalso
      have h2 : total ((x :: q).map Prod.snd) = sizeOf x.2.2 + total (q.map Prod.snd) := by simp [total]
      have := total_children x.2.2
      omega
  | succ N ih =>
    intro q hN hq hs
    rcases List.eq_nil_or_concat q with rfl | ⟨q, x, rfl⟩
    · refine ⟨[], fun fuel hf => ?_, .nil, by simp⟩
      obtain ⟨k, rfl⟩ := Nat.exists_eq_succ_of_ne_zero (by omega : fuel ≠ 0)
      rfl
    · rw [List.concat_eq_append] at *
      rw [List.pairwise_append] at hq
      obtain ⟨q1, _, q2⟩ := hq
      have q2 : ∀ y ∈ q, Apart (word y) (word x) := fun y hy => q2 y hy x (by simp)
      have hsx : Sorted x.2.2 := hs x (by simp)
      have htot : total ((q ++ kids x).map Prod.snd) ≤ N := by
        rw [List.map_append, total_append, kids_snd]
        rw [List.map_append, total_append] at hN
        have h2 : total ([x].map Prod.snd) = sizeOf x.2.2 := by simp [total]
        have := total_children x.2.2
        omega
      obtain ⟨r, r1, r2, r3⟩ := ih (q ++ kids x) htot
        (by
          rw [List.pairwise_append]
          refine ⟨q1, ?_, ?_⟩
          · unfold kids
            rw [List.pairwise_map]
            refine hsx.pairwise.imp fun {a b} hab => ?_
            have hne : (word x ++ [a.1]) ≠ word x ++ [b.1] := by
              intro h
              have := List.append_cancel_left h
              simp only [List.cons.injEq, and_true] at this
              exact absurd this hab.ne'
            exact ⟨fun h => hne (h.eq_of_length (by simp [word])), fun h => hne (h.eq_of_length (by simp [word])).symm⟩
          · intro y hy z hz
            obtain ⟨c, _, rfl⟩ := List.mem_map.1 hz
            exact (q2 y hy).extend c.1)
        (by
          intro y hy
          rcases List.mem_append.1 hy with hy | hy
          · exact hs y (by simp [hy])
          · obtain ⟨c, hc, rfl⟩ := List.mem_map.1 hy
            exact hsx.sub c hc)
      refine ⟨x :: r, fun fuel hf => ?_, ?_, fun w c => ?_⟩
      · obtain ⟨k, rfl⟩ := Nat.exists_eq_succ_of_ne_zero (by omega : fuel ≠ 0)
        have := r1 k (by omega)
        rw [List.map_append, kids_snd] at this
        rw [treeLoop, List.map_append]
        simp only [List.map_cons, List.map_nil, List.getLast?_concat, List.dropLast_concat]
        rw [this]
        rfl
      · rw [List.map_cons, List.nodup_cons]
        refine ⟨fun hm => ?_, r2⟩
        obtain ⟨y, hy, hw⟩ := List.mem_map.1 hm
        obtain ⟨z, hz, v, _, hv⟩ := (r3 (word x) y.2.2).1 ⟨y, hy, hw, rfl⟩
        rcases List.mem_append.1 hz with hz | hz
        · exact (q2 z hz).1 ⟨v, hv.symm⟩
        · obtain ⟨c, _, rfl⟩ := List.mem_map.1 hz
          have := congrArg List.length hv
          simp [word] at this
      · constructor
        · rintro ⟨y, hy, hw, hc⟩
          rcases List.mem_cons.1 hy with rfl | hy
          · exact ⟨y, by simp, [], by rw [← hc]; exact .root _, by simp [hw]⟩
          · obtain ⟨z, hz, v, hv, hw'⟩ := (r3 w c).1 ⟨y, hy, hw, hc⟩
            rcases List.mem_append.1 hz with hz | hz
            · exact ⟨z, by simp [hz], v, hv, hw'⟩
            · obtain ⟨d, hd, rfl⟩ := List.mem_map.1 hz
              refine ⟨x, by simp, d.1 :: v, .child (c := d.2) hd hv, ?_⟩
              rw [hw']; simp [word]
        · rintro ⟨y, hy, v, hv, hw⟩
          rcases List.mem_append.1 hy with hy | hy
          · obtain ⟨z, hz, h1, h2⟩ := (r3 w c).2 ⟨y, by simp [hy], v, hv, hw⟩
            exact ⟨z, by simp [hz], h1, h2⟩
          · rw [List.mem_singleton] at hy
            subst hy
            generalize ht : y.2.2 = t at hv
            cases hv with
            | root => exact ⟨y, by simp, by simp [hw], ht⟩
            | @child _ a d v' _ hc hr =>
              obtain ⟨z, hz, h1, h2⟩ := (r3 w c).2 ⟨(word y, (a, d)), List.mem_append_right _ (by
                unfold kids; rw [ht]; exact List.mem_map.2 ⟨_, hc, rfl⟩), v', hr, by rw [hw]; simp [word]⟩
              exact ⟨z, by simp [hz], h1, h2⟩

theorem At.snoc {t n c : PrefixTree.Tree A} {w : List A} {a : A} (h : At t w n) (hc : (a, c) ∈ n.children) : At t (w ++ [a]) c := by
  induction h with
  | root t => exact .child hc (.root c)
  | child hc' _ ih => exact .child hc' (ih hc)

theorem At.unsnoc {t n : PrefixTree.Tree A} {w : List A} {a : A} (h : At t (w ++ [a]) n) : ∃ m, At t w m ∧ (a, n) ∈ m.children := by
  induction w generalizing t with
  | nil =>
    cases h with
    | child hc hr => cases hr; exact ⟨t, .root t, hc⟩
  | cons b w ih =>
    cases h with
    | child hc hr =>
      obtain ⟨m, h1, h2⟩ := ih hr
      exact ⟨m, .child hc h1, h2⟩

/-- C144 (prefix trees): the loop ends; every node but the root is declared exactly once, with its symbol and number of sequences;
the arrows are exactly those from a node other than the root to its children, labelled with the number of sequences of the child. -/
theorem C144_tree (seqs : List (List A)) {t : PrefixTree.Tree A} (h : build seqs = .ok t) :
    ∃ N src, (∀ fuel ≥ N, treePlot fuel t = .ok src) ∧ (declared src).Nodup ∧ (arrows src).Nodup ∧ Closed src ∧
      (∀ x a k, Declares src x (a, k) ↔ ∃ w n, At t (w ++ [a]) n ∧ n.id = x ∧ n.count = k) ∧
      ∀ x y k, Arrow src x y k ↔ ∃ w a m n, w ≠ [] ∧ At t w m ∧ At t (w ++ [a]) n ∧ m.id = x ∧ n.id = y ∧ n.count = k := by
  obtain ⟨t', h1, h2, h3, _⟩ := foldlM_append seqs (new : PrefixTree.Tree A) (new_sorted _)
  have h' := h
  unfold build at h'
  rw [h'] at h1
  cases h1
  have hid : IdOk t := h3 (new_idOk _)
  have hroot : t.id = "" := build_id seqs new t h'
  have hcol : ∀ {w n}, At t w n → addressed n.id = n.id := by
    intro w n hn
    obtain ⟨ks, hks⟩ := PrefixTree.At.deepId hn hid
    rw [addressed_eq, hks, hroot]
    exact colon_deepId ks "" (by decide)
  obtain ⟨r, r1, r2, r3⟩ := tree_ok _ (t.children.map fun c => (([] : List A), c)) (le_refl _)
    (by
      rw [List.pairwise_map]
      refine h2.pairwise.imp fun {a b} hab => ?_
      constructor
      · intro h; simp [word] at h; exact absurd h hab.ne'
      · intro h; simp [word] at h; exact absurd h hab.ne)
    (by
      intro x hx
      obtain ⟨c, hc, rfl⟩ := List.mem_map.1 hx
      exact h2.sub c hc)
  have hstrip : (t.children.map fun c => (([] : List A), c)).map Prod.snd = t.children := by
    rw [List.map_map]
    exact List.map_id _
  rw [hstrip] at r1
  have hmem : ∀ w c, (∃ x ∈ r, word x = w ∧ x.2.2 = c) ↔ w ≠ [] ∧ At t w c := by
    intro w c
    rw [r3]
    constructor
    · rintro ⟨y, hy, v, hv, rfl⟩
      obtain ⟨d, hd, rfl⟩ := List.mem_map.1 hy
      refine ⟨by simp [word], ?_⟩
      exact .child (c := d.2) hd hv
    · rintro ⟨hne, hat⟩
      cases hat with
      | root => exact absurd rfl hne
      | @child _ a d w' _ hc hr =>
        exact ⟨([], (a, d)), List.mem_map.2 ⟨_, hc, rfl⟩, w', hr, rfl⟩
  have hat : ∀ x ∈ r, At t (word x) x.2.2 := fun x hx => ((hmem _ _).1 ⟨x, hx, rfl, rfl⟩).2
  have hdecl : declared ((r.map Prod.snd).flatMap treeStmts) = r.map fun x => x.2.2.id := by
    clear r1 r2 r3 hmem hat
    induction r with
    | nil => rfl
    | cons x r ih =>
      rw [List.map_cons, List.flatMap_cons, declared_append, ih, treeStmts, declared_cons_node, declared_edges fun _ => rfl]
      rfl
  have harr : arrows ((r.map Prod.snd).flatMap treeStmts) =
      r.flatMap fun x => x.2.2.children.map fun d => (addressed x.2.2.id, addressed d.2.id, d.2.count) := by
    clear r1 r2 r3 hmem hat hdecl
    induction r with
    | nil => rfl
    | cons x r ih =>
      rw [List.map_cons, List.flatMap_cons, arrows_append, ih, treeStmts, arrows_cons_node, arrows_edges fun _ => rfl, List.flatMap_cons]
  have harrow : ∀ x y k, Arrow ((r.map Prod.snd).flatMap treeStmts) x y k ↔
      ∃ w a m n, w ≠ [] ∧ At t w m ∧ At t (w ++ [a]) n ∧ m.id = x ∧ n.id = y ∧ n.count = k := by
    intro x y k
    rw [← mem_arrows, harr, List.mem_flatMap]
    constructor
    · rintro ⟨z, hz, he⟩
      obtain ⟨d, hd, he⟩ := List.mem_map.1 he
      have a1 := hat z hz
      have a2 := At.snoc a1 (a := d.1) (c := d.2) hd
      rw [hcol a1, hcol a2] at he
      cases he
      exact ⟨word z, d.1, z.2.2, d.2, by simp [word], a1, a2, rfl, rfl, rfl⟩
    · rintro ⟨w, a, m, n, hne, hm, hn, rfl, rfl, rfl⟩
      obtain ⟨z, hz, e1, e2⟩ := (hmem w m).2 ⟨hne, hm⟩
      obtain ⟨m', hm', hc⟩ := At.unsnoc hn
      have := C53_unique seqs h hm hm'
      subst this
      subst e2
      refine ⟨z, hz, List.mem_map.2 ⟨(a, n), hc, ?_⟩⟩
      simp only [hcol hm, hcol hn]
  have hdmem : ∀ {w n}, w ≠ [] → At t w n → n.id ∈ declared ((r.map Prod.snd).flatMap treeStmts) := by
    intro w n hne hn
    obtain ⟨z, hz, _, e2⟩ := (hmem w n).2 ⟨hne, hn⟩
    rw [hdecl]
    exact List.mem_map.2 ⟨z, hz, by rw [e2]⟩
  refine ⟨_, _, fun fuel hf => r1 fuel hf, ?_, ?_, ?_, fun x a k => ?_, harrow⟩
  · rw [hdecl]
    refine (List.nodup_map_iff_inj_on (List.Nodup.of_map _ r2)).2 fun x hx y hy he => ?_
    exact List.inj_on_of_nodup_map r2 hx hy (C85_ids_unique seqs h (hat x hx) (hat y hy) he).1
  · rw [harr, List.nodup_flatMap]
    constructor
    · intro x hx
      refine (List.nodup_map_iff_inj_on ?_).2 ?_
      · exact List.Nodup.of_map _ ((PrefixTree.At.sorted h2 (hat x hx)).nodup)
      · intro c hc d hd he
        simp only [Prod.mk.injEq, true_and] at he
        have c1 := At.snoc (hat x hx) (a := c.1) (c := c.2) hc
        have d1 := At.snoc (hat x hx) (a := d.1) (c := d.2) hd
        rw [hcol c1, hcol d1] at he
        obtain ⟨e1, e2⟩ := C85_ids_unique seqs h c1 d1 he.1
        have := List.append_cancel_left e1
        simp only [List.cons.injEq, and_true] at this
        exact Prod.ext this e2
    · have hr : r.Pairwise fun x y => word x ≠ word y := List.pairwise_map.1 r2
      refine hr.imp_of_mem fun {x y} hx hy hne => ?_
      intro z hz hz'
      obtain ⟨c, _, rfl⟩ := List.mem_map.1 hz
      obtain ⟨d, _, he⟩ := List.mem_map.1 hz'
      simp only [Prod.mk.injEq] at he
      rw [hcol (hat x hx), hcol (hat y hy)] at he
      exact hne (C85_ids_unique seqs h (hat x hx) (hat y hy) he.1.symm).1
  · intro a b l hl
    obtain ⟨w, c, m, n, hne, hm, hn, rfl, rfl, _⟩ := (harrow a b l).1 hl
    exact ⟨hdmem hne hm, hdmem (by simp) hn⟩
  · unfold Declares
    rw [List.mem_flatMap]
    constructor
    · rintro ⟨c, hc, hm⟩
      obtain ⟨z, hz, rfl⟩ := List.mem_map.1 hc
      unfold treeStmts at hm
      rcases List.mem_cons.1 hm with hm | hm
      · cases hm
        exact ⟨z.1, z.2.2, hat z hz, rfl, rfl⟩
      · obtain ⟨d, _, hd⟩ := List.mem_map.1 hm
        cases hd
    · rintro ⟨w, n, hn, rfl, rfl⟩
      obtain ⟨z, hz, e1, e2⟩ := (hmem _ n).2 ⟨by simp, hn⟩
      refine ⟨z.2, List.mem_map.2 ⟨z, hz, rfl⟩, ?_⟩
      have : z.2.1 = a := by
        unfold word at e1
        have := congrArg List.getLast? e1
        simpa using this
      unfold treeStmts
      rw [e2, this]
      exact List.mem_cons_self

end

section
open Prolothar.Lts Prolothar.Spec.Lts
variable {S E : Type} [DecidableEq S] [DecidableEq E]

theorem mapM_ok {α β : Type} {f : α → Py β} {g : α → β} : ∀ {l : List α}, (∀ x ∈ l, f x = .ok (g x)) → l.mapM f = .ok (l.map g)
  | [], _ => rfl
  | a :: l, h => by
    rw [List.mapM_cons, h a List.mem_cons_self, mapM_ok fun x hx => h x (List.mem_cons_of_mem _ hx)]
    rfl

theorem stateName_inj {i j : Nat} (h : stateName i = stateName j) : i = j := by
  have := append_inj_left h
  have hl := congrArg String.toList this
  simp only [Nat.toString_eq_ofList_toDigits, String.toList_ofList] at hl
  exact PrefixTree.toDigits_inj hl

theorem colon_stateName (i : Nat) : addressed (stateName i) = stateName i := by
  rw [addressed_eq]
  unfold stateName
  rw [String.toList_append, List.mem_append]
  rintro (h | h)
  · revert h; decide
  · exact colon_toString i h

theorem stateNames_get {order : List S} (hn : order.Nodup) {i : Nat} {s : S} (h : order[i]? = some s) :
    (stateNames order).get? s = some (stateName i) := by
  induction order using List.reverseRecOn with
  | nil => simp at h
  | append_singleton l x ih =>
    have e : stateNames (l ++ [x]) = (stateNames l).put x (stateName l.length) := by
      simp [stateNames, List.zipIdx_append, List.foldl_append]
    rw [List.nodup_append] at hn
    obtain ⟨n1, _, n2⟩ := hn
    rw [e]
    rcases lt_trichotomy i l.length with hlt | rfl | hgt
    · rw [List.getElem?_append_left hlt] at h
      have hne : x ≠ s := fun e => n2 s (List.mem_of_getElem? h) x (by simp) e.symm
      rw [Dict.get?_put_of_ne _ _ hne]
      exact ih n1 h
    · simp at h
      subst h
      exact Dict.get?_put_self _ _ _
    · rw [List.getElem?_eq_none (by simp; omega)] at h
      cases h

/-- C144 (transition systems): if `sorted` succeeds, so does the plot. There is an injective naming of the states such that the nodes are
exactly the states, with two border lines exactly for the end states, and the arrows are exactly the transitions. -/
theorem C144_lts (f : List E → S) (seqs : List (List E)) (sort : List S → Py (List S)) (str : S → String) (lab : E → String) (useStr : Bool)
    {order : List S} (hsort : sort (build f seqs).states = .ok order) (hperm : order.Perm (build f seqs).states) :
    ∃ src, ∃ name : S → String, ltsPlot sort str lab useStr (build f seqs) = .ok src ∧
      (∀ s ∈ (build f seqs).states, ∀ s' ∈ (build f seqs).states, name s = name s' → s = s') ∧
      (declared src).Nodup ∧ Closed src ∧
      (∀ x a, Declares src x a ↔ ∃ s ∈ (build f seqs).states, x = name s ∧
        a = ⟨if useStr then str s else name s, if s ∈ (build f seqs).ends then 2 else 1⟩) ∧
      ∀ x y l, Arrow src x y l ↔ ∃ s e s', (s, e, s') ∈ transitions (build f seqs) ∧ x = name s ∧ y = name s' ∧ l = lab e := by
  obtain ⟨hst, _, _, hnd, _⟩ := C54_states f seqs
  obtain ⟨_, hit, _⟩ := C88_iterator f seqs
  have hclosed : ∀ s e s', (s, e, s') ∈ transitions (build f seqs) → s ∈ order ∧ s' ∈ order := by
    intro s e s' h
    obtain ⟨seq, hs, p, hp, rfl, rfl⟩ := (C54_transitions f seqs s e).1 s' ((hit s e s').1 h)
    rw [hperm.mem_iff, hperm.mem_iff, hst, hst]
    exact ⟨⟨seq, hs, p, (List.prefix_append _ _).trans hp, rfl⟩, ⟨seq, hs, _, hp, rfl⟩⟩
  generalize build f seqs = t at *
  have hno : order.Nodup := hperm.nodup_iff.2 hnd
  let name : S → String := fun s => stateName (order.idxOf s)
  have hget : ∀ s ∈ order, order[order.idxOf s]? = some s := fun s hs => List.getElem?_idxOf hs
  have hname : ∀ s ∈ order, (stateNames order).getItem s = .ok (name s) := by
    intro s hs
    unfold Dict.getItem
    rw [stateNames_get hno (hget s hs)]
  have hinj : ∀ s ∈ order, ∀ s' ∈ order, name s = name s' → s = s' := by
    intro s hs s' hs' he
    have h1 := hget s hs
    rw [stateName_inj he, hget s' hs'] at h1
    cases h1; rfl
  have hedges : (transitions t).mapM (transitionStmt (stateNames order) lab) =
      .ok ((transitions t).map fun x => .edge (name x.1) (name x.2.2) (lab x.2.1)) := by
    apply mapM_ok
    rintro ⟨s, e, s'⟩ hx
    obtain ⟨h1, h2⟩ := hclosed s e s' hx
    unfold transitionStmt
    rw [hname s h1, hname s' h2]
    rfl
  have hnodes : order.zipIdx.map (fun si => stateStmt t str useStr si.1 si.2) =
      order.map fun s => .node (name s) ⟨if useStr then str s else name s, if s ∈ t.ends then 2 else 1⟩ := by
    apply List.ext_getElem?
    intro i
    rw [List.getElem?_map, List.getElem?_map, List.getElem?_zipIdx]
    cases hi : order[i]? with
    | none => rfl
    | some s =>
      have hidx : order.idxOf s = i := by
        obtain ⟨h1, h2⟩ := List.getElem?_eq_some_iff.1 hi
        rw [← h2]
        exact List.Nodup.idxOf_getElem hno i h1
      simp only [Option.map_some, stateStmt, Nat.zero_add, name, hidx]
  have harrow : ∀ x y l, Arrow ((order.map fun s => (.node (name s) ⟨if useStr then str s else name s, if s ∈ t.ends then 2 else 1⟩ : Stmt StateAttrs String)) ++
      (transitions t).map fun x => .edge (name x.1) (name x.2.2) (lab x.2.1)) x y l ↔
      ∃ s e s', (s, e, s') ∈ transitions t ∧ x = name s ∧ y = name s' ∧ l = lab e := by
    intro x y l
    rw [← mem_arrows, arrows_append, arrows_nodes fun _ => rfl, List.nil_append, arrows_edges (fun _ => rfl), List.mem_map]
    constructor
    · rintro ⟨⟨s, e, s'⟩, hx, he⟩
      simp only [Prod.mk.injEq, name, colon_stateName] at he
      exact ⟨s, e, s', hx, he.1.symm, he.2.1.symm, he.2.2.symm⟩
    · rintro ⟨s, e, s', hx, rfl, rfl, rfl⟩
      exact ⟨_, hx, by simp only [name, colon_stateName]⟩
  have hdecl : declared ((order.map fun s => (.node (name s) ⟨if useStr then str s else name s, if s ∈ t.ends then 2 else 1⟩ : Stmt StateAttrs String)) ++
      (transitions t).map fun x => .edge (name x.1) (name x.2.2) (lab x.2.1)) = order.map name := by
    rw [declared_append, declared_nodes fun _ => rfl, declared_edges fun _ => rfl, List.append_nil]
  refine ⟨_, name, ?_, ?_, ?_, ?_, ?_, harrow⟩
  · unfold ltsPlot
    rw [hsort]
    simp only [bind, Except.bind, hedges, hnodes]
    rfl
  · intro s hs s' hs' he
    exact hinj s (hperm.mem_iff.2 hs) s' (hperm.mem_iff.2 hs') he
  · rw [hdecl]
    exact (List.nodup_map_iff_inj_on hno).2 fun s hs s' hs' he => hinj s hs s' hs' he
  · intro a b l h
    obtain ⟨s, e, s', hx, rfl, rfl, _⟩ := (harrow a b l).1 h
    obtain ⟨h1, h2⟩ := hclosed s e s' hx
    rw [hdecl]
    exact ⟨List.mem_map_of_mem h1, List.mem_map_of_mem h2⟩
  · intro x a
    unfold Declares
    rw [List.mem_append, List.mem_map]
    constructor
    · rintro (⟨s, hs, he⟩ | h)
      · cases he
        exact ⟨s, hperm.mem_iff.1 hs, rfl, rfl⟩
      · obtain ⟨_, _, he⟩ := List.mem_map.1 h
        cases he
    · rintro ⟨s, hs, rfl, rfl⟩
      exact .inl ⟨s, hperm.mem_iff.2 hs, rfl⟩

/-- C144 (transition systems): states that cannot be sorted cannot be plotted. -/
theorem C144_lts_unsortable (sort : List S → Py (List S)) (str : S → String) (lab : E → String) (useStr : Bool) (t : System S E) {e : PyErr}
    (h : sort t.states = .error e) : ltsPlot sort str lab useStr t = .error e := by
  unfold ltsPlot
  rw [h]
  rfl

end

section
open Prolothar.Dfg Prolothar.Spec.Dfg

/-- C144 (directly-follows graphs): every activity is declared exactly once; the arrows lead from and to the names of the activities up to
their first colon. -/
theorem C144_dfg {g : Graph String} (hb : Dfg.Built g) (o : EdgeOpts) :
    (declared (dfgPlot g o)).Nodup ∧ (∀ a, a ∈ declared (dfgPlot g o) ↔ (view g).node a) ∧
    ∀ x y l, Arrow (dfgPlot g o) x y l ↔ ∃ a b c, (view g).count a b = some c ∧ x = addressed a ∧ y = addressed b ∧
      l = if o.showCounts then some c else none := by
  obtain ⟨h1, h2, h3⟩ := C131_edge_lines hb o
  have hd : declared (dfgPlot g o) = nodeLines g := by
    unfold dfgPlot
    rw [declared_append, declared_nodes (fun _ => rfl), declared_edges fun _ => rfl, List.append_nil]
    exact List.map_id _
  obtain ⟨_, _, l, e, s1, s2⟩ := C131_other_cases hb (fun (r : Unit) _ => (0, r)) () "" "" 0
  have e : nodeLines g = l := by simpa [plotNodes, pure, Except.pure] using e
  rw [hd, e]
  refine ⟨s1.imp fun h => h.ne, s2, fun x y lab => ?_⟩
  rw [← mem_arrows]
  have ha : arrows (dfgPlot g o) = (plotEdges g o).map fun e => (addressed e.start, addressed e.stop, e.label) := by
    unfold dfgPlot
    rw [arrows_append, arrows_nodes (fun _ => rfl), arrows_edges (fun _ => rfl), List.nil_append]
  rw [ha, List.mem_map]
  constructor
  · rintro ⟨z, hz, he⟩
    obtain ⟨c, hc, hl⟩ := h3 z hz
    cases he
    exact ⟨z.start, z.stop, c, hc, rfl, rfl, hl⟩
  · rintro ⟨a, b, c, hc, rfl, rfl, rfl⟩
    obtain ⟨z, hz, rfl, rfl⟩ := (h2 a b).2 ⟨c, hc⟩
    obtain ⟨c', hc', hl⟩ := h3 z hz
    rw [hc] at hc'
    cases hc'
    exact ⟨z, hz, by rw [hl]⟩

/-- C144 (directly-follows graphs): if no activity contains a colon, the arrows are exactly the edges. -/
theorem C144_dfg_exact {g : Graph String} (hb : Dfg.Built g) (o : EdgeOpts) (hc : ∀ a, (view g).node a → ':' ∉ a.toList) :
    Closed (dfgPlot g o) ∧ (arrows (dfgPlot g o)).Nodup ∧
    ∀ x y l, Arrow (dfgPlot g o) x y l ↔ ∃ c, (view g).count x y = some c ∧ l = if o.showCounts then some c else none := by
  obtain ⟨_, h2, h3⟩ := C144_dfg hb o
  have hends : ∀ {a b c}, (view g).count a b = some c → (view g).node a ∧ (view g).node b := by
    intro a b c h
    obtain ⟨e, he, _⟩ := Option.bind_eq_some_iff.1 h
    exact ((C43_well_formed hb).1 a b e he).2
  have harrow : ∀ x y l, Arrow (dfgPlot g o) x y l ↔ ∃ c, (view g).count x y = some c ∧ l = if o.showCounts then some c else none := by
    intro x y l
    rw [h3]
    constructor
    · rintro ⟨a, b, c, he, rfl, rfl, rfl⟩
      rw [addressed_eq.2 (hc a (hends he).1), addressed_eq.2 (hc b (hends he).2)]
      exact ⟨c, he, rfl⟩
    · rintro ⟨c, he, rfl⟩
      exact ⟨x, y, c, he, (addressed_eq.2 (hc x (hends he).1)).symm, (addressed_eq.2 (hc y (hends he).2)).symm, rfl⟩
  refine ⟨?_, ?_, harrow⟩
  · intro a b l h
    obtain ⟨c, he, _⟩ := (harrow a b l).1 h
    rw [h2, h2]
    exact hends he
  · have ha : arrows (dfgPlot g o) = (plotEdges g o).map fun e => (addressed e.start, addressed e.stop, e.label) := by
      unfold dfgPlot
      rw [arrows_append, arrows_nodes (fun _ => rfl), arrows_edges (fun _ => rfl), List.nil_append]
    obtain ⟨p1, p2, p3⟩ := C131_edge_lines hb o
    rw [ha, List.Nodup, List.pairwise_map]
    refine p1.imp_of_mem fun {x y} hx hy hxy he => ?_
    simp only [Prod.mk.injEq] at he
    obtain ⟨cx, hcx, _⟩ := p3 x hx
    obtain ⟨cy, hcy, _⟩ := p3 y hy
    rw [addressed_eq.2 (hc _ (hends hcx).1), addressed_eq.2 (hc _ (hends hcx).2), addressed_eq.2 (hc _ (hends hcy).1),
      addressed_eq.2 (hc _ (hends hcy).2)] at he
    rcases hxy with h | h
    · exact absurd he.1 h.ne
    · exact absurd he.2.1 h.2.ne

end

/-! ### ids with colons, and examples -/

section
open Prolothar.Petri

/-- places `a` and `a:1`; the transition `t` consumes from `a:1` and produces on `a` -/
def exColon : Py Net := do
  let n ← Net.empty.addPlace "a" "first" 0
  let n ← n.addPlace "a:1" "second" 2
  let n ← n.addTransition "t" none false
  n.addConnection "a:1" "t" "a"

theorem built_bind {m : Py Net} {f : Net → Py Net} {n : Net} (h : m >>= f = .ok n) : ∃ x, m = .ok x ∧ f x = .ok n := by
  cases m with
  | error e => cases h
  | ok x => exact ⟨x, rfl, h⟩

theorem exColon_built {n : Net} (h : exColon = .ok n) : Built n := by
  obtain ⟨n1, h1, h⟩ := built_bind h
  obtain ⟨n2, h2, h⟩ := built_bind h
  obtain ⟨n3, h3, h⟩ := built_bind h
  exact .addConnection (.addTransition (.addPlace (.addPlace .empty h1) h2) h3) h

/-- C144: with colons in ids the pictures are wrong. The only transition of this net takes its tokens from `a:1`, not from `a`; but the
arrow starts at the node of the place `a`, and no arrow starts at the node of `a:1`. -/
theorem C144_net_colon : ∃ n, Built n ∧ n.pre "t" = ["a:1"] ∧ "a:1" ∈ n.places ∧ "a" ∈ n.places ∧
    Arrow (netPlot n false) "place_a" "transition_t" () ∧ ∀ y l, ¬ Arrow (netPlot n false) "place_a:1" y l := by
  have hex : ∃ n, exColon = .ok n ∧ n.pre "t" = ["a:1"] ∧ n.places = ["a", "a:1"] ∧
      arrows (netPlot n false) = [("place_a", "transition_t", ()), ("transition_t", "place_a", ())] := ⟨_, rfl, by decide, by decide, by decide +kernel⟩
  obtain ⟨n, h1, h2, h3, h4⟩ := hex
  refine ⟨n, exColon_built h1, h2, by rw [h3]; decide, by rw [h3]; decide, ?_, ?_⟩
  · rw [← mem_arrows, h4]
    exact List.mem_cons_self
  · intro y l h
    rw [← mem_arrows, h4] at h
    simp at h

example : ∃ n, exColon = .ok n ∧ netPlot n false = [.node "place_a" (.place "first" ""), .node "place_a:1" (.place "second" "2"),
    .node "transition_t" (.transition "t" true true), .edge "place_a:1" "transition_t" (), .edge "transition_t" "place_a" ()] :=
  ⟨_, rfl, by decide +kernel⟩

end

section
open Prolothar.Dfg Prolothar.Spec.Dfg

/-- C144: two activities `login:ok` and `login:failed`, the first follows the second. graphviz draws a loop at a third node. -/
theorem C144_dfg_colon : ∃ g : Graph String, Dfg.Built g ∧ (∀ a, (view g).node a ↔ a = "login:failed" ∨ a = "login:ok") ∧
    ∀ o : EdgeOpts, o.showCounts = true → Arrow (dfgPlot g o) "login" "login" (some 1) ∧ "login" ∉ declared (dfgPlot g o) := by
  have hb : Dfg.Built (addCount empty "login:failed" "login:ok" 1 : Graph String) := Dfg.Built.new.addCount _ _ _
  have hn : ∀ a, (view (addCount empty "login:failed" "login:ok" 1 : Graph String)).node a ↔ a = "login:failed" ∨ a = "login:ok" := by
    intro a
    rw [view_node]
    have : (addCount empty "login:failed" "login:ok" 1 : Graph String).nodes.keys = ["login:failed", "login:ok"] := by decide +kernel
    rw [this]
    simp
  refine ⟨_, hb, hn, fun o ho => ?_⟩
  obtain ⟨_, h2, h3⟩ := C144_dfg hb o
  refine ⟨(h3 _ _ _).2 ⟨"login:failed", "login:ok", 1, by decide +kernel, by decide +kernel, by decide +kernel, by simp [ho]⟩, ?_⟩
  rw [h2, hn]
  decide +kernel

end

section
open Prolothar.PrefixTree

example : ∃ t, build [[1, 2], [1, 3], [1]] = .ok t ∧ treePlot 10 t = .ok [.node ".0" (1, 3), .edge ".0" ".0.1" 1, .edge ".0" ".0.0" 1,
    .node ".0.0" (2, 1), .node ".0.1" (3, 1)] := ⟨_, rfl, by decide +kernel⟩

example : ltsPlot (fun l => .ok l) (fun _ => "") toString false (Lts.build Lts.listAbstraction [[5, 7], [5]]) =
    .ok [.node "s0" ⟨"s0", 1⟩, .node "s1" ⟨"s1", 2⟩, .node "s2" ⟨"s2", 2⟩, .edge "s0" "s1" "5", .edge "s1" "s2" "7"] := by decide +kernel

end
end Prolothar.GraphPlots
