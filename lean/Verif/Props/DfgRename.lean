import Verif.Props.Dfg
import Verif.Lemmas.PetriWf
/-
C200: `rename_activity` with a new name that is already in use (C83 is about unused names).
-/
set_option linter.unusedSectionVars false
namespace Prolothar.Dfg
open Prolothar.Spec.Dfg
variable {A : Type} [LinearOrder A]

/-- `rename_activity` after the node has been renamed and before the edges get their new keys -/
theorem rename_start {g : Graph A} (h : WF g) {old : A} (new : A) {n : NodeObj} (hnode : g.nodes.get? old = some n) :
    ∃ g3 : Graph A, g3.nodes = (g.nodes.put new n).del old ∧ g3.edges = g.edges ∧
      (∀ k e, g.edges.get? k = some e → ∃ c, g.heap[e]? = some ⟨k.1, k.2, c⟩ ∧ g3.heap[e]? = some ⟨ren old new k.1, ren old new k.2, c⟩) ∧
      rename g old new = (n.ing.foldlM (renameIng old new) g3 >>= fun g4 => n.out.foldlM (renameOut old new) g4) := by
  obtain ⟨on, om⟩ := h.out old n hnode
  obtain ⟨inn, im⟩ := h.ing old n hnode
  let g1 : Graph A := { g with nodes := (g.nodes.put new n).del old }
  obtain ⟨b1, b2, b3⟩ := foldl_modifyEdge n.out on (fun o => { o with start := new }) g1
  let g2 := n.out.foldl (fun g e => modifyEdge g e fun o => { o with start := new }) g1
  obtain ⟨c1, c2, c3⟩ := foldl_modifyEdge n.ing inn (fun o => { o with stop := new }) g2
  refine ⟨n.ing.foldl (fun g e => modifyEdge g e fun o => { o with stop := new }) g2, c1.trans b1, c2.trans b2, ?_, ?_⟩
  · intro k e hk
    obtain ⟨c, hc⟩ := h.obj k e hk
    refine ⟨c, hc, ?_⟩
    rw [c3]
    show Option.map _ ((n.out.foldl _ g1).heap[e]?) = _
    rw [b3]
    show Option.map _ (Option.map _ g.heap[e]?) = _
    rw [hc]
    have m1 : e ∈ n.out ↔ k.1 = old := by
      rw [om]
      constructor
      · rintro ⟨b, hb⟩
        exact congrArg Prod.fst (h.inj hk hb)
      · intro hh
        exact ⟨k.2, by rw [← hh]; exact hk⟩
    have m2 : e ∈ n.ing ↔ k.2 = old := by
      rw [im]
      constructor
      · rintro ⟨b, hb⟩
        exact congrArg Prod.snd (h.inj hk hb)
      · intro hh
        exact ⟨k.1, by rw [← hh]; exact hk⟩
    simp only [Option.map_some, m1, m2, ren]
    by_cases h1 : k.1 = old <;> by_cases h2 : k.2 = old <;> simp [h1, h2]
  · unfold rename
    have : g.nodes.getItem old = .ok n := by unfold Dict.getItem; rw [hnode]
    rw [this]; rfl

/-- a dictionary entry that is deleted and stored again -/
theorem get?_del_put_same {κ ν : Type} [DecidableEq κ] {d : Dict κ ν} (hd : d.WF) {k : κ} {v : ν} (h : d.get? k = some v) (x : κ) :
    ((d.del k).put k v).get? x = d.get? x := by
  rw [Dict.get?_put]
  by_cases hx : k = x
  · subst hx; simp [h]
  · rw [if_neg hx, Dict.get?_del hd]
    simp [hx]

/-- the state during a renaming of `a` to `a`: the edges are found as before -/
def SameEdges (g g' : Graph A) : Prop :=
  g'.nodes = g.nodes ∧ g'.heap = g.heap ∧ g'.edges.WF ∧ ∀ k, g'.edges.get? k = g.edges.get? k

/-- C200: renaming an activity to its own name removes the node from the graph, but leaves all edges with their counts: the edges of this
node then lead from and to a node that the graph does not have. The call does not raise. -/
theorem C200_same_name {g : Graph A} (hb : Built g) {a : A} (ha : (view g).node a) :
    ∃ g', rename g a a = .ok g' ∧ (∀ x, (view g').node x ↔ (view g).node x ∧ x ≠ a) ∧
      (∀ x y, (view g').count x y = (view g).count x y) ∧ following g' a = .error .key := by
  have h := hb.wf
  rw [view_node] at ha
  obtain ⟨n, hnode⟩ := Dict.mem_keys_iff.1 ha
  obtain ⟨_, om⟩ := h.out a n hnode
  obtain ⟨_, im⟩ := h.ing a n hnode
  obtain ⟨g3, hN, hE, hH, hr⟩ := rename_start h a hnode
  have hren : ∀ x, ren a a x = x := by intro x; unfold ren; split <;> simp_all
  have hH' : ∀ k e, g.edges.get? k = some e → ∃ c, g.heap[e]? = some ⟨k.1, k.2, c⟩ ∧ g3.heap[e]? = some ⟨k.1, k.2, c⟩ := by
    intro k e hk
    obtain ⟨c, h1, h2⟩ := hH k e hk
    rw [hren, hren] at h2
    exact ⟨c, h1, h2⟩
  have hhas : ∀ {g' : Graph A} {k : A × A} {e : Nat}, SameEdges g3 g' → g.edges.get? k = some e → g'.edges.has k = true := by
    intro g' k e hs hk
    rw [Dict.has_iff, Dict.mem_keys_iff]
    exact ⟨e, by rw [hs.2.2.2, hE]; exact hk⟩
  have loop : ∀ (step : Graph A → Nat → Py (Graph A)) (es : List Nat),
      (∀ g', SameEdges g3 g' → ∀ e ∈ es, ∃ g'', step g' e = .ok g'' ∧ SameEdges g3 g'') →
      ∀ g', SameEdges g3 g' → ∃ g'', es.foldlM step g' = .ok g'' ∧ SameEdges g3 g'' := by
    intro step es
    induction es with
    | nil => exact fun _ g' hs => ⟨g', rfl, hs⟩
    | cons e es ih =>
      intro hstep g' hs
      obtain ⟨g'', h1, h2⟩ := hstep g' hs e (by simp)
      obtain ⟨g5, h3, h4⟩ := ih (fun g' hs e he => hstep g' hs e (by simp [he])) g'' h2
      refine ⟨g5, ?_, h4⟩
      rw [List.foldlM_cons, h1]; exact h3
  have hput : ∀ {g' : Graph A} {k : A × A} {e : Nat}, SameEdges g3 g' → g.edges.get? k = some e →
      SameEdges g3 { g' with edges := (g'.edges.del k).put k e } := by
    intro g' k e hs hk
    refine ⟨hs.1, hs.2.1, (hs.2.2.1.del k).put k e, fun x => ?_⟩
    show ((g'.edges.del k).put k e).get? x = _
    rw [get?_del_put_same hs.2.2.1 (by rw [hs.2.2.2, hE]; exact hk), hs.2.2.2]
  obtain ⟨g4, h1, h2⟩ := loop (renameIng a a) n.ing (fun g' hs e he => by
    obtain ⟨x, hx⟩ := (im e).1 he
    obtain ⟨c, _, hc⟩ := hH' _ _ hx
    refine ⟨_, ?_, hput hs hx⟩
    unfold renameIng
    rw [hs.2.1, hc]
    dsimp only
    have hk : (if x = a then ((a, a) : A × A) else (x, a)) = (x, a) := by split <;> simp_all
    rw [hk, if_pos (hhas hs hx)]) g3 ⟨rfl, rfl, by rw [hE]; exact h.edgesWF, fun _ => rfl⟩
  obtain ⟨g5, h3, h4⟩ := loop (renameOut a a) n.out (fun g' hs e he => by
    obtain ⟨x, hx⟩ := (om e).1 he
    obtain ⟨c, _, hc⟩ := hH' _ _ hx
    unfold renameOut
    rw [hs.2.1, hc]
    dsimp only
    by_cases hxa : a = x
    · rw [if_pos hxa]; exact ⟨g', rfl, hs⟩
    · rw [if_neg hxa, if_pos (hhas hs hx)]
      exact ⟨_, rfl, by rw [← hs.2.1]; exact hput hs hx⟩) g4 h2
  have hnode5 : ∀ x, x ∈ g5.nodes.keys ↔ x ∈ g.nodes.keys ∧ x ≠ a := by
    intro x
    rw [h4.1, hN, Dict.mem_keys_iff, Dict.mem_keys_iff]
    simp only [Dict.get?_del (h.nodesWF.put a n), Dict.get?_put]
    by_cases hx : x = a
    · subst hx; simp
    · simp [hx, Ne.symm hx]
  refine ⟨g5, ?_, fun x => ?_, fun x y => ?_, ?_⟩
  · rw [hr, h1]; exact h3
  · rw [view_node, view_node, hnode5]
  · show (g5.edges.get? (x, y)).bind _ = (g.edges.get? (x, y)).bind _
    rw [h4.2.2.2, hE, h4.2.1]
    cases hk : g.edges.get? (x, y) with
    | none => rfl
    | some e =>
      obtain ⟨c, e1, e2⟩ := hH' _ _ hk
      simp [e1, e2]
  · unfold following
    have : g5.nodes.getItem a = .error .key := by
      unfold Dict.getItem
      rw [Dict.get?_eq_none_iff.2 (by rw [hnode5]; simp)]
    rw [this]; rfl

/-- C200: if the activity is preceded by the activity with the new name and has no edge to itself, the call raises a KeyError -/
theorem C200_predecessor {g : Graph A} (hb : Built g) {old new : A} (hne : new ≠ old) (he : (view g).Edge new old)
    (hl : ¬ (view g).Edge old old) : rename g old new = .error .key := by
  have h := hb.wf
  rw [view_edge] at he hl
  obtain ⟨c, hcnt⟩ := Option.isSome_iff_exists.1 ((h.toCore.cnt_isSome (a := new) (b := old)).2 (by
    have := he; unfold Edge at this; exact (h.toCore.cnt_isSome).1 this))
  have hkey : (new, old) ∈ g.edges.keys := (h.toCore.cnt_isSome).1 (by rw [hcnt]; rfl)
  obtain ⟨e, hek⟩ := Dict.mem_keys_iff.1 hkey
  have hold : old ∈ g.nodes.keys := (h.ends _ _ hek).2
  obtain ⟨n, hnode⟩ := Dict.mem_keys_iff.1 hold
  obtain ⟨_, im⟩ := h.ing old n hnode
  obtain ⟨g3, hN, hE, hH, hr⟩ := rename_start h new hnode
  have hloop : (old, old) ∉ g.edges.keys := fun hm => hl (by unfold Edge; exact (h.toCore.cnt_isSome).2 hm)
  have key : ∀ (es : List Nat) (g' : Graph A), (∀ e ∈ es, e ∈ n.ing) → g'.heap = g3.heap → g'.edges.WF → (old, old) ∉ g'.edges.keys →
      e ∈ es → es.foldlM (renameIng old new) g' = .error .key := by
    intro es
    induction es with
    | nil => intro _ _ _ _ _ hm; cases hm
    | cons e0 es ih =>
      intro g' hes hh hw hno hm
      obtain ⟨x, hx⟩ := (im e0).1 (hes e0 (by simp))
      obtain ⟨c0, _, hc0⟩ := hH _ _ hx
      have hrold : ren old new old = new := by simp [ren]
      rw [hrold] at hc0
      rw [List.foldlM_cons]
      have hstep : renameIng old new g' e0 = if g'.edges.has (if ren old new x = new then (old, old) else (ren old new x, old)) then
          .ok { g' with edges := (g'.edges.del (if ren old new x = new then (old, old) else (ren old new x, old))).put (ren old new x, new) e0 }
          else .error .key := by
        unfold renameIng
        rw [hh, hc0]
      rw [hstep]
      by_cases hxn : ren old new x = new
      · rw [if_pos hxn, if_neg (by rw [Dict.has_iff]; exact hno)]; rfl
      · rw [if_neg hxn]
        split
        · refine ih _ (fun e he => hes e (by simp [he])) hh ((hw.del _).put _ _) ?_ ?_
          · show (old, old) ∉ ((g'.edges.del _).put _ _).keys
            rw [Dict.mem_keys_put]
            rintro (hm' | hm')
            · exact hne (congrArg Prod.snd hm').symm
            · obtain ⟨v, hv⟩ := Dict.mem_keys_iff.1 hm'
              rw [Dict.get?_del hw] at hv
              split at hv
              · cases hv
              · exact hno (Dict.mem_keys_iff.2 ⟨v, hv⟩)
          · rcases List.mem_cons.1 hm with rfl | hm
            · exfalso
              have := h.inj hx hek
              have hx' : x = new := congrArg Prod.fst this
              exact hxn (by rw [hx']; simp [ren, hne])
            · exact hm
        · rfl
  rw [hr, key n.ing g3 (fun _ h => h) rfl (by rw [hE]; exact h.edgesWF) (by rw [hE]; exact hloop) ((im e).2 ⟨new, hek⟩)]
  rfl

/-- C200: if the activity is followed by the activity with the new name and the call returns, then the edge is still stored under the old
name, although the graph has no node of this name any more -/
theorem C200_successor {g g' : Graph A} (hb : Built g) {old new : A} (hne : new ≠ old) (he : (view g).Edge old new)
    (hret : rename g old new = .ok g') : (view g').count old new = (view g).count old new ∧ ¬ (view g').node old := by
  have h := hb.wf
  rw [view_edge] at he
  have hkey : (old, new) ∈ g.edges.keys := (h.toCore.cnt_isSome).1 (by unfold Edge at he; exact he)
  obtain ⟨e, hek⟩ := Dict.mem_keys_iff.1 hkey
  have hold : old ∈ g.nodes.keys := (h.ends _ _ hek).1
  obtain ⟨n, hnode⟩ := Dict.mem_keys_iff.1 hold
  obtain ⟨_, im⟩ := h.ing old n hnode
  obtain ⟨_, om⟩ := h.out old n hnode
  obtain ⟨g3, hN, hE, hH, hr⟩ := rename_start h new hnode
  have hrne : ∀ x, ren old new x ≠ old := by
    intro x
    unfold ren
    split
    · exact hne
    · assumption
  have hrold : ren old new old = new := by simp [ren]
  have loop : ∀ (step : Graph A → Nat → Py (Graph A)) (es : List Nat) (P : Graph A → Prop),
      (∀ g1, P g1 → ∀ e ∈ es, ∀ g2, step g1 e = .ok g2 → P g2) → ∀ g1, P g1 → ∀ g2, es.foldlM step g1 = .ok g2 → P g2 := by
    intro step es P
    induction es with
    | nil => intro _ g1 hp g2 hs; cases hs; exact hp
    | cons e es ih =>
      intro hstep g1 hp g2 hs
      rw [List.foldlM_cons] at hs
      obtain ⟨g5, h1, h2⟩ := Petri.bind_eq_ok hs
      exact ih (fun g1 hp e he => hstep g1 hp e (by simp [he])) g5 (hstep g1 hp e (by simp) g5 h1) g2 h2
  let P : Graph A → Prop := fun g1 => g1.nodes = g3.nodes ∧ g1.heap = g3.heap ∧ g1.edges.WF ∧ g1.edges.get? (old, new) = some e
  rw [hr] at hret
  obtain ⟨g4, r1, r2⟩ := Petri.bind_eq_ok hret
  have hP3 : P g3 := ⟨rfl, rfl, by rw [hE]; exact h.edgesWF, by rw [hE]; exact hek⟩
  have hP4 : P g4 := by
    refine loop (renameIng old new) n.ing P ?_ g3 hP3 g4 r1
    rintro g1 ⟨p1, p2, p3, p4⟩ e0 he0 g2 hs
    obtain ⟨x, hx⟩ := (im e0).1 he0
    obtain ⟨c0, _, hc0⟩ := hH _ _ hx
    unfold renameIng at hs
    rw [p2, hc0] at hs
    dsimp only at hs
    have hk2 : (if ren old new x = ren old new old then (old, old) else (ren old new x, old)).2 = old := by split <;> rfl
    generalize (if ren old new x = ren old new old then (old, old) else (ren old new x, old)) = k at hs hk2
    split at hs
    · cases hs
      refine ⟨p1, rfl, (p3.del _).put _ _, ?_⟩
      show Dict.get? (Dict.put (Dict.del g1.edges _) _ _) _ = _
      rw [Dict.get?_put, if_neg (fun hc => hrne x (congrArg Prod.fst hc)), Dict.get?_del p3, if_neg, p4]
      intro hc
      rw [hc] at hk2
      exact hne hk2
    · cases hs
  have hP5 : P g' := by
    refine loop (renameOut old new) n.out P ?_ g4 hP4 g' r2
    rintro g1 ⟨p1, p2, p3, p4⟩ e0 he0 g2 hs
    obtain ⟨x, hx⟩ := (om e0).1 he0
    obtain ⟨c0, _, hc0⟩ := hH _ _ hx
    unfold renameOut at hs
    rw [p2, hc0] at hs
    dsimp only at hs
    rw [hrold] at hs
    split at hs
    · cases hs; exact ⟨p1, p2, p3, p4⟩
    · next hxn =>
      split at hs
      · cases hs
        refine ⟨p1, rfl, (p3.del _).put _ _, ?_⟩
        show Dict.get? (Dict.put (Dict.del g1.edges _) _ _) _ = _
        rw [Dict.get?_put, if_neg (fun hc => hne (congrArg Prod.fst hc)), Dict.get?_del p3, if_neg, p4]
        intro hc
        exact hxn (congrArg Prod.snd hc).symm
      · cases hs
  obtain ⟨c, e1, e2⟩ := hH _ _ hek
  constructor
  · show (g'.edges.get? (old, new)).bind _ = (g.edges.get? (old, new)).bind _
    rw [hP5.2.2.2, hek, hP5.2.1]
    simp [e1, e2]
  · rw [view_node, hP5.1, hN, Dict.mem_keys_iff]
    simp [Dict.get?_del (h.nodesWF.put new n)]

/-- edges get new keys, one after the other; edges that have been stored under a new key before are overwritten -/
theorem rekey_over {H : List (EdgeObj A)} (step : Graph A → Nat → Py (Graph A)) (P : Nat → Prop) [DecidablePred P]
    (okey nkey : Nat → A × A) (es : List Nat)
    (hstep : ∀ g : Graph A, g.heap = H → ∀ e ∈ es, P e → g.edges.get? (okey e) = some e →
      step g e = .ok { g with edges := (g.edges.del (okey e)).put (nkey e) e })
    (hskip : ∀ g : Graph A, g.heap = H → ∀ e ∈ es, ¬ P e → step g e = .ok g)
    (hes : es.Nodup) (hoinj : ∀ e ∈ es, ∀ e' ∈ es, okey e = okey e' → e = e') (hninj : ∀ e ∈ es, ∀ e' ∈ es, nkey e = nkey e' → e = e')
    (hon : ∀ e ∈ es, ∀ e' ∈ es, nkey e ≠ okey e')
    (g : Graph A) (hH : g.heap = H) (hW : g.edges.WF) (hok : ∀ e ∈ es, P e → g.edges.get? (okey e) = some e) :
    ∃ g', es.foldlM step g = .ok g' ∧ g'.heap = H ∧ g'.nodes = g.nodes ∧ g'.edges.WF ∧
      (∀ e ∈ es, P e → g'.edges.get? (nkey e) = some e) ∧ (∀ e ∈ es, P e → g'.edges.get? (okey e) = none) ∧
      ∀ k, (∀ e ∈ es, P e → k ≠ nkey e ∧ k ≠ okey e) → g'.edges.get? k = g.edges.get? k := by
  induction es generalizing g with
  | nil => exact ⟨g, rfl, hH, rfl, hW, by simp, by simp, fun _ _ => rfl⟩
  | cons e0 es ih =>
    rw [List.nodup_cons] at hes
    have ih' := ih (fun g hg e he => hstep g hg e (by simp [he])) (fun g hg e he => hskip g hg e (by simp [he])) hes.2
      (fun e he e' he' => hoinj e (by simp [he]) e' (by simp [he'])) (fun e he e' he' => hninj e (by simp [he]) e' (by simp [he']))
      (fun e he e' he' => hon e (by simp [he]) e' (by simp [he']))
    rw [List.foldlM_cons]
    by_cases hP : P e0
    · rw [hstep g hH e0 (by simp) hP (hok e0 (by simp) hP)]
      have hget : ∀ k, Dict.get? ((g.edges.del (okey e0)).put (nkey e0) e0) k =
          if nkey e0 = k then some e0 else if okey e0 = k then none else g.edges.get? k := by
        intro k; rw [Dict.get?_put, Dict.get?_del hW]
      obtain ⟨g', j1, j2, j3, j4, j5, j6, j7⟩ := ih' { g with edges := (g.edges.del (okey e0)).put (nkey e0) e0 } hH
        ((hW.del _).put _ _) (fun e he hp => by
          show Dict.get? ((g.edges.del (okey e0)).put (nkey e0) e0) (okey e) = _
          rw [hget, if_neg (hon e0 (by simp) e (by simp [he])), if_neg (fun hc => hes.1 (by
            rw [hoinj e0 (by simp) e (by simp [he]) hc]; exact he))]
          exact hok e (by simp [he]) hp)
      refine ⟨g', j1, j2, j3, j4, ?_, ?_, ?_⟩
      · intro e he hp
        rcases List.mem_cons.1 he with rfl | he
        · rw [j7 _ (fun e' he' _ => ⟨fun hc => hes.1 (by rw [hninj e (by simp) e' (by simp [he']) hc]; exact he'),
            hon e (by simp) e' (by simp [he'])⟩)]
          show Dict.get? ((g.edges.del (okey e)).put (nkey e) e) (nkey e) = _
          rw [hget, if_pos rfl]
        · exact j5 e he hp
      · intro e he hp
        rcases List.mem_cons.1 he with rfl | he
        · rw [j7 _ (fun e' he' _ => ⟨fun hc => hon e' (by simp [he']) e (by simp) hc.symm,
            fun hc => hes.1 (by rw [hoinj e (by simp) e' (by simp [he']) hc]; exact he')⟩)]
          show Dict.get? ((g.edges.del (okey e)).put (nkey e) e) (okey e) = _
          rw [hget, if_neg (hon e (by simp) e (by simp)), if_pos rfl]
        · exact j6 e he hp
      · intro k hk
        rw [j7 k (fun e he hp => hk e (by simp [he]) hp)]
        show Dict.get? ((g.edges.del (okey e0)).put (nkey e0) e0) k = _
        have := hk e0 (by simp) hP
        rw [hget, if_neg this.1.symm, if_neg this.2.symm]
    · rw [hskip g hH e0 (by simp) hP]
      obtain ⟨g', j1, j2, j3, j4, j5, j6, j7⟩ := ih' g hH hW (fun e he hp => hok e (by simp [he]) hp)
      refine ⟨g', j1, j2, j3, j4, ?_, ?_, ?_⟩
      · intro e he hp
        rcases List.mem_cons.1 he with rfl | he
        · exact absurd hp hP
        · exact j5 e he hp
      · intro e he hp
        rcases List.mem_cons.1 he with rfl | he
        · exact absurd hp hP
        · exact j6 e he hp
      · exact fun k hk => j7 k (fun e he hp => hk e (by simp [he]) hp)

/-- the counts after a node has been merged into another one by renaming: where both nodes have an edge, that of the renamed node wins -/
def mergedCount (c : A → A → Option Int) (old new x y : A) : Option Int :=
  if x = old ∨ y = old then none
  else if x = new ∧ y = new then (c old old).or (c new new)
  else if x = new then (c old y).or (c new y)
  else if y = new then (c x old).or (c x new)
  else c x y

/-- C200: if the two activities are not connected by an edge the call returns. The graph has lost the old name. Where both nodes had an
edge from or to the same node, the count of the renamed one has replaced the other one (the counts are not added); edges of the node that
had the new name before are still stored, but as successors of the new name only those of the renamed node are listed. -/
theorem C200_unconnected {g : Graph A} (hb : Built g) {old new : A} (hne : new ≠ old) (ho : (view g).node old) (hn : (view g).node new)
    (h1 : ¬ (view g).Edge old new) (h2 : ¬ (view g).Edge new old) :
    ∃ g', rename g old new = .ok g' ∧ (∀ x, (view g').node x ↔ (view g).node x ∧ x ≠ old) ∧
      (∀ x y, (view g').count x y = mergedCount (view g).count old new x y) ∧
      ∃ l, following g' new = .ok l ∧ ∀ b, b ∈ l ↔ b ≠ old ∧ ((view g).Edge old b ∨ b = new ∧ (view g).Edge old old) := by
  have h := hb.wf
  rw [view_node] at ho hn
  have hedge : ∀ x y, (view g).Edge x y ↔ ∃ e, g.edges.get? (x, y) = some e := by
    intro x y
    rw [view_edge, ← Dict.mem_keys_iff]; exact h.toCore.cnt_isSome
  rw [hedge] at h1 h2
  obtain ⟨n, hnode⟩ := Dict.mem_keys_iff.1 ho
  obtain ⟨inn, im⟩ := h.ing old n hnode
  obtain ⟨on, om⟩ := h.out old n hnode
  obtain ⟨g3, hN, hE, hH, hr⟩ := rename_start h new hnode
  have hrold : ren old new old = new := by simp [ren]
  have hrother : ∀ x, x ≠ old → ren old new x = x := fun x hx => by simp [ren, hx]
  have rne : ∀ x, ren old new x ≠ old := by
    intro x
    unfold ren
    split
    · exact hne
    · assumption
  let src : Nat → A := fun e => match g.heap[e]? with | some o => o.start | none => old
  let dst : Nat → A := fun e => match g.heap[e]? with | some o => o.stop | none => old
  have hends : ∀ x y e, g.edges.get? (x, y) = some e → src e = x ∧ dst e = y := by
    intro x y e hk
    obtain ⟨c, hc⟩ := h.obj _ _ hk
    constructor
    · simp only [src]; rw [hc]
    · simp only [dst]; rw [hc]
  have hsrc : ∀ e ∈ n.ing, g.edges.get? (src e, old) = some e := by
    intro e he
    obtain ⟨b, hb⟩ := (im e).1 he
    rw [(hends _ _ _ hb).1]; exact hb
  have hdst : ∀ e ∈ n.out, g.edges.get? (old, dst e) = some e := by
    intro e he
    obtain ⟨b, hb⟩ := (om e).1 he
    rw [(hends _ _ _ hb).2]; exact hb
  have hsrcn : ∀ e ∈ n.ing, src e ≠ new := fun e he hc => h2 ⟨e, by rw [← hc]; exact hsrc e he⟩
  have hdstn : ∀ e ∈ n.out, dst e ≠ new := fun e he hc => h1 ⟨e, by rw [← hc]; exact hdst e he⟩
  have rinj : ∀ x y, x ≠ new → y ≠ new → ren old new x = ren old new y → x = y := by
    intro x y hx hy hh
    unfold ren at hh
    split at hh <;> split at hh
    · rename_i a b; rw [a, b]
    · exact absurd hh.symm hy
    · exact absurd hh hx
    · exact hh
  obtain ⟨g4, d1, d2, d3, d4, d5, d6, d7⟩ := rekey_over (H := g3.heap) (renameIng old new) (fun _ => True)
    (fun e => (src e, old)) (fun e => (ren old new (src e), new)) n.ing
    (by
      intro g' hg' e he _ hk
      obtain ⟨c, _, hc⟩ := hH _ _ (hsrc e he)
      have hk' : g'.edges.has (src e, old) = true := by
        rw [Dict.has_iff, Dict.mem_keys_iff]; exact ⟨e, hk⟩
      unfold renameIng
      rw [hg', hc]
      simp only [hrold]
      by_cases hs : src e = old
      · simp only [hs, hrold, if_true] at hk' ⊢
        rw [if_pos hk']
      · rw [hrother _ hs, if_neg (hsrcn e he), if_pos hk'])
    (fun _ _ _ _ hc => absurd trivial hc) inn
    (fun e he e' he' hc => by
      have hc : src e = src e' := congrArg Prod.fst hc
      have a := hsrc e he; have b := hsrc e' he'
      rw [hc, b] at a; exact (Option.some.inj a).symm)
    (fun e he e' he' hc => by
      have hc : src e = src e' := rinj _ _ (hsrcn e he) (hsrcn e' he') (congrArg Prod.fst hc)
      have a := hsrc e he; have b := hsrc e' he'
      rw [hc, b] at a; exact (Option.some.inj a).symm)
    (fun e _ e' _ hc => hne (congrArg Prod.snd hc))
    g3 rfl (by rw [hE]; exact h.edgesWF) (fun e he _ => by rw [hE]; exact hsrc e he)
  obtain ⟨g5, f1, f2, f3, f4, f5, f6, f7⟩ := rekey_over (H := g3.heap) (renameOut old new) (fun e => dst e ≠ old)
    (fun e => (old, dst e)) (fun e => (new, dst e)) n.out
    (by
      intro g' hg' e he hp hk
      obtain ⟨c, _, hc⟩ := hH _ _ (hdst e he)
      have hk' : g'.edges.has (old, dst e) = true := by
        rw [Dict.has_iff, Dict.mem_keys_iff]; exact ⟨e, hk⟩
      unfold renameOut
      rw [hg', hc]
      simp only [hrold, hrother _ hp]
      rw [if_neg (hdstn e he).symm, if_pos hk'])
    (by
      intro g' hg' e he hp
      obtain ⟨c, _, hc⟩ := hH _ _ (hdst e he)
      rw [not_not] at hp
      unfold renameOut
      rw [hg', hc]
      simp only [hrold, hp, if_true]) on
    (fun e he e' he' hc => by
      have hc : dst e = dst e' := congrArg Prod.snd hc
      have a := hdst e he; have b := hdst e' he'
      rw [hc, b] at a; exact (Option.some.inj a).symm)
    (fun e he e' he' hc => by
      have hc : dst e = dst e' := congrArg Prod.snd hc
      have a := hdst e he; have b := hdst e' he'
      rw [hc, b] at a; exact (Option.some.inj a).symm)
    (fun e _ e' _ hc => hne (congrArg Prod.fst hc))
    g4 d2 d4 (fun e he hp => by
      rw [d7 _ (fun e' _ _ => ⟨fun hc => hdstn e he (congrArg Prod.snd hc), fun hc => hp (congrArg Prod.snd hc)⟩), hE]
      exact hdst e he)
  have hcnt : ∀ k e, g.edges.get? k = some e → (g.heap[e]?).map EdgeObj.count = (g3.heap[e]?).map EdgeObj.count := by
    intro k e hk
    obtain ⟨c, a, b⟩ := hH k e hk
    rw [a, b]; rfl
  refine ⟨g5, by rw [hr, d1]; exact f1, fun x => ?_, fun x y => ?_, ?_⟩
  · rw [view_node, view_node, f3, d3, hN, Dict.mem_keys_iff, Dict.mem_keys_iff]
    simp only [Dict.get?_del (h.nodesWF.put new n), Dict.get?_put]
    by_cases hx : x = old
    · subst hx; simp
    · by_cases hx' : x = new
      · subst hx'; simp [hx, Ne.symm hx, Dict.mem_keys_iff.1 hn]
      · simp [hx, Ne.symm hx, Ne.symm hx']
  · have hg : (g5.edges.get? (x, y)) =
        if x = old ∨ y = old then none
        else if x = new ∧ y = new then (g.edges.get? (old, old)).or (g.edges.get? (new, new))
        else if x = new then (g.edges.get? (old, y)).or (g.edges.get? (new, y))
        else if y = new then (g.edges.get? (x, old)).or (g.edges.get? (x, new))
        else g.edges.get? (x, y) := by
      by_cases hxo : x = old
      · subst hxo
        rw [if_pos (.inl rfl)]
        by_cases hyo : y = x
        · subst hyo
          rw [f7 _ (fun e _ hp => ⟨fun hc => hne (congrArg Prod.fst hc).symm, fun hc => hp (congrArg Prod.snd hc).symm⟩)]
          cases hk : g.edges.get? (y, y) with
          | some e =>
            have he := (im e).2 ⟨y, hk⟩
            have := d6 e he trivial
            rwa [(hends _ _ _ hk).1] at this
          | none =>
            rw [d7 _ (fun e he _ => ⟨fun hc => hne (congrArg Prod.snd hc).symm, fun hc => by
              have := hsrc e he; rw [← hc, hk] at this; cases this⟩), hE, hk]
        · cases hk : g.edges.get? (x, y) with
          | some e =>
            have he := (om e).2 ⟨y, hk⟩
            have hd := (hends _ _ _ hk).2
            have := f6 e he (by rw [hd]; exact hyo)
            rwa [hd] at this
          | none =>
            rw [f7 _ (fun e he _ => ⟨fun hc => hne (congrArg Prod.fst hc).symm, fun hc => by
              have := hdst e he; rw [← hc, hk] at this; cases this⟩),
              d7 _ (fun e _ _ => ⟨fun hc => rne _ (congrArg Prod.fst hc).symm, fun hc => hyo (congrArg Prod.snd hc)⟩), hE, hk]
      · by_cases hyo : y = old
        · subst hyo
          rw [if_pos (.inr rfl)]
          rw [f7 _ (fun e _ hp => ⟨fun hc => hp (congrArg Prod.snd hc).symm, fun hc => hxo (congrArg Prod.fst hc)⟩)]
          cases hk : g.edges.get? (x, y) with
          | some e =>
            have he := (im e).2 ⟨x, hk⟩
            have := d6 e he trivial
            rwa [(hends _ _ _ hk).1] at this
          | none =>
            rw [d7 _ (fun e he _ => ⟨fun hc => hne (congrArg Prod.snd hc).symm, fun hc => by
              have := hsrc e he; rw [← hc, hk] at this; cases this⟩), hE, hk]
        · rw [if_neg (by rintro (hc | hc) <;> contradiction)]
          by_cases hxn : x = new
          · subst hxn
            by_cases hyn : y = x
            · subst hyn
              rw [if_pos ⟨rfl, rfl⟩, f7 _ (fun e he _ => ⟨fun hc => hdstn e he (congrArg Prod.snd hc).symm,
                fun hc => hne (congrArg Prod.fst hc)⟩)]
              cases hk : g.edges.get? (old, old) with
              | some e =>
                have he := (im e).2 ⟨old, hk⟩
                have := d5 e he trivial
                rw [(hends _ _ _ hk).1, hrold] at this
                rw [this]; rfl
              | none =>
                rw [d7 _ (fun e he _ => ⟨fun hc => by
                  have hc : y = ren old y (src e) := congrArg Prod.fst hc
                  by_cases hs : src e = old
                  · have := hsrc e he; rw [hs, hk] at this; cases this
                  · rw [hrother _ hs] at hc; exact hsrcn e he hc.symm, fun hc => hyo (congrArg Prod.snd hc)⟩), hE]
                rfl
            · rw [if_neg (fun hc => hyn hc.2), if_pos rfl]
              cases hk : g.edges.get? (old, y) with
              | some e =>
                have he := (om e).2 ⟨y, hk⟩
                have hd := (hends _ _ _ hk).2
                have := f5 e he (by rw [hd]; exact hyo)
                rw [hd] at this
                rw [this]; rfl
              | none =>
                rw [f7 _ (fun e he _ => ⟨fun hc => by
                  have := hdst e he; rw [← show y = dst e from congrArg Prod.snd hc, hk] at this; exact (by cases this),
                  fun hc => hxo (congrArg Prod.fst hc)⟩),
                  d7 _ (fun e _ _ => ⟨fun hc => hyn (congrArg Prod.snd hc), fun hc => hyo (congrArg Prod.snd hc)⟩), hE]
                rfl
          · rw [if_neg (fun hc => hxn hc.1), if_neg hxn,
              f7 _ (fun e _ _ => ⟨fun hc => hxn (congrArg Prod.fst hc), fun hc => hxo (congrArg Prod.fst hc)⟩)]
            by_cases hyn : y = new
            · subst hyn
              rw [if_pos rfl]
              cases hk : g.edges.get? (x, old) with
              | some e =>
                have he := (im e).2 ⟨x, hk⟩
                have := d5 e he trivial
                rw [(hends _ _ _ hk).1, hrother _ hxo] at this
                rw [this]; rfl
              | none =>
                rw [d7 _ (fun e he _ => ⟨fun hc => by
                  have hc : x = ren old y (src e) := congrArg Prod.fst hc
                  by_cases hs : src e = old
                  · rw [hs, hrold] at hc; exact hxn hc
                  · rw [hrother _ hs] at hc
                    have := hsrc e he; rw [← hc, hk] at this; exact (by cases this), fun hc => hyo (congrArg Prod.snd hc)⟩), hE]
                rfl
            · rw [if_neg hyn, d7 _ (fun e _ _ => ⟨fun hc => hyn (congrArg Prod.snd hc), fun hc => hyo (congrArg Prod.snd hc)⟩), hE]
    have hcv : ∀ k, (g.edges.get? k).bind (fun e => (g3.heap[e]?).map EdgeObj.count) = (view g).count k.1 k.2 := by
      intro k
      show _ = (g.edges.get? k).bind _
      cases hk : g.edges.get? k with
      | none => rfl
      | some e => exact (hcnt k e hk).symm
    have hor : ∀ k k', ((g.edges.get? k).or (g.edges.get? k')).bind (fun e => (g3.heap[e]?).map EdgeObj.count) =
        ((view g).count k.1 k.2).or ((view g).count k'.1 k'.2) := by
      intro k k'
      rw [← hcv k, ← hcv k']
      cases hk : g.edges.get? k with
      | none => rfl
      | some e =>
        obtain ⟨c, _, b⟩ := hH k e hk
        simp [b]
    show (g5.edges.get? (x, y)).bind (fun e => (g5.heap[e]?).map EdgeObj.count) = _
    rw [hg, f2]
    unfold mergedCount
    split
    · rfl
    · split
      · exact hor _ _
      · split
        · exact hor _ _
        · split
          · exact hor _ _
          · exact hcv (x, y)
  · have hget : g5.nodes.get? new = some n := by
      rw [f3, d3, hN, Dict.get?_del (h.nodesWF.put new n), if_neg (Ne.symm hne), Dict.get?_put_self]
    refine ⟨n.out.filterMap fun e => (g5.heap[e]?).map EdgeObj.stop, by unfold following Dict.getItem; rw [hget]; rfl, fun b => ?_⟩
    rw [List.mem_filterMap, hedge, hedge, f2]
    constructor
    · rintro ⟨e, he, hb⟩
      obtain ⟨c, _, hc⟩ := hH _ _ (hdst e he)
      rw [hc] at hb
      have hb : ren old new (dst e) = b := Option.some.inj hb
      refine ⟨fun hc => rne _ (hb.trans hc), ?_⟩
      by_cases hd : dst e = old
      · rw [hd, hrold] at hb
        exact .inr ⟨hb.symm, e, by have := hdst e he; rwa [hd] at this⟩
      · rw [hrother _ hd] at hb
        exact .inl ⟨e, by rw [← hb]; exact hdst e he⟩
    · rintro ⟨hbo, ⟨e, he⟩ | ⟨rfl, e, he⟩⟩
      · refine ⟨e, (om e).2 ⟨b, he⟩, ?_⟩
        obtain ⟨c, _, hc⟩ := hH _ _ he
        rw [hc]
        show some (ren old new b) = some b
        rw [hrother _ hbo]
      · refine ⟨e, (om e).2 ⟨old, he⟩, ?_⟩
        obtain ⟨c, _, hc⟩ := hH _ _ he
        rw [hc]
        show some (ren old b old) = some b
        rw [hrold]

/-- the hypotheses are met: in the graph with the edges 1→2, 1→3, 4→3 and 4→4, 1 is renamed to 1, 3 (its successor) and 4; 3 cannot be
renamed to 1 -/
example :
    let g := addCount (addCount (addCount (addCount (empty : Graph Nat) 1 2 5) 1 3 6) 4 3 7) 4 4 8
    Built g ∧ rename g 3 1 = .error .key ∧
    (∃ g', rename g 1 1 = .ok g' ∧ g'.nodes.keys = [2, 3, 4] ∧ getCount g' 1 2 = 5) ∧
    (∃ g', rename g 1 3 = .ok g' ∧ g'.nodes.keys = [2, 3, 4] ∧ getCount g' 1 3 = 6 ∧ getCount g' 3 2 = 5) ∧
    ∃ g', rename g 1 4 = .ok g' ∧ g'.nodes.keys = [2, 3, 4] ∧ getCount g' 4 3 = 6 ∧ getCount g' 4 4 = 8 ∧ following g' 4 = .ok [2, 3] := by
  refine ⟨.addCount (.addCount (.addCount (.addCount .new 1 2 5) 1 3 6) 4 3 7) 4 4 8, by decide, ⟨_, rfl, by decide, by decide⟩,
    ⟨_, rfl, by decide, by decide, by decide⟩, ⟨_, rfl, by decide, by decide, by decide, by decide⟩⟩

end Prolothar.Dfg
