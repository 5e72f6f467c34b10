import Verif.Lemmas.DfgPlot
import Verif.Props.Statistics
import Mathlib.Tactic.Linarith
/- Lemmas about the ranks by random walks. -/
set_option linter.unusedSectionVars false
set_option linter.unusedDecidableInType false
namespace Prolothar.Dfg
open Prolothar.Spec.DfgPlot Prolothar.Spec.Graph Prolothar.Statistics

theorem pyRound_spec (q : ℚ) : Rounded q (pyRound q) := by
  have h1 := Int.floor_le q
  have h2 := Int.lt_floor_add_one q
  unfold Rounded pyRound
  simp only
  split
  · rename_i h
    rw [abs_of_nonneg (by linarith)]
    exact ⟨by linarith, fun e => by linarith⟩
  · rename_i h
    split
    · rename_i h'
      push_cast
      rw [abs_of_nonpos (by linarith)]
      exact ⟨by linarith, fun e => by linarith⟩
    · rename_i h'
      have he : q - ⌊q⌋ = 1 / 2 := by linarith
      split
      · rename_i hev
        rw [he]
        refine ⟨by norm_num, fun _ => Int.even_iff.2 hev⟩
      · rename_i hev
        push_cast
        rw [show q - ((⌊q⌋ : ℚ) + 1) = - (1 / 2) by linarith]
        refine ⟨by norm_num, fun _ => ?_⟩
        rw [Int.even_iff]
        omega

section
variable {A : Type} [LinearOrder A]

/-- the position at which one walk visits a node after its start -/
def visit (w : List A) (a : A) : List Nat := if 0 < w.idxOf a ∧ w.idxOf a < w.length then [w.idxOf a] else []

theorem positions_append (ws : List (List A)) (w : List A) (a : A) : positions (ws ++ [w]) a = positions ws a ++ visit w a := by
  unfold positions visit
  rw [List.filterMap_append]
  congr 1
  simp only [List.filterMap_cons, List.filterMap_nil]
  by_cases h : 0 < w.idxOf a ∧ w.idxOf a < w.length <;> simp [h]

theorem visit_single (s a : A) : visit [s] a = [] := by
  unfold visit
  by_cases h : s = a
  · subst h; simp
  · simp [h]

theorem visit_snoc (w : List A) (hw : w ≠ []) (b : A) (hb : b ∉ w) (a : A) :
    visit (w ++ [b]) a = if b = a then [w.length] else visit w a := by
  unfold visit
  have hpos := List.length_pos_of_ne_nil hw
  by_cases h : b = a
  · subst h
    rw [if_pos rfl, List.idxOf_append_of_notMem hb]
    simp [hpos]
  · rw [if_neg h]
    by_cases ha : a ∈ w
    · rw [List.idxOf_append_of_mem ha]
      have := List.idxOf_lt_length_iff.2 ha
      simp [this, Nat.lt_succ_of_lt this]
    · rw [List.idxOf_append_of_notMem ha]
      have h1 := List.idxOf_eq_length_iff.2 ha
      simp [h1, h]

/-- the statistics contain the positions of the walks -/
def Rep (g : Graph A) (stats : Dict A (Stats ℚ)) (ws : List (List A)) : Prop :=
  stats.keys = g.nodes.keys ∧ ∀ a ∈ g.nodes.keys, stats.get? a = some (pushAll new ((positions ws a).map fun i : Nat => (i : ℚ)))

theorem mem_unvisited {g : Graph A} (h : WF g) {a : A} {n : NodeObj} (hn : g.nodes.get? a = some n) (visited : List A) (b : A) :
    b ∈ unvisited g n visited ↔ Edge g a b ∧ b ∉ visited := by
  unfold unvisited
  rw [List.mem_map]
  constructor
  · rintro ⟨o, ho, rfl⟩
    obtain ⟨h1, h2⟩ := List.mem_filter.1 ho
    have := ((mem_outObjs h.toCore hn o).1 h1).2
    refine ⟨by unfold Edge; rw [this]; rfl, by simpa using h2⟩
  · rintro ⟨he, hb⟩
    obtain ⟨c, hc⟩ := Option.isSome_iff_exists.1 he
    exact ⟨⟨a, b, c⟩, List.mem_filter.2 ⟨(mem_outObjs h.toCore hn _).2 ⟨rfl, hc⟩, by simpa using hb⟩, rfl⟩

theorem walkLoop_ok {G : Type} {g : Graph A} (h : WF g) (choose : G → Nat → Nat × G) (start stop : A) (ws : List (List A))
    (fuel : Nat) (rng : G) (current : A) (visited : List A) (i : Nat) (stats : Dict A (Stats ℚ))
    (hf : g.nodes.keys.length + 2 ≤ fuel + visited.length) (hi : i = visited.length)
    (hsub : ∀ x ∈ visited, x ∈ g.nodes.keys) (hnd : visited.Nodup)
    (hwalk : IsWalk (Edge g) start current visited.reverse) (hstop : stop ∈ visited → current = stop)
    (hrep : Rep g stats (ws ++ [visited.reverse])) :
    ∃ stats' rng' w, walkLoop g choose stop fuel rng current visited i stats = .ok (stats', rng') ∧
      SimpleWalk (Edge g) start stop w ∧ Rep g stats' (ws ++ [w]) := by
  induction fuel generalizing rng current visited i stats with
  | zero =>
    exfalso
    have := (List.subperm_of_subset hnd hsub).length_le
    omega
  | succ fuel ih =>
    have hcur : current ∈ visited := by
      have := List.mem_of_getLast? hwalk.2.1
      simpa using this
    have hcurk := hsub _ hcur
    unfold walkLoop
    by_cases hc : current = stop
    · rw [if_pos hc]
      refine ⟨_, _, visited.reverse, rfl, ⟨current, hwalk, List.nodup_reverse.2 hnd, fun _ => hc, fun hne => absurd hc hne⟩, hrep⟩
    · rw [if_neg hc]
      obtain ⟨n, hn⟩ := Dict.mem_keys_iff.1 hcurk
      have hget : g.nodes.getItem current = .ok n := by unfold Dict.getItem; rw [hn]
      rw [hget]
      simp only [bind, Except.bind, pure, Except.pure]
      by_cases hl : (unvisited g n visited).length = 0
      · rw [if_pos hl]
        refine ⟨_, _, visited.reverse, rfl, ⟨current, hwalk, List.nodup_reverse.2 hnd, fun hs => hstop (by simpa using hs), fun _ b hb => ?_⟩, hrep⟩
        by_contra hbv
        have := (mem_unvisited h hn visited b).2 ⟨hb, by simpa using hbv⟩
        rw [List.length_eq_zero_iff.1 hl] at this
        cases this
      · rw [if_neg hl]
        have hlt : (choose rng (unvisited g n visited).length).1 % (unvisited g n visited).length < (unvisited g n visited).length :=
          Nat.mod_lt _ (by omega)
        rw [List.getElem?_eq_getElem hlt]
        simp only
        have hmem := List.getElem_mem hlt
        revert hmem
        generalize (unvisited g n visited)[(choose rng (unvisited g n visited).length).1 % (unvisited g n visited).length] = next
        intro hmem
        obtain ⟨he, hnv⟩ := (mem_unvisited h hn visited next).1 hmem
        have hnk := (Edge.nodes h he).2
        have hsg := hrep.2 next hnk
        have hsget : stats.getItem next = .ok (pushAll new ((positions (ws ++ [visited.reverse]) next).map fun i : Nat => (i : ℚ))) := by
          unfold Dict.getItem; rw [hsg]
        rw [hsget]
        simp only
        apply ih
        · simp only [List.length_cons]; omega
        · simp [hi]
        · intro x hx
          rcases List.mem_cons.1 hx with rfl | hx
          · exact hnk
          · exact hsub x hx
        · exact List.nodup_cons.2 ⟨hnv, hnd⟩
        · obtain ⟨w1, w2, w3⟩ := hwalk
          rw [List.reverse_cons]
          refine ⟨?_, by simp, ?_⟩
          · rw [List.head?_append, w1]; rfl
          · rw [List.isChain_append]
            refine ⟨w3, by simp, fun x hx y hy => ?_⟩
            rw [w2] at hx
            simp only [Option.mem_def, Option.some.injEq, List.head?_cons] at hx hy
            subst hx; subst hy; exact he
        · intro hs
          rcases List.mem_cons.1 hs with e | hs
          · exact e.symm
          · exact absurd (hstop hs) hc
        · obtain ⟨r1, r2⟩ := hrep
          refine ⟨?_, fun a ha => ?_⟩
          · rw [Dict.keys_put, if_pos (by rw [r1]; exact hnk), r1]
          · have hne : visited.reverse ≠ [] := by
              intro e
              rw [List.reverse_eq_nil_iff] at e
              rw [e] at hcur
              cases hcur
            rw [Dict.get?_put, List.reverse_cons, positions_append ws (visited.reverse ++ [next]), visit_snoc _ hne next (by simpa using hnv)]
            by_cases hna : next = a
            · rw [if_pos hna, if_pos hna]
              subst hna
              rw [positions_append]
              have : visit visited.reverse next = [] := by
                unfold visit
                rw [List.idxOf_eq_length_iff.2 (by simpa using hnv)]
                simp
              rw [this]
              simp [pushAll, hi]
            · rw [if_neg hna, if_neg hna, r2 a ha, positions_append]

theorem doRandomWalk_ok {G : Type} {g : Graph A} (h : WF g) (choose : G → Nat → Nat × G) (start stop : A) (hs : start ∈ g.nodes.keys)
    (ws : List (List A)) (rng : G) (stats : Dict A (Stats ℚ)) (hrep : Rep g stats ws) :
    ∃ stats' rng' w, doRandomWalk g choose start stop rng stats = .ok (stats', rng') ∧
      SimpleWalk (Edge g) start stop w ∧ Rep g stats' (ws ++ [w]) := by
  obtain ⟨n, hn⟩ := Dict.mem_keys_iff.1 hs
  have hget : g.nodes.getItem start = .ok n := by unfold Dict.getItem; rw [hn]
  unfold doRandomWalk
  rw [hget]
  simp only [bind, Except.bind]
  apply walkLoop_ok h
  · simp [Dict.keys]
  · rfl
  · simpa using hs
  · simp
  · exact ⟨rfl, rfl, by simp⟩
  · simp [eq_comm]
  · refine ⟨hrep.1, fun a ha => ?_⟩
    rw [hrep.2 a ha, positions_append]
    simp [visit_single]

theorem randomWalks_ok {G : Type} {g : Graph A} (h : WF g) (choose : G → Nat → Nat × G) (start stop : A) (hs : start ∈ g.nodes.keys)
    (n : Nat) (ws : List (List A)) (rng : G) (stats : Dict A (Stats ℚ)) (hrep : Rep g stats ws) :
    ∃ stats' ws', randomWalks g choose start stop n rng stats = .ok stats' ∧ ws'.length = n ∧
      (∀ w ∈ ws', SimpleWalk (Edge g) start stop w) ∧ Rep g stats' (ws ++ ws') := by
  induction n generalizing ws rng stats with
  | zero => exact ⟨stats, [], rfl, rfl, by simp, by simpa using hrep⟩
  | succ n ih =>
    obtain ⟨stats1, rng1, w, h1, h2, h3⟩ := doRandomWalk_ok h choose start stop hs ws rng stats hrep
    obtain ⟨stats2, ws2, i1, i2, i3, i4⟩ := ih (ws ++ [w]) rng1 stats1 h3
    refine ⟨stats2, w :: ws2, ?_, by simp [i2], ?_, by simpa using i4⟩
    · unfold randomWalks
      rw [h1]
      exact i1
    · intro x hx
      rcases List.mem_cons.1 hx with rfl | hx
      · exact h2
      · exact i3 x hx

theorem randomWalks_missing {G : Type} {g : Graph A} (choose : G → Nat → Nat × G) (start stop : A) (hs : start ∉ g.nodes.keys)
    (n : Nat) (rng : G) (stats : Dict A (Stats ℚ)) : randomWalks g choose start stop (n + 1) rng stats = .error .key := by
  have hget : g.nodes.getItem start = .error .key := by unfold Dict.getItem; rw [Dict.get?_eq_none_iff.2 hs]
  unfold randomWalks doRandomWalk
  rw [hget]
  rfl

theorem fillGroups_ok (rank : A → Int) (l : List A) (d : Dict Int (List A)) (hd : d.WF) (hk : ∀ a ∈ l, rank a ∈ d.keys) :
    ∃ d', fillGroups rank d l = .ok d' ∧ d'.WF ∧ d'.keys = d.keys ∧
      ∀ i x, d.get? i = some x → d'.get? i = some (x ++ l.filter fun a => decide (rank a = i)) := by
  induction l generalizing d with
  | nil => exact ⟨d, rfl, hd, rfl, by simp⟩
  | cons a l ih =>
    have ha := hk a List.mem_cons_self
    obtain ⟨v, hv⟩ := Dict.mem_keys_iff.1 ha
    have hkeys : (d.put (rank a) (v ++ [a])).keys = d.keys := by rw [Dict.keys_put, if_pos ha]
    obtain ⟨d', h1, h2, h3, h4⟩ := ih (d.put (rank a) (v ++ [a])) (hd.put _ _) (by
      intro b hb
      rw [hkeys]
      exact hk b (List.mem_cons_of_mem _ hb))
    refine ⟨d', ?_, h2, h3.trans hkeys, fun i x hx => ?_⟩
    · unfold fillGroups Dict.getItem
      rw [hv]
      exact h1
    · by_cases hi : rank a = i
      · subst hi
        rw [hv] at hx
        cases hx
        rw [h4 _ _ (Dict.get?_put_self _ _ _)]
        simp
      · rw [h4 i x (by rw [Dict.get?_put_of_ne _ _ hi]; exact hx)]
        simp [hi]

theorem emptyGroups_ok (l : List Int) (d : Dict Int (List A)) (hd : d.WF) (he : ∀ i x, d.get? i = some x → x = []) :
    (l.foldl (fun d i => d.put i []) d).WF ∧ (∀ i, i ∈ (l.foldl (fun d i => d.put i []) d).keys ↔ i ∈ d.keys ∨ i ∈ l) ∧
    ∀ i x, (l.foldl (fun d i => d.put i []) d).get? i = some x → x = [] := by
  induction l generalizing d with
  | nil => exact ⟨hd, by simp, he⟩
  | cons j l ih =>
    obtain ⟨h1, h2, h3⟩ := ih (d.put j []) (hd.put _ _) (by
      intro i x hx
      rw [Dict.get?_put] at hx
      split at hx
      · cases hx; rfl
      · exact he i x hx)
    refine ⟨h1, fun i => ?_, h3⟩
    rw [List.foldl_cons, h2, Dict.mem_keys_put, List.mem_cons]
    tauto

theorem get?_mapVal {κ ν μ : Type} [DecidableEq κ] (f : ν → μ) (d : Dict κ ν) (k : κ) :
    Dict.get? (d.map fun p => (p.1, f p.2)) k = (d.get? k).map f := by
  induction d with
  | nil => rfl
  | cons p d ih =>
    obtain ⟨k', v⟩ := p
    simp only [List.map_cons, Dict.get?, ih]
    split <;> rfl

theorem mean_pushAll (l : List Nat) : (pushAll new (l.map fun i : Nat => (i : ℚ))).mean = average l := by
  cases l with
  | nil => simp [average, pushAll, new]
  | cons i l =>
    obtain ⟨_, h, _⟩ := C22_push_equals_batch ((i :: l).map fun i : Nat => (i : ℚ)) (by simp)
    rw [h]
    unfold Moments.mean average
    simp

theorem walkGroups_of_stats {G : Type} {g : Graph A} (h : WF g) (choose : G → Nat → Nat × G) (rng : G) (start stop : A) (n : Int)
    (stats : Dict A (Stats ℚ)) (ws : List (List A))
    (hr : randomWalks g choose start stop n.toNat rng (g.nodes.keys.map fun a => (a, new)) = .ok stats) (hrep : Rep g stats ws) :
    ∃ d, walkGroups g choose rng start stop n = .ok d ∧ d.WF ∧
      (∀ i x, d.get? i = some x → x ≠ [] ∧ x.Nodup ∧ ∀ a, a ∈ x ↔ a ∈ g.nodes.keys ∧ pyRound (average (positions ws a)) = i) ∧
      ∀ a ∈ g.nodes.keys, pyRound (average (positions ws a)) ∈ d.keys := by
  obtain ⟨r1, r2⟩ := hrep
  obtain ⟨e1, e2, e3⟩ := emptyGroups_ok (A := A) ((stats.map fun p => (p.1, pyRound p.2.mean)).map Prod.snd) [] .nil (by simp [Dict.get?])
  have hrank : ∀ a ∈ g.nodes.keys, (Dict.get? (stats.map fun p => (p.1, pyRound p.2.mean)) a).getD 0 = pyRound (average (positions ws a)) := by
    intro a ha
    rw [get?_mapVal (fun s : Stats ℚ => pyRound s.mean), r2 a ha]
    simp [mean_pushAll]
  have hmem : ∀ i, i ∈ (stats.map fun p => (p.1, pyRound p.2.mean)).map Prod.snd ↔ ∃ a ∈ g.nodes.keys, pyRound (average (positions ws a)) = i := by
    intro i
    rw [List.map_map, List.mem_map]
    have hwf : stats.WF := by unfold Dict.WF; rw [r1]; exact h.nodesWF
    constructor
    · rintro ⟨⟨a, s⟩, hm, rfl⟩
      have hg := Dict.get?_of_mem hwf hm
      have ha : a ∈ g.nodes.keys := by rw [← r1]; exact Dict.mem_keys_iff.2 ⟨s, hg⟩
      rw [r2 a ha] at hg
      cases hg
      exact ⟨a, ha, by simp [mean_pushAll]⟩
    · rintro ⟨a, ha, rfl⟩
      exact ⟨(a, _), Dict.mem_of_get? (r2 a ha), by simp [mean_pushAll]⟩
  obtain ⟨d, f1, f2, f3, f4⟩ := fillGroups_ok (fun a => (Dict.get? (stats.map fun p => (p.1, pyRound p.2.mean)) a).getD 0) g.nodes.keys
    (((stats.map fun p => (p.1, pyRound p.2.mean)).map Prod.snd).foldl (fun d i => d.put i []) []) e1 (by
      intro a ha
      rw [e2]
      right
      rw [hmem]
      exact ⟨a, ha, (hrank a ha).symm⟩)
  refine ⟨d, ?_, f2, fun i x hx => ?_, fun a ha => ?_⟩
  · unfold walkGroups
    rw [hr]
    exact f1
  · have hik : i ∈ d.keys := Dict.mem_keys_iff.2 ⟨x, hx⟩
    rw [f3] at hik
    obtain ⟨y, hy⟩ := Dict.mem_keys_iff.1 hik
    have := f4 i y hy
    rw [e3 i y hy, List.nil_append, hx] at this
    have hxe := Option.some.inj this
    have hm : ∀ a, a ∈ x ↔ a ∈ g.nodes.keys ∧ pyRound (average (positions ws a)) = i := by
      intro a
      rw [hxe, List.mem_filter, decide_eq_true_eq]
      constructor
      · rintro ⟨h1, h2⟩; exact ⟨h1, by rw [← hrank a h1]; exact h2⟩
      · rintro ⟨h1, h2⟩; exact ⟨h1, by rw [hrank a h1]; exact h2⟩
    refine ⟨?_, by rw [hxe]; exact h.nodesWF.filter _, hm⟩
    rw [e2, hmem] at hik
    rcases hik with hik | ⟨a, ha, hai⟩
    · cases hik
    · exact List.ne_nil_of_mem ((hm a).2 ⟨ha, hai⟩)
  · rw [f3, e2, hmem]
    exact .inr ⟨a, ha, rfl⟩

end
end Prolothar.Dfg
