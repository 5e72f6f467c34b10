import Verif.Model.IntGraph
import Verif.Spec.Graph
import Mathlib.Data.Finset.Card
import Mathlib.Data.Finset.Range
import Mathlib.Data.List.Nodup
import Mathlib.Data.List.Perm.Basic
set_option linter.unusedSimpArgs false
set_option linter.unusedVariables false
set_option linter.unusedSectionVars false
namespace Prolothar.IntGraph
open Prolothar.Spec.Graph

/-- edge relation -/
def E (g : Graph) (a b : Nat) : Prop := ∃ l, g[a]? = some l ∧ b ∈ l

/-- all edges lead to vertices of the graph -/
def Valid (g : Graph) : Prop := ∀ l ∈ g, ∀ b ∈ l, b < g.length

theorem E.lt {g : Graph} {a b : Nat} (h : E g a b) : a < g.length := by
  obtain ⟨l, hl, _⟩ := h
  exact (List.getElem?_eq_some_iff.1 hl).1

theorem Valid.lt {g : Graph} (hg : Valid g) {a b : Nat} (h : E g a b) : b < g.length := by
  obtain ⟨l, hl, hb⟩ := h
  exact hg l (List.mem_of_getElem? hl) b hb

/-- reachable by a path of which all vertices but the first avoid `W` -/
abbrev RA (g : Graph) (W : List Nat) := Relation.ReflTransGen fun a b => E g a b ∧ b ∉ W

theorem RA.mono {g : Graph} {W W' : List Nat} (h : ∀ x, x ∈ W' → x ∈ W) {x y : Nat}
    (hr : RA g W x y) : RA g W' x y :=
  Reach.imp (fun _ _ ⟨h1, h2⟩ => ⟨h1, fun hc => h2 (h _ hc)⟩) hr

theorem RA.not_mem {g : Graph} {W : List Nat} {x y : Nat} (h : RA g W x y) (hx : x ∉ W) : y ∉ W := by
  cases h with
  | refl => exact hx
  | tail _ h => exact h.2

theorem RA.lt {g : Graph} (hg : Valid g) {W : List Nat} {x y : Nat} (h : RA g W x y)
    (hx : x < g.length) : y < g.length := by
  cases h with
  | refl => exact hx
  | tail _ h => exact hg.lt h.1

theorem RA.split {g : Graph} {W : List Nat} {x y v : Nat} (h : RA g W x y) :
    RA g (v :: W) x y ∨ RA g W x v ∧ RA g W v y := by
  induction h with
  | refl => exact .inl .refl
  | @tail y z hxy hyz ih =>
    by_cases hz : z = v
    · subst hz; exact .inr ⟨hxy.tail hyz, .refl⟩
    · rcases ih with ih | ih
      · exact .inl (ih.tail ⟨hyz.1, by simp [hz, hyz.2]⟩)
      · exact .inr ⟨ih.1, ih.2.tail hyz⟩

/-- `z` is `y` or stands before `y` in `N` -/
def Before (N : List Nat) (z y : Nat) : Prop := ∃ l1 l2, N = l1 ++ z :: l2 ∧ (y = z ∨ y ∈ l2)

theorem Before.append_left {N : List Nat} {z y : Nat} (h : Before N z y) (M : List Nat) :
    Before (M ++ N) z y := by
  obtain ⟨l1, l2, rfl, h⟩ := h
  exact ⟨M ++ l1, l2, by simp, h⟩

theorem Before.append_right {M : List Nat} {z y : Nat} (h : Before M z y) (N : List Nat) :
    Before (M ++ N) z y := by
  obtain ⟨l1, l2, rfl, h⟩ := h
  exact ⟨l1, l2 ++ N, by simp, h.imp id (fun h => by simp [h])⟩

theorem Before.of_mem {M N : List Nat} {x y : Nat} (hx : x ∈ M) (hy : y ∈ N) :
    Before (M ++ N) x y := by
  obtain ⟨l1, l2, rfl⟩ := List.append_of_mem hx
  exact ⟨l1, l2 ++ N, by simp, .inr (by simp [hy])⟩

/-- `N` is the output of searches that started with the visited set `W` -/
structure Done (g : Graph) (W N : List Nat) : Prop where
  nodup : N.Nodup
  disj : ∀ x ∈ N, x ∉ W
  lt : ∀ x ∈ N, x < g.length
  closed : ∀ x ∈ N, ∀ y, E g x y → y ∈ W ∨ y ∈ N
  sorted : ∀ x ∈ N, ∀ y ∈ N, RA g W x y → ∃ z ∈ N, RA g W x z ∧ RA g W z x ∧ Before N z y

theorem Done.nil (g : Graph) (W : List Nat) : Done g W [] :=
  ⟨List.nodup_nil, by simp, by simp, by simp, by simp⟩

theorem closed_path {g : Graph} {W N W1 : List Nat} (hN : ∀ x ∈ N, ∀ y, E g x y → y ∈ W ∨ y ∈ N)
    (hW : ∀ x, x ∈ W1 ↔ x ∈ W ∨ x ∈ N) {x y : Nat} (h : RA g W x y) (hx : x ∉ N) :
    RA g W1 x y ∨ y ∈ N := by
  induction h with
  | refl => exact .inl .refl
  | @tail y z hxy hyz ih =>
    rcases ih with ih | ih
    · by_cases hz : z ∈ N
      · exact .inr hz
      · exact .inl (ih.tail ⟨hyz.1, fun hc => ((hW z).1 hc).elim hyz.2 hz⟩)
    · exact .inr ((hN y ih z hyz.1).resolve_left hyz.2)

theorem closed_path' {g : Graph} {W N : List Nat} (hN : ∀ x ∈ N, ∀ y, E g x y → y ∈ W ∨ y ∈ N)
    {x y : Nat} (h : RA g W x y) (hx : x ∈ N) : y ∈ N := by
  induction h with
  | refl => exact hx
  | tail _ hyz ih => exact (hN _ ih _ hyz.1).resolve_left hyz.2

theorem Done.append {g : Graph} {W N W1 M : List Nat} (hN : Done g W N)
    (hW : ∀ x, x ∈ W1 ↔ x ∈ W ∨ x ∈ N) (hM : Done g W1 M) : Done g W (M ++ N) where
  nodup := by
    rw [List.nodup_append]
    refine ⟨hM.nodup, hN.nodup, ?_⟩
    rintro x hx y hy rfl
    exact hM.disj x hx ((hW x).2 (.inr hy))
  disj x hx hc := by
    rcases List.mem_append.1 hx with hx | hx
    · exact hM.disj x hx ((hW x).2 (.inl hc))
    · exact hN.disj x hx hc
  lt x hx := by
    rcases List.mem_append.1 hx with hx | hx
    · exact hM.lt x hx
    · exact hN.lt x hx
  closed x hx y hxy := by
    rcases List.mem_append.1 hx with hx | hx
    · rcases hM.closed x hx y hxy with h | h
      · rcases (hW y).1 h with h | h
        · exact .inl h
        · exact .inr (List.mem_append.2 (.inr h))
      · exact .inr (List.mem_append.2 (.inl h))
    · rcases hN.closed x hx y hxy with h | h
      · exact .inl h
      · exact .inr (List.mem_append.2 (.inr h))
  sorted x hx y hy hxy := by
    rcases List.mem_append.1 hx with hx | hx
    · have hxN : x ∉ N := fun hc => hM.disj x hx ((hW x).2 (.inr hc))
      rcases List.mem_append.1 hy with hy | hy
      · have hyN : y ∉ N := fun hc => hM.disj y hy ((hW y).2 (.inr hc))
        have hxy' := (closed_path hN.closed hW hxy hxN).resolve_right hyN
        obtain ⟨z, hz, h1, h2, h3⟩ := hM.sorted x hx y hy hxy'
        exact ⟨z, List.mem_append.2 (.inl hz), h1.mono fun a ha => (hW a).2 (.inl ha),
          h2.mono fun a ha => (hW a).2 (.inl ha), h3.append_right N⟩
      · exact ⟨x, List.mem_append.2 (.inl hx), .refl, .refl, Before.of_mem hx hy⟩
    · have hy' : y ∈ N := closed_path' hN.closed hxy hx
      obtain ⟨z, hz, h1, h2, h3⟩ := hN.sorted x hx y hy' hxy
      exact ⟨z, List.mem_append.2 (.inr hz), h1, h2, h3.append_left M⟩

theorem Done.cons {g : Graph} {W N : List Nat} {v : Nat} (hv : v ∉ W) (hlt : v < g.length)
    (hN : Done g (v :: W) N) (hsucc : ∀ y, E g v y → y ∈ v :: W ∨ y ∈ N)
    (hreach : ∀ x ∈ N, RA g W v x) : Done g W (v :: N) where
  nodup := List.nodup_cons.2 ⟨fun hc => hN.disj v hc (by simp), hN.nodup⟩
  disj x hx := by
    rcases List.mem_cons.1 hx with rfl | hx
    · exact hv
    · exact fun hc => hN.disj x hx (by simp [hc])
  lt x hx := by
    rcases List.mem_cons.1 hx with rfl | hx
    · exact hlt
    · exact hN.lt x hx
  closed x hx y hxy := by
    have : y ∈ v :: W ∨ y ∈ N := by
      rcases List.mem_cons.1 hx with rfl | hx
      · exact hsucc y hxy
      · exact hN.closed x hx y hxy
    rcases this with h | h
    · rcases List.mem_cons.1 h with rfl | h
      · exact .inr (by simp)
      · exact .inl h
    · exact .inr (by simp [h])
  sorted x hx y hy hxy := by
    have hvx : RA g W v x := by
      rcases List.mem_cons.1 hx with rfl | hx
      · exact .refl
      · exact hreach x hx
    have hbef : Before (v :: N) v y := by
      refine ⟨[], N, rfl, ?_⟩
      exact List.mem_cons.1 hy
    have viav : RA g W x v → ∃ z ∈ v :: N, RA g W x z ∧ RA g W z x ∧ Before (v :: N) z y :=
      fun h => ⟨v, by simp, h, hvx, hbef⟩
    rcases hxy.split (v := v) with h | h
    · rcases List.mem_cons.1 hx with rfl | hx'
      · exact viav .refl
      · rcases List.mem_cons.1 hy with rfl | hy'
        · exact viav hxy
        · obtain ⟨z, hz, h1, h2, h3⟩ := hN.sorted x hx' y hy' h
          exact ⟨z, by simp [hz], h1.mono fun a ha => by simp [ha], h2.mono fun a ha => by simp [ha],
            h3.append_left [v]⟩
    · exact viav h.1

/-- number of unvisited vertices -/
def unvisited (g : Graph) (W : List Nat) : Nat := ((Finset.range g.length).filter (· ∉ W)).card

theorem unvisited_mono {g : Graph} {W W' : List Nat} (h : ∀ x ∈ W, x ∈ W') :
    unvisited g W' ≤ unvisited g W := by
  apply Finset.card_le_card
  intro x hx
  simp only [Finset.mem_filter] at hx ⊢
  exact ⟨hx.1, fun hc => hx.2 (h x hc)⟩

theorem unvisited_cons {g : Graph} {W : List Nat} {v : Nat} (hv : v ∉ W) (hlt : v < g.length) :
    unvisited g (v :: W) < unvisited g W := by
  apply Finset.card_lt_card
  rw [Finset.ssubset_iff]
  refine ⟨v, by simp, ?_⟩
  intro x hx
  simp only [Finset.mem_insert, Finset.mem_filter, Finset.mem_range] at hx ⊢
  rcases hx with rfl | hx
  · exact ⟨hlt, hv⟩
  · exact ⟨hx.1, fun hc => hx.2 (by simp [hc])⟩

theorem unvisited_le {g : Graph} (W : List Nat) : unvisited g W ≤ g.length := by
  refine (Finset.card_filter_le _ _).trans ?_
  simp

theorem adjacency_ok {g : Graph} {v : Nat} (h : v < g.length) :
    ∃ l, adjacency g v = .ok l ∧ g[v]? = some l := by
  refine ⟨g[v], ?_, List.getElem?_eq_getElem h⟩
  unfold adjacency
  rw [List.getElem?_eq_getElem h]

/-- one recursive call keeps its promise -/
def FillSpec (g : Graph) (fuel : Nat) : Prop :=
  ∀ v W L, v ∉ W → v < g.length → unvisited g W ≤ fuel →
    ∃ N W', fillOrder g fuel v (W, L) = .ok (W', N ++ L) ∧ (∀ x, x ∈ W' ↔ x ∈ W ∨ x ∈ N) ∧
      Done g W N ∧ v ∈ N ∧ ∀ x ∈ N, RA g W v x

theorem fillLoop_spec {g : Graph} {fuel : Nat} (hf : FillSpec g fuel) (is : List Nat) (W0 W1 N L : List Nat)
    (his : ∀ i ∈ is, i < g.length) (hu : unvisited g W0 ≤ fuel)
    (hW1 : ∀ x, x ∈ W1 ↔ x ∈ W0 ∨ x ∈ N) (hN : Done g W0 N) :
    ∃ N' W', visitAll (fillOrder g fuel) is (W1, N ++ L) = .ok (W', N' ++ (N ++ L)) ∧
      (∀ x, x ∈ W' ↔ x ∈ W0 ∨ x ∈ N' ++ N) ∧ Done g W0 (N' ++ N) ∧
      (∀ i ∈ is, i ∈ W0 ∨ i ∈ N' ++ N) ∧ ∀ x ∈ N', ∃ i ∈ is, i ∉ W0 ∧ RA g W0 i x := by
  induction is generalizing W1 N with
  | nil => exact ⟨[], W1, by simp [visitAll], hW1, hN, by simp, by simp⟩
  | cons i is ih =>
    by_cases hi : i ∈ W1
    · obtain ⟨N', W', h1, h2, h3, h4, h5⟩ := ih W1 N (fun j hj => his j (by simp [hj])) hW1 hN
      refine ⟨N', W', ?_, h2, h3, ?_, ?_⟩
      · simp only [visitAll, if_pos hi]; exact h1
      · intro j hj
        rcases List.mem_cons.1 hj with rfl | hj
        · rcases (hW1 j).1 hi with h | h
          · exact .inl h
          · exact .inr (by simp [h])
        · exact h4 j hj
      · intro x hx
        obtain ⟨j, hj, h⟩ := h5 x hx
        exact ⟨j, by simp [hj], h⟩
    · have hsub : ∀ x ∈ W0, x ∈ W1 := fun x hx => (hW1 x).2 (.inl hx)
      obtain ⟨M, W2, m1, m2, m3, m4, m5⟩ := hf i W1 (N ++ L) hi (his i (by simp))
        ((unvisited_mono hsub).trans hu)
      have hMN := hN.append hW1 m3
      have hW2 : ∀ x, x ∈ W2 ↔ x ∈ W0 ∨ x ∈ M ++ N := by
        intro x
        rw [m2, hW1, List.mem_append, or_assoc, or_comm (a := x ∈ N)]
      obtain ⟨N', W', h1, h2, h3, h4, h5⟩ := ih W2 (M ++ N) (fun j hj => his j (by simp [hj])) hW2 hMN
      refine ⟨N' ++ M, W', ?_, ?_, ?_, ?_, ?_⟩
      · simp only [visitAll, if_neg hi, m1]
        show visitAll (fillOrder g fuel) is (W2, M ++ (N ++ L)) = _
        rw [← List.append_assoc, h1]
        simp
      · simpa using h2
      · simpa using h3
      · intro j hj
        rcases List.mem_cons.1 hj with rfl | hj
        · exact .inr (by simp [m4])
        · simpa using h4 j hj
      · intro x hx
        rcases List.mem_append.1 hx with hx | hx
        · obtain ⟨j, hj, h⟩ := h5 x hx
          exact ⟨j, by simp [hj], h⟩
        · exact ⟨i, by simp, fun hc => hi (hsub i hc), (m5 x hx).mono hsub⟩

theorem fill_spec {g : Graph} (hg : Valid g) (fuel : Nat) : FillSpec g fuel := by
  induction fuel with
  | zero =>
    intro v W L hv hlt hu
    have := unvisited_cons hv hlt
    omega
  | succ fuel ih =>
    intro v W L hv hlt hu
    have hu' := unvisited_cons hv hlt
    obtain ⟨l, hl, hl'⟩ := adjacency_ok hlt
    obtain ⟨N, W', h1, h2, h3, h4, h5⟩ := fillLoop_spec ih l (v :: W) (v :: W) [] L
      (fun i hi => hg l (List.mem_of_getElem? hl') i hi) (by omega) (by simp) (Done.nil ..)
    rw [List.append_nil] at h2 h3 h4
    have hreach : ∀ x ∈ N, RA g W v x := by
      intro x hx
      obtain ⟨i, hi, hiW, hr⟩ := h5 x hx
      refine Relation.ReflTransGen.head ⟨⟨l, hl', hi⟩, fun hc => hiW (by simp [hc])⟩ ?_
      exact hr.mono fun a ha => by simp [ha]
    refine ⟨v :: N, W', ?_, ?_, ?_, by simp, ?_⟩
    · simp only [fillOrder, hl]
      show (visitAll (fillOrder g fuel) l (v :: W, L) >>= _) = _
      rw [List.nil_append] at h1
      rw [h1]; rfl
    · intro x; rw [h2, List.mem_cons, List.mem_cons, or_assoc, or_left_comm]
    · refine Done.cons hv hlt h3 ?_ hreach
      rintro y ⟨l', hl'', hy⟩
      rw [hl'] at hl''; cases hl''
      exact h4 y hy
    · intro x hx
      rcases List.mem_cons.1 hx with rfl | hx
      · exact .refl
      · exact hreach x hx

/-! ### second search -/

/-- `M` is the output of searches with visited set `W` -/
structure Found (g : Graph) (W M : List Nat) : Prop where
  nodup : M.Nodup
  disj : ∀ x ∈ M, x ∉ W
  closed : ∀ x ∈ M, ∀ y, E g x y → y ∈ W ∨ y ∈ M

def DfsSpec (g : Graph) (fuel : Nat) : Prop :=
  ∀ v W C, v ∉ W → v < g.length → unvisited g W ≤ fuel →
    ∃ M W', dfs g fuel v (W, C) = .ok (W', C ++ M) ∧ (∀ x, x ∈ W' ↔ x ∈ W ∨ x ∈ M) ∧
      Found g W M ∧ v ∈ M ∧ ∀ x ∈ M, RA g W v x

theorem dfsLoop_spec {g : Graph} {fuel : Nat} (hf : DfsSpec g fuel) (is : List Nat) (W1 C : List Nat)
    (his : ∀ i ∈ is, i < g.length) (hu : unvisited g W1 ≤ fuel) :
    ∃ M W', visitAll (dfs g fuel) is (W1, C) = .ok (W', C ++ M) ∧
      (∀ x, x ∈ W' ↔ x ∈ W1 ∨ x ∈ M) ∧ Found g W1 M ∧
      (∀ i ∈ is, i ∈ W1 ∨ i ∈ M) ∧ ∀ x ∈ M, ∃ i ∈ is, i ∉ W1 ∧ RA g W1 i x := by
  induction is generalizing W1 C with
  | nil => exact ⟨[], W1, by simp [visitAll], by simp, ⟨List.nodup_nil, by simp, by simp⟩, by simp, by simp⟩
  | cons i is ih =>
    by_cases hi : i ∈ W1
    · obtain ⟨M, W', h1, h2, h3, h4, h5⟩ := ih W1 C (fun j hj => his j (by simp [hj])) hu
      refine ⟨M, W', ?_, h2, h3, ?_, ?_⟩
      · simp only [visitAll, if_pos hi]; exact h1
      · intro j hj
        rcases List.mem_cons.1 hj with rfl | hj
        · exact .inl hi
        · exact h4 j hj
      · intro x hx
        obtain ⟨j, hj, h⟩ := h5 x hx
        exact ⟨j, by simp [hj], h⟩
    · obtain ⟨M, W2, m1, m2, m3, m4, m5⟩ := hf i W1 C hi (his i (by simp)) hu
      have hsub : ∀ x ∈ W1, x ∈ W2 := fun x hx => (m2 x).2 (.inl hx)
      obtain ⟨M', W', h1, h2, h3, h4, h5⟩ := ih W2 (C ++ M) (fun j hj => his j (by simp [hj]))
        ((unvisited_mono hsub).trans hu)
      refine ⟨M ++ M', W', ?_, ?_, ?_, ?_, ?_⟩
      · simp only [visitAll, if_neg hi, m1]
        show visitAll (dfs g fuel) is (W2, C ++ M) = _
        rw [h1]
        simp
      · intro x; rw [h2, m2, List.mem_append, or_assoc]
      · refine ⟨?_, ?_, ?_⟩
        · rw [List.nodup_append]
          refine ⟨m3.nodup, h3.nodup, ?_⟩
          rintro x hx y hy rfl
          exact h3.disj x hy ((m2 x).2 (.inr hx))
        · intro x hx hc
          rcases List.mem_append.1 hx with hx | hx
          · exact m3.disj x hx hc
          · exact h3.disj x hx (hsub x hc)
        · intro x hx y hxy
          rcases List.mem_append.1 hx with hx | hx
          · rcases m3.closed x hx y hxy with h | h
            · exact .inl h
            · exact .inr (by simp [h])
          · rcases h3.closed x hx y hxy with h | h
            · rcases (m2 y).1 h with h | h
              · exact .inl h
              · exact .inr (by simp [h])
            · exact .inr (by simp [h])
      · intro j hj
        rcases List.mem_cons.1 hj with rfl | hj
        · exact .inr (by simp [m4])
        · rcases h4 j hj with h | h
          · rcases (m2 j).1 h with h | h
            · exact .inl h
            · exact .inr (by simp [h])
          · exact .inr (by simp [h])
      · intro x hx
        rcases List.mem_append.1 hx with hx | hx
        · exact ⟨i, by simp, hi, m5 x hx⟩
        · obtain ⟨j, hj, hjW, h⟩ := h5 x hx
          exact ⟨j, by simp [hj], fun hc => hjW (hsub j hc), h.mono hsub⟩

theorem dfs_spec {g : Graph} (hg : Valid g) (fuel : Nat) : DfsSpec g fuel := by
  induction fuel with
  | zero =>
    intro v W L hv hlt hu
    have := unvisited_cons hv hlt
    omega
  | succ fuel ih =>
    intro v W C hv hlt hu
    have hu' := unvisited_cons hv hlt
    obtain ⟨l, hl, hl'⟩ := adjacency_ok hlt
    obtain ⟨M, W', h1, h2, h3, h4, h5⟩ := dfsLoop_spec ih l (v :: W) (C ++ [v])
      (fun i hi => hg l (List.mem_of_getElem? hl') i hi) (by omega)
    refine ⟨v :: M, W', ?_, ?_, ?_, by simp, ?_⟩
    · simp only [dfs, hl]
      show visitAll (dfs g fuel) l (v :: W, C ++ [v]) = _
      rw [h1]; simp
    · intro x; rw [h2, List.mem_cons, List.mem_cons, or_assoc, or_left_comm]
    · refine ⟨List.nodup_cons.2 ⟨fun hc => h3.disj v hc (by simp), h3.nodup⟩, ?_, ?_⟩
      · intro x hx
        rcases List.mem_cons.1 hx with rfl | hx
        · exact hv
        · exact fun hc => h3.disj x hx (by simp [hc])
      · intro x hx y hxy
        have : y ∈ v :: W ∨ y ∈ M := by
          rcases List.mem_cons.1 hx with rfl | hx
          · obtain ⟨l', hl'', hy⟩ := hxy
            rw [hl'] at hl''; cases hl''
            exact h4 y hy
          · exact h3.closed x hx y hxy
        rcases this with h | h
        · rcases List.mem_cons.1 h with rfl | h
          · exact .inr (by simp)
          · exact .inl h
        · exact .inr (by simp [h])
    · intro x hx
      rcases List.mem_cons.1 hx with rfl | hx
      · exact .refl
      · obtain ⟨i, hi, hiW, hr⟩ := h5 x hx
        refine Relation.ReflTransGen.head ⟨⟨l, hl', hi⟩, fun hc => hiW (by simp [hc])⟩ ?_
        exact hr.mono fun a ha => by simp [ha]

/-! ### edge operations -/

theorem addEdge_ok {g : Graph} {v : Nat} (h : v < g.length) (w : Nat) :
    ∃ g', addEdge g v w = .ok g' ∧ g'.length = g.length ∧
      ∀ a b, E g' a b ↔ E g a b ∨ a = v ∧ b = w := by
  obtain ⟨l, hl, hl'⟩ := adjacency_ok h
  refine ⟨g.set v (l ++ [w]), by simp only [addEdge, hl]; rfl, by simp, ?_⟩
  intro a b
  unfold E
  by_cases ha : a = v
  · subst ha
    rw [List.getElem?_set_self h, hl']
    simp
  · rw [List.getElem?_set_ne (Ne.symm ha)]
    simp [ha]

theorem removeEdge_ok {g : Graph} {v : Nat} (h : v < g.length) (w : Nat) :
    ∃ g', removeEdge g v w = .ok g' ∧ g'.length = g.length ∧
      ∀ a b, E g' a b ↔ E g a b ∧ ¬ (a = v ∧ b = w) := by
  obtain ⟨l, hl, hl'⟩ := adjacency_ok h
  refine ⟨g.set v (l.filter fun i => i != w), by simp only [removeEdge, hl]; rfl, by simp, ?_⟩
  intro a b
  unfold E
  by_cases ha : a = v
  · subst ha
    rw [List.getElem?_set_self h, hl']
    simp
  · rw [List.getElem?_set_ne (Ne.symm ha)]
    simp [ha]

theorem containsEdge_ok {g : Graph} {v : Nat} (h : v < g.length) (w : Nat) :
    ∃ b, containsEdge g v w = .ok b ∧ (b = true ↔ E g v w) := by
  obtain ⟨l, hl, hl'⟩ := adjacency_ok h
  refine ⟨l.any fun i => i == w, by simp only [containsEdge, hl]; rfl, ?_⟩
  unfold E
  rw [hl']
  simp

theorem transposeRow_ok (v : Nat) (is : List Nat) (gr : Graph) (h : ∀ i ∈ is, i < gr.length) :
    ∃ gr', transposeRow v is gr = .ok gr' ∧ gr'.length = gr.length ∧
      ∀ a b, E gr' a b ↔ E gr a b ∨ a ∈ is ∧ b = v := by
  induction is generalizing gr with
  | nil => exact ⟨gr, rfl, rfl, by simp⟩
  | cons i is ih =>
    obtain ⟨g1, h1, h2, h3⟩ := addEdge_ok (h i (by simp)) v
    obtain ⟨g2, h4, h5, h6⟩ := ih g1 (fun j hj => by rw [h2]; exact h j (by simp [hj]))
    refine ⟨g2, by simp only [transposeRow, h1]; exact h4, h5.trans h2, ?_⟩
    intro a b
    rw [h6, h3, List.mem_cons, or_assoc, or_and_right]

theorem transpose_aux (n : Nat) (rows : List (List Nat)) (k : Nat) (gr : Graph) (hn : gr.length = n)
    (h : ∀ l ∈ rows, ∀ b ∈ l, b < n) :
    ∃ gr', (rows.zipIdx k).foldlM (fun gr p => transposeRow p.2 p.1 gr) gr = .ok gr' ∧
      gr'.length = n ∧
      ∀ a b, E gr' a b ↔ E gr a b ∨ ∃ l, k ≤ b ∧ rows[b - k]? = some l ∧ a ∈ l := by
  induction rows generalizing k gr with
  | nil => exact ⟨gr, rfl, hn, by simp⟩
  | cons l rows ih =>
    obtain ⟨g1, h1, h2, h3⟩ := transposeRow_ok k l gr (fun i hi => by rw [hn]; exact h l (by simp) i hi)
    obtain ⟨g2, h4, h5, h6⟩ := ih (k + 1) g1 (h2.trans hn) (fun m hm => h m (by simp [hm]))
    refine ⟨g2, ?_, h5, ?_⟩
    · rw [List.zipIdx_cons, List.foldlM_cons, h1]; exact h4
    · intro a b
      rw [h6, h3, or_assoc]
      apply or_congr_right
      constructor
      · rintro (⟨h7, rfl⟩ | ⟨m, h7, h8, h9⟩)
        · exact ⟨l, le_refl _, by simp, h7⟩
        · refine ⟨m, by omega, ?_, h9⟩
          rw [show b - k = (b - (k+1)) + 1 by omega]
          simpa using h8
      · rintro ⟨m, h7, h8, h9⟩
        by_cases hb : b = k
        · subst hb
          simp at h8; subst h8
          exact .inl ⟨h9, rfl⟩
        · right
          refine ⟨m, by omega, ?_, h9⟩
          rw [show b - k = (b - (k+1)) + 1 by omega] at h8
          simpa using h8

theorem transpose_ok {g : Graph} (hg : Valid g) :
    ∃ gr, transpose g = .ok gr ∧ gr.length = g.length ∧ ∀ a b, E gr a b ↔ E g b a := by
  obtain ⟨gr, h1, h2, h3⟩ := transpose_aux g.length g 0 (new g.length) (by simp [new]) hg
  refine ⟨gr, h1, h2, ?_⟩
  intro a b
  rw [h3]
  have : ¬ E (new g.length) a b := by
    rintro ⟨l, hl, hb⟩
    have := List.mem_of_getElem? hl
    unfold new at this
    rw [(List.mem_replicate.1 this).2] at hb
    cases hb
  unfold E at *
  simp [this]

/-! ### Kosaraju -/

theorem before_pre {L pre post : List Nat} {v z : Nat} (hL : L.Nodup) (h : L = pre ++ v :: post)
    (hb : Before L z v) : z ∈ pre ∨ z = v := by
  obtain ⟨l1, l2, h1, h2⟩ := hb
  rcases h2 with h2 | h2
  · exact .inr h2.symm
  · left
    -- `v` is behind `z`
    obtain ⟨m1, m2, rfl⟩ := List.append_of_mem h2
    have hL' : L = (l1 ++ z :: m1) ++ v :: m2 := by rw [h1]; simp
    have : pre = l1 ++ z :: m1 := by
      have hn := hL
      rw [h] at hn
      have e : pre ++ v :: post = (l1 ++ z :: m1) ++ v :: m2 := by rw [← h, hL']
      rw [hL'] at hL
      have n1 : v ∉ pre := by
        intro hc
        exact (List.nodup_append.1 hn).2.2 v hc v (by simp) rfl
      have n2 : v ∉ l1 ++ z :: m1 := by
        intro hc
        exact (List.nodup_append.1 hL).2.2 v hc v (by simp) rfl
      have a1 := List.takeWhile_append_of_pos (p := fun x => x != v) (l₁ := pre) (l₂ := v :: post)
        (fun a ha => by simpa using fun hc : a = v => n1 (hc ▸ ha))
      have a2 := List.takeWhile_append_of_pos (p := fun x => x != v) (l₁ := l1 ++ z :: m1) (l₂ := v :: m2)
        (fun a ha => by simpa using fun hc : a = v => n2 (hc ▸ ha))
      rw [e, a2] at a1
      simpa using a1.symm
    rw [this]; simp

theorem component_eq {g gr : Graph} (hE : ∀ a b, E gr a b ↔ E g b a) {L pre post W : List Nat} {v : Nat}
    (hL : L.Nodup) (hsplit : L = pre ++ v :: post)
    (hsorted : ∀ x ∈ L, ∀ y ∈ L, Reach (E g) x y → ∃ z ∈ L, Mutual (E g) x z ∧ Before L z y)
    (hall : ∀ x y, E g x y → x ∈ L)
    (hpre : ∀ x ∈ pre, x ∈ W) (hv : v ∉ W)
    (hW : ∀ x ∈ W, ∀ y, Mutual (E g) x y → y ∈ W) (u : Nat) :
    RA gr W v u ↔ Mutual (E g) v u := by
  constructor
  · intro h
    have huW : u ∉ W := h.not_mem hv
    have hrev : Reach (E g) u v := by
      clear huW
      induction h with
      | refl => exact .refl
      | tail _ h ih => exact .head ((hE _ _).1 h.1) ih
    have hvL : v ∈ L := by rw [hsplit]; simp
    have huL : u ∈ L := by
      cases Relation.ReflTransGen.cases_head hrev with
      | inl h => rw [h]; exact hvL
      | inr h => obtain ⟨c, hc, _⟩ := h; exact hall u c hc
    obtain ⟨z, _, hm, hb⟩ := hsorted u huL v hvL hrev
    rcases before_pre hL hsplit hb with hz | rfl
    · exact absurd (hW z (hpre z hz) u ⟨hm.2, hm.1⟩) huW
    · exact ⟨hm.2, hm.1⟩
  · rintro ⟨hvu, huv⟩
    revert hvu
    refine Relation.ReflTransGen.head_induction_on
      (motive := fun a _ => Reach (E g) v a → RA gr W v a) huv (fun _ => .refl) ?_
    intro a c hac hcv ih hva
    refine (ih (hva.tail hac)).tail ⟨(hE _ _).2 hac, fun haW => ?_⟩
    exact hv (hW a haW v ⟨.head hac hcv, hva⟩)

theorem popLoop_ok {g gr : Graph} (hgr : Valid gr) (hlen : gr.length = g.length)
    (hE : ∀ a b, E gr a b ↔ E g b a) {L : List Nat}
    (hL : L.Nodup) (hlt : ∀ x ∈ L, x < g.length)
    (hsorted : ∀ x ∈ L, ∀ y ∈ L, Reach (E g) x y → ∃ z ∈ L, Mutual (E g) x z ∧ Before L z y)
    (hall : ∀ x y, E g x y → x ∈ L) (stack pre W : List Nat) (comps : List (List Nat))
    (hsplit : L = pre ++ stack) (hpre : ∀ x ∈ pre, x ∈ W)
    (hW : ∀ x ∈ W, ∀ y, Mutual (E g) x y → y ∈ W)
    (hcW : ∀ x, x ∈ W ↔ x ∈ comps.flatten) (hnd : comps.flatten.Nodup)
    (hc : ∀ c ∈ comps, ∃ v ∈ L, ∀ u, u ∈ c ↔ Mutual (E g) v u) :
    ∃ comps', popLoop gr (g.length + 1) stack W comps = .ok comps' ∧ comps'.flatten.Nodup ∧
      (∀ x ∈ L, x ∈ comps'.flatten) ∧ ∀ c ∈ comps', ∃ v ∈ L, ∀ u, u ∈ c ↔ Mutual (E g) v u := by
  induction stack generalizing pre W comps with
  | nil =>
    refine ⟨comps, rfl, hnd, ?_, hc⟩
    intro x hx
    rw [hsplit, List.append_nil] at hx
    exact (hcW x).1 (hpre x hx)
  | cons v stack ih =>
    simp only [popLoop]
    by_cases hv : v ∈ W
    · rw [if_pos hv]
      exact ih (pre ++ [v]) W comps (by simp [hsplit]) (by
        intro x hx
        rcases List.mem_append.1 hx with hx | hx
        · exact hpre x hx
        · rw [List.mem_singleton.1 hx]; exact hv) hW hcW hnd hc
    · rw [if_neg hv]
      have hvL : v ∈ L := by rw [hsplit]; simp
      obtain ⟨M, W', h1, h2, h3, h4, h5⟩ := dfs_spec hgr (g.length + 1) v W [] hv
        (by rw [hlen]; exact hlt v hvL) ((unvisited_le W).trans (by omega))
      have hM : ∀ u, u ∈ M ↔ Mutual (E g) v u := by
        intro u
        rw [← component_eq hE hL hsplit hsorted hall hpre hv hW]
        constructor
        · exact h5 u
        · intro h
          clear h2 h1
          induction h with
          | refl => exact h4
          | tail _ hyz ih => exact (h3.closed _ ih _ hyz.1).resolve_left hyz.2
      rw [h1]
      refine ih (pre ++ [v]) W' (comps ++ [M]) (by simp [hsplit]) ?_ ?_ ?_ ?_ ?_
      · intro x hx
        rcases List.mem_append.1 hx with hx | hx
        · exact (h2 x).2 (.inl (hpre x hx))
        · rw [List.mem_singleton.1 hx]; exact (h2 v).2 (.inr h4)
      · intro x hx y hxy
        rw [h2] at hx ⊢
        rcases hx with hx | hx
        · exact .inl (hW x hx y hxy)
        · rw [hM] at hx ⊢
          exact .inr ⟨hx.1.trans hxy.1, hxy.2.trans hx.2⟩
      · intro x
        rw [h2, hcW]; simp
      · simp only [List.flatten_append, List.flatten_cons, List.flatten_nil, List.append_nil]
        rw [List.nodup_append]
        refine ⟨hnd, h3.nodup, ?_⟩
        rintro x hx y hy rfl
        exact h3.disj x hy ((hcW x).2 hx)
      · intro c hcm
        rcases List.mem_append.1 hcm with hcm | hcm
        · exact hc c hcm
        · rw [List.mem_singleton.1 hcm]
          exact ⟨v, hvL, hM⟩

theorem scc_ok {g : Graph} (hg : Valid g) :
    ∃ comps, scc g = .ok comps ∧ comps.flatten.Perm (List.range g.length) ∧
      ∀ c ∈ comps, ∃ v < g.length, ∀ u, u ∈ c ↔ Mutual (E g) v u := by
  obtain ⟨N, W', h1, h2, h3, h4, h5⟩ := fillLoop_spec (fill_spec hg (g.length + 1))
    (List.range g.length) [] [] [] [] (by simp) ((unvisited_le []).trans (by omega)) (by simp)
    (Done.nil g [])
  obtain ⟨gr, t1, t2, t3⟩ := transpose_ok hg
  rw [List.append_nil] at h2 h3 h4
  simp only [List.append_nil, List.nil_append] at h1
  have hmem : ∀ x, x < g.length → x ∈ N := by
    intro x hx
    have := h4 x (List.mem_range.2 hx)
    simpa using this
  have hgr : Valid gr := by
    intro l hl b hb
    obtain ⟨a, ha, hla⟩ := List.mem_iff_getElem.1 hl
    have : E gr a b := ⟨l, by rw [List.getElem?_eq_getElem ha, hla], hb⟩
    rw [t2]
    exact ((t3 a b).1 this).lt
  have hRA : ∀ x y, RA g [] x y ↔ Reach (E g) x y := by
    intro x y
    constructor
    · exact Reach.imp fun a b h => h.1
    · exact Reach.imp fun a b h => ⟨h, by simp⟩
  obtain ⟨comps, p1, p2, p3, p4⟩ := popLoop_ok hgr t2 t3 h3.nodup h3.lt
    (by
      intro x hx y hy hxy
      obtain ⟨z, hz, a1, a2, a3⟩ := h3.sorted x hx y hy ((hRA x y).2 hxy)
      exact ⟨z, hz, ⟨(hRA _ _).1 a1, (hRA _ _).1 a2⟩, a3⟩)
    (fun x y hxy => hmem x hxy.lt) N [] [] [] rfl (by simp) (by simp) (by simp) (by simp) (by simp)
  have p4' : ∀ c ∈ comps, ∃ v < g.length, ∀ u, u ∈ c ↔ Mutual (E g) v u := fun c hc => by
    obtain ⟨v, hv, h⟩ := p4 c hc
    exact ⟨v, h3.lt v hv, h⟩
  refine ⟨comps, ?_, ?_, p4'⟩
  · unfold scc
    simp only
    rw [h1]
    show (transpose g >>= _) = _
    rw [t1]; exact p1
  · rw [List.perm_ext_iff_of_nodup p2 List.nodup_range]
    intro x
    rw [List.mem_range]
    constructor
    · intro hx
      obtain ⟨c, hc, hxc⟩ := List.mem_flatten.1 hx
      obtain ⟨v, hv, h⟩ := p4' c hc
      have := ((h x).1 hxc).1
      cases this with
      | refl => exact hv
      | tail _ h => exact hg.lt h
    · intro hx
      exact p3 x (hmem x hx)

end Prolothar.IntGraph
