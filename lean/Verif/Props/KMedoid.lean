import Verif.Model.KMedoid
import Mathlib.Data.List.Perm.Basic
import Mathlib.Data.List.Nodup
import Mathlib.Algebra.Order.BigOperators.Group.List
import Mathlib.Tactic.Linarith
/-
C68: k-medoid clustering.
-/
namespace Prolothar.KMedoid

variable {α K : Type} [LinearOrder K] [Zero K] (tot : List K → K)

theorem argBest_spec {K : Type} (lt : K → K → Bool) (hirr : ∀ a, lt a a = false) (htr : ∀ a b c, lt a b = true → lt b c = true → lt a c = true)
    (hneg : ∀ a b c, lt a b = false → lt b c = false → lt a c = false) {l : List K} (hl : l ≠ []) :
    ∃ v, l[argBest lt l]? = some v ∧ (∀ w ∈ l, lt w v = false) ∧ ∀ (j : Nat) w, j < argBest lt l → l[j]? = some w → lt v w = true := by
  have key : ∀ (rest done : List K) (s : (K × Nat) × Nat), s.2 = done.length → done[s.1.2]? = some s.1.1 → (∀ w ∈ done, lt w s.1.1 = false) →
      (∀ (j : Nat) w, j < s.1.2 → done[j]? = some w → lt s.1.1 w = true) →
      let r := rest.foldl (fun (s : (K × Nat) × Nat) v => (if lt v s.1.1 then (v, s.2) else s.1, s.2 + 1)) s
      (done ++ rest)[r.1.2]? = some r.1.1 ∧ (∀ w ∈ done ++ rest, lt w r.1.1 = false) ∧
        ∀ (j : Nat) w, j < r.1.2 → (done ++ rest)[j]? = some w → lt r.1.1 w = true := by
    intro rest
    induction rest with
    | nil => intro done s h1 h2 h3 h4; simp only [List.foldl_nil, List.append_nil]; exact ⟨h2, h3, h4⟩
    | cons v rest ih =>
      intro done s h1 h2 h3 h4
      rw [List.foldl_cons]
      have := ih (done ++ [v]) (if lt v s.1.1 then (v, s.2) else s.1, s.2 + 1) (by simp [h1]) ?_ ?_ ?_
      · simpa only [List.append_assoc, List.singleton_append] using this
      · by_cases hv : lt v s.1.1 = true
        · simp only [hv, if_true, h1]; simp
        · simp only [hv, if_false, Bool.false_eq_true]
          have hlt : s.1.2 < done.length := by
            rw [List.getElem?_eq_some_iff] at h2; exact h2.1
          rw [List.getElem?_append_left hlt]; exact h2
      · intro w hw
        by_cases hv : lt v s.1.1 = true
        · simp only [hv, if_true]
          rcases List.mem_append.1 hw with hw | hw
          · by_contra hc
            simp only [Bool.not_eq_false] at hc
            have := htr _ _ _ hc hv
            rw [h3 w hw] at this; cases this
          · rw [List.mem_singleton] at hw; rw [hw]; exact hirr _
        · simp only [hv, if_false, Bool.false_eq_true]
          rcases List.mem_append.1 hw with hw | hw
          · exact h3 w hw
          · rw [List.mem_singleton] at hw; rw [hw]; simpa using hv
      · intro j w hj hw
        by_cases hv : lt v s.1.1 = true
        · simp only [hv, if_true] at hj ⊢
          rw [List.getElem?_append_left (by omega)] at hw
          by_contra hc
          simp only [Bool.not_eq_true] at hc
          have hwm : w ∈ done := List.mem_of_getElem? hw
          have := hneg _ _ _ hc (h3 w hwm)
          rw [hv] at this; cases this
        · simp only [hv, if_false, Bool.false_eq_true] at hj ⊢
          have hlt : s.1.2 < done.length := by
            rw [List.getElem?_eq_some_iff] at h2; exact h2.1
          rw [List.getElem?_append_left (by omega)] at hw
          exact h4 j w hj hw
  cases l with
  | nil => exact absurd rfl hl
  | cons x l =>
    have := key l [x] ((x, 0), 1) rfl rfl (by simpa using hirr x) (by intro j w hj; simp at hj)
    exact ⟨_, this⟩

omit [Zero K] in
theorem cmp_props (mode : Bool) : (∀ a : K, cmp mode a a = false) ∧ (∀ a b c : K, cmp mode a b = true → cmp mode b c = true → cmp mode a c = true) ∧
    ∀ a b c : K, cmp mode a b = false → cmp mode b c = false → cmp mode a c = false := by
  unfold cmp
  cases mode <;> simp only [Bool.false_eq_true, if_false, if_true, decide_eq_true_eq, decide_eq_false_iff_not, not_lt, le_refl, implies_true, true_and]
  · exact ⟨fun a b c h1 h2 => lt_trans h2 h1, fun a b c h1 h2 => le_trans h1 h2⟩
  · exact ⟨fun a b c h1 h2 => lt_trans h1 h2, fun a b c h1 h2 => le_trans h2 h1⟩

theorem fold_best (m : List (List K)) : ∀ (l : List Nat) (c : Nat),
    let r := l.foldl (fun (s : K × Nat) p => if colSum tot m p < s.1 then (colSum tot m p, p) else s) (colSum tot m c, c)
    r.1 = colSum tot m r.2 ∧ (r.2 = c ∨ r.2 ∈ l ∧ colSum tot m r.2 < colSum tot m c) ∧ ∀ p ∈ l, colSum tot m r.2 ≤ colSum tot m p := by
  intro l
  induction l with
  | nil => intro c; simp
  | cons q l ih =>
    intro c
    rw [List.foldl_cons]
    by_cases hq : colSum tot m q < colSum tot m c
    · rw [if_pos hq]
      obtain ⟨h1, h2, h3⟩ := ih q
      refine ⟨h1, ?_, ?_⟩
      · rcases h2 with h2 | ⟨h2, h4⟩
        · rw [h2]; exact .inr ⟨by simp, hq⟩
        · exact .inr ⟨List.mem_cons_of_mem _ h2, lt_trans h4 hq⟩
      · intro p hp
        rcases List.mem_cons.1 hp with rfl | hp
        · rcases h2 with h2 | ⟨_, h2⟩
          · rw [h2]
          · exact le_of_lt h2
        · exact h3 p hp
    · rw [if_neg hq]
      obtain ⟨h1, h2, h3⟩ := ih c
      refine ⟨h1, ?_, ?_⟩
      · rcases h2 with h2 | ⟨h2, h4⟩
        · exact .inl h2
        · exact .inr ⟨List.mem_cons_of_mem _ h2, h4⟩
      · intro p hp
        rcases List.mem_cons.1 hp with rfl | hp
        · rw [not_lt] at hq
          rcases h2 with h2 | ⟨_, h2⟩
          · rw [h2]; exact hq
          · exact le_trans (le_of_lt h2) hq
        · exact h3 p hp

theorem recomputeOne_spec (m : List (List K)) (members : List Nat) (c i : Nat) :
    (recomputeOne tot m members c i = c ∨ members[recomputeOne tot m members c i]? = some i ∧ colSum tot m (recomputeOne tot m members c i) < colSum tot m c) ∧
    ∀ p : Nat, members[p]? = some i → colSum tot m (recomputeOne tot m members c i) ≤ colSum tot m p := by
  obtain ⟨_, h2, h3⟩ := fold_best tot m ((List.range members.length).filter fun p => members[p]? = some i) c
  have hmem : ∀ p : Nat, p ∈ ((List.range members.length).filter fun p => members[p]? = some i) ↔ members[p]? = some i := by
    intro p
    rw [List.mem_filter, List.mem_range, decide_eq_true_eq]
    refine ⟨fun h => h.2, fun h => ⟨?_, h⟩⟩
    rw [List.getElem?_eq_some_iff] at h; exact h.1
  refine ⟨?_, fun p hp => h3 p ((hmem p).2 hp)⟩
  rcases h2 with h2 | ⟨h2, h4⟩
  · exact .inl h2
  · exact .inr ⟨(hmem _).1 h2, h4⟩

/-- the number of points with a smaller column sum -/
def rank (m : List (List K)) (n c : Nat) : Nat := ((List.range n).filter fun p => colSum tot m p < colSum tot m c).length

theorem rank_le (m : List (List K)) (n c : Nat) : rank tot m n c ≤ n := by
  unfold rank
  exact le_trans (List.length_filter_le _ _) (by simp)

theorem rank_lt {m : List (List K)} {n c d : Nat} (hd : d < n) (h : colSum tot m d < colSum tot m c) : rank tot m n d < rank tot m n c := by
  unfold rank
  have hsub : ((List.range n).filter fun p => colSum tot m p < colSum tot m d) =
      ((List.range n).filter fun p => colSum tot m p < colSum tot m c).filter fun p => colSum tot m p < colSum tot m d := by
    rw [List.filter_filter]
    refine List.filter_congr fun p _ => ?_
    by_cases hp : colSum tot m p < colSum tot m d
    · simp [hp, lt_trans hp h]
    · simp [hp]
  rw [hsub]
  refine List.length_filter_lt_length_iff_exists.2 ⟨d, ?_, by simp⟩
  rw [List.mem_filter, List.mem_range]
  exact ⟨hd, by simpa using h⟩

/-- the sum of the ranks of the centers -/
def measure (m : List (List K)) (n : Nat) (centers : List Nat) : Nat := (centers.map (rank tot m n)).sum

theorem length_recompute (m : List (List K)) (members centers : List Nat) : (recompute tot m members centers).length = centers.length := by
  simp [recompute]

theorem recompute_get {m : List (List K)} {members centers : List Nat} {i c : Nat} (h : centers[i]? = some c) :
    (recompute tot m members centers)[i]? = some (recomputeOne tot m members c i) := by
  simp [recompute, h]

theorem measure_decreases {m : List (List K)} {mode : Bool} {centers : List Nat}
    (hne : recompute tot m (memberships mode m centers) centers ≠ centers) :
    measure tot m m.length (recompute tot m (memberships mode m centers) centers) < measure tot m m.length centers := by
  set members := memberships mode m centers with hm
  have hlen : members.length = m.length := by rw [hm]; simp [memberships]
  have h1 : measure tot m m.length (recompute tot m members centers) = (centers.zipIdx.map fun e => rank tot m m.length (recomputeOne tot m members e.1 e.2)).sum := by
    unfold measure recompute; rw [List.map_map]; rfl
  have h2 : measure tot m m.length centers = (centers.zipIdx.map fun e => rank tot m m.length e.1).sum := by
    unfold measure
    conv_lhs => rw [← List.zipIdx_map_fst 0 centers]
    rw [List.map_map]; rfl
  have hcase : ∀ c i, recomputeOne tot m members c i = c ∨ rank tot m m.length (recomputeOne tot m members c i) < rank tot m m.length c := by
    intro c i
    rcases (recomputeOne_spec tot m members c i).1 with h | ⟨h3, h4⟩
    · exact .inl h
    · refine .inr (rank_lt tot ?_ h4)
      rw [List.getElem?_eq_some_iff] at h3
      rw [← hlen]; exact h3.1
  rw [h1, h2]
  refine List.sum_lt_sum _ _ (fun e _ => ?_) ?_
  · rcases hcase e.1 e.2 with h | h
    · rw [h]
    · exact le_of_lt h
  · by_contra hc
    push Not at hc
    apply hne
    apply List.ext_getElem?
    intro i
    cases hi : centers[i]? with
    | none =>
      rw [List.getElem?_eq_none_iff] at hi ⊢
      rw [length_recompute]; exact hi
    | some c =>
      rw [recompute_get tot hi]
      have := hc (c, i) (by rw [List.mem_zipIdx_iff_getElem?]; exact hi)
      rcases hcase c i with h | h
      · rw [h]
      · simp only at this; omega

theorem loop_spec (mode : Bool) (m : List (List K)) : ∀ (fuel : Nat) (centers : List Nat), measure tot m m.length centers < fuel →
    (∃ final, loop tot mode m fuel centers = .ok (memberships mode m final, final) ∧ recompute tot m (memberships mode m final) final = final ∧
      final.length = centers.length ∧ ((∀ c ∈ centers, c < m.length) → ∀ c ∈ final, c < m.length) ∧
      ∀ P : List Nat → Prop, P centers → (∀ cs, P cs → P (recompute tot m (memberships mode m cs) cs)) → P final)
  | 0, centers, h => by omega
  | fuel + 1, centers, h => by
    unfold loop
    by_cases heq : recompute tot m (memberships mode m centers) centers = centers
    · simp only [heq, if_true]
      exact ⟨centers, rfl, heq, rfl, fun h => h, fun P h _ => h⟩
    · simp only [heq, if_false]
      have hdec := measure_decreases tot (mode := mode) heq
      obtain ⟨final, h1, h2, h3, h4, h5⟩ := loop_spec mode m fuel (recompute tot m (memberships mode m centers) centers) (by omega)
      refine ⟨final, h1, h2, by rw [h3, length_recompute], fun hc => h4 ?_, fun P hP hs => h5 P (hs _ hP) hs⟩
      intro c hcm
      obtain ⟨i, hi⟩ := List.getElem?_of_mem hcm
      cases hci : centers[i]? with
      | none =>
        rw [List.getElem?_eq_none_iff, ← length_recompute tot m (memberships mode m centers), ← List.getElem?_eq_none_iff] at hci
        rw [hi] at hci; cases hci
      | some d =>
        rw [recompute_get tot hci] at hi
        injection hi with hi
        rcases (recomputeOne_spec tot m (memberships mode m centers) d i).1 with h6 | ⟨h6, _⟩
        · rw [← hi, h6]; exact hc d (List.mem_of_getElem? hci)
        · rw [hi, List.getElem?_eq_some_iff] at h6
          simpa [memberships] using h6.1

/-- the dissimilarity of the objects at `c` and `p` -/
def dist (f : α → α → K) (objects : List α) (p c : Nat) : K :=
  match objects[c]?, objects[p]? with
  | some y, some x => f y x
  | _, _ => 0

omit [LinearOrder K] in
theorem colSum_eq {f : α → α → K} {objects : List α} {c : Nat} {y : α} (hc : objects[c]? = some y) :
    colSum tot (matrix f objects) c = tot (objects.map fun x => f y x) := by
  unfold colSum matrix
  rw [List.map_map]
  congr 1
  refine List.map_congr_left fun x _ => ?_
  simp [hc]

/-- C68: for all dissimilarity functions into a linear order, all ways `tot` to sum (exact, or rounded in any order), all objects, numbers of clusters and initial shuffles the algorithm terminates, with
at most k·n + 1 iterations. In the result there are k centers; every object has the label of a nearest center (in similarity
mode, of a most similar one), the first one if there are several; and no member of a cluster has a smaller sum of
dissimilarities to all objects than the center. -/
theorem C68_cluster (f : α → α → K) (mode : Bool) (objects : List α) (k : Nat) (hk0 : 0 < k) (hk : k ≤ objects.length) (shuffled : List Nat)
    (hs : shuffled.Perm (List.range objects.length)) (fuel : Nat) (hfuel : k * objects.length < fuel) :
    ∃ labels centers, cluster tot f mode objects (some k) shuffled fuel = .ok (labels, centers) ∧
      centers.length = k ∧ (∀ c ∈ centers, c < objects.length) ∧ labels.length = objects.length ∧
      (∀ p i, labels[p]? = some i → ∃ c, centers[i]? = some c ∧
        (∀ (j : Nat) d, centers[j]? = some d → if mode then dist f objects p c ≤ dist f objects p d else dist f objects p d ≤ dist f objects p c) ∧
        ∀ (j : Nat) d, j < i → centers[j]? = some d → if mode then dist f objects p c < dist f objects p d else dist f objects p d < dist f objects p c) ∧
      (∀ (i p c : Nat) x y, labels[p]? = some i → centers[i]? = some c → objects[p]? = some x → objects[c]? = some y →
        tot (objects.map fun z => f y z) ≤ tot (objects.map fun z => f x z)) := by
  have hsel : selectCenters objects.length (some k) shuffled = .ok (shuffled.take k) := by
    unfold selectCenters
    simp only [Option.getD_some]
    rw [if_neg (by omega), if_neg (by omega)]
    simp
  have hml : (matrix f objects).length = objects.length := by simp [matrix]
  have hslen : shuffled.length = objects.length := by rw [hs.length_eq]; simp
  have hmeas : measure tot (matrix f objects) (matrix f objects).length (shuffled.take k) < fuel := by
    have : ∀ l : List Nat, (l.map (rank tot (matrix f objects) (matrix f objects).length)).sum ≤ l.length * objects.length := by
      intro l
      induction l with
      | nil => simp
      | cons c l ih =>
        rw [List.map_cons, List.sum_cons, List.length_cons, Nat.add_mul, Nat.one_mul]
        have := rank_le tot (matrix f objects) (matrix f objects).length c
        rw [hml] at this ih ⊢
        omega
    have h1 := this (shuffled.take k)
    rw [List.length_take, hslen, Nat.min_eq_left hk] at h1
    unfold measure
    omega
  obtain ⟨final, h1, h2, h3, h4, _⟩ := loop_spec tot mode (matrix f objects) fuel (shuffled.take k) hmeas
  have hlen : final.length = k := by rw [h3, List.length_take, hslen, Nat.min_eq_left hk]
  have hrange : ∀ c ∈ final, c < objects.length := by
    rw [← hml]
    refine h4 fun c hc => ?_
    rw [hml]
    simpa using hs.mem_iff.1 (List.mem_of_mem_take hc)
  refine ⟨memberships mode (matrix f objects) final, final, ?_, hlen, hrange, by simp [memberships, hml], ?_, ?_⟩
  · unfold cluster; rw [hsel]; exact h1
  · intro p i hp
    simp only [memberships, List.getElem?_map, Option.map_eq_some_iff] at hp
    obtain ⟨row, hrow, hi⟩ := hp
    have hd : ∀ c, dist f objects p c = row.getD c 0 := by
      intro c
      simp only [matrix, List.getElem?_map, Option.map_eq_some_iff] at hrow
      obtain ⟨x, hx, rfl⟩ := hrow
      unfold dist
      cases hc : objects[c]? <;> simp [List.getD, hx, hc]
    obtain ⟨c1, c2, c3⟩ := cmp_props (K := K) mode
    obtain ⟨v, a1, a2, a3⟩ := argBest_spec (cmp mode) c1 c2 c3 (l := final.map fun c => row.getD c 0) (by
      intro h; rw [List.map_eq_nil_iff] at h; rw [h] at hlen; simp at hlen; omega)
    rw [hi] at a1 a3
    rw [List.getElem?_map, Option.map_eq_some_iff] at a1
    obtain ⟨c, hc, rfl⟩ := a1
    refine ⟨c, hc, fun j d hj => ?_, fun j d hji hj => ?_⟩
    · have := a2 (row.getD d 0) (List.mem_map.2 ⟨d, List.mem_of_getElem? hj, rfl⟩)
      rw [hd, hd]
      unfold cmp at this
      cases mode <;> simpa using this
    · have := a3 j (row.getD d 0) hji (by rw [List.getElem?_map, hj]; rfl)
      rw [hd, hd]
      unfold cmp at this
      cases mode <;> simpa using this
  · intro i p c x y hp hc hx hy
    have h5 := (recomputeOne_spec tot (matrix f objects) (memberships mode (matrix f objects) final) c i).2 p hp
    have h6 : recomputeOne tot (matrix f objects) (memberships mode (matrix f objects) final) c i = c := by
      have := recompute_get tot (m := matrix f objects) (members := memberships mode (matrix f objects) final) hc
      rw [h2, hc] at this
      injection this with this
      exact this.symm
    rw [h6, colSum_eq tot hy, colSum_eq tot hx] at h5
    exact h5

/-- C68: if an object has dissimilarity 0 to itself and a positive one to the others, the centers are different and
every center has the label of its own cluster, so no cluster is empty -/
theorem C68_clusters_nonempty (f : α → α → K) (objects : List α)
    (h0 : ∀ x ∈ objects, f x x = 0) (hpos : ∀ (p q : Nat) x y, objects[p]? = some x → objects[q]? = some y → p ≠ q → 0 < f x y)
    (k : Nat) (hk0 : 0 < k) (hk : k ≤ objects.length) (shuffled : List Nat)
    (hs : shuffled.Perm (List.range objects.length)) (fuel : Nat) (hfuel : k * objects.length < fuel) :
    ∃ labels centers, cluster tot f true objects (some k) shuffled fuel = .ok (labels, centers) ∧ centers.Nodup ∧
      ∀ (i c : Nat), centers[i]? = some c → labels[c]? = some i := by
  have hml : (matrix f objects).length = objects.length := by simp [matrix]
  -- distinct centers in range are in their own clusters
  have own : ∀ cs : List Nat, cs.Nodup → (∀ c ∈ cs, c < objects.length) → ∀ (i c : Nat), cs[i]? = some c →
      (memberships true (matrix f objects) cs)[c]? = some i := by
    intro cs hn hr i c hi
    have hcm := List.mem_of_getElem? hi
    obtain ⟨y, hy⟩ : ∃ y, objects[c]? = some y := ⟨_, List.getElem?_eq_getElem (hr c hcm)⟩
    have hrow : (matrix f objects)[c]? = some (objects.map fun x1 => f x1 y) := by simp [matrix, hy]
    simp only [memberships, List.getElem?_map, hrow, Option.map_some, Option.some.injEq]
    obtain ⟨c1, c2, c3⟩ := cmp_props (K := K) true
    obtain ⟨v, a1, a2, a3⟩ := argBest_spec (cmp true) c1 c2 c3 (l := cs.map fun c => (objects.map fun x1 => f x1 y).getD c 0) (by
      intro h; rw [List.map_eq_nil_iff] at h; rw [h] at hi; simp at hi)
    set j := argBest (cmp true) (cs.map fun c => (objects.map fun x1 => f x1 y).getD c 0) with hj
    rw [List.getElem?_map, Option.map_eq_some_iff] at a1
    obtain ⟨d, hd, rfl⟩ := a1
    by_contra hne
    have hdm := List.mem_of_getElem? hd
    have hdc : d ≠ c := by
      intro h
      subst h
      rw [List.getElem?_eq_some_iff] at hi hd
      exact hne ((List.Nodup.getElem_inj_iff hn).1 (hd.2.trans hi.2.symm))
    obtain ⟨x, hx⟩ : ∃ x, objects[d]? = some x := ⟨_, List.getElem?_eq_getElem (hr d hdm)⟩
    have e1 : (objects.map fun x1 => f x1 y).getD d 0 = f x y := by simp [List.getD, hx]
    have e2 : (objects.map fun x1 => f x1 y).getD c 0 = 0 := by simp [List.getD, hy, h0 y (List.mem_of_getElem? hy)]
    have h3 := a2 0 (List.mem_map.2 ⟨c, hcm, e2⟩)
    rw [e1] at h3
    unfold cmp at h3
    simp only [if_true, decide_eq_false_iff_not, not_lt] at h3
    exact absurd h3 (not_le.2 (hpos d c x y hx hy hdc))
  have hsel : selectCenters objects.length (some k) shuffled = .ok (shuffled.take k) := by
    unfold selectCenters
    simp only [Option.getD_some]
    rw [if_neg (by omega), if_neg (by omega)]
    simp
  have hslen : shuffled.length = objects.length := by rw [hs.length_eq]; simp
  have hmeas : measure tot (matrix f objects) (matrix f objects).length (shuffled.take k) < fuel := by
    have : ∀ l : List Nat, (l.map (rank tot (matrix f objects) (matrix f objects).length)).sum ≤ l.length * objects.length := by
      intro l
      induction l with
      | nil => simp
      | cons c l ih =>
        rw [List.map_cons, List.sum_cons, List.length_cons, Nat.add_mul, Nat.one_mul]
        have := rank_le tot (matrix f objects) (matrix f objects).length c
        rw [hml] at this ih ⊢
        omega
    have h1 := this (shuffled.take k)
    rw [List.length_take, hslen, Nat.min_eq_left hk] at h1
    unfold measure
    omega
  obtain ⟨final, h1, h2, h3, h4, h5⟩ := loop_spec tot true (matrix f objects) fuel (shuffled.take k) hmeas
  have hP : final.Nodup ∧ ∀ c ∈ final, c < objects.length := by
    refine h5 (fun cs => cs.Nodup ∧ ∀ c ∈ cs, c < objects.length) ⟨?_, ?_⟩ ?_
    · exact (List.take_sublist _ _).nodup (hs.nodup_iff.2 List.nodup_range)
    · intro c hc
      simpa using hs.mem_iff.1 (List.mem_of_mem_take hc)
    · rintro cs ⟨hn, hr⟩
      have hown := own cs hn hr
      have hnew : ∀ (i c : Nat), (recompute tot (matrix f objects) (memberships true (matrix f objects) cs) cs)[i]? = some c →
          (memberships true (matrix f objects) cs)[c]? = some i := by
        intro i c hi
        cases hci : cs[i]? with
        | none =>
          rw [List.getElem?_eq_none_iff, ← length_recompute tot (matrix f objects) (memberships true (matrix f objects) cs), ← List.getElem?_eq_none_iff, hi] at hci
          cases hci
        | some d =>
          rw [recompute_get tot hci] at hi
          injection hi with hi
          rcases (recomputeOne_spec tot (matrix f objects) (memberships true (matrix f objects) cs) d i).1 with h6 | ⟨h6, _⟩
          · rw [← hi, h6]; exact hown i d hci
          · rw [← hi]; exact h6
      refine ⟨?_, fun c hc => ?_⟩
      · rw [List.nodup_iff_getElem?_ne_getElem?]
        intro i j hij hj he
        have hji : (recompute tot (matrix f objects) (memberships true (matrix f objects) cs) cs)[j]? = some _ := List.getElem?_eq_getElem hj
        have a := hnew j _ hji
        have b := hnew i _ (he.trans hji)
        rw [a] at b
        injection b with b
        omega
      · obtain ⟨i, hi⟩ := List.getElem?_of_mem hc
        have := hnew i c hi
        rw [List.getElem?_eq_some_iff] at this
        simpa [memberships, hml] using this.1
  refine ⟨_, final, by unfold cluster; rw [hsel]; exact h1, hP.1, own final hP.1 hP.2⟩

/-- C68: a number of clusters that is not positive or larger than the number of objects is rejected; without a number, every
object is a cluster -/
theorem C68_number (f : α → α → K) (mode : Bool) (objects : List α) (shuffled : List Nat) (fuel : Nat) :
    (∀ k : Int, k ≤ 0 ∨ objects.length < k → cluster tot f mode objects (some k) shuffled fuel = .error .value) ∧
    cluster tot f mode objects none shuffled fuel = cluster tot f mode objects (some objects.length) shuffled fuel := by
  refine ⟨fun k hk => ?_, rfl⟩
  unfold cluster selectCenters
  simp only [Option.getD_some]
  by_cases h : k ≤ 0
  · rw [if_pos h]; rfl
  · rw [if_neg h, if_pos (by omega)]; rfl

/-- C68 fails in the usual sense of k-medoids: the center is compared by the sum over all objects, not over its
cluster. Here the cluster {0, 1, 2} (the points at 0, 1 and 3) has the center 3, with distance sum 5 in the cluster, while 1
has distance sum 3. -/
theorem C68_center_witness :
    let f : Int → Int → Rat := fun x y => |x - y|
    let objects : List Int := [0, 1, 3, 100, 101, 103, 104]
    ∃ centers, cluster List.sum f true objects (some 2) [0, 6, 1, 2, 3, 4, 5] 15 = .ok ([0, 0, 0, 1, 1, 1, 1], 2 :: centers) ∧
      f 1 0 + f 1 1 + f 1 3 < f 3 0 + f 3 1 + f 3 3 := by
  refine ⟨[3], by decide +kernel, by decide +kernel⟩

/-- C68: also in similarity mode the center is replaced by members with a smaller sum. Here the similarity of
the objects 0 and 1 is 9, object 2 is similar to nothing, and yet object 2 becomes the center of all three. -/
theorem C68_similarity_witness :
    let f : Nat → Nat → Rat := fun x y => if x = y then 10 else if x + y = 1 then 9 else 0
    cluster List.sum f false [0, 1, 2] (some 1) [0, 1, 2] 4 = .ok ([0, 0, 0], [2]) := by
  decide +kernel

example : cluster List.sum (fun x y : Int => (|x - y| : Rat)) true [0, 1, 2, 100, 101, 102] (some 2) [3, 0, 1, 2, 4, 5] 13 = .ok ([1, 1, 1, 0, 0, 0], [3, 2]) := by
  decide +kernel

/-- sums that are rounded down to multiples of 10: many points have the same sum, and still the loop ends -/
example : ∃ labels centers, cluster (fun l : List Nat => l.sum / 10 * 10) (fun x y : Nat => x - y + (y - x)) true [0, 1, 2, 100, 101, 102] (some 2)
    [3, 0, 1, 2, 4, 5] 13 = .ok (labels, centers) ∧ labels = [1, 1, 1, 0, 0, 0] := by
  exact ⟨_, [3, 0], by decide +kernel, rfl⟩

end Prolothar.KMedoid
