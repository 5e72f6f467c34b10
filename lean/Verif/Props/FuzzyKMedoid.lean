import Verif.Model.FuzzyKMedoid
import Verif.Props.KMedoid
import Mathlib.Analysis.SpecialFunctions.Exp
/-
C69: fuzzy k-medoid clustering.
-/
namespace Prolothar.FuzzyKMedoid
open Prolothar.KMedoid

variable {α : Type}

theorem bind_ok {β γ : Type} {x : Py β} {f : β → Py γ} {b : γ} (h : (x >>= f) = .ok b) : ∃ a, x = .ok a ∧ f a = .ok b := by
  cases x with
  | error e => cases h
  | ok a => exact ⟨a, rfl, h⟩

theorem mapM_ok_eq {β γ : Type} {f : β → Py γ} {g : β → γ} (h : ∀ x, f x = .ok (g x)) : ∀ l : List β, l.mapM f = .ok (l.map g)
  | [] => rfl
  | x :: l => by rw [List.mapM_cons, h x, mapM_ok_eq h l]; rfl

theorem sum_exp_pos (c : ℝ) : ∀ {d : List ℝ}, d ≠ [] → 0 < (d.map fun v => Real.exp (-v / c)).sum
  | [], h => absurd rfl h
  | [v], _ => by simpa using Real.exp_pos _
  | v :: w :: d, _ => by
    rw [List.map_cons, List.sum_cons]
    exact add_pos (Real.exp_pos _) (sum_exp_pos c (by simp))

theorem memberRow_eq (c : ℝ) {d : List ℝ} (hd : d ≠ []) :
    memberRow Real.exp c d = .ok (d.map fun v => Real.exp (-v / c) / (d.map fun v => Real.exp (-v / c)).sum) := by
  unfold memberRow
  refine mapM_ok_eq (fun v => ?_) d
  rw [if_neg (ne_of_gt (sum_exp_pos c hd))]

/-- C69: for every coefficient and all dissimilarities to at least one center, the memberships of an object are positive,
sum up to one, and with a positive coefficient a nearer center has a larger membership -/
theorem C69_distribution (c : ℝ) (d : List ℝ) (hd : d ≠ []) :
    ∃ u, memberRow Real.exp c d = .ok u ∧ u.length = d.length ∧ (∀ v ∈ u, 0 < v ∧ v ≤ 1) ∧ u.sum = 1 ∧
      (0 < c → ∀ (i j : Nat) a b v w, d[i]? = some a → d[j]? = some b → u[i]? = some v → u[j]? = some w → (v < w ↔ b < a)) := by
  have hs := sum_exp_pos c hd
  have hsum : (d.map fun v => Real.exp (-v / c) / (d.map fun v => Real.exp (-v / c)).sum).sum = 1 := by
    have : ∀ (l : List ℝ) (s : ℝ), (l.map fun v => Real.exp (-v / c) / s).sum = (l.map fun v => Real.exp (-v / c)).sum / s := by
      intro l s
      induction l with
      | nil => simp
      | cons v l ih => rw [List.map_cons, List.sum_cons, ih, List.map_cons, List.sum_cons, add_div]
    rw [this, div_self (ne_of_gt hs)]
  have hpos : ∀ v ∈ d.map (fun v => Real.exp (-v / c) / (d.map fun v => Real.exp (-v / c)).sum), 0 < v := by
    intro v hv
    obtain ⟨x, _, rfl⟩ := List.mem_map.1 hv
    exact div_pos (Real.exp_pos _) hs
  refine ⟨_, memberRow_eq c hd, by simp, fun v hv => ⟨hpos v hv, ?_⟩, hsum, ?_⟩
  · rw [← hsum]
    exact List.single_le_sum (fun x hx => le_of_lt (hpos x hx)) v hv
  · intro hc i j a b v w hi hj hv hw
    rw [List.getElem?_map, hi] at hv
    rw [List.getElem?_map, hj] at hw
    simp only [Option.map_some, Option.some.injEq] at hv hw
    rw [← hv, ← hw, div_lt_div_iff_of_pos_right hs, Real.exp_lt_exp, div_lt_div_iff_of_pos_right hc, neg_lt_neg_iff]

theorem argmin_lt {l : List ℝ} (hl : l ≠ []) : argBest (fun a b : ℝ => @decide (a < b) (Classical.propDecidable _)) l < l.length := by
  obtain ⟨v, h, _⟩ := argBest_spec (fun a b : ℝ => @decide (a < b) (Classical.propDecidable _)) (by simp)
    (by simp only [decide_eq_true_eq]; exact fun a b c h1 h2 => lt_trans h1 h2)
    (by simp only [decide_eq_false_iff_not, not_lt]; exact fun a b c h1 h2 => le_trans h2 h1) hl
  rw [List.getElem?_eq_some_iff] at h
  exact h.1

/-- C69: the recomputed centers are objects for which the dissimilarities, weighted by the memberships, have the smallest sum
among all objects -/
theorem C69_recompute (u m : List (List ℝ)) (k : Nat) (hm : m ≠ []) (j c : Nat) (hj : (recompute u m k)[j]? = some c) :
    c < m.length ∧ ∀ q < m.length, (List.zipWith (fun ur row => ur.getD j 0 * row.getD c 0) u m).sum ≤
      (List.zipWith (fun ur row => ur.getD j 0 * row.getD q 0) u m).sum := by
  simp only [recompute, List.getElem?_map, Option.map_eq_some_iff] at hj
  obtain ⟨j', hj', rfl⟩ := hj
  rw [List.getElem?_eq_some_iff] at hj'
  obtain ⟨hlt, hj'⟩ := hj'
  rw [List.getElem_range] at hj'
  subst hj'
  have hne : weighted u m m.length j ≠ [] := by
    unfold weighted
    intro h
    rw [List.map_eq_nil_iff, List.range_eq_nil] at h
    exact hm (List.length_eq_zero_iff.1 h)
  obtain ⟨v, h, h2, _⟩ := argBest_spec (fun a b : ℝ => @decide (a < b) (Classical.propDecidable _)) (by simp)
    (by simp only [decide_eq_true_eq]; exact fun a b c h1 h2 => lt_trans h1 h2)
    (by simp only [decide_eq_false_iff_not, not_lt]; exact fun a b c h1 h2 => le_trans h2 h1) hne
  have hlt' := argmin_lt hne
  have hlen : (weighted u m m.length j).length = m.length := by simp [weighted]
  rw [hlen] at hlt'
  refine ⟨hlt', fun q hq => ?_⟩
  unfold weighted at h h2
  rw [List.getElem?_map, List.getElem?_range (by unfold weighted at hlt'; exact hlt')] at h
  simp only [Option.map_some, Option.some.injEq] at h
  have := h2 _ (List.mem_map.2 ⟨q, List.mem_range.2 hq, rfl⟩)
  simp only [decide_eq_false_iff_not, not_lt] at this
  rw [← h] at this
  exact this

/-- the optimised sum of the dissimilarities of the objects to the centers, weighted by the memberships -/
noncomputable def cost (f : α → α → ℝ) (objects : List α) (centers : List Nat) (u : List (List ℝ)) : ℝ :=
  ((u.zip objects).map fun e => ((e.1.zip centers).map fun a => a.1 * ((objects[a.2]?).elim 0 fun y => f y e.2)).sum).sum

theorem zipWith_eq_map_zip {β γ δ : Type} (g : β → γ → δ) : ∀ (l : List β) (m : List γ), List.zipWith g l m = (l.zip m).map fun e => g e.1 e.2
  | [], _ => rfl
  | _ :: _, [] => rfl
  | a :: l, b :: m => by rw [List.zipWith_cons_cons, List.zip_cons_cons, List.map_cons, zipWith_eq_map_zip g l m]

theorem objective_eq (f : α → α → ℝ) (objects : List α) (centers : List Nat) (u : List (List ℝ)) :
    objective u (matrix f objects) centers = cost f objects centers u := by
  unfold objective cost matrix
  rw [zipWith_eq_map_zip, List.zip_map_right, List.map_map]
  congr 1
  apply List.map_congr_left
  intro e _
  show (List.zipWith _ e.1 centers).sum = _
  rw [zipWith_eq_map_zip]
  congr 1
  apply List.map_congr_left
  intro a _
  show a.1 * (objects.map fun x1 => f x1 e.2).getD a.2 0 = _
  rw [List.getD_eq_getElem?_getD, List.getElem?_map]
  cases objects[a.2]? <;> rfl

/-- C69: the algorithm stops only when it has converged: the returned centers were recomputed from the memberships of the previous
round, and the cost differs from the one of that round by at most 1e-8 plus 1e-5 times its absolute value -/
theorem C69_converged (exp : ℝ → ℝ) (c : ℝ) (f : α → α → ℝ) (objects : List α) (k : Option Int) (shuffled : List Nat) (fuel : Nat)
    {u : List (List ℝ)} {centers : List Nat} (h : cluster exp c f objects k shuffled fuel = .ok (u, centers)) :
    ∃ centers0 u0, memberMatrix exp c (matrix f objects) centers0 = .ok u0 ∧ memberMatrix exp c (matrix f objects) centers = .ok u ∧
      centers = recompute u0 (matrix f objects) centers0.length ∧
      |cost f objects centers u - cost f objects centers0 u0| ≤ 1 / 10 ^ 8 + 1 / 10 ^ 5 * |cost f objects centers0 u0| := by
  unfold cluster at h
  obtain ⟨cs, _, h⟩ := bind_ok h
  have key : ∀ (fuel : Nat) (cs : List Nat) (p : Option ℝ),
      (∀ p0, p = some p0 → ∃ c0 u0, memberMatrix exp c (matrix f objects) c0 = .ok u0 ∧ cs = recompute u0 (matrix f objects) c0.length ∧
        p0 = cost f objects c0 u0) →
      loop exp c (matrix f objects) fuel cs p = .ok (u, centers) →
      ∃ centers0 u0, memberMatrix exp c (matrix f objects) centers0 = .ok u0 ∧ memberMatrix exp c (matrix f objects) centers = .ok u ∧
      centers = recompute u0 (matrix f objects) centers0.length ∧
      |cost f objects centers u - cost f objects centers0 u0| ≤ 1 / 10 ^ 8 + 1 / 10 ^ 5 * |cost f objects centers0 u0| := by
    intro fuel
    induction fuel with
    | zero => intro cs p _ h; cases h
    | succ fuel ih =>
      intro cs p hp h
      unfold loop at h
      obtain ⟨v, hv, h⟩ := bind_ok h
      simp only at h
      have hnext : ∀ p0, some (objective v (matrix f objects) cs) = some p0 → ∃ c0 u0, memberMatrix exp c (matrix f objects) c0 = .ok u0 ∧
          recompute v (matrix f objects) cs.length = recompute u0 (matrix f objects) c0.length ∧ p0 = cost f objects c0 u0 := by
        rintro p0 hp0
        injection hp0 with hp0
        exact ⟨cs, v, hv, rfl, by rw [← hp0, objective_eq]⟩
      split at h
      · next p0 _ =>
        split at h
        · next hclose =>
          injection h with h
          injection h with hu hc
          obtain ⟨c0, u0, k1, k2, k3⟩ := hp p0 rfl
          subst hu; subst hc
          refine ⟨c0, u0, k1, hv, k2, ?_⟩
          rw [objective_eq, k3] at hclose
          norm_num at hclose ⊢
          exact hclose
        · exact ih _ _ hnext h
      · split at h
        · next hf => exact absurd hf (by simp)
        · exact ih _ _ hnext h
  exact key fuel cs none (by intro p0 h; cases h) h

/-- C69: whenever the algorithm returns, there are k centers among the objects and the returned memberships are those of
the returned centers: one row for each object, one column for each center, as in `C69_distribution` -/
theorem C69_result (c : ℝ) (f : α → α → ℝ) (objects : List α) (k : Nat) (hk0 : 0 < k) (shuffled : List Nat)
    (hs : shuffled.Perm (List.range objects.length)) (fuel : Nat) {u : List (List ℝ)} {centers : List Nat}
    (h : cluster Real.exp c f objects (some k) shuffled fuel = .ok (u, centers)) :
    centers.length = k ∧ (∀ z ∈ centers, z < objects.length) ∧ u.length = objects.length ∧
    ∀ (i : Nat) x row, objects[i]? = some x → u[i]? = some row → row.length = k ∧ (∀ v ∈ row, 0 < v ∧ v ≤ 1) ∧ row.sum = 1 ∧
      ∀ (j z : Nat) y, centers[j]? = some z → objects[z]? = some y →
        row[j]? = some (Real.exp (-f y x / c) / (centers.map fun t => Real.exp (-((objects.map fun o => f o x).getD t 0) / c)).sum) := by
  unfold cluster at h
  obtain ⟨cs, hsel, h⟩ := bind_ok h
  unfold selectCenters at hsel
  simp only [Option.getD_some] at hsel
  rw [if_neg (by omega)] at hsel
  split at hsel
  · cases hsel
  · next hkn =>
    have hlen0 : objects ≠ [] := by rintro rfl; simp at hkn; omega
    simp only [Int.toNat_natCast] at hsel
    injection hsel with hsel
    have hml : (matrix f objects).length = objects.length := by simp [matrix]
    have hm : matrix f objects ≠ [] := by
      intro h; rw [← List.length_eq_zero_iff, hml, List.length_eq_zero_iff] at h; exact hlen0 h
    have hslen : shuffled.length = objects.length := by rw [hs.length_eq]; simp
    have key : ∀ (fuel : Nat) (cs : List Nat) (p : Option ℝ), cs.length = k → (∀ z ∈ cs, z < objects.length) →
        loop Real.exp c (matrix f objects) fuel cs p = .ok (u, centers) →
        centers.length = k ∧ (∀ z ∈ centers, z < objects.length) ∧ memberMatrix Real.exp c (matrix f objects) centers = .ok u := by
      intro fuel
      induction fuel with
      | zero => intro cs p _ _ h; cases h
      | succ fuel ih =>
        intro cs p hl hr h
        unfold loop at h
        obtain ⟨v, hv, h⟩ := bind_ok h
        simp only at h
        split at h
        · split at h
          · cases h
            exact ⟨hl, hr, hv⟩
          · refine ih _ _ ?_ ?_ h
            · simp [recompute, hl]
            · intro z hz
              obtain ⟨j, hj⟩ := List.getElem?_of_mem hz
              rw [← hml]
              exact (C69_recompute v _ _ hm j z hj).1
        · split at h
          · next hf => exact absurd hf (by simp)
          · refine ih _ _ ?_ ?_ h
            · simp [recompute, hl]
            · intro z hz
              obtain ⟨j, hj⟩ := List.getElem?_of_mem hz
              rw [← hml]
              exact (C69_recompute v _ _ hm j z hj).1
    obtain ⟨h1, h2, h3⟩ := key fuel cs none (by rw [← hsel, List.length_take, hslen]; omega) (by
      intro z hz
      rw [← hsel] at hz
      simpa using hs.mem_iff.1 (List.mem_of_mem_take hz)) h
    have hcne : centers ≠ [] := by rintro rfl; simp at h1; omega
    unfold memberMatrix at h3
    rw [mapM_ok_eq (g := fun row => (centers.map fun c => row.getD c 0).map fun v => Real.exp (-v / c) /
      ((centers.map fun c => row.getD c 0).map fun v => Real.exp (-v / c)).sum) (fun row => memberRow_eq c (by simpa using hcne))] at h3
    injection h3 with h3
    refine ⟨h1, h2, by rw [← h3]; simp [hml], ?_⟩
    intro i x row hx hrow
    rw [← h3] at hrow
    simp only [matrix, List.getElem?_map, hx, Option.map_some, Option.some.injEq] at hrow
    obtain ⟨w, w1, w2, w3, w4, _⟩ := C69_distribution c (centers.map fun z => (objects.map fun o => f o x).getD z 0) (by simpa using hcne)
    rw [memberRow_eq c (by simpa using hcne)] at w1
    injection w1 with w1
    have hwr : w = row := by rw [← w1, ← hrow]
    rw [hwr] at w2 w3 w4
    refine ⟨by rw [w2]; simpa using h1, w3, w4, ?_⟩
    intro j z y hj hz
    rw [← hrow]
    have hg : (objects.map fun o => f o x).getD z 0 = f y x := by
      rw [List.getD_eq_getElem?_getD, List.getElem?_map, hz]; rfl
    simp only [List.getElem?_map, hj, Option.map_some, List.map_map]
    simp only [Function.comp_apply, hg]
    rfl

/-- C69 fails in floating point arithmetic, where `exp` is 0 for all arguments below some threshold: if an object is
farther from all centers than the coefficient times this threshold, a ZeroDivisionError is raised. (With the default
coefficient 0.1 a dissimilarity of 75 to all centers is enough.) -/
theorem C69_underflow (exp : ℝ → ℝ) (threshold : ℝ) (hexp : ∀ x, x < -threshold → exp x = 0) (c : ℝ) (hc : 0 < c) (d : List ℝ) (hne : d ≠ [])
    (hd : ∀ v ∈ d, threshold * c < v) : memberRow exp c d = .error .zeroDivision := by
  have h0 : ∀ v ∈ d, exp (-v / c) = 0 := by
    intro v hv
    apply hexp
    rw [div_lt_iff₀ hc]
    have := hd v hv
    linarith
  have hs : (d.map fun v => exp (-v / c)).sum = 0 := by
    apply List.sum_eq_zero
    intro x hx
    obtain ⟨v, hv, rfl⟩ := List.mem_map.1 hx
    exact h0 v hv
  unfold memberRow
  rw [hs]
  simp only [if_true]
  cases d with
  | nil => exact absurd rfl hne
  | cons v d => rfl

/-- an object with the same dissimilarity to two centers belongs to both to the same degree -/
example : memberRow Real.exp (1 / 10) [3, 3] = .ok [1 / 2, 1 / 2] := by
  rw [memberRow_eq _ (by simp)]
  have : Real.exp (-3 / (1 / 10)) ≠ 0 := Real.exp_ne_zero _
  simp only [List.map_cons, List.map_nil, List.sum_cons, List.sum_nil, add_zero, ← two_mul]
  congr 2
  · field_simp
  · congr 1
    field_simp

end Prolothar.FuzzyKMedoid
