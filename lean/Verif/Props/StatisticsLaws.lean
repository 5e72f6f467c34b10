import Verif.Props.Statistics
import Mathlib.Tactic.Linarith
import Mathlib.Tactic.Positivity
import Mathlib.Tactic.FieldSimp
import Mathlib.Tactic.Ring
import Mathlib.Analysis.Real.Sqrt
/-
C176: how the statistics of a sample are related to the values, to each other and to those of transformed and merged samples.
-/
namespace Prolothar.Statistics
open Prolothar.Moments
variable {K : Type} [Field K] [LinearOrder K] [IsStrictOrderedRing K]

theorem length_pos {xs : List K} (hx : xs ≠ []) : (0 : K) < xs.length := by
  have := List.length_pos_of_ne_nil hx
  exact_mod_cast this

omit [LinearOrder K] [IsStrictOrderedRing K] in
theorem sum_affine (xs : List K) (a b : K) : (xs.map fun x => a * x + b).sum = a * xs.sum + xs.length * b := by
  induction xs with
  | nil => simp
  | cons x xs ih =>
    rw [List.map_cons, List.sum_cons, List.sum_cons, ih, List.length_cons]
    push_cast
    ring

omit [LinearOrder K] [IsStrictOrderedRing K] in
theorem sum_mul_left (xs : List K) (a : K) (f : K → K) : (xs.map fun x => a * f x).sum = a * (xs.map f).sum := by
  induction xs with
  | nil => simp
  | cons x xs ih => rw [List.map_cons, List.sum_cons, List.map_cons, List.sum_cons, ih, mul_add]

theorem mean_affine {xs : List K} (hx : xs ≠ []) (a b : K) : Moments.mean (xs.map fun x => a * x + b) = a * Moments.mean xs + b := by
  have := (length_pos hx).ne'
  unfold Moments.mean
  rw [sum_affine, List.length_map]
  field_simp

theorem central_affine {xs : List K} (hx : xs ≠ []) (a b : K) (k : Nat) : centralSum k (xs.map fun x => a * x + b) = a ^ k * centralSum k xs := by
  unfold centralSum
  rw [mean_affine hx, List.map_map, ← sum_mul_left]
  congr 1
  refine List.map_congr_left fun x _ => ?_
  show (a * x + b - (a * Moments.mean xs + b)) ^ k = _
  rw [← mul_pow]
  ring

/-- the sum of squared distances to any point -/
theorem sum_square {xs : List K} (hx : xs ≠ []) (c : K) :
    (xs.map fun x => (x - c) ^ 2).sum = centralSum 2 xs + xs.length * (Moments.mean xs - c) ^ 2 := by
  have hm : xs.length * Moments.mean xs = xs.sum := by
    unfold Moments.mean
    rw [mul_div_cancel₀ _ (length_pos hx).ne']
  have key : ∀ (m : K) (l : List K), (l.map fun x => (x - c) ^ 2).sum =
      (l.map fun x => (x - m) ^ 2).sum + 2 * (m - c) * (l.sum - l.length * m) + l.length * (m - c) ^ 2 := by
    intro m l
    induction l with
    | nil => simp
    | cons x l ih =>
      simp only [List.map_cons, List.sum_cons, ih, List.length_cons]
      push_cast
      ring
  rw [key (Moments.mean xs), hm]
  unfold centralSum
  ring

theorem sum_nonneg_sq (xs : List K) (c : K) : 0 ≤ (xs.map fun x => (x - c) ^ 2).sum :=
  List.sum_nonneg fun y hy => by
    obtain ⟨x, _, rfl⟩ := List.mem_map.1 hy
    positivity

theorem single_le (xs : List K) (c : K) {x : K} (hx : x ∈ xs) : (x - c) ^ 2 ≤ (xs.map fun x => (x - c) ^ 2).sum :=
  List.single_le_sum (by
    intro y hy
    obtain ⟨x, _, rfl⟩ := List.mem_map.1 hy
    positivity) _ (List.mem_map.2 ⟨x, hx, rfl⟩)

omit [Field K] [IsStrictOrderedRing K] in
theorem isMin_unique {m m' : K} {xs : List K} (h : IsMinOf m xs) (h' : IsMinOf m' xs) : m = m' := le_antisymm (h.2 _ h'.1) (h'.2 _ h.1)

omit [Field K] [IsStrictOrderedRing K] in
theorem isMax_unique {m m' : K} {xs : List K} (h : IsMaxOf m xs) (h' : IsMaxOf m' xs) : m = m' := le_antisymm (h'.2 _ h.1) (h.2 _ h'.1)

/-- C176: multiplying all values by `a` and adding `b` does the same with the mean, multiplies the variance by a², and maps minimum and maximum (which swap if `a` is
negative) -/
theorem C176_affine {xs : List K} (hx : xs ≠ []) (a b : K) :
    let s := pushAll new xs
    let t := pushAll new (xs.map fun x => a * x + b)
    t.count = s.count ∧ t.mean = a * s.mean + b ∧ (∀ ddof, variance t ddof = (variance s ddof).map (a ^ 2 * ·)) ∧
    (0 ≤ a → t.min = s.min.map (a * · + b) ∧ t.max = s.max.map (a * · + b)) ∧
    (a ≤ 0 → t.min = s.max.map (a * · + b) ∧ t.max = s.min.map (a * · + b)) := by
  intro s t
  have hx' : xs.map (fun x => a * x + b) ≠ [] := by simpa using hx
  obtain ⟨s1, s2, ⟨mn, s3, hmn⟩, ⟨mx, s4, hmx⟩, s5, _⟩ := C22_push_equals_batch xs hx
  obtain ⟨t1, t2, ⟨mn', t3, hmn'⟩, ⟨mx', t4, hmx'⟩, t5, _⟩ := C22_push_equals_batch _ hx'
  refine ⟨?_, ?_, ?_, ?_, ?_⟩
  · show t.count = s.count
    rw [t1, s1, List.length_map]
  · show t.mean = a * s.mean + b
    rw [t2, s2, mean_affine hx]
  · intro ddof
    show variance (pushAll new _) ddof = (variance (pushAll new xs) ddof).map _
    rw [C22_variance, C22_variance, List.length_map, central_affine hx]
    split
    · rfl
    · rw [Option.map_some, mul_div_assoc]
  · intro ha
    show t.min = s.min.map _ ∧ t.max = s.max.map _
    rw [t3, s3, t4, s4, Option.map_some, Option.map_some]
    constructor
    · congr 1
      refine isMin_unique hmn' ⟨List.mem_map.2 ⟨mn, hmn.1, rfl⟩, fun y hy => ?_⟩
      obtain ⟨x, hxx, rfl⟩ := List.mem_map.1 hy
      have := mul_le_mul_of_nonneg_left (hmn.2 x hxx) ha
      linarith
    · congr 1
      refine isMax_unique hmx' ⟨List.mem_map.2 ⟨mx, hmx.1, rfl⟩, fun y hy => ?_⟩
      obtain ⟨x, hxx, rfl⟩ := List.mem_map.1 hy
      have := mul_le_mul_of_nonneg_left (hmx.2 x hxx) ha
      linarith
  · intro ha
    show t.min = s.max.map _ ∧ t.max = s.min.map _
    rw [t3, s3, t4, s4, Option.map_some, Option.map_some]
    constructor
    · congr 1
      refine isMin_unique hmn' ⟨List.mem_map.2 ⟨mx, hmx.1, rfl⟩, fun y hy => ?_⟩
      obtain ⟨x, hxx, rfl⟩ := List.mem_map.1 hy
      have := mul_le_mul_of_nonpos_left (hmx.2 x hxx) ha
      linarith
    · congr 1
      refine isMax_unique hmx' ⟨List.mem_map.2 ⟨mn, hmn.1, rfl⟩, fun y hy => ?_⟩
      obtain ⟨x, hxx, rfl⟩ := List.mem_map.1 hy
      have := mul_le_mul_of_nonpos_left (hmn.2 x hxx) ha
      linarith

/-- C176: the standard deviation is multiplied by |a| -/
theorem C176_affine_stddev {xs : List ℝ} (hx : xs ≠ []) (a b : ℝ) (ddof : Nat) :
    stddev (pushAll new (xs.map fun x => a * x + b)) ddof = (stddev (pushAll new xs) ddof).map (|a| * ·) := by
  rw [C22_stddev, C22_stddev, List.length_map, central_affine hx]
  split
  · rfl
  · rw [Option.map_some, mul_div_assoc, Real.sqrt_mul (sq_nonneg a), Real.sqrt_sq_eq_abs]

/-- C176: the mean lies between minimum and maximum; a variance is not negative, and 0 exactly if all values are equal; the population variance is at most
(max - mean)(mean - min) and at most a quarter of the squared range -/
theorem C176_bounds {xs : List K} (hx : xs ≠ []) :
    let s := pushAll new xs
    ∃ mn mx, s.min = some mn ∧ s.max = some mx ∧ mn ≤ s.mean ∧ s.mean ≤ mx ∧
      (∀ ddof v, variance s ddof = some v → 0 ≤ v ∧ (v = 0 ↔ ∀ x ∈ xs, ∀ y ∈ xs, x = y)) ∧
      (∀ v, variance s 0 = some v → v ≤ (mx - s.mean) * (s.mean - mn) ∧ v ≤ (mx - mn) ^ 2 / 4) := by
  intro s
  obtain ⟨s1, s2, ⟨mn, s3, hmn⟩, ⟨mx, s4, hmx⟩, s5, _⟩ := C22_push_equals_batch xs hx
  have hn := length_pos hx
  have hs : xs.length * Moments.mean xs = xs.sum := by
    unfold Moments.mean
    rw [mul_div_cancel₀ _ hn.ne']
  have hsum : ∀ l : List K, (∀ x ∈ l, mn ≤ x ∧ x ≤ mx) → l.length * mn ≤ l.sum ∧ l.sum ≤ l.length * mx := by
    intro l
    induction l with
    | nil => intro _; simp
    | cons x l ih =>
      intro h
      obtain ⟨h1, h2⟩ := ih fun y hy => h y (List.mem_cons_of_mem _ hy)
      obtain ⟨h3, h4⟩ := h x List.mem_cons_self
      rw [List.sum_cons, List.length_cons]
      push_cast
      constructor <;> linarith
  obtain ⟨hlo, hhi⟩ := hsum xs fun x h => ⟨hmn.2 x h, hmx.2 x h⟩
  rw [← hs] at hlo hhi
  have hlo := le_of_mul_le_mul_left hlo hn
  have hhi := le_of_mul_le_mul_left hhi hn
  have hrho : ∀ l : List K, (∀ x ∈ l, mn ≤ x ∧ x ≤ mx) → ∀ m : K,
      (l.map fun x => (x - m) ^ 2).sum ≤ l.length * ((mx - m) * (m - mn)) + (mx + mn - 2 * m) * (l.sum - l.length * m) := by
    intro l
    induction l with
    | nil => intro _ m; simp
    | cons x l ih =>
      intro h m
      have h1 := ih (fun y hy => h y (List.mem_cons_of_mem _ hy)) m
      obtain ⟨h3, h4⟩ := h x List.mem_cons_self
      have h5 : 0 ≤ (mx - x) * (x - mn) := mul_nonneg (by linarith) (by linarith)
      rw [List.map_cons, List.sum_cons, List.sum_cons, List.length_cons]
      push_cast
      nlinarith
  have hb := hrho xs (fun x h => ⟨hmn.2 x h, hmx.2 x h⟩) (Moments.mean xs)
  rw [hs, sub_self, mul_zero, add_zero] at hb
  refine ⟨mn, mx, s3, s4, by rw [s2]; exact hlo, by rw [s2]; exact hhi, ?_, ?_⟩
  · intro ddof v hv
    rw [C22_variance] at hv
    split at hv
    · cases hv
    · rename_i hd
      simp only [Option.some.injEq] at hv
      subst hv
      have hd' : (0 : K) < (xs.length : K) - ddof := by
        have : (ddof : K) < xs.length := by exact_mod_cast not_le.1 hd
        linarith
      refine ⟨div_nonneg (sum_nonneg_sq xs _) hd'.le, ?_⟩
      rw [div_eq_zero_iff, or_iff_left hd'.ne']
      constructor
      · intro h0
        have : ∀ x ∈ xs, x = Moments.mean xs := by
          intro x hxx
          have h1 := single_le xs (Moments.mean xs) hxx
          have h2 : (xs.map fun x => (x - Moments.mean xs) ^ 2).sum = 0 := h0
          rw [h2] at h1
          have := pow_eq_zero_iff (n := 2) (by decide) |>.1 (le_antisymm h1 (sq_nonneg _))
          linarith
        intro x h1 y h2
        rw [this x h1, this y h2]
      · intro hall
        have : ∀ x ∈ xs, x = mn := fun x h => hall x h mn hmn.1
        have h1 : mx = mn := this mx hmx.1
        have h2 : Moments.mean xs = mn := le_antisymm (h1 ▸ hhi) hlo
        refine List.sum_eq_zero fun y hy => ?_
        obtain ⟨x, hxx, rfl⟩ := List.mem_map.1 hy
        rw [this x hxx, h2, sub_self]
        simp
  · intro v hv
    rw [C22_variance] at hv
    split at hv
    · cases hv
    · simp only [Option.some.injEq, Nat.cast_zero, sub_zero] at hv
      subst hv
      have h1 : centralSum 2 xs / xs.length ≤ (mx - s.mean) * (s.mean - mn) := by
        rw [div_le_iff₀ hn, s2, mul_comm]
        exact hb
      refine ⟨h1, h1.trans ?_⟩
      rw [le_div_iff₀ (by norm_num)]
      nlinarith [sq_nonneg (mx + mn - 2 * s.mean)]

/-- C176: the variance grows with the degrees of freedom that are subtracted -/
theorem C176_ddof (xs : List K) {d d' : Nat} (h : d ≤ d') {v v' : K} (hv : variance (pushAll new xs) d = some v)
    (hv' : variance (pushAll new xs) d' = some v') : v ≤ v' ∧ ((xs.length : K) - d) * v = ((xs.length : K) - d') * v' := by
  rw [C22_variance] at hv hv'
  split at hv
  · cases hv
  · split at hv'
    · cases hv'
    · rename_i h1 h2
      simp only [Option.some.injEq] at hv hv'
      subst hv
      subst hv'
      have c1 : (d : K) < xs.length := by exact_mod_cast not_le.1 h1
      have c2 : (d' : K) < xs.length := by exact_mod_cast not_le.1 h2
      have c3 : (d : K) ≤ d' := by exact_mod_cast h
      refine ⟨div_le_div_of_nonneg_left (sum_nonneg_sq xs _) (by linarith) (by linarith), ?_⟩
      rw [mul_div_cancel₀ _ (by linarith : (xs.length : K) - d ≠ 0), mul_div_cancel₀ _ (by linarith : (xs.length : K) - d' ≠ 0)]

/-- C176: the mean is the point with the least sum of squared distances, which is n times the population variance -/
theorem C176_least_squares {xs : List K} (hx : xs ≠ []) {v : K} (hv : variance (pushAll new xs) 0 = some v) (c : K) :
    (xs.map fun x => (x - c) ^ 2).sum = xs.length * v + xs.length * ((pushAll new xs).mean - c) ^ 2 := by
  obtain ⟨_, s2, _⟩ := C22_push_equals_batch xs hx
  rw [C22_variance] at hv
  split at hv
  · cases hv
  · simp only [Option.some.injEq, Nat.cast_zero, sub_zero] at hv
    subst hv
    rw [sum_square hx, s2, mul_div_cancel₀ _ (length_pos hx).ne']

/-- C176: no value is further from the mean than √(n-1) population standard deviations, and (Chebyshev) at most n/k² values are at a distance of at least k of them -/
theorem C176_deviation {xs : List K} {v : K} (hv : variance (pushAll new xs) 0 = some v) :
    (∀ x ∈ xs, (x - (pushAll new xs).mean) ^ 2 ≤ ((xs.length : K) - 1) * v) ∧
    (0 < v → ∀ k : K, ((xs.countP fun x => decide (k ^ 2 * v ≤ (x - (pushAll new xs).mean) ^ 2) : Nat) : K) * k ^ 2 ≤ xs.length) := by
  have hx : xs ≠ [] := by
    rintro rfl
    rw [C22_variance] at hv
    cases hv
  have hn := length_pos hx
  have hls := C176_least_squares hx hv
  constructor
  · intro x hxx
    obtain ⟨u, w, rfl⟩ := List.append_of_mem hxx
    generalize hm : (pushAll new (u ++ x :: w)).mean = m at hls ⊢
    have h0 := hls m
    -- the other values have the mean m - (x - m)/(n-1), so their squared distances sum up to at least (x - m)²/(n-1)
    have hmean : ((u ++ w).map fun y => y - m).sum = -(x - m) := by
      have h1 := (C22_push_equals_batch _ hx).2.1
      rw [hm] at h1
      have h2 : ((u ++ x :: w).length : K) * m = (u ++ x :: w).sum := by
        rw [h1]
        unfold Moments.mean
        rw [mul_div_cancel₀ _ hn.ne']
      have h3 : ∀ l : List K, (l.map fun y => y - m).sum = l.sum - l.length * m := by
        intro l
        induction l with
        | nil => simp
        | cons y l ih =>
          rw [List.map_cons, List.sum_cons, ih, List.sum_cons, List.length_cons]
          push_cast
          ring
      rw [h3]
      simp only [List.length_append, List.length_cons, List.sum_append, List.sum_cons] at h2 ⊢
      push_cast at h2 ⊢
      linarith
    have hcs : ∀ l : List K, ((l.map fun y => y - m).sum) ^ 2 ≤ l.length * (l.map fun y => (y - m) ^ 2).sum := by
      intro l
      by_cases hl : l = []
      · subst hl
        simp
      · have h1 := sum_square hl m
        have h2 : 0 ≤ centralSum 2 l := sum_nonneg_sq l _
        have h3 : (l.map fun y => y - m).sum = l.length * (Moments.mean l - m) := by
          have := mean_affine hl 1 (-m)
          have h4 : (l.map fun y => y - m) = l.map fun y => 1 * y + -m := List.map_congr_left fun y _ => by ring
          have h5 : (l.map fun y => 1 * y + -m).sum = l.length * Moments.mean (l.map fun y => 1 * y + -m) := by
            unfold Moments.mean
            rw [List.length_map, mul_div_cancel₀ _ (length_pos hl).ne']
          rw [h4, h5, this]
          ring
        rw [h1, h3]
        nlinarith [length_pos hl, mul_nonneg (length_pos hl).le h2]
    have h1 := hcs (u ++ w)
    rw [hmean] at h1
    simp only [sub_self, ne_eq, OfNat.ofNat_ne_zero, not_false_eq_true, zero_pow, mul_zero, add_zero] at h0
    have h2 : ((u ++ x :: w).map fun y => (y - m) ^ 2).sum = (x - m) ^ 2 + ((u ++ w).map fun y => (y - m) ^ 2).sum := by
      simp only [List.map_append, List.map_cons, List.sum_append, List.sum_cons]
      ring
    rw [h2] at h0
    have h3 : ((u ++ x :: w).length : K) = (u ++ w).length + 1 := by
      simp only [List.length_append, List.length_cons]
      push_cast
      ring
    rw [h3] at h0 ⊢
    generalize ((u ++ w).length : K) = N at *
    have hN : (0 : K) < N + 1 := h3 ▸ hn
    generalize ((u ++ w).map fun y => (y - m) ^ 2).sum = R at *
    have h4 : (x - m) ^ 2 * (N + 1) ≤ N * v * (N + 1) := by
      have : N * v * (N + 1) = N * ((x - m) ^ 2 + R) := by rw [h0]; ring
      rw [this]
      nlinarith
    have := le_of_mul_le_mul_right h4 hN
    linarith
  · intro hvp k
    generalize (pushAll new xs).mean = m at *
    have h0 := hls m
    simp only [sub_self, ne_eq, OfNat.ofNat_ne_zero, not_false_eq_true, zero_pow, mul_zero, add_zero] at h0
    have key : ∀ l : List K, ((l.countP fun x => decide (k ^ 2 * v ≤ (x - m) ^ 2) : Nat) : K) * (k ^ 2 * v) ≤ (l.map fun x => (x - m) ^ 2).sum := by
      intro l
      induction l with
      | nil => simp
      | cons x l ih =>
        rw [List.countP_cons, List.map_cons, List.sum_cons]
        by_cases h : k ^ 2 * v ≤ (x - m) ^ 2
        · rw [if_pos (by simpa using h)]
          push_cast
          linarith
        · rw [if_neg (by simpa using h)]
          push_cast
          have := sq_nonneg (x - m)
          linarith
    have h1 := key xs
    rw [h0] at h1
    have h2 : ((xs.countP fun x => decide (k ^ 2 * v ≤ (x - m) ^ 2) : Nat) : K) * k ^ 2 * v ≤ xs.length * v := by linarith
    exact le_of_mul_le_mul_right h2 hvp

/-- C176: merging two nonempty samples: the mean is the weighted mean, and the sum of squares is that of the parts plus a term for the distance of the means; so the
variance of the whole is at least the weighted mean of the variances, with equality exactly if the means are equal -/
theorem C176_merge {xs ys : List K} (hx : xs ≠ []) (hy : ys ≠ []) {v w u : K}
    (hv : variance (pushAll new xs) 0 = some v) (hw : variance (pushAll new ys) 0 = some w)
    (hu : variance (merge (pushAll new xs) (pushAll new ys)) 0 = some u) :
    let m := (pushAll new xs).mean
    let m' := (pushAll new ys).mean
    let n : K := xs.length
    let n' : K := ys.length
    (merge (pushAll new xs) (pushAll new ys)).mean = (n * m + n' * m') / (n + n') ∧
    (n + n') * u = n * v + n' * w + n * n' / (n + n') * (m - m') ^ 2 ∧
    (n * v + n' * w) / (n + n') ≤ u ∧ ((n * v + n' * w) / (n + n') = u ↔ m = m') := by
  intro m m' n n'
  have hn : 0 < n := length_pos hx
  have hn' : 0 < n' := length_pos hy
  rw [C23_merge_equals_push] at hu
  have hxy : xs ++ ys ≠ [] := by simp [hx]
  have e1 : n * m = xs.sum := by
    show (xs.length : K) * (pushAll new xs).mean = _
    rw [(C22_push_equals_batch xs hx).2.1]
    unfold Moments.mean
    rw [mul_div_cancel₀ _ hn.ne']
  have e2 : n' * m' = ys.sum := by
    show (ys.length : K) * (pushAll new ys).mean = _
    rw [(C22_push_equals_batch ys hy).2.1]
    unfold Moments.mean
    rw [mul_div_cancel₀ _ hn'.ne']
  have hlen : ((xs ++ ys).length : K) = n + n' := by
    rw [List.length_append]
    push_cast
    rfl
  have hmean : (pushAll new (xs ++ ys)).mean = (n * m + n' * m') / (n + n') := by
    rw [(C22_push_equals_batch _ hxy).2.1]
    unfold Moments.mean
    rw [hlen, List.sum_append, e1, e2]
  have l1 := C176_least_squares hx hv (pushAll new (xs ++ ys)).mean
  have l2 := C176_least_squares hy hw (pushAll new (xs ++ ys)).mean
  have l3 := C176_least_squares hxy hu (pushAll new (xs ++ ys)).mean
  rw [List.map_append, List.sum_append, l1, l2, hlen, hmean] at l3
  have hpos : 0 < n + n' := by linarith
  have hmain : (n + n') * u = n * v + n' * w + n * n' / (n + n') * (m - m') ^ 2 := by
    have l3 : n * v + n * (m - (n * m + n' * m') / (n + n')) ^ 2 + (n' * w + n' * (m' - (n * m + n' * m') / (n + n')) ^ 2) =
      (n + n') * u + (n + n') * ((n * m + n' * m') / (n + n') - (n * m + n' * m') / (n + n')) ^ 2 := l3
    rw [sub_self] at l3
    have d1 : m - (n * m + n' * m') / (n + n') = n' * (m - m') / (n + n') := by
      field_simp
      ring
    have d2 : m' - (n * m + n' * m') / (n + n') = -(n * (m - m')) / (n + n') := by
      field_simp
      ring
    rw [d1, d2] at l3
    have d3 : n * (n' * (m - m') / (n + n')) ^ 2 + n' * (-(n * (m - m')) / (n + n')) ^ 2 = n * n' / (n + n') * (m - m') ^ 2 := by
      field_simp
      ring
    simp only [ne_eq, OfNat.ofNat_ne_zero, not_false_eq_true, zero_pow, mul_zero, add_zero] at l3
    linarith
  have hc : 0 < n * n' / (n + n') := by positivity
  refine ⟨by rw [C23_merge_equals_push, hmean], hmain, ?_, ?_⟩
  · rw [div_le_iff₀ hpos]
    nlinarith [mul_nonneg hc.le (sq_nonneg (m - m'))]
  · rw [div_eq_iff hpos.ne']
    constructor
    · intro h
      have h0 : n * n' / (n + n') * (m - m') ^ 2 = 0 := by linarith
      have := (mul_eq_zero.1 h0).resolve_left hc.ne'
      have := pow_eq_zero_iff (n := 2) (by decide) |>.1 this
      linarith
    · intro h
      rw [h, sub_self] at hmain
      simp only [ne_eq, OfNat.ofNat_ne_zero, not_false_eq_true, zero_pow, mul_zero, add_zero] at hmain
      linarith

/-- the values 1, 2, 6 have the mean 3 and the population variance 14/3 -/
example : (pushAll (new : Stats ℚ) [1, 2, 6]).mean = 3 ∧ variance (pushAll (new : Stats ℚ) [1, 2, 6]) 0 = some (14 / 3) ∧
    (pushAll (new : Stats ℚ) [1, 2, 6]).min = some 1 ∧ (pushAll (new : Stats ℚ) [1, 2, 6]).max = some 6 := by decide +kernel

/-- -2x + 1 of them: the variance is four times as large, minimum and maximum are swapped -/
example : variance (pushAll (new : Stats ℚ) ([1, 2, 6].map fun x => -2 * x + 1)) 0 = some (56 / 3) ∧
    (pushAll (new : Stats ℚ) ([1, 2, 6].map fun x => -2 * x + 1)).min = some (-11) := by decide +kernel

/-- merging with the values 0, 4 -/
example : variance (merge (pushAll (new : Stats ℚ) [1, 2, 6]) (pushAll new [0, 4])) 0 = some (116 / 25) ∧
    variance (pushAll (new : Stats ℚ) [0, 4]) 0 = some 4 := by decide +kernel

end Prolothar.Statistics
