import Verif.Props.Transformer
/-
C103: discretization of numerical attributes by quantiles.
-/
namespace Prolothar.Data
open Prolothar.Spec.Data

variable {τ : Type}

/-! ### the cut points -/

/-- linear interpolation on the points t/n of a monotone sequence -/
def interp (D : Nat → Rat) (n t : Nat) : Rat := D (t / n) * (n - (t % n : Nat)) + D (t / n + 1) * (t % n : Nat)

theorem interp_succ {D : Nat → Rat} (hD : ∀ i, D i ≤ D (i + 1)) {n : Nat} (hn : 0 < n) (t : Nat) : interp D n t ≤ interp D n (t + 1) := by
  have h1 := Nat.div_add_mod t n
  have h2 := Nat.mod_lt t hn
  unfold interp
  by_cases hlast : t % n + 1 = n
  · have hd : (t + 1) / n = t / n + 1 := by
      have : t + 1 = n * (t / n + 1) := by rw [Nat.mul_add]; omega
      rw [this, Nat.mul_div_cancel_left _ hn]
    have hm : (t + 1) % n = 0 := by
      have h3 := Nat.div_add_mod (t + 1) n
      rw [hd, Nat.mul_add] at h3
      omega
    rw [hd, hm]
    have hq : ((t % n : Nat) : Rat) = n - 1 := by
      have : ((t % n + 1 : Nat) : Rat) = n := by exact_mod_cast hlast
      push_cast at this
      linarith
    rw [hq]
    have := hD (t / n)
    push_cast
    nlinarith
  · have hm : (t + 1) % n = t % n + 1 := by
      rw [Nat.add_mod, Nat.mod_eq_of_lt (show 1 < n by omega), Nat.mod_eq_of_lt (by omega)]
    have hd : (t + 1) / n = t / n := by
      have h3 := Nat.div_add_mod (t + 1) n
      have : n * ((t + 1) / n) = n * (t / n) := by omega
      exact Nat.eq_of_mul_eq_mul_left hn this
    rw [hd, hm]
    push_cast
    have := hD (t / n)
    nlinarith

theorem interp_mono {D : Nat → Rat} (hD : ∀ i, D i ≤ D (i + 1)) {n : Nat} (hn : 0 < n) {s t : Nat} (hst : s ≤ t) : interp D n s ≤ interp D n t := by
  induction t, hst using Nat.le_induction with
  | base => exact le_rfl
  | succ t _ ih => exact ih.trans (interp_succ hD hn t)

theorem interp_bounds {D : Nat → Rat} (hD : ∀ i, D i ≤ D (i + 1)) {n : Nat} (hn : 0 < n) (t : Nat) :
    D (t / n) ≤ interp D n t / n ∧ interp D n t / n ≤ D (t / n + 1) := by
  have h2 := Nat.mod_lt t hn
  have hn' : (0 : Rat) < n := by exact_mod_cast hn
  have hm : ((t % n : Nat) : Rat) ≤ n := by exact_mod_cast h2.le
  have hm0 : (0 : Rat) ≤ (t % n : Nat) := by positivity
  have := hD (t / n)
  unfold interp
  constructor
  · rw [le_div_iff₀ hn']; nlinarith
  · rw [div_le_iff₀ hn']; nlinarith

/-- the sorted values, continued by the largest -/
def sortedAt (values : List Rat) (i : Nat) : Rat :=
  ((values.insertionSort fun a b => decide (a ≤ b) = true)[min i (values.length - 1)]?).getD 0

theorem sorted_pairwise (values : List Rat) : (values.insertionSort fun a b => decide (a ≤ b) = true).Pairwise fun a b => a ≤ b := by
  have : Std.Total (fun a b : Rat => decide (a ≤ b) = true) := ⟨fun a b => by simpa using le_total a b⟩
  have : IsTrans Rat (fun a b : Rat => decide (a ≤ b) = true) := ⟨fun a b c h1 h2 => by simp at *; exact h1.trans h2⟩
  exact (List.pairwise_insertionSort (fun a b : Rat => decide (a ≤ b) = true) values).imp fun hh => of_decide_eq_true hh

theorem sortedAt_mono (values : List Rat) (i : Nat) : sortedAt values i ≤ sortedAt values (i + 1) := by
  unfold sortedAt
  have hs := sorted_pairwise values
  have hl : (values.insertionSort fun a b => decide (a ≤ b) = true).length = values.length := List.length_insertionSort _ _
  generalize (values.insertionSort fun a b => decide (a ≤ b) = true) = s at hs hl
  by_cases h0 : values.length = 0
  · have : s = [] := List.length_eq_zero_iff.1 (by omega)
    simp [this]
  · by_cases he : min i (values.length - 1) = min (i + 1) (values.length - 1)
    · rw [he]
    · rw [List.getElem?_eq_getElem (by omega), List.getElem?_eq_getElem (by omega)]
      exact List.pairwise_iff_getElem.1 hs _ _ _ _ (by omega)

/-- the cut points are the interpolated values -/
theorem quantiles_ok {values : List Rat} {n : Nat} (hn : 1 ≤ n) (hl : 2 ≤ values.length) :
    quantiles values n = .ok ((List.range (n - 1)).map fun i => interp (sortedAt values) n ((i + 1) * (values.length - 1)) / n) := by
  unfold quantiles
  rw [if_neg (by omega), if_neg (by omega)]
  refine mapM_ok_map fun i hi => ?_
  rw [List.mem_range] at hi
  have hlen : (values.insertionSort fun a b => decide (a ≤ b) = true).length = values.length := List.length_insertionSort _ _
  have hj : (i + 1) * (values.length - 1) / n < values.length - 1 := by
    rw [Nat.div_lt_iff_lt_mul (by omega), Nat.mul_comm]
    exact Nat.mul_lt_mul_of_pos_left (by omega) (by omega)
  have e1 : ∀ k, k ≤ values.length - 1 → pyGet (values.insertionSort fun a b => decide (a ≤ b) = true) (k : Nat) = .ok (sortedAt values k) := by
    intro k hk
    unfold sortedAt
    rw [Nat.min_eq_left hk, List.getElem?_eq_getElem (by omega)]
    exact pyGet_ofNat (List.getElem?_eq_getElem (by omega))
  have e2 := e1 ((i + 1) * (values.length - 1) / n) hj.le
  have e3 := e1 ((i + 1) * (values.length - 1) / n + 1) (by omega)
  push_cast at e2 e3
  simp only [bind, Except.bind]
  push_cast
  rw [e2]
  simp only
  rw [e3]
  simp only [interp]
  rfl

theorem cuts_sorted (values : List Rat) {n : Nat} (hn : 1 ≤ n) :
    ((List.range (n - 1)).map fun i => interp (sortedAt values) n ((i + 1) * (values.length - 1)) / n).Pairwise (· ≤ ·) := by
  rw [List.pairwise_map]
  refine List.pairwise_lt_range.imp fun {a b} hab => ?_
  have hn' : (0 : Rat) < n := by exact_mod_cast hn
  exact div_le_div_of_nonneg_right (interp_mono (sortedAt_mono values) hn (Nat.mul_le_mul_right _ (by omega))) hn'.le

theorem countP_le_sorted {s : List Rat} (hs : s.Pairwise (· ≤ ·)) {j : Nat} {c : Rat} (hj : j < s.length) (h : s[j] ≤ c) :
    j + 1 ≤ s.countP (fun v => decide (v ≤ c)) := by
  have : (s.take (j + 1)).countP (fun v => decide (v ≤ c)) = (s.take (j + 1)).length := by
    rw [List.countP_eq_length]
    intro v hv
    rw [decide_eq_true_iff]
    obtain ⟨k, hk, rfl⟩ := List.mem_iff_getElem.1 hv
    rw [List.length_take] at hk
    rw [List.getElem_take]
    rcases Nat.lt_or_ge k j with hkj | hkj
    · exact (List.pairwise_iff_getElem.1 hs _ _ (by omega) hj hkj).trans h
    · have : k = j := by omega
      subst this; exact h
  have h2 := (List.take_sublist (j + 1) s).countP_le (p := fun v => decide (v ≤ c))
  rw [this, List.length_take] at h2
  omega

theorem countP_ge_sorted {s : List Rat} (hs : s.Pairwise (· ≤ ·)) {j : Nat} {c : Rat} (hj : j < s.length) (h : c ≤ s[j]) :
    s.length - j ≤ s.countP (fun v => decide (c ≤ v)) := by
  have : (s.drop j).countP (fun v => decide (c ≤ v)) = (s.drop j).length := by
    rw [List.countP_eq_length]
    intro v hv
    rw [decide_eq_true_iff]
    obtain ⟨k, hk, rfl⟩ := List.mem_iff_getElem.1 hv
    rw [List.length_drop] at hk
    rw [List.getElem_drop]
    rcases Nat.eq_zero_or_pos k with rfl | hk0
    · simpa using h
    · exact h.trans (List.pairwise_iff_getElem.1 hs _ _ hj (by omega) (by omega))
  have h2 := (List.drop_sublist j s).countP_le (p := fun v => decide (c ≤ v))
  rw [this, List.length_drop] at h2
  exact h2

/-- C103: the cut points are the quantiles of the values, in ascending order -/
theorem C103_quantiles {values : List Rat} {n : Nat} (hn : 1 ≤ n) (hl : 2 ≤ values.length) :
    ∃ cuts, quantiles values n = .ok cuts ∧ cuts.length = n - 1 ∧ cuts.Pairwise (· ≤ ·) ∧
      ∀ i c, cuts[i]? = some c → IsQuantile values (i + 1) n c := by
  refine ⟨_, quantiles_ok hn hl, by simp, cuts_sorted values hn, fun i c hc => ?_⟩
  rw [List.getElem?_map] at hc
  cases hr : (List.range (n - 1))[i]? with
  | none => rw [hr] at hc; cases hc
  | some k =>
    rw [hr] at hc
    obtain ⟨hi, hk⟩ := List.getElem?_eq_some_iff.1 hr
    rw [List.length_range] at hi
    rw [List.getElem_range] at hk
    subst hk
    simp only [Option.map_some, Option.some.injEq] at hc
    subst hc
    have hj : (i + 1) * (values.length - 1) / n < values.length - 1 := by
      rw [Nat.div_lt_iff_lt_mul (by omega), Nat.mul_comm]
      exact Nat.mul_lt_mul_of_pos_left (by omega) (by omega)
    obtain ⟨b1, b2⟩ := interp_bounds (sortedAt_mono values) hn ((i + 1) * (values.length - 1))
    have hp : (values.insertionSort fun a b => decide (a ≤ b) = true).Perm values := List.perm_insertionSort _ _
    have hlen := hp.length_eq
    have hs := sorted_pairwise values
    unfold IsQuantile
    rw [← hp.countP_eq, ← hp.countP_eq]
    have u : ∀ k (hk : k < values.length), sortedAt values k = (values.insertionSort fun a b => decide (a ≤ b) = true)[k]'(by omega) := by
      intro k hk
      unfold sortedAt
      rw [Nat.min_eq_left (by omega), List.getElem?_eq_getElem (by omega), Option.getD_some]
    rw [u _ (by omega)] at b1
    rw [u _ (by omega)] at b2
    refine ⟨countP_le_sorted hs (by omega) b1, ?_⟩
    have := countP_ge_sorted hs (by omega) b2
    omega

/-! ### the buckets -/

theorem bucketLoop_spec {value mx : Rat} (hx : value ≤ mx) : ∀ (cs : List Rat) (a : Rat), a < value →
    ∃ b, bucketLoop value mx (a :: cs) = .ok b ∧ b ∈ bucketsFrom mx a cs ∧ Contains b value
  | [], a, ha => ⟨_, rfl, by simp [bucketsFrom], by simp [Contains, ha, hx]⟩
  | c :: cs, a, ha => by
    by_cases hc : value ≤ c
    · exact ⟨⟨false, a, c⟩, by unfold bucketLoop; rw [if_pos ⟨ha, hc⟩], by simp [bucketsFrom], by simp [Contains, ha, hc]⟩
    · obtain ⟨b, h1, h2, h3⟩ := bucketLoop_spec hx cs c (not_le.1 hc)
      exact ⟨b, by unfold bucketLoop; rw [if_neg (fun h => hc h.2)]; exact h1, List.mem_cons_of_mem _ h2, h3⟩

theorem bucketOf_spec {cuts : List Rat} (hne : cuts ≠ []) {mn mx value : Rat} (h1 : mn ≤ value) (h2 : value ≤ mx) :
    ∃ b, bucketOf cuts mn mx value = .ok b ∧ b ∈ buckets mn mx cuts ∧ Contains b value := by
  cases cuts with
  | nil => exact absurd rfl hne
  | cons c cs =>
    have hg : pyGet (c :: cs) 0 = .ok c := by
      exact pyGet_ofNat (l := c :: cs) (i := 0) rfl
    unfold bucketOf
    simp only [bind, Except.bind]
    rw [hg]
    simp only
    by_cases hc : value ≤ c
    · rw [if_pos hc]
      exact ⟨_, rfl, by simp [buckets], by simp [Contains, h1, hc]⟩
    · rw [if_neg hc]
      obtain ⟨b, k1, k2, k3⟩ := bucketLoop_spec h2 cs c (not_le.1 hc)
      exact ⟨b, k1, List.mem_cons_of_mem _ k2, k3⟩

theorem bucketsFrom_length (mx : Rat) : ∀ (cs : List Rat) (lo : Rat), (bucketsFrom mx lo cs).length = cs.length + 1
  | [], _ => rfl
  | c :: cs, lo => by rw [bucketsFrom, List.length_cons, bucketsFrom_length mx cs, List.length_cons]

theorem buckets_length (mn mx : Rat) (cuts : List Rat) : (buckets mn mx cuts).length = cuts.length + 1 := by
  cases cuts with
  | nil => rfl
  | cons c cs => rw [buckets, List.length_cons, bucketsFrom_length, List.length_cons]

theorem bucketsFrom_lower {mx : Rat} : ∀ {cs : List Rat} {lo : Rat}, (lo :: cs).Pairwise (· ≤ ·) → ∀ b ∈ bucketsFrom mx lo cs, lo ≤ b.lo ∧ b.closed = false
  | [], lo, _, b, hb => by
    rw [bucketsFrom, List.mem_singleton] at hb; subst hb; exact ⟨le_rfl, rfl⟩
  | c :: cs, lo, h, b, hb => by
    rw [bucketsFrom, List.mem_cons] at hb
    rcases hb with rfl | hb
    · exact ⟨le_rfl, rfl⟩
    · obtain ⟨k1, k2⟩ := bucketsFrom_lower (List.pairwise_cons.1 h).2 b hb
      exact ⟨((List.pairwise_cons.1 h).1 c (by simp)).trans k1, k2⟩

theorem bucketsFrom_disjoint {mx : Rat} : ∀ {cs : List Rat} {lo : Rat}, (lo :: cs).Pairwise (· ≤ ·) → ∀ b ∈ bucketsFrom mx lo cs, ∀ b' ∈ bucketsFrom mx lo cs,
    ∀ q, Contains b q → Contains b' q → b = b'
  | [], lo, _, b, hb, b', hb', q, _, _ => by
    rw [bucketsFrom, List.mem_singleton] at hb hb'; rw [hb, hb']
  | c :: cs, lo, h, b, hb, b', hb', q, h1, h2 => by
    have hl := bucketsFrom_lower (mx := mx) (List.pairwise_cons.1 h).2
    rw [bucketsFrom, List.mem_cons] at hb hb'
    rcases hb with rfl | hb <;> rcases hb' with rfl | hb'
    · rfl
    · obtain ⟨k1, k2⟩ := hl b' hb'
      unfold Contains at h1 h2
      rw [k2] at h2
      simp at h1 h2
      linarith [h1.2, h2.1]
    · obtain ⟨k1, k2⟩ := hl b hb
      unfold Contains at h1 h2
      rw [k2] at h1
      simp at h1 h2
      linarith [h2.2, h1.1]
    · exact bucketsFrom_disjoint (List.pairwise_cons.1 h).2 b hb b' hb' q h1 h2

/-- C103: the intervals do not overlap -/
theorem C103_disjoint {mn mx : Rat} {cuts : List Rat} (h : cuts.Pairwise (· ≤ ·)) {b b' : Bucket} (hb : b ∈ buckets mn mx cuts)
    (hb' : b' ∈ buckets mn mx cuts) {q : Rat} (h1 : Contains b q) (h2 : Contains b' q) : b = b' := by
  cases cuts with
  | nil =>
    rw [buckets, List.mem_singleton] at hb hb'; rw [hb, hb']
  | cons c cs =>
    have hl := bucketsFrom_lower (mx := mx) h
    rw [buckets, List.mem_cons] at hb hb'
    rcases hb with rfl | hb <;> rcases hb' with rfl | hb'
    · rfl
    · obtain ⟨k1, k2⟩ := hl b' hb'
      unfold Contains at h1 h2
      rw [k2] at h2
      simp at h1 h2
      linarith [h1.2, h2.1]
    · obtain ⟨k1, k2⟩ := hl b hb
      unfold Contains at h1 h2
      rw [k2] at h1
      simp at h1 h2
      linarith [h2.2, h1.1]
    · exact bucketsFrom_disjoint h b hb b' hb' q h1 h2

/-! ### the transformation -/

/-- two different numbers occur in the attribute -/
theorem two_instances {h : Heap τ} {d : Dataset} (hc : Consistent h d) {n : String} {at' : Attr} (hat : d.attrs.get? n = some at')
    (hlen : 2 ≤ at'.values.length) : 2 ≤ d.instances.length := by
  have hn : n ∈ d.attrs.keys := Dict.mem_keys_iff.2 ⟨at', hat⟩
  obtain ⟨k1, k2⟩ := hc.values n at' hat
  have hsub : at'.values ⊆ d.instances.map (val h n) := by
    intro v hv
    obtain ⟨a, ha, hav⟩ := (k2 v).1 hv
    exact List.mem_map.2 ⟨a, ha, by unfold val; rw [hav]; rfl⟩
  have := (k1.subperm hsub).length_le
  rw [List.length_map] at this
  omega

/-- the number of different values -/
theorem values_length {h : Heap τ} {d : Dataset} (hc : Consistent h d) {n : String} {at' : Attr} (hat : d.attrs.get? n = some at')
    {us : List Val} (hu : us.Nodup) (hus : ∀ v, v ∈ us ↔ Occurs h d n v) : at'.values.length = us.length := by
  obtain ⟨k1, k2⟩ := hc.values n at' hat
  exact ((List.perm_ext_iff_of_nodup k1 hu).2 fun v => (k2 v).trans (hus v).symm).length_eq

theorem quantileLabels_ok {bins : Nat} (hb : 2 ≤ bins) (fmt : Rat → String) (str : Val → String) {h : Heap τ} {d : Dataset} (hc : Consistent h d)
    {n : String} {at' : Attr} (hat : d.attrs.get? n = some at') (hnum : ∀ v, Occurs h d n v → ∃ q, v = .num q)
    (hlen : bins < at'.values.length) :
    ∃ cuts mn mx, ∃ bucket : Rat → Bucket, cuts.length = bins - 1 ∧ cuts.Pairwise (· ≤ ·) ∧
      (∀ i c, cuts[i]? = some c → IsQuantile (d.instances.map fun a => numOf (val h n a)) (i + 1) bins c) ∧
      Occurs h d n (.num mn) ∧ Occurs h d n (.num mx) ∧ (∀ q, Occurs h d n (.num q) → mn ≤ q ∧ q ≤ mx) ∧
      (∀ q, Occurs h d n (.num q) → bucket q ∈ buckets mn mx cuts ∧ Contains (bucket q) q) ∧
      quantileLabels bins fmt str at' (d.instances.map (val h n)) =
        .ok (d.instances.map fun a => Val.str ((bucket (numOf (val h n a))).text fmt)) := by
  have hn : n ∈ d.attrs.keys := Dict.mem_keys_iff.2 ⟨at', hat⟩
  have hl := two_instances hc hat (by omega)
  obtain ⟨cuts, c1, c2, c3, c4⟩ := C103_quantiles (values := d.instances.map fun a => numOf (val h n a)) (n := bins) (by omega) (by simpa using hl)
  have hocc : ∀ a ∈ d.instances, Occurs h d n (.num (numOf (val h n a))) := by
    intro a ha
    have h1 := get?_val hc hn ha
    obtain ⟨q, hq⟩ := hnum _ ⟨a, ha, h1⟩
    refine ⟨a, ha, ?_⟩
    rw [h1, hq]; rfl
  have hne' : (d.instances.map fun a => numOf (val h n a)) ≠ [] := fun he => by
    have := congrArg List.length he
    simp at this
    rw [this] at hl; simp at hl
  obtain ⟨mn, p1, p2, p3⟩ := pyMin_ok hne'
  obtain ⟨mx, q1, q2, q3⟩ := pyMax_ok hne'
  have hbnd : ∀ q, Occurs h d n (.num q) → mn ≤ q ∧ q ≤ mx := by
    rintro q ⟨a, ha, hav⟩
    have : q ∈ d.instances.map fun a => numOf (val h n a) := List.mem_map.2 ⟨a, ha, by unfold val; rw [hav]; rfl⟩
    exact ⟨p3 _ this, q3 _ this⟩
  have hcne : cuts ≠ [] := fun he => by rw [he] at c2; simp at c2; omega
  have hex : ∀ q, ∃ b, Occurs h d n (.num q) → bucketOf cuts mn mx q = .ok b ∧ b ∈ buckets mn mx cuts ∧ Contains b q := by
    intro q
    by_cases ho : Occurs h d n (.num q)
    · obtain ⟨b, hb⟩ := bucketOf_spec hcne (hbnd q ho).1 (hbnd q ho).2
      exact ⟨b, fun _ => hb⟩
    · exact ⟨⟨true, 0, 0⟩, fun h => absurd h ho⟩
  choose bucket hbucket using hex
  refine ⟨cuts, mn, mx, bucket, c2, c3, c4, ?_, ?_, hbnd, fun q hq => (hbucket q hq).2, ?_⟩
  · obtain ⟨a, ha, rfl⟩ := List.mem_map.1 p2; exact hocc a ha
  · obtain ⟨a, ha, rfl⟩ := List.mem_map.1 q2; exact hocc a ha
  · unfold quantileLabels
    rw [if_pos (by exact_mod_cast hlen)]
    simp only [bind, Except.bind]
    rw [nums_column hc hn hnum]
    simp only [Int.toNat_natCast]
    rw [c1]
    simp only
    rw [p1]
    simp only
    rw [q1]
    simp only
    rw [mapM_ok_map (g := bucket) (by
      intro v hv
      obtain ⟨a, ha, rfl⟩ := List.mem_map.1 hv
      exact (hbucket _ (hocc a ha)).1)]
    simp only [List.map_map]
    rfl

theorem quantileAttr_ok {bins : Int} {fmt : Rat → String} {str : Val → String} {h : Heap τ} {d : Dataset} (hc : Consistent h d)
    {n : String} {at' : Attr} (hat : d.attrs.get? n = some at') {g : Val → Val}
    (hg : quantileLabels bins fmt str at' (d.instances.map (val h n)) = .ok (d.instances.map fun a => g (val h n a))) :
    ∃ h2 d2, quantileAttr bins fmt str (h, d) (n, at') = .ok (h2, d2) ∧ RecodeOne n g true h d h2 d2 := by
  have hn : n ∈ d.attrs.keys := Dict.mem_keys_iff.2 ⟨at', hat⟩
  obtain ⟨h1, d1, h2, d2, r1, r2, r3⟩ := recode_spec true hc hn g
  refine ⟨h2, d2, ?_, r3⟩
  unfold quantileAttr
  simp only [bind, Except.bind]
  rw [column_ok hc hn]
  simp only [Dict.getItem]
  rw [hat]
  simp only
  rw [hg]
  simp only
  rw [r1]
  exact r2

theorem column_congr {h h1 : Heap τ} {d d1 : Dataset} {n : String} (g2 : d1.instances = d.instances)
    (g4 : ∀ a ∈ d.instances, (h1 a).features.get? n = (h a).features.get? n) :
    d1.instances.map (val h1 n) = d.instances.map (val h n) := by
  rw [g2]
  refine List.map_congr_left fun a ha => ?_
  unfold val; rw [g4 a ha]

theorem bucket_text (fmt : Rat → String) (b : Bucket) :
    b.text fmt = if b.closed = true then "[" ++ fmt b.lo ++ ", " ++ fmt b.hi ++ "]" else "(" ++ fmt b.lo ++ ", " ++ fmt b.hi ++ "]" := by
  unfold Bucket.text
  cases b.closed <;> rfl

/-- C103: with at least two bins, every numerical attribute becomes categorical. If it has at most `bins` different
values, these become their text. Otherwise there are `bins - 1` ascending cut points, which are the quantiles of the
values, and every value becomes the text of the interval that contains it. Nothing else changes. -/
theorem C103_quantile_discretization {bins : Nat} (hb : 2 ≤ bins) (fmt : Rat → String) (str : Val → String) {h : Heap τ} {d : Dataset}
    (hc : Consistent h d) (hnum : ∀ n ∈ d.numNames, ∀ v, Occurs h d n v → ∃ q, v = .num q) :
    ∃ h' d', ∃ label : String → Rat → String, quantileDiscretize bins fmt str h d = .ok (h', d') ∧
      Recoded h d h' d' (fun n v => if n ∈ d.numNames then .str (label n (numOf v)) else v) (fun n => n ∈ d.numNames) ∧
      ∀ n ∈ d.numNames, ∀ us : List Val, us.Nodup → (∀ v, v ∈ us ↔ Occurs h d n v) →
        (us.length ≤ bins → ∀ q, Occurs h d n (.num q) → label n q = str (.num q)) ∧
        (bins < us.length → ∃ cuts mn mx, cuts.length = bins - 1 ∧ cuts.Pairwise (· ≤ ·) ∧
          (∀ i c, cuts[i]? = some c → IsQuantile (d.instances.map fun a => numOf (((h a).features.get? n).getD (.num 0))) (i + 1) bins c) ∧
          Occurs h d n (.num mn) ∧ Occurs h d n (.num mx) ∧ (∀ q, Occurs h d n (.num q) → mn ≤ q ∧ q ≤ mx) ∧
          ∀ q, Occurs h d n (.num q) → ∃ b ∈ buckets mn mx cuts, Contains b q ∧
            label n q = if b.closed = true then "[" ++ fmt b.lo ++ ", " ++ fmt b.hi ++ "]" else "(" ++ fmt b.lo ++ ", " ++ fmt b.hi ++ "]") := by
  classical
  simp only [← bucket_text]
  have hval : ∀ n, (fun a => numOf (val h n a)) = fun a => numOf (((h a).features.get? n).getD (.num 0)) := fun n => rfl
  have hex : ∀ n, ∃ label : Rat → String, ∀ at', d.attrs.get? n = some at' → at'.categorical = false →
      quantileLabels bins fmt str at' (d.instances.map (val h n)) = .ok (d.instances.map fun a => Val.str (label (numOf (val h n a)))) ∧
      (at'.values.length ≤ bins → ∀ q, Occurs h d n (.num q) → label q = str (.num q)) ∧
      (bins < at'.values.length → ∃ cuts mn mx, cuts.length = bins - 1 ∧ cuts.Pairwise (· ≤ ·) ∧
          (∀ i c, cuts[i]? = some c → IsQuantile (d.instances.map fun a => numOf (val h n a)) (i + 1) bins c) ∧
          Occurs h d n (.num mn) ∧ Occurs h d n (.num mx) ∧ (∀ q, Occurs h d n (.num q) → mn ≤ q ∧ q ≤ mx) ∧
          ∀ q, Occurs h d n (.num q) → ∃ b ∈ buckets mn mx cuts, Contains b q ∧ label q = b.text fmt) := by
    intro n
    cases hat : d.attrs.get? n with
    | none => exact ⟨fun _ => "", fun at' h => by cases h⟩
    | some at0 =>
      by_cases hcat : at0.categorical = false
      · have hnn := (mem_numNames hc hat).2 hcat
        have hk : n ∈ d.attrs.keys := Dict.mem_keys_iff.2 ⟨_, hat⟩
        by_cases hlen : bins < at0.values.length
        · obtain ⟨cuts, mn, mx, bucket, c1, c2, c3, c4, c5, c6, c7, c8⟩ := quantileLabels_ok hb fmt str hc hat (hnum n hnn) hlen
          refine ⟨fun q => (bucket q).text fmt, fun at' he _ => ?_⟩
          obtain rfl := Option.some.inj he
          exact ⟨c8, fun hh => by omega, fun _ => ⟨cuts, mn, mx, c1, c2, c3, c4, c5, c6, fun q hq => ⟨_, (c7 q hq).1, (c7 q hq).2, rfl⟩⟩⟩
        · refine ⟨fun q => str (.num q), fun at' he _ => ?_⟩
          obtain rfl := Option.some.inj he
          refine ⟨?_, fun _ _ _ => rfl, fun hh => absurd hh hlen⟩
          unfold quantileLabels
          rw [if_neg (by exact_mod_cast hlen), List.map_map]
          congr 1
          refine List.map_congr_left fun a ha => ?_
          obtain ⟨q, hq⟩ := hnum n hnn _ ⟨a, ha, get?_val hc hk ha⟩
          simp only [Function.comp_apply]
          rw [hq]; rfl
      · exact ⟨fun _ => "", fun at' he hcc => by obtain rfl := Option.some.inj he; exact absurd hcc hcat⟩
  choose label hlabel using hex
  obtain ⟨h', d', e1, e2⟩ := fold_recoded hc (fun a => !a.categorical) (fun _ => true) (fun n v => .str (label n (numOf v)))
    (quantileAttr bins fmt str) (by
      intro n at' hat hcat h1 d1 g1 g2 g3 g4
      have hcc : at'.categorical = false := by simpa using hcat
      refine quantileAttr_ok (g := fun v => .str (label n (numOf v))) g1 g3 ?_
      rw [column_congr g2 g4, (hlabel n at' hat hcc).1, g2]
      congr 1
      refine List.map_congr_left fun a ha => ?_
      unfold val; rw [g4 a ha])
    (fun n v => if n ∈ d.numNames then .str (label n (numOf v)) else v) (by
      intro n at' hat v
      simp only [mem_numNames hc hat]
      cases at'.categorical <;> simp)
    (fun n => n ∈ d.numNames) (by
      intro n at' hat
      rw [mem_numNames hc hat]
      cases at'.categorical <;> simp)
  refine ⟨h', d', label, e1, e2, fun n hn us hu hus => ?_⟩
  obtain ⟨at', hat, hcat⟩ := (hc.numerical.2 n).1 hn
  obtain ⟨_, l2, l3⟩ := hlabel n at' hat hcat
  rw [← values_length hc hat hu hus]
  exact ⟨l2, l3⟩

/-- C103: there are at most `bins` intervals -/
theorem C103_bins (mn mx : Rat) {cuts : List Rat} {bins : Nat} (hb : 1 ≤ bins) (h : cuts.length = bins - 1) : (buckets mn mx cuts).length = bins := by
  rw [buckets_length, h]; omega

/-- C103: one bin raises an IndexError if an attribute has two different values -/
theorem C103_one_bin (fmt : Rat → String) (str : Val → String) {h : Heap τ} {d : Dataset} (hc : Consistent h d)
    (hnum : ∀ n ∈ d.numNames, ∀ v, Occurs h d n v → ∃ q, v = .num q)
    {n : String} (hn : n ∈ d.numNames) {v w : Val} (hv : Occurs h d n v) (hw : Occurs h d n w) (hvw : v ≠ w) :
    quantileDiscretize 1 fmt str h d = .error .index := by
  obtain ⟨at0, hat0, hcat0⟩ := (hc.numerical.2 n).1 hn
  refine fold_error hc (fun a => !a.categorical) (fun n => ¬ ∃ v w, Occurs h d n v ∧ Occurs h d n w ∧ v ≠ w) .index (quantileAttr 1 fmt str) ?_
    hat0 (by rw [hcat0]; rfl) (fun hg => hg ⟨v, w, hv, hw, hvw⟩)
  intro n at' hat hcat h1 d1 g1 g2 g3 g4
  have hcc : at'.categorical = false := by simpa using hcat
  have hnn : n ∈ d.numNames := (mem_numNames hc hat).2 hcc
  have hocc : ∀ v, Occurs h1 d1 n v ↔ Occurs h d n v := by
    intro v
    unfold Occurs
    rw [g2]
    exact exists_congr fun a => and_congr_right fun ha => by rw [g4 a ha]
  obtain ⟨k1, k2⟩ := g1.values n at' g3
  have hn1 : n ∈ d1.attrs.keys := Dict.mem_keys_iff.2 ⟨_, g3⟩
  constructor
  · intro hg
    have hlen : at'.values.length ≤ 1 := by
      by_contra hlt
      match hvals : at'.values with
      | [] => simp [hvals] at hlt
      | [x] => simp [hvals] at hlt
      | x :: y :: l =>
        rw [hvals] at k1 k2
        exact hg ⟨x, y, (hocc x).1 ((k2 x).1 (by simp)), (hocc y).1 ((k2 y).1 (by simp)), fun he => by rw [he] at k1; simp at k1⟩
    obtain ⟨h2, d2, e1, e2⟩ := quantileAttr_ok (bins := 1) (fmt := fmt) (str := str) (g := fun v => .str (str v)) g1 g3 (by
      unfold quantileLabels
      rw [if_neg (by omega), List.map_map]; rfl)
    exact ⟨h2, d2, _, _, e1, e2⟩
  · intro hg
    push Not at hg
    obtain ⟨v, w, hv, hw, hvw⟩ := hg
    have hlen : 2 ≤ at'.values.length := by
      have h1 := (k2 v).2 ((hocc v).2 hv)
      have h2 := (k2 w).2 ((hocc w).2 hw)
      match hvals : at'.values with
      | [] => rw [hvals] at h1; cases h1
      | [x] =>
        rw [hvals, List.mem_singleton] at h1 h2
        exact absurd (h1.trans h2.symm) hvw
      | x :: y :: l => simp
    have hl := two_instances g1 g3 hlen
    have hnum1 : ∀ v, Occurs h1 d1 n v → ∃ q, v = .num q := fun v hv => hnum n hnn v ((hocc v).1 hv)
    have hne' : (d1.instances.map fun a => numOf (val h1 n a)) ≠ [] := fun he => by
      have := congrArg List.length he
      simp at this
      rw [this] at hl; simp at hl
    obtain ⟨mn, p1, _⟩ := pyMin_ok hne'
    obtain ⟨mx, q1, _⟩ := pyMax_ok hne'
    unfold quantileAttr
    simp only [bind, Except.bind]
    rw [column_ok g1 hn1]
    simp only [Dict.getItem]
    rw [g3]
    simp only
    have : quantileLabels 1 fmt str at' (d1.instances.map (val h1 n)) = .error .index := by
      unfold quantileLabels
      rw [if_pos (by omega)]
      simp only [bind, Except.bind]
      rw [nums_column g1 hn1 hnum1]
      simp only
      rw [show ((1 : Int).toNat) = 1 from rfl, quantiles_ok (by omega) (by simpa using hl)]
      simp only
      rw [p1]
      simp only
      rw [q1]
      simp only
      cases hL : d1.instances.map fun a => numOf (val h1 n a) with
      | nil => exact absurd hL hne'
      | cons x L => rfl
    rw [this]

/-- C103: no bins raise a ValueError if the dataset has a numerical attribute and an instance -/
theorem C103_no_bins {bins : Int} (hb : bins ≤ 0) (fmt : Rat → String) (str : Val → String) {h : Heap τ} {d : Dataset} (hc : Consistent h d)
    (hnum : ∀ n ∈ d.numNames, ∀ v, Occurs h d n v → ∃ q, v = .num q) (hne : d.instances ≠ []) {n : String} (hn : n ∈ d.numNames) :
    quantileDiscretize bins fmt str h d = .error .value := by
  obtain ⟨at0, hat0, hcat0⟩ := (hc.numerical.2 n).1 hn
  refine fold_error hc (fun a => !a.categorical) (fun _ => False) .value (quantileAttr bins fmt str) ?_ hat0 (by rw [hcat0]; rfl) id
  intro n at' hat hcat h1 d1 g1 g2 g3 g4
  refine ⟨fun h => h.elim, fun _ => ?_⟩
  have hcc : at'.categorical = false := by simpa using hcat
  have hnn : n ∈ d.numNames := (mem_numNames hc hat).2 hcc
  have hocc : ∀ v, Occurs h1 d1 n v ↔ Occurs h d n v := by
    intro v
    unfold Occurs
    rw [g2]
    exact exists_congr fun a => and_congr_right fun ha => by rw [g4 a ha]
  have hn1 : n ∈ d1.attrs.keys := Dict.mem_keys_iff.2 ⟨_, g3⟩
  have hlen : 0 < at'.values.length := by
    obtain ⟨_, k2⟩ := g1.values n at' g3
    obtain ⟨a, l, hal⟩ := List.exists_cons_of_ne_nil (g2 ▸ hne : d1.instances ≠ [])
    have hm : a ∈ d1.instances := by rw [hal]; simp
    exact List.length_pos_of_mem ((k2 _).2 ⟨a, hm, get?_val g1 hn1 hm⟩)
  unfold quantileAttr
  simp only [bind, Except.bind]
  rw [column_ok g1 hn1]
  simp only [Dict.getItem]
  rw [g3]
  simp only
  have : quantileLabels bins fmt str at' (d1.instances.map (val h1 n)) = .error .value := by
    unfold quantileLabels
    rw [if_pos (by omega)]
    simp only [bind, Except.bind]
    rw [nums_column g1 hn1 fun v hv => hnum n hnn v ((hocc v).1 hv)]
    simp only
    rw [show bins.toNat = 0 by omega]
    rfl
  rw [this]

/-- five numbers in two bins: the median 3 is the cut point -/
example : (quantiles [5, 1, 4, 2, 3] 2).toOption = some [3] := by decide +kernel
example : ((([5, 1, 4, 2, 3] : List Rat).mapM (bucketOf [3] 1 5)).toOption.map fun l => l.map fun b => (b.closed, b.lo, b.hi)) =
    some [(false, 3, 5), (true, 1, 3), (false, 3, 5), (true, 1, 3), (true, 1, 3)] := by decide +kernel

end Prolothar.Data
