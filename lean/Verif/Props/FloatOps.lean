import Verif.Model.FloatOps
import Verif.Props.StatisticsFloat
import Verif.Props.SetSimilarity
import Verif.Props.Quantile
import Verif.Props.DfgPlot
/-
C154: scaling, splitting, set similarities and discretization with rounded numbers.
-/
namespace Prolothar.FloatOps
open Prolothar.Float Prolothar.Spec.Float
open Prolothar.StatisticsFloat (Double r53 r_mono r_exact r_double r_zero r_nat r_nonneg r_nonpos r_err r_one)
open Prolothar.Data (pyMin pyMax)
open Prolothar.EventLog (Log)

/-! ### exact numbers: the same as the models without rounding -/

theorem scaleValue_exact (lo hi mn mx v : ℚ) : scaleValue id id lo hi mn mx v = Data.scaleValue lo hi mn mx v := rfl
theorem trainTestSplit_exact {I A V : Type} (shuffle : Log I A V → Log I A V) (log : Log I A V) (p : ℚ) :
    trainTestSplit id shuffle log p = EventLog.trainTestSplit shuffle log p := rfl
theorem quantiles_exact (values : List ℚ) (n : Nat) : quantiles id values n = Data.quantiles values n := rfl

theorem edgeWidth_exact (o : Dfg.EdgeOpts) (ho : o.countsAsWeight = true) {lo hi : Int} (h : hi ≠ lo) (c : Int) :
    edgeWidth id o.minWeight o.maxWeight lo hi c = .ok (Dfg.edgeWeight o lo hi c) := by
  have hq : (hi : ℚ) - lo ≠ 0 := sub_ne_zero.2 (by exact_mod_cast h)
  unfold edgeWidth scaleValue Dfg.edgeWeight
  rw [if_pos ho, if_pos h]
  simp only [id]
  rw [if_neg hq]
  push_cast
  rfl

/-! ### scaling -/

/-- the values are floats, or they are integers and their differences are exact -/
def Sub (s : ℚ → ℚ) (values : List ℚ) : Prop := (s = r53 ∧ ∀ v ∈ values, Double v) ∨ (s = id ∧ ∀ v ∈ values, ∃ k : Int, v = k)

theorem sub_mono {s : ℚ → ℚ} {values : List ℚ} (h : Sub s values) {x y : ℚ} (hxy : x ≤ y) : s x ≤ s y := by
  rcases h with ⟨rfl, _⟩ | ⟨rfl, _⟩
  · exact r_mono hxy
  · exact hxy

theorem sub_zero {s : ℚ → ℚ} {values : List ℚ} (h : Sub s values) : s 0 = 0 := by
  rcases h with ⟨rfl, _⟩ | ⟨rfl, _⟩
  · exact r_zero
  · rfl

theorem sub_err {s : ℚ → ℚ} {values : List ℚ} (h : Sub s values) {x : ℚ} (hx : 0 ≤ x) :
    x * (1 - 1 / 2 ^ 53) ≤ s x ∧ s x ≤ x * (1 + 1 / 2 ^ 53) := by
  rcases h with ⟨rfl, _⟩ | ⟨rfl, _⟩
  · have := abs_le.1 (r_err x)
    rw [abs_of_nonneg hx] at this
    constructor <;> linarith [this.1, this.2]
  · constructor <;> simp only [id] <;> nlinarith

theorem sub_pos {s : ℚ → ℚ} {values : List ℚ} (h : Sub s values) {x : ℚ} (hx : 0 < x) : 0 < s x := by
  have := (sub_err h hx.le).1
  have h2 : 0 < x * (1 - 1 / 2 ^ 53 : ℚ) := mul_pos hx (by norm_num)
  linarith

/-- the number that a value is scaled to -/
def scaled (s r : ℚ → ℚ) (lo hi mn mx v : ℚ) : ℚ := r (r (r (s (v - mn) / s (mx - mn)) * r (hi - lo)) + lo)

theorem foldl_min (l : List ℚ) (x : ℚ) :
    (l.foldl (fun m v => if v < m then v else m) x) ∈ x :: l ∧ ∀ v ∈ x :: l, (l.foldl (fun m v => if v < m then v else m) x) ≤ v := by
  induction l generalizing x with
  | nil => simp
  | cons y l ih =>
    rw [List.foldl_cons]
    obtain ⟨h1, h2⟩ := ih (if y < x then y else x)
    refine ⟨?_, ?_⟩
    · rcases List.mem_cons.1 h1 with h | h
      · rw [h]; split <;> simp
      · simp [h]
    · intro v hv
      have h3 := h2 _ List.mem_cons_self
      rcases List.mem_cons.1 hv with rfl | hv
      · refine h3.trans ?_; split <;> linarith
      · rcases List.mem_cons.1 hv with rfl | hv
        · refine h3.trans ?_; split <;> linarith
        · exact h2 v (List.mem_cons_of_mem _ hv)

theorem foldl_max (l : List ℚ) (x : ℚ) :
    (l.foldl (fun m v => if m < v then v else m) x) ∈ x :: l ∧ ∀ v ∈ x :: l, v ≤ (l.foldl (fun m v => if m < v then v else m) x) := by
  induction l generalizing x with
  | nil => simp
  | cons y l ih =>
    rw [List.foldl_cons]
    obtain ⟨h1, h2⟩ := ih (if x < y then y else x)
    refine ⟨?_, ?_⟩
    · rcases List.mem_cons.1 h1 with h | h
      · rw [h]; split <;> simp
      · simp [h]
    · intro v hv
      have h3 := h2 _ List.mem_cons_self
      rcases List.mem_cons.1 hv with rfl | hv
      · refine le_trans ?_ h3; split <;> linarith
      · rcases List.mem_cons.1 hv with rfl | hv
        · refine le_trans ?_ h3; split <;> linarith
        · exact h2 v (List.mem_cons_of_mem _ hv)

theorem mapM_ok {β γ : Type} (f : β → Py γ) (g : β → γ) (l : List β) (h : ∀ x ∈ l, f x = .ok (g x)) : l.mapM f = .ok (l.map g) := by
  induction l with
  | nil => rfl
  | cons x l ih =>
    rw [List.mapM_cons, h x List.mem_cons_self, ih fun y hy => h y (List.mem_cons_of_mem _ hy)]; rfl

/-- the whole computation: no values, equal values, or all values scaled between the least and the greatest one -/
theorem scaleColumn_cases {s : ℚ → ℚ} (r : ℚ → ℚ) (lo hi : ℚ) {values : List ℚ} (hs : Sub s values) (hne : values ≠ []) :
    ∃ mn ∈ values, ∃ mx ∈ values, (∀ v ∈ values, mn ≤ v ∧ v ≤ mx) ∧
      (mn = mx → scaleColumn s r lo hi values = .error .zeroDivision) ∧
      (mn ≠ mx → mn < mx ∧ scaleColumn s r lo hi values = .ok (values.map (scaled s r lo hi mn mx))) := by
  cases values with
  | nil => exact absurd rfl hne
  | cons x l =>
    obtain ⟨a1, a2⟩ := foldl_min l x
    obtain ⟨b1, b2⟩ := foldl_max l x
    refine ⟨_, a1, _, b1, fun v hv => ⟨a2 v hv, b2 v hv⟩, fun he => ?_, fun hn => ?_⟩
    · unfold scaleColumn
      simp only [pyMin, pyMax, bind, Except.bind]
      rw [List.mapM_cons]
      unfold scaleValue
      rw [if_pos (by rw [he, sub_self, sub_zero hs])]; rfl
    · have hlt := lt_of_le_of_ne ((a2 x List.mem_cons_self).trans (b2 x List.mem_cons_self)) hn
      refine ⟨hlt, ?_⟩
      unfold scaleColumn
      simp only [pyMin, pyMax, bind, Except.bind]
      refine mapM_ok _ _ _ fun v _ => ?_
      unfold scaleValue
      rw [if_neg (sub_pos hs (by linarith)).ne']; rfl

theorem scaled_min {s : ℚ → ℚ} {values : List ℚ} (hs : Sub s values) {lo : ℚ} (hl : Double lo) (hi mn mx : ℚ) :
    scaled s r53 lo hi mn mx mn = lo := by
  unfold scaled
  rw [sub_self, sub_zero hs, zero_div, r_zero, zero_mul, r_zero, zero_add, r_exact hl]

theorem scaled_max {s : ℚ → ℚ} {values : List ℚ} (hs : Sub s values) (lo hi : ℚ) {mn mx : ℚ} (h : mn < mx) :
    scaled s r53 lo hi mn mx mx = r53 (r53 (hi - lo) + lo) := by
  have h1 : r53 1 = 1 := by have := r_one; norm_num at this; exact this
  unfold scaled
  rw [div_self (sub_pos hs (by linarith)).ne', h1, one_mul, r_exact (r_double _)]

theorem scaled_mono {s : ℚ → ℚ} {values : List ℚ} (hs : Sub s values) {lo hi : ℚ} (hlh : lo ≤ hi) {mn mx : ℚ} (h : mn < mx) {v w : ℚ} (hvw : v ≤ w) :
    scaled s r53 lo hi mn mx v ≤ scaled s r53 lo hi mn mx w := by
  unfold scaled
  refine r_mono (add_le_add (r_mono (mul_le_mul_of_nonneg_right (r_mono ?_) (r_nonneg (by linarith)))) le_rfl)
  exact div_le_div_of_nonneg_right (sub_mono hs (by linarith)) (sub_pos hs (by linarith)).le

/-- C154: scaling with floats. An attribute with at least two different values is scaled without an exception; larger values never get
smaller results, the least value is scaled to exactly the target minimum and no value below it. The greatest value is scaled to the
rounded sum of the target minimum and the rounded length of the target interval. -/
theorem C154_scaling {s : ℚ → ℚ} {values : List ℚ} (hs : Sub s values) {lo hi : ℚ} (hl : Double lo) (hlh : lo ≤ hi)
    (h2 : ∃ v ∈ values, ∃ w ∈ values, v ≠ w) :
    ∃ f : ℚ → ℚ, scaleColumn s r53 lo hi values = .ok (values.map f) ∧
      (∀ v ∈ values, ∀ w ∈ values, v ≤ w → f v ≤ f w) ∧
      (∀ v ∈ values, (∀ w ∈ values, v ≤ w) → f v = lo) ∧
      (∀ v ∈ values, (∀ w ∈ values, w ≤ v) → f v = r53 (r53 (hi - lo) + lo)) ∧
      ∀ v ∈ values, lo ≤ f v ∧ f v ≤ r53 (r53 (hi - lo) + lo) := by
  obtain ⟨v, hv, w, hw, hvw⟩ := h2
  obtain ⟨mn, hmn, mx, hmx, hb, -, h⟩ := scaleColumn_cases r53 lo hi hs (List.ne_nil_of_mem hv)
  have hne : mn ≠ mx := by
    rintro rfl
    exact hvw (le_antisymm ((hb v hv).2.trans (hb w hw).1) ((hb w hw).2.trans (hb v hv).1))
  obtain ⟨hlt, h⟩ := h hne
  have m1 := scaled_min hs hl hi mn mx
  have m2 := scaled_max hs lo hi hlt
  have m3 : ∀ a b : ℚ, a ≤ b → scaled s r53 lo hi mn mx a ≤ scaled s r53 lo hi mn mx b := fun a b hab => scaled_mono hs hlh hlt hab
  generalize scaled s r53 lo hi mn mx = f at h m1 m2 m3
  generalize r53 (r53 (hi - lo) + lo) = top at m2
  refine ⟨f, h, fun a _ b _ hab => m3 a b hab, fun a ha hm => ?_, fun a ha hm => ?_, fun a ha => ⟨?_, ?_⟩⟩
  · have e : a = mn := le_antisymm (hm mn hmn) (hb a ha).1
    rw [e]; exact m1
  · have e : a = mx := le_antisymm (hb a ha).2 (hm mx hmx)
    rw [e]; exact m2
  · rw [← m1]; exact m3 _ _ (hb a ha).1
  · rw [← m2]; exact m3 _ _ (hb a ha).2

/-- C154: if the length of the target interval is a float (as with the default interval from 0.0 to 1.0) then all results are in the
target interval, and the greatest value is scaled to exactly the target maximum. -/
theorem C154_scaling_range {s : ℚ → ℚ} {values : List ℚ} (hs : Sub s values) {lo hi : ℚ} (hl : Double lo) (hh : Double hi) (hlh : lo ≤ hi)
    (hd : Double (hi - lo)) (h2 : ∃ v ∈ values, ∃ w ∈ values, v ≠ w) :
    ∃ f : ℚ → ℚ, scaleColumn s r53 lo hi values = .ok (values.map f) ∧
      (∀ v ∈ values, ∀ w ∈ values, v ≤ w → f v ≤ f w) ∧
      (∀ v ∈ values, (∀ w ∈ values, v ≤ w) → f v = lo) ∧
      (∀ v ∈ values, (∀ w ∈ values, w ≤ v) → f v = hi) ∧
      ∀ v ∈ values, lo ≤ f v ∧ f v ≤ hi := by
  have : r53 (r53 (hi - lo) + lo) = hi := by rw [r_exact hd, sub_add_cancel, r_exact hh]
  have h := C154_scaling hs hl hlh h2
  rw [this] at h
  exact h

/-- C154: equal values raise a ZeroDivisionError and no values a ValueError, as with exact numbers -/
theorem C154_scaling_errors {s : ℚ → ℚ} (r : ℚ → ℚ) {values : List ℚ} (hs : Sub s values) (lo hi : ℚ) :
    (values = [] → scaleColumn s r lo hi values = .error .value) ∧
    (values ≠ [] → (∀ v ∈ values, ∀ w ∈ values, v = w) → scaleColumn s r lo hi values = .error .zeroDivision) := by
  refine ⟨fun h => by subst h; rfl, fun hne he => ?_⟩
  obtain ⟨mn, hmn, mx, hmx, -, h, -⟩ := scaleColumn_cases r lo hi hs hne
  exact h (he mn hmn mx hmx)

/-- C154: the results differ from the exact ones by at most a few units in the last place of the target interval -/
theorem C154_scaling_error_bound {s : ℚ → ℚ} {values : List ℚ} (hs : Sub s values) {lo hi : ℚ} (hlh : lo ≤ hi)
    (h2 : ∃ v ∈ values, ∃ w ∈ values, v ≠ w) :
    ∃ mn ∈ values, ∃ mx ∈ values, ∃ f : ℚ → ℚ, (∀ v ∈ values, mn ≤ v ∧ v ≤ mx) ∧ mn < mx ∧
      scaleColumn s r53 lo hi values = .ok (values.map f) ∧
      ∀ v ∈ values, |f v - ((v - mn) / (mx - mn) * (hi - lo) + lo)| ≤ (hi - lo + |lo|) / 2 ^ 50 := by
  obtain ⟨v, hv, w, hw, hvw⟩ := h2
  obtain ⟨mn, hmn, mx, hmx, hb, -, h⟩ := scaleColumn_cases r53 lo hi hs (List.ne_nil_of_mem hv)
  have hne : mn ≠ mx := by
    rintro rfl
    exact hvw (le_antisymm ((hb v hv).2.trans (hb w hw).1) ((hb w hw).2.trans (hb v hv).1))
  obtain ⟨hlt, h⟩ := h hne
  refine ⟨mn, hmn, mx, hmx, _, hb, hlt, h, fun a ha => ?_⟩
  have ha0 : 0 ≤ a - mn := by linarith [(hb a ha).1]
  have hd0 : 0 < mx - mn := by linarith
  have hle : a - mn ≤ mx - mn := by linarith [(hb a ha).2]
  obtain ⟨p1, p2⟩ := sub_err hs ha0
  obtain ⟨q1, q2⟩ := sub_err hs hd0.le
  have hq0 := sub_pos hs hd0
  have hp0 : 0 ≤ s (a - mn) := by
    have : 0 ≤ (a - mn) * (1 - 1 / 2 ^ 53 : ℚ) := mul_nonneg ha0 (by norm_num)
    linarith
  unfold scaled
  set x := a - mn
  set d := mx - mn
  set e := x / d with he
  have hxe : x = e * d := by rw [he, div_mul_cancel₀ _ hd0.ne']
  have he0 : 0 ≤ e := div_nonneg ha0 hd0.le
  have he1 : e ≤ 1 := by rw [he, div_le_one hd0]; exact hle
  -- the quotient
  have k1 : s x / s d ≤ e * (1 + 3 / 2 ^ 53) := by
    rw [div_le_iff₀ hq0]
    have : e * (1 + 3 / 2 ^ 53) * (d * (1 - 1 / 2 ^ 53)) ≤ e * (1 + 3 / 2 ^ 53) * s d := mul_le_mul_of_nonneg_left q1 (by positivity)
    have h3 : e * d * (1 + 1 / 2 ^ 53) ≤ e * (1 + 3 / 2 ^ 53) * (d * (1 - 1 / 2 ^ 53)) := by
      have : 0 ≤ e * d := by positivity
      nlinarith
    rw [hxe] at p2
    rw [hxe]
    linarith
  have k2 : e * (1 - 3 / 2 ^ 53) ≤ s x / s d := by
    rw [le_div_iff₀ hq0]
    have : e * (1 - 3 / 2 ^ 53) * s d ≤ e * (1 - 3 / 2 ^ 53) * (d * (1 + 1 / 2 ^ 53)) := mul_le_mul_of_nonneg_left q2 (mul_nonneg he0 (by norm_num))
    have h3 : e * (1 - 3 / 2 ^ 53) * (d * (1 + 1 / 2 ^ 53)) ≤ e * d * (1 - 1 / 2 ^ 53) := by
      have : 0 ≤ e * d := by positivity
      nlinarith
    rw [hxe] at p1
    rw [hxe]
    linarith
  have k0 : 0 ≤ s x / s d := div_nonneg hp0 hq0.le
  have rerr : ∀ y : ℚ, 0 ≤ y → y * (1 - 1 / 2 ^ 53) ≤ r53 y ∧ r53 y ≤ y * (1 + 1 / 2 ^ 53) := fun y hy => by
    have := abs_le.1 (r_err y)
    rw [abs_of_nonneg hy] at this
    constructor <;> linarith [this.1, this.2]
  obtain ⟨m1, m2⟩ := rerr _ k0
  have n1 : r53 (s x / s d) ≤ e * (1 + 9 / 2 ^ 54) := by nlinarith
  have n2 : e * (1 - 9 / 2 ^ 54) ≤ r53 (s x / s d) := by nlinarith
  have n0 : 0 ≤ r53 (s x / s d) := r_nonneg k0
  set q := r53 (s x / s d)
  have hL0 : 0 ≤ hi - lo := by linarith
  obtain ⟨l1, l2⟩ := rerr _ hL0
  have l0 := r_nonneg hL0
  set L := hi - lo
  have o1 : q * r53 L ≤ e * L * (1 + 23 / 2 ^ 55) := by
    calc q * r53 L ≤ (e * (1 + 9 / 2 ^ 54)) * (L * (1 + 1 / 2 ^ 53)) := mul_le_mul n1 l2 l0 (by positivity)
      _ ≤ _ := by have : 0 ≤ e * L := by positivity
                  nlinarith
  have o2 : e * L * (1 - 23 / 2 ^ 55) ≤ q * r53 L := by
    calc e * L * (1 - 23 / 2 ^ 55) ≤ (e * (1 - 9 / 2 ^ 54)) * (L * (1 - 1 / 2 ^ 53)) := by
          have : 0 ≤ e * L := by positivity
          nlinarith
      _ ≤ _ := mul_le_mul n2 l1 (mul_nonneg hL0 (by norm_num)) n0
  have o0 : 0 ≤ q * r53 L := mul_nonneg n0 l0
  obtain ⟨t1, t2⟩ := rerr _ o0
  have heL : e * L ≤ L := by nlinarith
  have heL0 : 0 ≤ e * L := by positivity
  have u1 : r53 (q * r53 L) ≤ e * L + L * (28 / 2 ^ 55) := by nlinarith
  have u2 : e * L - L * (28 / 2 ^ 55) ≤ r53 (q * r53 L) := by nlinarith
  set t := r53 (q * r53 L)
  have hfin := abs_le.1 (r_err (t + lo))
  have habs : |t + lo| ≤ L * (1 + 28 / 2 ^ 55) + |lo| := by
    refine (abs_add_le _ _).trans (add_le_add ?_ le_rfl)
    rw [abs_le]; constructor <;> linarith
  have hlo := abs_nonneg lo
  rw [abs_le]
  constructor <;> linarith [hfin.1, hfin.2]

/-- C154: a target interval whose length is not a float can be left by the scaled values: with the target interval from -1.1 to -0.2
the greatest value is scaled to a number above -0.2 -/
theorem C154_scaling_overshoot :
    ∃ lo hi : ℚ, Double lo ∧ Double hi ∧ lo = r53 (-11 / 10) ∧ hi = r53 (-1 / 5) ∧
      ∃ y, scaleColumn r53 r53 lo hi [0, 1] = .ok [lo, y] ∧ hi < y := by
  have hs01 : Sub r53 [0, 1] := by
    refine .inl ⟨rfl, fun v hv => ?_⟩
    rcases List.mem_cons.1 hv with rfl | hv
    · exact ⟨0, 0, by norm_num, by norm_num⟩
    · rw [List.mem_singleton.1 hv]; exact ⟨1, 0, by norm_num, by norm_num⟩
  refine ⟨_, _, r_double _, r_double _, rfl, rfl, r53 (r53 (r53 (-1 / 5) - r53 (-11 / 10)) + r53 (-11 / 10)), ?_, ?_⟩
  · obtain ⟨mn, hmn, mx, hmx, hb, -, h⟩ := scaleColumn_cases (s := r53) (values := [0, 1]) r53 (r53 (-11 / 10)) (r53 (-1 / 5))
      hs01 (by simp)
    have h0 := hb 0 (by simp)
    have h1 := hb 1 (by simp)
    have e0 : mn = 0 := by
      rcases List.mem_cons.1 hmn with h | h
      · exact h
      · simp at h; linarith
    have e1 : mx = 1 := by
      simp at hmx
      rcases hmx with h | h
      · linarith
      · exact h
    subst e0 e1
    obtain ⟨hlt, h⟩ := h (by norm_num)
    rw [h]
    have hs : Sub r53 ([] : List ℚ) := .inl ⟨rfl, by simp⟩
    simp only [List.map_cons, List.map_nil]
    rw [scaled_min hs (r_double _), scaled_max hs _ _ hlt]
  · decide +kernel

/-- C154: different values can get the same result: the least float above 1 and 1 itself are scaled to the same number if the least value
is -1 -/
theorem C154_scaling_merges :
    ∃ v w : ℚ, Double v ∧ Double w ∧ v < w ∧ ∃ y z, scaleColumn r53 r53 0 1 [-1, v, w, 3] = .ok [0, y, y, z] := by
  refine ⟨1, 1 + 1 / 2 ^ 52, ⟨1, 0, by norm_num, by norm_num⟩, ⟨2 ^ 52 + 1, -52, by norm_num, by norm_num⟩, by norm_num, 1 / 2, 1, ?_⟩
  have : (scaleColumn r53 r53 0 1 [-1, 1, 1 + 1 / 2 ^ 52, 3]).toOption = some [0, 1 / 2, 1 / 2, 1] := by decide +kernel
  cases h : scaleColumn r53 r53 0 1 [-1, 1, 1 + 1 / 2 ^ 52, 3] with
  | error e => rw [h] at this; cases this
  | ok l => rw [h] at this; simp only [Except.toOption, Option.some.injEq] at this; rw [this]

/-- C154: widths of edges in plots. The widths are between the two given widths, do not get smaller with the count, and the extreme counts
get exactly the extreme widths (if the difference of the widths is a float, as with the default widths 1.0 and 10.0). -/
theorem C154_edge_width {minW maxW : ℚ} (h1 : Double minW) (h2 : Double maxW) (hle : minW ≤ maxW) (hd : Double (maxW - minW)) {lo hi : Int}
    (hlt : lo < hi) :
    ∃ f : Int → ℚ, (∀ c, edgeWidth r53 minW maxW lo hi c = .ok (f c)) ∧ f lo = minW ∧ f hi = maxW ∧
      (∀ c c', c ≤ c' → f c ≤ f c') ∧ ∀ c, lo ≤ c → c ≤ hi → minW ≤ f c ∧ f c ≤ maxW := by
  have hs : Sub id ([] : List ℚ) := .inr ⟨rfl, by simp⟩
  have hq : (lo : ℚ) < hi := by exact_mod_cast hlt
  have m1 := scaled_min hs h1 maxW (lo : ℚ) (hi : ℚ)
  have m2 := scaled_max hs minW maxW hq
  rw [r_exact hd, sub_add_cancel, r_exact h2] at m2
  have m3 : ∀ c c' : Int, c ≤ c' → scaled id r53 minW maxW lo hi c ≤ scaled id r53 minW maxW lo hi c' :=
    fun c c' h => scaled_mono hs hle hq (by exact_mod_cast h)
  refine ⟨fun c => scaled id r53 minW maxW lo hi c, fun c => ?_, m1, m2, m3, fun c hc hc' => ⟨?_, ?_⟩⟩
  · unfold edgeWidth scaleValue
    rw [if_neg (by simp only [id]; linarith)]; rfl
  · have := m3 lo c hc; beta_reduce; rw [m1] at this; exact this
  · have := m3 c hi hc'; beta_reduce; rw [m2] at this; exact this

/-! ### splitting -/

theorem r_bounds {y : ℚ} (hy : 0 ≤ y) : y * (1 - 1 / 2 ^ 53) ≤ r53 y ∧ r53 y ≤ y * (1 + 1 / 2 ^ 53) := by
  have := abs_le.1 (r_err y)
  rw [abs_of_nonneg hy] at this
  constructor <;> linarith [this.1, this.2]

theorem r_le_one {y : ℚ} (hy : y ≤ 1) : r53 y ≤ 1 := by
  have h1 : r53 1 = 1 := by have := r_one; norm_num at this; exact this
  rw [← h1]; exact r_mono hy

/-- C154: the train log of a split with a float proportion. It has at most all traces, and its size differs from the exact share
`n * (1 - p)` by less than one trace, up to a rounding error of `n / 2 ^ 51`. -/
theorem C154_split {I A V : Type} (shuffle : Log I A V → Log I A V) (log : Log I A V) (hsh : (shuffle log).Perm log) {p : ℚ}
    (h0 : 0 ≤ p) (h1 : p ≤ 1) (hn : log.length ≤ 2 ^ 53) :
    ∃ train test, trainTestSplit r53 shuffle log p = .ok (train, test) ∧ train ++ test = shuffle log ∧
      (train.length : ℚ) ≤ log.length * (1 - p) + log.length / 2 ^ 51 ∧
      log.length * (1 - p) - 1 - log.length / 2 ^ 51 < train.length := by
  have hlen : (shuffle log).length = log.length := hsh.length_eq
  refine ⟨(shuffle log).take (splitIndex r53 log.length p), (shuffle log).drop (splitIndex r53 log.length p), ?_, List.take_append_drop _ _, ?_⟩
  · unfold trainTestSplit; dsimp only; rw [if_pos ⟨h0, h1⟩, hlen]
  rw [List.length_take, hlen]
  set n := log.length
  have hn0 : (0 : ℚ) ≤ n := Nat.cast_nonneg n
  have hp0 : 0 ≤ 1 - p := by linarith
  have a0 := r_nonneg hp0
  have a1 : r53 (1 - p) ≤ 1 := r_le_one (by linarith)
  obtain ⟨b1, b2⟩ := r_bounds hp0
  have c0 : 0 ≤ (n : ℚ) * r53 (1 - p) := mul_nonneg hn0 a0
  obtain ⟨d1, d2⟩ := r_bounds c0
  have hle : r53 ((n : ℚ) * r53 (1 - p)) ≤ n := by
    have := r_mono (show (n : ℚ) * r53 (1 - p) ≤ n by nlinarith)
    rwa [r_nat hn] at this
  have hx0 := r_nonneg c0
  have hk : ((splitIndex r53 n p : Nat) : ℚ) = (⌊r53 ((n : ℚ) * r53 (1 - p))⌋ : ℚ) := by
    unfold splitIndex
    rw [r_nat hn]
    have := Int.toNat_of_nonneg (Int.floor_nonneg.2 hx0)
    exact_mod_cast congrArg (Int.cast : Int → ℚ) this
  have hkn : splitIndex r53 n p ≤ n := by
    have h3 : ((splitIndex r53 n p : Nat) : ℚ) ≤ (n : ℚ) := by rw [hk]; exact (Int.floor_le _).trans hle
    exact_mod_cast h3
  rw [min_eq_left hkn, hk]
  have e1 := Int.floor_le (r53 ((n : ℚ) * r53 (1 - p)))
  have e2 := Int.lt_floor_add_one (r53 ((n : ℚ) * r53 (1 - p)))
  have g1 : (n : ℚ) * r53 (1 - p) ≤ n * ((1 - p) * (1 + 1 / 2 ^ 53)) := mul_le_mul_of_nonneg_left b2 hn0
  have g2 : (n : ℚ) * ((1 - p) * (1 - 1 / 2 ^ 53)) ≤ n * r53 (1 - p) := mul_le_mul_of_nonneg_left b1 hn0
  have g3 : (n : ℚ) * (1 - p) ≤ n := by nlinarith
  have g4 : 0 ≤ (n : ℚ) * (1 - p) := mul_nonneg hn0 hp0
  constructor <;> nlinarith

/-- C154: a proportion outside the interval from 0.0 to 1.0 raises a ValueError -/
theorem C154_split_error {I A V : Type} (shuffle : Log I A V → Log I A V) (log : Log I A V) {p : ℚ} (h : p < 0 ∨ 1 < p) :
    trainTestSplit r53 shuffle log p = .error .value := by
  unfold trainTestSplit
  rw [if_neg]
  rintro ⟨h1, h2⟩
  rcases h with h | h <;> linarith

/-- C154: if the numbers that occur in the computation are floats then the split is the exact one. This holds for the proportions 0.0, 0.25,
0.5, 0.75 and 1.0. -/
theorem C154_split_exact {I A V : Type} (shuffle : Log I A V → Log I A V) (log : Log I A V) (hsh : (shuffle log).Perm log)
    (hn : log.length ≤ 2 ^ 50) {p : ℚ} {k : Nat} (hk : k ≤ 8) (hp : p = k / 8) :
    trainTestSplit r53 shuffle log p = EventLog.trainTestSplit shuffle log p := by
  rw [← trainTestSplit_exact]
  unfold trainTestSplit
  have hs : splitIndex r53 (shuffle log).length p = splitIndex id (shuffle log).length p := by
    rw [hsh.length_eq]
    unfold splitIndex
    have h1 : (1 : ℚ) - p = ((8 - k : Nat) : ℚ) / 8 := by rw [hp, Nat.cast_sub hk]; push_cast; ring
    have e1 : r53 (1 - p) = 1 - p := by
      refine r_exact ⟨((8 - k : Nat) : Int), -3, ?_, ?_⟩
      · rw [abs_of_nonneg (by positivity)]
        have : (8 - k : Nat) ≤ 8 := Nat.sub_le _ _
        have h8 : ((8 - k : Nat) : Int) ≤ 8 := by exact_mod_cast this
        linarith [show (8 : Int) < 2 ^ 53 by norm_num]
      · rw [h1]; push_cast; norm_num; ring
    have e2 : r53 ((log.length : ℚ) * (1 - p)) = log.length * (1 - p) := by
      by_cases hz : (8 - k : Nat) * log.length = 2 ^ 53
      · refine r_exact ⟨1, 50, by norm_num, ?_⟩
        have h9 : (((8 - k : Nat) * log.length : Nat) : ℚ) = 2 ^ 53 := by rw [hz]; norm_num
        rw [h1]; push_cast at h9 ⊢; norm_num at h9 ⊢; linarith
      · refine r_exact ⟨((8 - k : Nat) * log.length : Nat), -3, ?_, ?_⟩
        · rw [abs_of_nonneg (by positivity)]
          have : (8 - k : Nat) * log.length ≤ 8 * 2 ^ 50 := Nat.mul_le_mul (Nat.sub_le _ _) hn
          have h3 : (8 - k : Nat) * log.length < 2 ^ 53 := lt_of_le_of_ne (by linarith) hz
          exact_mod_cast h3
        · rw [h1]; push_cast; norm_num; ring
    rw [r_nat (by linarith), e1, e2]; rfl
  dsimp only
  rw [hs]

/-- C154: proportions like 0.9 and 0.1 are not floats. A log of ten traces that is split with the proportion 0.9 has an empty train log, and
split with the proportion 0.1 it has a test log with a smaller share than the float 0.1. -/
theorem C154_split_tenths {I A V : Type} (shuffle : Log I A V → Log I A V) (log : Log I A V) (hsh : (shuffle log).Perm log)
    (hn : log.length = 10) :
    (∃ test, trainTestSplit r53 shuffle log (r53 (9 / 10)) = .ok ([], test) ∧ test.length = 10) ∧
    (∃ train test, trainTestSplit r53 shuffle log (r53 (1 / 10)) = .ok (train, test) ∧ test.length = 1 ∧ (test.length : ℚ) < log.length * r53 (1 / 10)) := by
  have hl : (shuffle log).length = 10 := by rw [hsh.length_eq, hn]
  constructor
  · refine ⟨shuffle log, ?_, hl⟩
    have h1 : (0 : ℚ) ≤ r53 (9 / 10) ∧ r53 (9 / 10) ≤ 1 := ⟨r_nonneg (by norm_num), r_le_one (by norm_num)⟩
    have h2 : splitIndex r53 10 (r53 (9 / 10)) = 0 := by decide +kernel
    unfold trainTestSplit
    dsimp only
    rw [if_pos h1, hl, h2]; rfl
  · have h1 : (0 : ℚ) ≤ r53 (1 / 10) ∧ r53 (1 / 10) ≤ 1 := ⟨r_nonneg (by norm_num), r_le_one (by norm_num)⟩
    have h2 : splitIndex r53 10 (r53 (1 / 10)) = 9 := by decide +kernel
    refine ⟨(shuffle log).take 9, (shuffle log).drop 9, ?_, by rw [List.length_drop, hl], ?_⟩
    · unfold trainTestSplit
      dsimp only
      rw [if_pos h1, hl, h2]
    · rw [List.length_drop, hl, hn]; decide +kernel

/-! ### set similarities -/

theorem frac {p q : Int} (h0 : 0 ≤ p) (hpq : p ≤ q) (hq : 0 < q) (hb : q ≤ 2 ^ 53) :
    0 ≤ r53 ((p : ℚ) / q) ∧ r53 ((p : ℚ) / q) ≤ 1 ∧ (r53 ((p : ℚ) / q) = 1 ↔ p = q) ∧ (r53 ((p : ℚ) / q) = 0 ↔ p = 0) := by
  have p0 : (0 : ℚ) ≤ p := by exact_mod_cast h0
  have q0 : (0 : ℚ) < q := by exact_mod_cast hq
  have hpq' : (p : ℚ) ≤ q := by exact_mod_cast hpq
  have f0 : (0 : ℚ) ≤ (p : ℚ) / q := div_nonneg p0 q0.le
  have f1 : (p : ℚ) / q ≤ 1 := by rw [div_le_one q0]; exact hpq'
  have h1 : r53 1 = 1 := by have := r_one; norm_num at this; exact this
  refine ⟨r_nonneg f0, r_le_one f1, ⟨fun h => ?_, fun h => ?_⟩, ⟨fun h => ?_, fun h => ?_⟩⟩
  · by_contra hne
    have hlt : (p : ℚ) + 1 ≤ q := by exact_mod_cast lt_of_le_of_ne hpq hne
    have hd : Double (1 - 1 / 2 ^ 53) := ⟨2 ^ 53 - 1, -53, by norm_num, by norm_num⟩
    have hqb : (q : ℚ) ≤ 2 ^ 53 := by exact_mod_cast hb
    have : (p : ℚ) / q ≤ 1 - 1 / 2 ^ 53 := by
      rw [div_le_iff₀ q0]
      have : (q : ℚ) / 2 ^ 53 ≤ 1 := by rw [div_le_one (by norm_num)]; exact hqb
      linarith
    have h3 := r_mono this
    rw [h, r_exact hd] at h3
    norm_num at h3
  · rw [h, div_self q0.ne', h1]
  · have := (r_bounds f0).1
    rw [h] at this
    have h4 : (p : ℚ) / q ≤ 0 := by nlinarith
    have h5 : (p : ℚ) ≤ 0 := by
      have := (div_le_iff₀ q0).1 h4; linarith
    exact le_antisymm (by exact_mod_cast h5) h0
  · rw [h]; norm_num; exact r_zero

variable {α : Type} [DecidableEq α]
open Prolothar.SetSimilarity (card_facts)

/-- C154: the similarities of sets as floats keep the properties of the exact ones (C10), for sets with together at most `2 ^ 53`
elements: they are symmetric, between 0.0 and 1.0, 1.0 exactly for equal sets and 0.0 exactly for disjoint sets -/
theorem C154_dice (a b : Finset α) (hb : a.card + b.card ≤ 2 ^ 53) :
    dice r53 a b = dice r53 b a ∧ ∃ r, dice r53 a b = .ok r ∧ 0 ≤ r ∧ r ≤ 1 ∧ (r = 1 ↔ a = b) ∧
      (r = 0 ↔ Disjoint a b ∧ ¬ (a = ∅ ∧ b = ∅)) := by
  obtain ⟨h1, h2, h3, h4, h5, h6, h7⟩ := card_facts a b
  refine ⟨?_, ?_⟩
  · unfold dice
    rw [Finset.inter_comm, add_comm (a.card : Int)]
    simp only [and_comm]
  · unfold dice
    by_cases h0 : a.card = 0 ∧ b.card = 0
    · have hab : a = b := by rw [h6.1 h0.1, h7.1 h0.2]
      refine ⟨1, by rw [if_pos h0], by norm_num, by norm_num, by simp [hab], ?_⟩
      simp [h6.1 h0.1, h7.1 h0.2]
    · rw [if_neg h0]
      have hpos : (0 : Int) < a.card + b.card := by omega
      obtain ⟨f1, f2, f3, f4⟩ := frac (p := 2 * (a ∩ b).card) (q := a.card + b.card) (by omega) (by omega) hpos (by omega)
      refine ⟨_, by unfold pyDiv; rw [if_neg (by omega)], f1, f2, ?_, ?_⟩
      · rw [f3]
        constructor
        · intro h
          exact Finset.Subset.antisymm (h3.1 (by omega)) (h4.1 (by omega))
        · rintro rfl; simp; omega
      · rw [f4, ← h5, ← h6, ← h7]
        constructor
        · intro h; exact ⟨by omega, h0⟩
        · rintro ⟨h, _⟩; omega

/-- C154: the same for the Jaccard index -/
theorem C154_jaccard (a b : Finset α) (hb : a.card + b.card ≤ 2 ^ 53) :
    jaccard r53 a b = jaccard r53 b a ∧ ∃ r, jaccard r53 a b = .ok r ∧ 0 ≤ r ∧ r ≤ 1 ∧ (r = 1 ↔ a = b) ∧
      (r = 0 ↔ Disjoint a b ∧ ¬ (a = ∅ ∧ b = ∅)) := by
  obtain ⟨h1, h2, h3, h4, h5, h6, h7⟩ := card_facts a b
  refine ⟨?_, ?_⟩
  · unfold jaccard
    rw [Finset.inter_comm, add_comm (a.card : Int)]
    simp only [and_comm]
  · unfold jaccard
    by_cases h0 : a.card = 0 ∧ b.card = 0
    · have hab : a = b := by rw [h6.1 h0.1, h7.1 h0.2]
      refine ⟨1, by rw [if_pos h0], by norm_num, by norm_num, by simp [hab], ?_⟩
      simp [h6.1 h0.1, h7.1 h0.2]
    · rw [if_neg h0]
      have hpos : (0 : Int) < (a.card : Int) + b.card - (a ∩ b).card := by omega
      obtain ⟨f1, f2, f3, f4⟩ := frac (p := (a ∩ b).card) (q := (a.card : Int) + b.card - (a ∩ b).card) (by omega) (by omega) hpos (by omega)
      refine ⟨_, by unfold pyDiv; rw [if_neg (by omega)], f1, f2, ?_, ?_⟩
      · rw [f3]
        constructor
        · intro h
          exact Finset.Subset.antisymm (h3.1 (by omega)) (h4.1 (by omega))
        · rintro rfl; simp
      · rw [f4, ← h5, ← h6, ← h7]
        constructor
        · intro h; exact ⟨by omega, h0⟩
        · rintro ⟨h, _⟩; omega

/-- C154: the overlap coefficient is 1.0 exactly if one set contains the other; a ZeroDivisionError is raised if exactly one set is empty -/
theorem C154_overlap (a b : Finset α) (hb : a.card + b.card ≤ 2 ^ 53) :
    overlap r53 a b = overlap r53 b a ∧
    (((a = ∅ ∧ b ≠ ∅) ∨ (a ≠ ∅ ∧ b = ∅)) → overlap r53 a b = .error .zeroDivision) ∧
    (¬ ((a = ∅ ∧ b ≠ ∅) ∨ (a ≠ ∅ ∧ b = ∅)) → ∃ r, overlap r53 a b = .ok r ∧ 0 ≤ r ∧ r ≤ 1 ∧
      (r = 1 ↔ a ⊆ b ∨ b ⊆ a) ∧ (r = 0 ↔ Disjoint a b ∧ ¬ (a = ∅ ∧ b = ∅))) := by
  obtain ⟨h1, h2, h3, h4, h5, h6, h7⟩ := card_facts a b
  refine ⟨?_, ?_, ?_⟩
  · unfold overlap
    rw [Finset.inter_comm, min_comm (a.card : Int)]
    simp only [and_comm]
  · intro h
    unfold overlap pyDiv
    rw [← h6, ← h7] at h
    rw [if_neg (by simp only [ne_eq, ← h6, ← h7] at h; omega), if_pos (by simp only [ne_eq, ← h6, ← h7] at h; omega)]
  · intro h
    unfold overlap
    by_cases h0 : a.card = 0 ∧ b.card = 0
    · have hab : a = b := by rw [h6.1 h0.1, h7.1 h0.2]
      refine ⟨1, by rw [if_pos h0], by norm_num, by norm_num, by simp [hab], ?_⟩
      simp [h6.1 h0.1, h7.1 h0.2]
    · rw [if_neg h0]
      simp only [ne_eq, ← h6, ← h7] at h
      have hpos : (0 : Int) < min (a.card : Int) b.card := by omega
      obtain ⟨f1, f2, f3, f4⟩ := frac (p := (a ∩ b).card) (q := min (a.card : Int) b.card) (by omega) (by omega) hpos (by omega)
      refine ⟨_, by unfold pyDiv; rw [if_neg (by omega)], f1, f2, ?_, ?_⟩
      · rw [f3, ← h3, ← h4]; omega
      · rw [f4, ← h5, ← h6, ← h7]
        constructor
        · intro h; exact ⟨by omega, h0⟩
        · rintro ⟨h, _⟩; omega

/-! ### discretization -/

/-- the rounded cut points -/
theorem quantiles_ok (r : ℚ → ℚ) {values : List ℚ} {n : Nat} (hn : 1 ≤ n) (hl : 2 ≤ values.length) :
    quantiles r values n = .ok ((List.range (n - 1)).map fun i =>
      cutPoint r n ((i + 1) * (values.length - 1) % n) (Data.sortedAt values ((i + 1) * (values.length - 1) / n))
        (Data.sortedAt values ((i + 1) * (values.length - 1) / n + 1))) := by
  unfold quantiles
  rw [if_neg (by omega), if_neg (by omega)]
  refine mapM_ok _ _ _ fun i hi => ?_
  rw [List.mem_range] at hi
  have hlen : (values.insertionSort fun a b => decide (a ≤ b) = true).length = values.length := List.length_insertionSort _ _
  have hj : (i + 1) * (values.length - 1) / n < values.length - 1 := by
    rw [Nat.div_lt_iff_lt_mul (by omega), Nat.mul_comm]
    exact Nat.mul_lt_mul_of_pos_left (by omega) (by omega)
  have e1 : ∀ k, k ≤ values.length - 1 → pyGet (values.insertionSort fun a b => decide (a ≤ b) = true) (k : Nat) = .ok (Data.sortedAt values k) := by
    intro k hk
    unfold Data.sortedAt
    rw [Nat.min_eq_left hk, List.getElem?_eq_getElem (by omega)]
    exact pyGet_ofNat (List.getElem?_eq_getElem (by omega))
  have e2 := e1 ((i + 1) * (values.length - 1) / n) hj.le
  have e3 := e1 ((i + 1) * (values.length - 1) / n + 1) (by omega)
  push_cast at e2 e3
  simp only [bind, Except.bind]
  push_cast
  rw [e2]
  simp only
  rw [e3]
  rfl

/-- C154: discretization with rounded cut points. Whatever the rounding is, there is one cut point less than bins, every value gets the label of a
bucket, and the bucket contains the value. -/
theorem C154_discretization (r : ℚ → ℚ) {values : List ℚ} {n : Nat} (hn : 2 ≤ n) (hl : 2 ≤ values.length) {mn mx : ℚ}
    (hb : ∀ v ∈ values, mn ≤ v ∧ v ≤ mx) :
    ∃ cuts, quantiles r values n = .ok cuts ∧ cuts.length = n - 1 ∧
      ∀ v ∈ values, ∃ b ∈ Spec.Data.buckets mn mx cuts, Data.bucketOf cuts mn mx v = .ok b ∧ Spec.Data.Contains b v := by
  refine ⟨_, quantiles_ok r (by omega) hl, by simp, fun v hv => ?_⟩
  obtain ⟨b, h1, h2, h3⟩ := Data.bucketOf_spec (cuts := (List.range (n - 1)).map fun i =>
      cutPoint r n ((i + 1) * (values.length - 1) % n) (Data.sortedAt values ((i + 1) * (values.length - 1) / n))
        (Data.sortedAt values ((i + 1) * (values.length - 1) / n + 1)))
    (by intro h; rw [List.map_eq_nil_iff, List.range_eq_nil] at h; omega) (hb v hv).1 (hb v hv).2
  exact ⟨b, h2, h1, h3⟩

theorem cutPoint_error {B x y : ℚ} {n d : Nat} (hn : 1 ≤ n) (hd : d ≤ n) (hx : |x| ≤ B) (hy : |y| ≤ B) :
    |cutPoint r53 n d x y - (x * ((n : ℚ) - d) + y * d) / n| ≤ B / 2 ^ 51 := by
  have hn' : (0 : ℚ) < n := by exact_mod_cast hn
  have hd' : (d : ℚ) ≤ n := by exact_mod_cast hd
  have hd0 : (0 : ℚ) ≤ d := Nat.cast_nonneg d
  have hB : 0 ≤ B := (abs_nonneg x).trans hx
  unfold cutPoint
  have a1 := r_err (x * ((n : ℚ) - d))
  have a2 := r_err (y * d)
  rw [abs_mul, abs_of_nonneg (sub_nonneg.2 hd')] at a1
  rw [abs_mul, abs_of_nonneg hd0] at a2
  set p := r53 (x * ((n : ℚ) - d))
  set q := r53 (y * d)
  have b1 : |x| * ((n : ℚ) - d) ≤ B * (n - d) := mul_le_mul_of_nonneg_right hx (by linarith)
  have b2 : |y| * (d : ℚ) ≤ B * d := mul_le_mul_of_nonneg_right hy hd0
  have c1 : |x * ((n : ℚ) - d)| ≤ B * (n - d) := by rw [abs_mul, abs_of_nonneg (sub_nonneg.2 hd')]; exact b1
  have c2 : |y * (d : ℚ)| ≤ B * d := by rw [abs_mul, abs_of_nonneg hd0]; exact b2
  have hBn : 0 ≤ B * n := by positivity
  rw [abs_le] at a1 a2 c1 c2
  have d1 : |p + q| ≤ B * n * (1 + 1 / 2 ^ 53) := by rw [abs_le]; constructor <;> linarith [a1.1, a1.2, a2.1, a2.2, c1.1, c1.2, c2.1, c2.2]
  have a3 := r_err (p + q)
  set s := r53 (p + q)
  have d2 : |s - (x * ((n : ℚ) - d) + y * d)| ≤ B * n * (9 / 2 ^ 55) := by
    rw [abs_le] at a3 ⊢; constructor <;> linarith [a1.1, a1.2, a2.1, a2.2, a3.1, a3.2]
  have d3 : |s| ≤ B * n * (1 + 9 / 2 ^ 55) := by
    rw [abs_le] at d2 ⊢; constructor <;> linarith [d2.1, d2.2, c1.1, c1.2, c2.1, c2.2]
  have a4 := r_err (s / n)
  have d4 : |s / n| ≤ B * (1 + 9 / 2 ^ 55) := by
    rw [abs_div, abs_of_pos hn', div_le_iff₀ hn']; linarith
  have d5 : |s / n - (x * ((n : ℚ) - d) + y * d) / n| ≤ B * (9 / 2 ^ 55) := by
    rw [← sub_div, abs_div, abs_of_pos hn', div_le_iff₀ hn']; linarith
  rw [abs_le] at a4 d5 ⊢
  constructor <;> linarith [a4.1, a4.2, d5.1, d5.2]

/-- C154: the rounded cut points differ from the quantiles of the values by a few units in the last place of the largest value -/
theorem C154_cut_error {values : List ℚ} {n : Nat} (hn : 1 ≤ n) (hl : 2 ≤ values.length) {B : ℚ} (hB : ∀ v ∈ values, |v| ≤ B) :
    ∃ cuts exact, quantiles r53 values n = .ok cuts ∧ Data.quantiles values n = .ok exact ∧ cuts.length = exact.length ∧
      ∀ (i : Nat) (c e : ℚ), cuts[i]? = some c → exact[i]? = some e → |c - e| ≤ B / 2 ^ 51 := by
  refine ⟨_, _, quantiles_ok r53 hn hl, by rw [← quantiles_exact]; exact quantiles_ok id hn hl, by simp, fun i c e hc he => ?_⟩
  rw [List.getElem?_map] at hc he
  cases hr : (List.range (n - 1))[i]? with
  | none => rw [hr] at hc; cases hc
  | some k =>
    rw [hr] at hc he
    simp only [Option.map_some, Option.some.injEq] at hc he
    subst hc he
    have hs : ∀ j, |Data.sortedAt values j| ≤ B := fun j => by
      unfold Data.sortedAt
      have hlen : (values.insertionSort fun a b => decide (a ≤ b) = true).length = values.length := List.length_insertionSort _ _
      rw [List.getElem?_eq_getElem (by omega)]
      refine hB _ ?_
      rw [Option.getD_some, ← (List.perm_insertionSort (fun a b : ℚ => decide (a ≤ b) = true) values).mem_iff]
      exact List.getElem_mem _
    exact cutPoint_error hn (Nat.mod_lt _ hn).le (hs _) (hs _)

/-- twelve values between -2.4 and 0.6 with many values 0.1 -/
def twelve : List ℚ := ([-24, -19, -14, -9, -4, 1, 1, 1, 1, 1, 1, 6] : List ℚ).map fun k => r53 (k / 10)

/-- C154: rounded cut points need not be in ascending order, and then the buckets overlap: with six bins for the values -2.4, -1.9, -1.4, -0.9,
-0.4, 0.1 (six times) and 0.6 the value 0.1 is in two different buckets -/
theorem C154_cuts_unsorted :
    (∀ v ∈ twelve, Double v) ∧ twelve.dedup.length = 7 ∧
    ∃ cuts, quantiles r53 twelve 6 = .ok cuts ∧ ¬ cuts.Pairwise (· ≤ ·) ∧
      ∃ b ∈ Spec.Data.buckets (r53 (-24 / 10)) (r53 (6 / 10)) cuts, ∃ b' ∈ Spec.Data.buckets (r53 (-24 / 10)) (r53 (6 / 10)) cuts,
        b ≠ b' ∧ Spec.Data.Contains b (r53 (1 / 10)) ∧ Spec.Data.Contains b' (r53 (1 / 10)) := by
  refine ⟨?_, by decide +kernel, ?_⟩
  · intro v hv
    unfold twelve at hv
    obtain ⟨k, -, rfl⟩ := List.mem_map.1 hv
    exact r_double _
  · have h : ∀ cuts, quantiles r53 twelve 6 = .ok cuts → cuts = ((quantiles r53 twelve 6).toOption.getD []) := fun cuts h => by rw [h]; rfl
    have hok : quantiles r53 twelve 6 = .ok ((quantiles r53 twelve 6).toOption.getD []) := by
      rw [quantiles_ok r53 (by norm_num) (by decide +kernel)]; rfl
    refine ⟨_, hok, ?_, ⟨false, ((quantiles r53 twelve 6).toOption.getD [])[1]?.getD 0, ((quantiles r53 twelve 6).toOption.getD [])[2]?.getD 0⟩, ?_,
      ⟨false, ((quantiles r53 twelve 6).toOption.getD [])[4]?.getD 0, r53 (6 / 10)⟩, ?_, ?_, ?_, ?_⟩
    · decide +kernel
    · decide +kernel
    · decide +kernel
    · decide +kernel
    · unfold Spec.Data.Contains; decide +kernel
    · unfold Spec.Data.Contains; decide +kernel

/-! ### the hypotheses are met -/

-- floats and integers
example : Sub r53 [r53 (1 / 10), 2, 7] := .inl ⟨rfl, by
  intro v hv
  simp only [List.mem_cons, List.not_mem_nil, or_false] at hv
  rcases hv with rfl | rfl | rfl
  · exact r_double _
  · exact ⟨2, 0, by norm_num, by norm_num⟩
  · exact ⟨7, 0, by norm_num, by norm_num⟩⟩
example : Sub id [3, -2, 7] := .inr ⟨rfl, by
  intro v hv
  simp only [List.mem_cons, List.not_mem_nil, or_false] at hv
  rcases hv with rfl | rfl | rfl
  · exact ⟨3, by norm_num⟩
  · exact ⟨-2, by norm_num⟩
  · exact ⟨7, by norm_num⟩⟩
-- the default target interval
example : Double 0 ∧ Double 1 ∧ Double (1 - 0) := ⟨⟨0, 0, by norm_num, by norm_num⟩, ⟨1, 0, by norm_num, by norm_num⟩, ⟨1, 0, by norm_num, by norm_num⟩⟩
example : (scaleColumn id r53 0 1 [3, -2, 8]).toOption = some [1 / 2, 0, 1] := by decide +kernel
-- the default widths
example : Double 1 ∧ Double 10 ∧ Double (10 - 1) := ⟨⟨1, 0, by norm_num, by norm_num⟩, ⟨10, 0, by norm_num, by norm_num⟩, ⟨9, 0, by norm_num, by norm_num⟩⟩
example : (edgeWidth r53 1 10 2 12 7).toOption = some (11 / 2) := by decide +kernel
-- seven traces with the proportion 0.5
example : splitIndex r53 7 (1 / 2) = 3 := by decide +kernel
example : (jaccard r53 ({1, 2, 3} : Finset Nat) {2, 3, 4}).toOption = some (1 / 2) := by decide +kernel
example : (dice r53 ({1, 2} : Finset Nat) {2, 3, 4, 5}).toOption = some (r53 (1 / 3)) := by decide +kernel
example : (quantiles r53 [5, 1, 4, 2, 3] 2).toOption = some [3] := by decide +kernel

end Prolothar.FloatOps
