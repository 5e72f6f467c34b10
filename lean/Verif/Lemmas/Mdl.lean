import Verif.Model.Mdl
import Verif.Spec.Mdl
import Mathlib.Analysis.SpecialFunctions.Log.Deriv
import Mathlib.Analysis.Complex.ExponentialBounds
import Mathlib.Data.Nat.Choose.Basic
import Mathlib.Data.Nat.Factorial.BigOperators
import Mathlib.Data.Finset.Card
import Mathlib.Algebra.BigOperators.Group.Finset.Basic
import Mathlib.Algebra.BigOperators.Group.List.Basic
import Mathlib.Tactic.FieldSimp
import Mathlib.Tactic.Linarith
import Mathlib.Tactic.Positivity
set_option linter.unusedSimpArgs false
/- Helper lemmas for `Verif/Props/Mdl.lean`. -/
namespace Prolothar.Mdl

/-- gap between a positive number and its binary logarithm -/
noncomputable def gap : ℝ := (1 + Real.log (Real.log 2)) / Real.log 2

theorem log2_pos : 0 < Real.log 2 := Real.log_pos (by norm_num)

theorem gap_pos : 0 < gap := by
  unfold gap
  apply div_pos _ log2_pos
  have h1 : (0.6931471803 : ℝ) < Real.log 2 := Real.log_two_gt_d9
  have h2 : Real.log (1 / 2) < Real.log (Real.log 2) :=
    Real.log_lt_log (by norm_num) (by linarith)
  have h3 : Real.log (1 / 2) = - Real.log 2 := by
    rw [one_div, Real.log_inv]
  have h4 : Real.log 2 < 0.6931471808 := Real.log_two_lt_d9
  linarith

theorem logb_le_sub_gap {x : ℝ} (hx : 0 < x) : Real.logb 2 x ≤ x - gap := by
  have h := Real.log_le_sub_one_of_pos (mul_pos hx log2_pos)
  rw [Real.log_mul hx.ne' log2_pos.ne'] at h
  unfold Real.logb gap
  rw [div_le_iff₀ log2_pos, sub_mul, div_mul_cancel₀ _ log2_pos.ne']
  linarith

theorem IterLogSum.total (x : ℝ) : ∃ s, IterLogSum x s := by
  have key : ∀ k : Nat, ∀ x : ℝ, x ≤ k * gap → ∃ s, IterLogSum x s := by
    intro k
    induction k with
    | zero => intro x hx; exact ⟨0, .stop (by simpa using hx)⟩
    | succ k ih =>
      intro x hx
      rcases le_or_gt x 0 with h | h
      · exact ⟨0, .stop h⟩
      · have h1 := logb_le_sub_gap h
        push_cast at hx
        obtain ⟨s, hs⟩ := ih (Real.logb 2 x) (by linarith)
        exact ⟨x + s, .step h hs⟩
  obtain ⟨k, hk⟩ := exists_nat_ge (x / gap)
  exact key k x ((div_le_iff₀ gap_pos).1 hk)

theorem IterLogSum.nonneg {x s : ℝ} (h : IterLogSum x s) : 0 ≤ s := by
  induction h with
  | stop => rfl
  | step hx _ ih => linarith

theorem IterLogSum.mono {x s y t : ℝ} (h : IterLogSum x s) (g : IterLogSum y t) (hxy : x ≤ y) :
    s ≤ t := by
  induction h generalizing y t with
  | stop => exact g.nonneg
  | step hx h1 ih =>
    cases g with
    | stop hy => linarith
    | step hy g1 =>
      have := ih g1 ((Real.logb_le_logb (by norm_num) hx hy).2 hxy)
      linarith

theorem IterLogSum.unique {x s t : ℝ} (h : IterLogSum x s) (g : IterLogSum x t) : s = t :=
  le_antisymm (h.mono g le_rfl) (g.mono h le_rfl)

theorem LNLoop_spec {x s : ℝ} (h : IterLogSum x s) :
    ∃ F, ∀ fuel, F ≤ fuel → ∀ c, LNLoop fuel c x = .ok (c + s) := by
  induction h with
  | stop hx =>
    refine ⟨1, fun fuel hf c => ?_⟩
    obtain ⟨fuel, rfl⟩ := Nat.exists_eq_succ_of_ne_zero (by omega : fuel ≠ 0)
    rw [LNLoop, if_neg (by linarith), add_zero]
  | step hx _ ih =>
    obtain ⟨F, hF⟩ := ih
    refine ⟨F + 1, fun fuel hf c => ?_⟩
    obtain ⟨fuel, rfl⟩ := Nat.exists_eq_succ_of_ne_zero (by omega : fuel ≠ 0)
    rw [LNLoop, if_pos hx, hF fuel (by omega), add_assoc]

/-- the value of `L_N` -/
theorem LNWith_nil_spec (n : Int) (hn : 1 ≤ n) :
    ∃ F s, IterLogSum (Real.logb 2 n) s ∧ ∀ fuel, F ≤ fuel →
      LNWith [] fuel n = .ok (Real.logb 2 2.8565064 + s) := by
  obtain ⟨s, hs⟩ := IterLogSum.total (Real.logb 2 n)
  obtain ⟨F, hF⟩ := LNLoop_spec hs
  refine ⟨F, s, hs, fun fuel hf => ?_⟩
  rw [LNWith, if_neg (by omega)]
  simpa using hF fuel hf _

/-- `mapM` over a list whose elements all succeed -/
theorem mapM_ok {α β : Type} (g : α → Py β) (v : α → β) (l : List α) (h : ∀ x ∈ l, g x = .ok (v x)) :
    l.mapM g = .ok (l.map v) := by
  induction l with
  | nil => rfl
  | cons x xs ih =>
    rw [List.mapM_cons, h x (by simp), ih (fun y hy => h y (by simp [hy]))]
    rfl

theorem LN_spec (n : Int) (hn : 1 ≤ n) :
    ∃ F s, IterLogSum (Real.logb 2 n) s ∧ ∀ fuel, F ≤ fuel →
      LN fuel n = .ok (Real.logb 2 2.8565064 + s) ∧ LNWith [] fuel n = .ok (Real.logb 2 2.8565064 + s) := by
  have hall : ∀ m : Nat, ∃ F s, IterLogSum (Real.logb 2 ((m : Int) + 1 : Int)) s ∧ ∀ fuel, F ≤ fuel →
      LNWith [] fuel ((m : Int) + 1) = .ok (Real.logb 2 2.8565064 + s) :=
    fun m => LNWith_nil_spec _ (by omega)
  choose F s hs hF using hall
  obtain ⟨F0, s0, hs0, hF0⟩ := LNWith_nil_spec n hn
  -- bound for the table
  have hb : ∀ k, ∃ B, ∀ m < k, F m ≤ B := by
    intro k
    induction k with
    | zero => exact ⟨0, by simp⟩
    | succ k ih =>
      obtain ⟨B, hB⟩ := ih
      refine ⟨max B (F k), fun m hm => ?_⟩
      rcases Nat.lt_or_ge m k with h | h
      · exact (hB m h).trans (le_max_left _ _)
      · have : m = k := by omega
        subst this; exact le_max_right _ _
  obtain ⟨B, hB⟩ := hb 100
  refine ⟨max B F0, s0, hs0, fun fuel hf => ?_⟩
  have hfB : B ≤ fuel := (le_max_left _ _).trans hf
  have hfF : F0 ≤ fuel := (le_max_right _ _).trans hf
  refine ⟨?_, hF0 fuel hfF⟩
  have htab : LNTable fuel = .ok ((List.range 100).map fun m => Real.logb 2 2.8565064 + s m) := by
    unfold LNTable
    refine mapM_ok _ _ _ fun m hm => ?_
    exact hF m fuel ((hB m (List.mem_range.1 hm)).trans hfB)
  unfold LN
  simp only [htab, bind, Except.bind]
  rw [LNWith, if_neg (by omega)]
  rw [List.getElem?_map]
  by_cases h : (n - 1).toNat < 100
  · rw [List.getElem?_range h]
    simp only [Option.map_some]
    have hcast : (((n - 1).toNat : Int) + 1) = n := by omega
    have := hs (n - 1).toNat
    rw [hcast] at this
    rw [this.unique hs0]
  · rw [List.getElem?_eq_none (by simpa using h)]
    simp only [Option.map_none]
    have := hF0 fuel hfF
    rw [LNWith, if_neg (by omega)] at this
    simpa using this

theorem lgamma_nat (n : Nat) : lgamma ((n : ℝ) + 1) = Real.log (n.factorial : ℝ) := by
  rw [lgamma, Real.Gamma_nat_eq_factorial, abs_of_pos (by positivity)]

theorem lgamma_succ {x : ℝ} (hx : 0 < x) : lgamma (x + 1) = Real.log x + lgamma x := by
  unfold lgamma
  have := Real.Gamma_pos_of_pos hx
  rw [Real.Gamma_add_one hx.ne', abs_of_pos (by positivity), abs_of_pos this,
    Real.log_mul hx.ne' this.ne']

theorem log2binom_nat (n k : Nat) (hk : k ≤ n) :
    log2binom n k = Real.logb 2 (n.choose k) := by
  unfold log2binom
  by_cases h0 : k = 0
  · subst h0; simp
  by_cases h1 : k = 1
  · subst h1; simp
  rw [if_neg (by exact_mod_cast h0), if_neg (by exact_mod_cast h1)]
  have e1 : (1 + ((n : Int) : ℝ) - ((k : Int) : ℝ)) = ((n - k : Nat) : ℝ) + 1 := by
    push_cast [Nat.cast_sub hk]; ring
  have e2 : (1 + ((k : Int) : ℝ)) = (k : ℝ) + 1 := by push_cast; ring
  have e3 : ((n - k : Nat) : ℝ) + 1 + ((k : ℝ) + 1) = ((n + 1 : Nat) : ℝ) + 1 := by
    push_cast [Nat.cast_sub hk]; ring
  have e4 : (((n : Int) : ℝ) + 1) = ((n + 1 : Nat) : ℝ) := by push_cast; ring
  have e5 : (n.choose k : ℝ) = (n.factorial : ℝ) / (k.factorial * (n - k).factorial) :=
    Nat.cast_choose ℝ hk
  have hn : (0 : ℝ) < n.factorial := by positivity
  have hkf : (0 : ℝ) < k.factorial := by positivity
  have hnk : (0 : ℝ) < (n - k).factorial := by positivity
  have hn1 : (0 : ℝ) < ((n + 1 : Nat) : ℝ) := by positivity
  unfold betaln Real.logb
  rw [e1, e2, e3, e4, Real.Gamma_nat_eq_factorial, Real.Gamma_nat_eq_factorial,
    Real.Gamma_nat_eq_factorial, Nat.factorial_succ, abs_of_pos (by positivity), e5]
  congr 1
  rw [Real.log_div (by positivity) (by positivity), Real.log_div (by positivity) (by positivity),
    Real.log_mul (by positivity) (by positivity), Real.log_mul (by positivity) (by positivity),
    Nat.cast_mul, Real.log_mul (by positivity) (by positivity)]
  ring

theorem exists_multinomial (ks : List Nat) :
    ∃ c, 0 < c ∧ c * (ks.map Nat.factorial).prod = ks.sum.factorial := by
  induction ks with
  | nil => exact ⟨1, by simp⟩
  | cons k ks ih =>
    obtain ⟨c, hc, h⟩ := ih
    obtain ⟨d, hd⟩ := Nat.factorial_mul_factorial_dvd_factorial_add k ks.sum
    refine ⟨d * c, ?_, ?_⟩
    · refine Nat.mul_pos (Nat.pos_of_ne_zero ?_) hc
      rintro rfl
      have := Nat.factorial_pos (k + ks.sum)
      omega
    · simp only [List.map_cons, List.prod_cons, List.sum_cons, hd, ← h]; ring

theorem foldl_sub {β : Type} (g : β → ℝ) (l : List β) : ∀ a : ℝ,
    l.foldl (fun r k => r - g k) a = a - (l.map g).sum := by
  induction l with
  | nil => intro a; simp
  | cons k l ih => intro a; simp [ih]; ring

theorem log_prod_factorial (ks : List Nat) :
    (ks.map fun k : Nat => lgamma ((k : ℝ) + 1)).sum
      = Real.log (((ks.map Nat.factorial).prod : Nat) : ℝ) := by
  induction ks with
  | nil => simp
  | cons k ks ih =>
    have h1 : ((k.factorial : Nat) : ℝ) ≠ 0 := by positivity
    have h2 : (((ks.map Nat.factorial).prod : Nat) : ℝ) ≠ 0 := by
      have : (ks.map Nat.factorial).prod ≠ 0 := by
        rw [Ne, List.prod_eq_zero_iff]
        simp [Nat.factorial_ne_zero]
      exact_mod_cast this
    rw [List.map_cons, List.sum_cons, ih, lgamma_nat, List.map_cons, List.prod_cons, Nat.cast_mul,
      Real.log_mul h1 h2]

theorem sum_update {σ : Type} (f g : σ → ℝ) (x : σ) (A : List σ) (hn : A.Nodup) (hx : x ∈ A)
    (h : ∀ a, a ≠ x → g a = f a) : (A.map g).sum = (A.map f).sum + (g x - f x) := by
  induction A with
  | nil => simp at hx
  | cons a A ih =>
    rw [List.nodup_cons] at hn
    by_cases hax : a = x
    · subst hax
      have : A.map g = A.map f := by
        apply List.map_congr_left
        intro b hb
        exact h b (by rintro rfl; exact hn.1 hb)
      simp [this]; ring
    · have hx' : x ∈ A := by
        rcases List.mem_cons.1 hx with h | h
        · exact absurd h.symm hax
        · exact h
      simp only [List.map_cons, List.sum_cons, ih hn.2 hx', h a hax]; ring

/-- potential whose increments are the code lengths -/
noncomputable def pot {σ : Type} [DecidableEq σ] (ε : ℝ) (A : List σ) (seen : List σ) : ℝ :=
  lgamma (ε * A.length + seen.length) - (A.map fun a => lgamma (ε + (seen.count a : ℝ))).sum

theorem pot_step {σ : Type} [DecidableEq σ] (ε : ℝ) (hε : 0 < ε) (A : List σ) (hn : A.Nodup)
    (seen : List σ) (x : σ) (hx : x ∈ A) :
    pot ε A (seen ++ [x]) = pot ε A seen - Real.log (predictive ε A.length seen x) := by
  have hA : (0 : ℝ) < A.length := by exact_mod_cast List.length_pos_iff.2 (List.ne_nil_of_mem hx)
  have hs : (0 : ℝ) ≤ seen.length := Nat.cast_nonneg _
  have hc : (0 : ℝ) ≤ seen.count x := Nat.cast_nonneg _
  have hp1 : 0 < ε * A.length + seen.length := by positivity
  have hp2 : 0 < ε + (seen.count x : ℝ) := by positivity
  have hsum := sum_update (fun a => lgamma (ε + (seen.count a : ℝ)))
    (fun a => lgamma (ε + ((seen ++ [x]).count a : ℝ))) x A hn hx (by
      intro a ha
      simp [List.count_append, List.count_singleton, Ne.symm ha])
  unfold pot
  rw [hsum]
  have e1 : ε * (A.length : ℝ) + ((seen ++ [x]).length : ℝ) = (ε * A.length + seen.length) + 1 := by
    simp; ring
  have e2 : ε + (((seen ++ [x]).count x : Nat) : ℝ) = (ε + (seen.count x : ℝ)) + 1 := by
    simp [List.count_append]; ring
  simp only [e1, e2, lgamma_succ hp1, lgamma_succ hp2]
  unfold predictive
  rw [Real.log_div (by linarith) (by linarith), add_comm (seen.count x : ℝ) ε,
    add_comm (seen.length : ℝ)]
  ring

theorem sequentialBits_eq {σ : Type} [DecidableEq σ] (ε : ℝ) (hε : 0 < ε) (A : List σ)
    (hn : A.Nodup) (rest : List σ) (hx : ∀ x ∈ rest, x ∈ A) : ∀ seen,
    sequentialBits ε A.length seen rest = (pot ε A (seen ++ rest) - pot ε A seen) / Real.log 2 := by
  induction rest with
  | nil => intro seen; simp [sequentialBits]
  | cons x rest ih =>
    intro seen
    rw [sequentialBits, ih (fun y hy => hx y (by simp [hy])), pot_step ε hε A hn seen x (hx x (by simp)),
      Real.logb]
    rw [List.append_assoc, List.singleton_append]
    ring

theorem sum_counts {σ : Type} [DecidableEq σ] (A : List σ) (hn : A.Nodup) (xs : List σ)
    (hx : ∀ x ∈ xs, x ∈ A) : (A.map fun a => xs.count a).sum = xs.length := by
  induction xs with
  | nil => simp
  | cons x xs ih =>
    have hA := hx x (by simp)
    have h1 := ih (fun y hy => hx y (by simp [hy]))
    have : ∀ (B : List σ), B.Nodup → (B.map fun a => (x :: xs).count a).sum
        = (B.map fun a => xs.count a).sum + if x ∈ B then 1 else 0 := by
      intro B hB
      induction B with
      | nil => simp
      | cons b B ihB =>
        rw [List.nodup_cons] at hB
        rw [List.map_cons, List.sum_cons, ihB hB.2, List.map_cons, List.sum_cons, List.count_cons]
        simp only [List.mem_cons]
        by_cases hxb : x = b
        · subst hxb; simp [hB.1]; omega
        · simp [hxb]; omega
    rw [this A hn, h1, if_pos hA]; simp

theorem predictive_le_one {σ : Type} [DecidableEq σ] (ε : ℝ) (hε : 0 < ε) (m : Nat) (hm : 1 ≤ m)
    (seen : List σ) (x : σ) : 0 < predictive ε m seen x ∧ predictive ε m seen x ≤ 1 := by
  have h1 : (seen.count x : ℝ) ≤ seen.length := by exact_mod_cast List.count_le_length
  have h2 : (0 : ℝ) ≤ seen.count x := Nat.cast_nonneg _
  have h3 : (1 : ℝ) ≤ m := by exact_mod_cast hm
  have h4 : ε ≤ ε * m := le_mul_of_one_le_right hε.le h3
  unfold predictive
  refine ⟨div_pos (by linarith) (by linarith), (div_le_one (by linarith)).2 (by linarith)⟩

theorem compositions (n m : Nat) (h1 : 1 ≤ n) (h2 : n ≤ m) :
    ∃ S : Finset (List Nat), (∀ l, l ∈ S ↔ IsComposition m n l) ∧ S.card = (m - 1).choose (n - 1) := by
  have key : ∀ m n, ∃ S : Finset (List Nat), (∀ l, l ∈ S ↔ IsComposition (m + 1) (n + 1) l) ∧
      S.card = m.choose n := by
    intro m
    induction m with
    | zero =>
      intro n
      cases n with
      | zero =>
        refine ⟨{[1]}, fun l => ?_, rfl⟩
        rw [Finset.mem_singleton, IsComposition]
        constructor
        · rintro rfl; simp
        · rintro ⟨h1, h2, h3⟩
          obtain ⟨a, rfl⟩ := List.length_eq_one_iff.1 h1
          simpa using h3
      | succ n =>
        refine ⟨∅, fun l => ?_, rfl⟩
        simp only [Finset.notMem_empty, false_iff]
        rintro ⟨h1, h2, h3⟩
        match l, h1 with
        | a :: b :: l, _ =>
          have := h2 a (by simp)
          have := h2 b (by simp)
          simp at h3; omega
    | succ m ih =>
      intro n
      -- compositions whose head can be decremented
      obtain ⟨S1, hS1, hc1⟩ := ih n
      let inc : List Nat → List Nat := fun l => match l with | [] => [] | a :: t => (a + 1) :: t
      have hinc : Function.Injective inc := by
        intro l l' h
        cases l <;> cases l' <;> simp_all [inc]
      have hmem1 : ∀ l, l ∈ S1.image inc ↔
          IsComposition (m + 2) (n + 1) l ∧ ∃ a t, l = a :: t ∧ 2 ≤ a := by
        intro l
        rw [Finset.mem_image]
        constructor
        · rintro ⟨l', hl', rfl⟩
          obtain ⟨g1, g2, g3⟩ := (hS1 l').1 hl'
          match l', g1 with
          | a :: t, g1 =>
            have := g2 a (by simp)
            refine ⟨⟨by simpa [inc] using g1, ?_, by simp [inc] at g3 ⊢; omega⟩, a + 1, t, rfl, by omega⟩
            intro x hx
            rcases List.mem_cons.1 hx with rfl | hx
            · omega
            · exact g2 x (by simp [hx])
        · rintro ⟨⟨g1, g2, g3⟩, a, t, rfl, ha⟩
          refine ⟨(a - 1) :: t, (hS1 _).2 ⟨by simpa using g1, ?_, by simp at g3 ⊢; omega⟩, ?_⟩
          · intro x hx
            rcases List.mem_cons.1 hx with rfl | hx
            · omega
            · exact g2 x (by simp [hx])
          · simp only [inc]; congr 1; omega
      cases n with
      | zero =>
        refine ⟨S1.image inc, fun l => ?_, ?_⟩
        · rw [hmem1]
          constructor
          · exact fun h => h.1
          · rintro ⟨g1, g2, g3⟩
            refine ⟨⟨g1, g2, g3⟩, ?_⟩
            obtain ⟨a, rfl⟩ := List.length_eq_one_iff.1 g1
            exact ⟨a, [], rfl, by simp at g3; omega⟩
        · rw [Finset.card_image_of_injective _ hinc, hc1]; simp
      | succ n =>
        obtain ⟨S2, hS2, hc2⟩ := ih n
        have hcons : Function.Injective (List.cons 1) := fun l l' h => (List.cons.inj h).2
        refine ⟨S2.image (List.cons 1) ∪ S1.image inc, fun l => ?_, ?_⟩
        · rw [Finset.mem_union, hmem1, Finset.mem_image]
          constructor
          · rintro (⟨t, ht, rfl⟩ | h)
            · obtain ⟨g1, g2, g3⟩ := (hS2 t).1 ht
              exact ⟨by simpa using g1, by simpa using g2, by simp; omega⟩
            · exact h.1
          · rintro ⟨g1, g2, g3⟩
            match l, g1 with
            | a :: t, g1 =>
              by_cases ha : a = 1
              · subst ha
                left
                exact ⟨t, (hS2 t).2 ⟨by simpa using g1, fun x hx => g2 x (by simp [hx]), by simp at g3; omega⟩, rfl⟩
              · right
                have := g2 a (by simp)
                exact ⟨⟨g1, g2, g3⟩, a, t, rfl, by omega⟩
        · rw [Finset.card_union_of_disjoint, Finset.card_image_of_injective _ hinc,
            Finset.card_image_of_injective _ hcons, hc1, hc2, Nat.choose_succ_succ]
          rw [Finset.disjoint_left]
          intro l hl1 hl2
          obtain ⟨t, _, rfl⟩ := Finset.mem_image.1 hl1
          obtain ⟨_, a, t', h, ha⟩ := (hmem1 _).1 hl2
          have := (List.cons.inj h).1
          omega
  obtain ⟨S, h3, h4⟩ := key (m - 1) (n - 1)
  refine ⟨S, ?_, h4⟩
  have e1 : m - 1 + 1 = m := by omega
  have e2 : n - 1 + 1 = n := by omega
  rwa [e1, e2] at h3

end Prolothar.Mdl
