import Verif.Model.Utils
import Verif.Spec.Utils
import Mathlib.Tactic.Linarith
import Mathlib.Tactic.NormNum
import Mathlib.Tactic.Positivity
import Mathlib.Order.Basic
/-
BufferingChoice, C132, and small utilities, C133.
-/
namespace Prolothar.Utils
open Prolothar.Spec.Utils

/-! ### BufferingChoice -/

section
variable {α G : Type}

/-- C132: the constructor raises ValueError unless there is one probability per option and the buffer size is at least 1. -/
theorem C132_constructor (options : List α) (nProbs : Nat) (size : Int) (rng : G) :
    (options.length = nProbs ∧ 1 ≤ size → newChoice options nProbs size rng = .ok ⟨options, size, rng, []⟩) ∧
    (¬ (options.length = nProbs ∧ 1 ≤ size) → newChoice options nProbs size rng = .error .value) := by
  unfold newChoice
  constructor
  · rintro ⟨h1, h2⟩
    rw [if_neg (by simpa using h1), if_neg (by omega)]
  · intro h
    by_cases h1 : options.length = nProbs
    · rw [if_neg (by simpa using h1), if_pos (by omega)]
    · rw [if_pos h1]

theorem concat_shift (B : Nat → List α) (m : Nat) : concat B (m + 1) = B 0 ++ concat (fun i => B (i + 1)) m := by
  induction m with
  | zero => simp [concat]
  | succ m ih =>
    rw [concat, ih, List.append_assoc]
    rfl

theorem samples_ok (choice : List α → Int → G → Py (List α × G)) (options : List α) (size : Nat) (hs : 1 ≤ size) (n m : Nat)
    (B : Nat → List α) (r : Nat → G) (hr : ∀ k, choice options size (r k) = .ok (B k, r (k + 1))) (hB : ∀ k, (B k).length = size)
    (b : List α) (hn : n ≤ b.length + m * size) :
    ∃ b', samples choice n ⟨options, size, r 0, b⟩ =
      (.ok ((b ++ concat B m).take n), ⟨options, size, r ((n - b.length + (size - 1)) / size), b'⟩) := by
  induction n generalizing m B r b with
  | zero =>
    refine ⟨b, ?_⟩
    rw [samples, Nat.zero_sub, Nat.zero_add, Nat.div_eq_of_lt (by omega)]
    rfl
  | succ n ih =>
    cases b with
    | cons x rest =>
      obtain ⟨b', h⟩ := ih m B r hr hB rest (by simp only [List.length_cons] at hn; omega)
      refine ⟨b', ?_⟩
      simp only [samples, nextSample, h, List.length_cons, List.cons_append, List.take_succ_cons, Nat.add_sub_add_right]
    | nil =>
      cases m with
      | zero => simp at hn
      | succ m =>
        have h0 := hB 0
        cases hb : B 0 with
        | nil => rw [hb] at h0; simp at h0; omega
        | cons x rest =>
          rw [hb] at h0
          simp only [List.length_cons] at h0
          obtain ⟨b', h⟩ := ih m (fun i => B (i + 1)) (fun i => r (i + 1)) (fun k => hr (k + 1)) (fun k => hB (k + 1)) rest (by
            simp only [List.length_nil, Nat.zero_add, Nat.add_mul, Nat.one_mul] at hn
            omega)
          refine ⟨b', ?_⟩
          have hc := hr 0
          rw [hb] at hc
          simp only [samples, nextSample, hc, h, concat_shift, hb, List.nil_append, List.cons_append, List.take_succ_cons, Prod.mk.injEq, true_and,
            Choice.mk.injEq, and_true, List.length_nil, Nat.sub_zero]
          congr 1
          rw [show n + 1 + (size - 1) = n + size by omega, Nat.add_div_right _ (by omega)]
          congr 1
          by_cases hlt : n ≤ rest.length
          · rw [Nat.sub_eq_zero_of_le hlt, Nat.zero_add, Nat.div_eq_of_lt (by omega), Nat.div_eq_of_lt (by omega)]
          · rw [show n - rest.length + (size - 1) = n by omega]

/-- C132: let `B 0`, `B 1`, ... be the batches that the generator returns one after the other. Then the first `n` samples are
the first `n` elements of their concatenation: no sample is lost or repeated at the boundaries of the buffer. Only as many
batches are drawn as are needed. -/
theorem C132_stream (choice : List α → Int → G → Py (List α × G)) (options : List α) (nProbs size : Nat) (rng : G) (c : Choice α G)
    (hc : newChoice options nProbs size rng = .ok c) (B : Nat → List α) (r : Nat → G) (h0 : r 0 = rng)
    (hr : ∀ k, choice options size (r k) = .ok (B k, r (k + 1))) (hB : ∀ k, (B k).length = size) (n m : Nat) (hn : n ≤ m * size) :
    (samples choice n c).1 = .ok ((concat B m).take n) ∧ (samples choice n c).2.rng = r ((n + (size - 1)) / size) := by
  by_cases hs : options.length = nProbs ∧ (1 : Int) ≤ size
  · rw [(C132_constructor options nProbs size rng).1 hs] at hc
    cases hc
    subst h0
    obtain ⟨b', h⟩ := samples_ok choice options size (by omega) n m B r hr hB [] (by simpa using hn)
    rw [h]
    exact ⟨by simp, by simp⟩
  · rw [(C132_constructor options nProbs size rng).2 hs] at hc
    cases hc

/-- the buffer holds options only -/
def Clean (c : Choice α G) : Prop := ∀ x ∈ c.buffer, x ∈ c.options

theorem nextSample_clean (choice : List α → Int → G → Py (List α × G)) (hm : ∀ o s g b g', choice o s g = .ok (b, g') → ∀ x ∈ b, x ∈ o)
    (c : Choice α G) (h : Clean c) : Clean (nextSample choice c).2 ∧ (nextSample choice c).2.options = c.options ∧
      ∀ x, (nextSample choice c).1 = .ok x → x ∈ c.options := by
  obtain ⟨o, s, g, b⟩ := c
  cases b with
  | cons y rest =>
    refine ⟨fun x hx => h x (List.mem_cons_of_mem _ hx), rfl, fun x hx => ?_⟩
    cases hx
    exact h y List.mem_cons_self
  | nil =>
    simp only [nextSample]
    cases hc : choice o s g with
    | error e => exact ⟨h, rfl, fun x hx => by cases hx⟩
    | ok p =>
      obtain ⟨batch, g'⟩ := p
      have hb := hm o s g batch g' hc
      cases batch with
      | nil => exact ⟨h, rfl, fun x hx => by cases hx⟩
      | cons y rest =>
        refine ⟨fun x hx => hb x (List.mem_cons_of_mem _ hx), rfl, fun x hx => ?_⟩
        cases hx
        exact hb y List.mem_cons_self

/-- C132: every sample is one of the options. -/
theorem C132_options (choice : List α → Int → G → Py (List α × G)) (hm : ∀ o s g b g', choice o s g = .ok (b, g') → ∀ x ∈ b, x ∈ o)
    (options : List α) (nProbs : Nat) (size : Int) (rng : G) (c : Choice α G) (hc : newChoice options nProbs size rng = .ok c) (n : Nat)
    (xs : List α) (hx : (samples choice n c).1 = .ok xs) : ∀ x ∈ xs, x ∈ options := by
  have key : ∀ n (c : Choice α G), Clean c → ∀ xs, (samples choice n c).1 = .ok xs → ∀ x ∈ xs, x ∈ c.options := by
    intro n
    induction n with
    | zero => intro c _ xs hx; cases hx; simp
    | succ n ih =>
      intro c h xs hx
      obtain ⟨h1, h2, h3⟩ := nextSample_clean choice hm c h
      rw [samples] at hx
      split at hx
      · cases hx
      · rename_i y c' hy
        rw [hy] at h1 h2 h3
        split at hx
        · cases hx
        · rename_i ys c'' hys
          cases hx
          intro x hx
          rcases List.mem_cons.1 hx with rfl | hx
          · exact h3 _ rfl
          · have := ih c' h1 ys (by rw [hys]) x hx
            rwa [h2] at this
  have hco : c.options = options ∧ Clean c := by
    by_cases hs : options.length = nProbs ∧ 1 ≤ size
    · rw [(C132_constructor options nProbs size rng).1 hs] at hc
      cases hc
      exact ⟨rfl, fun x hx => by cases hx⟩
    · rw [(C132_constructor options nProbs size rng).2 hs] at hc
      cases hc
  rw [← hco.1]
  exact key n c hco.2 xs hx

/-- C132: if the generator refuses to draw (for example because the probabilities do not sum up to 1), then the call raises its
exception and leaves the object as it was; the constructor does not notice. -/
theorem C132_generator_error (choice : List α → Int → G → Py (List α × G)) (options : List α) (nProbs : Nat) (size : Int) (rng : G) (c : Choice α G)
    (hc : newChoice options nProbs size rng = .ok c) (e : PyErr) (he : choice options size rng = .error e) :
    nextSample choice c = (.error e, c) := by
  by_cases hs : options.length = nProbs ∧ 1 ≤ size
  · rw [(C132_constructor options nProbs size rng).1 hs] at hc
    cases hc
    simp only [nextSample, he]
  · rw [(C132_constructor options nProbs size rng).2 hs] at hc
    cases hc

/-- a generator that counts: the k-th batch is [2k, 2k+1] -/
example : (samples (fun (_ : List Nat) _ (g : Nat) => .ok ([2 * g, 2 * g + 1], g + 1)) 5 ⟨[], 2, 0, []⟩).1 = .ok [0, 1, 2, 3, 4] := by decide

end

/-! ### Min -/

section
variable {α : Type} [LinearOrder α]

/-- C133: `Min` extends the order of the values it is compared with to a total order with `Min` as its smallest element; the
six comparison operators agree with each other; but `Min` cannot be hashed. -/
theorem C133_min (a b c : WithMin α) (hash : α → Int) :
    (leM .min a = true) ∧ (leM a .min = true ↔ a = .min) ∧ (∀ x y : α, leM (.val x) (.val y) = decide (x ≤ y)) ∧
    (leM a a = true) ∧ (leM a b = true → leM b a = true → a = b) ∧ (leM a b = true → leM b c = true → leM a c = true) ∧
    (leM a b = true ∨ leM b a = true) ∧ (eqMin a b = true ↔ a = b) ∧
    (ltM a b = true ↔ leM a b = true ∧ a ≠ b) ∧ (gtM a b = true ↔ ltM b a = true) ∧ (geM a b = true ↔ leM b a = true) ∧
    hashM hash (.min : WithMin α) = .error .type := by
  refine ⟨?_, ?_, ?_, ?_, ?_, ?_, ?_, ?_, ?_, ?_, ?_, rfl⟩
  · cases a <;> rfl
  · cases a <;> simp [leM, minLe, minGe, eqMin]
  · intro x y; rfl
  · cases a <;> simp [leM, minLe]
  · cases a <;> cases b <;> simp [leM, minLe, minGe, eqMin]
    exact fun h1 h2 => le_antisymm h1 h2
  · cases a <;> cases b <;> cases c <;> simp [leM, minLe, minGe, eqMin]
    exact fun h1 h2 => le_trans h1 h2
  · cases a <;> cases b <;> simp [leM, minLe, minGe, eqMin]
    exact le_total _ _
  · cases a <;> cases b <;> simp [eqMin]
  · cases a <;> cases b <;> simp [ltM, leM, minLt, minGt, minLe, minGe, eqMin, lt_iff_le_and_ne]
  · cases a <;> cases b <;> simp [ltM, gtM, minLt, minGt, minLe, eqMin]
  · cases a <;> cases b <;> simp [geM, leM, minLe, minGe, eqMin]

end

/-! ### colors -/

/-- C133: a gray color is light iff its value is above 127.5, and making a light color brighter in any of the three channels
keeps it light; the answer is one of the two words. -/
theorem C133_colors :
    (∀ v : ℝ, 0 ≤ v → (lightOrDark [v, v, v] = .ok "light" ↔ 127.5 < v)) ∧
    (∀ r g b r' g' b' : ℝ, 0 ≤ r → 0 ≤ g → 0 ≤ b → r ≤ r' → g ≤ g' → b ≤ b' → lightOrDark [r, g, b] = .ok "light" →
      lightOrDark [r', g', b'] = .ok "light") ∧
    (∀ r g b : ℝ, lightOrDark [r, g, b] = .ok "light" ∨ lightOrDark [r, g, b] = .ok "dark") ∧
    ∀ l : List ℝ, l.length ≠ 3 → lightOrDark l = .error .value := by
  have key : ∀ r g b : ℝ, lightOrDark [r, g, b] = .ok "light" ↔ 127.5 < hsp r g b := by
    intro r g b
    simp only [lightOrDark]
    split
    · rename_i h; simp [h]
    · rename_i h; simp [h]
  refine ⟨fun v hv => ?_, fun r g b r' g' b' hr hg hb h1 h2 h3 h => ?_, fun r g b => ?_, fun l hl => ?_⟩
  · rw [key]
    have : hsp v v v = v := by
      unfold hsp
      rw [show 0.299 * (v * v) + 0.587 * (v * v) + 0.114 * (v * v) = v * v by ring]
      exact Real.sqrt_mul_self hv
    rw [this]
  · rw [key] at h ⊢
    refine lt_of_lt_of_le h ?_
    unfold hsp
    apply Real.sqrt_le_sqrt
    have a1 := mul_le_mul h1 h1 hr (by linarith)
    have a2 := mul_le_mul h2 h2 hg (by linarith)
    have a3 := mul_le_mul h3 h3 hb (by linarith)
    linarith
  · simp only [lightOrDark]
    split
    · exact .inl rfl
    · exact .inr rfl
  · unfold lightOrDark
    split
    · simp at hl
    · rfl

/-! ### progress bar -/

/-- C133: for an iteration between 0 and the total, the bar has exactly the given length: first as many fill characters as the
progress allows, then dashes; it is full iff the iteration is the last one or the length is 0; a new line follows the last
iteration only. An iteration beyond the total makes the bar longer than the given length; a total of 0 raises
ZeroDivisionError. -/
theorem C133_progress_bar (iteration total length : Int) (fill : Char) :
    (0 < total → 0 ≤ iteration → iteration ≤ total → 0 ≤ length → ∃ k : Nat, (k : Int) ≤ length ∧
      (k : Int) * total ≤ length * iteration ∧ length * iteration < ((k : Int) + 1) * total ∧
      progressBar iteration total length fill =
        .ok (100 * ((iteration : ℚ) / total), List.replicate k fill ++ List.replicate (length.toNat - k) '-', decide (iteration = total)) ∧
      ((k : Int) = length ↔ iteration = total ∨ length = 0)) ∧
    (0 < total → total ≤ iteration → 0 ≤ length → ∃ k : Nat, length ≤ k ∧ ∃ p nl, progressBar iteration total length fill = .ok (p, List.replicate k fill, nl)) ∧
    (total = 0 → progressBar iteration total length fill = .error .zeroDivision) := by
  have hfl : 0 < total → ⌊((length * iteration : Int) : ℚ) / (total : ℚ)⌋ = (length * iteration) / total := by
    intro ht
    rw [Int.floor_div_cast_of_nonneg ht.le, Int.floor_intCast]
  refine ⟨fun ht hi hit hl => ?_, fun ht hi hl => ?_, fun ht => by simp [progressBar, ht]⟩
  · have hnn : 0 ≤ length * iteration := mul_nonneg hl hi
    have hd0 : 0 ≤ (length * iteration) / total := Int.ediv_nonneg hnn ht.le
    have hle : (length * iteration) / total ≤ length := by
      apply Int.ediv_le_of_le_mul ht
      exact mul_le_mul_of_nonneg_left hit hl
    have hk : (((length * iteration) / total).toNat : Int) = (length * iteration) / total := Int.toNat_of_nonneg hd0
    have h1 := Int.ediv_mul_le (length * iteration) (ne_of_gt ht)
    have h2 := Int.lt_ediv_add_one_mul_self (length * iteration) ht
    refine ⟨((length * iteration) / total).toNat, by omega, by rw [hk]; exact h1, by rw [hk]; exact h2, ?_, ?_⟩
    · unfold progressBar
      rw [if_neg (ne_of_gt ht)]
      simp only [hfl ht, rep]
      congr 5
      omega
    · rw [hk]
      constructor
      · intro e
        rw [e] at h1
        by_cases h0 : length = 0
        · exact .inr h0
        · left
          have : total ≤ iteration := by
            have hpos : 0 < length := by omega
            exact le_of_mul_le_mul_left h1 hpos
          omega
      · rintro (rfl | rfl)
        · exact Int.mul_ediv_cancel _ (ne_of_gt ht)
        · simp
  · have hge : length ≤ (length * iteration) / total := by
      apply (Int.le_ediv_iff_mul_le ht).2
      exact mul_le_mul_of_nonneg_left hi hl
    refine ⟨((length * iteration) / total).toNat, by omega, 100 * ((iteration : ℚ) / total), decide (iteration = total), ?_⟩
    unfold progressBar
    rw [if_neg (ne_of_gt ht)]
    simp only [hfl ht, rep]
    congr 3
    rw [Int.toNat_of_nonpos (by omega : length - length * iteration / total ≤ 0)]
    simp

example : progressBar 3 7 5 '#' = .ok (300 / 7, "##---".toList, false) := by decide +kernel
example : progressBar 9 6 4 '#' = .ok (150, "######".toList, false) := by decide +kernel

/-! ### stopwatch -/

/-- C133: the elapsed time is the time since the last start; asking a stopwatch that was never started raises AttributeError.
It is negative if the system clock was set back in between. -/
theorem C133_stopwatch (starts : List Int) (now : Int) :
    elapsed (starts.foldl startWatch newWatch) now = match starts.getLast? with | some t => .ok (now - t) | none => .error .attribute := by
  induction starts using List.reverseRecOn with
  | nil => rfl
  | append_singleton l t _ => simp [startWatch, elapsed]

example : elapsed (startWatch newWatch 10) 7 = .ok (-3) := rfl

end Prolothar.Utils
