import Verif.Model.Plots
import Verif.Spec.Plots
import Mathlib.Tactic.Linarith
import Mathlib.Data.List.Induction
import Mathlib.Data.List.Sublists
/-
Data of plots, C136.
-/
namespace Prolothar.Plots
open Prolothar.Spec.Plots
open scoped List

/-! ### bars -/

section
variable {α : Type} [LinearOrder α]

theorem counter_snoc (l : List α) (v : α) : counter (l ++ [v]) = countStep (counter l) v := by
  unfold counter; rw [List.foldl_append]; rfl

theorem keys_put_eq (d : Dict α Nat) (k : α) (n : Nat) : (d.put k n).keys = if k ∈ d.keys then d.keys else d.keys ++ [k] := by
  induction d with
  | nil => simp [Dict.put, Dict.keys]
  | cons p d ih =>
    obtain ⟨k', v'⟩ := p
    simp only [Dict.put]
    by_cases h : k' = k
    · subst h; simp [Dict.keys]
    · simp only [h, if_false]
      have ih' : List.map Prod.fst (Dict.put d k n) = if k ∈ List.map Prod.fst d then List.map Prod.fst d else List.map Prod.fst d ++ [k] := ih
      simp only [Dict.keys, List.map_cons, ih', List.mem_cons, Ne.symm h, false_or]
      split <;> rfl

theorem counter_spec (values : List α) :
    (counter values).keys.Nodup ∧ (∀ v, v ∈ (counter values).keys ↔ v ∈ values) ∧
    (∀ v, ((counter values).get? v).getD 0 = values.count v) ∧
    (counter values).keys.Pairwise (fun a b => values.idxOf a < values.idxOf b) := by
  induction values using List.reverseRecOn with
  | nil => simp [counter, Dict.keys, Dict.get?]
  | append_singleton l v ih =>
    obtain ⟨h1, h2, h3, h4⟩ := ih
    have hidx : ∀ a ∈ l, (l ++ [v]).idxOf a = l.idxOf a := fun a ha => List.idxOf_append_of_mem ha
    have h4' : (counter l).keys.Pairwise (fun a b => (l ++ [v]).idxOf a < (l ++ [v]).idxOf b) :=
      h4.imp_of_mem fun {a b} ha hb h => by rw [hidx a ((h2 a).1 ha), hidx b ((h2 b).1 hb)]; exact h
    rw [counter_snoc]
    unfold countStep
    refine ⟨?_, fun w => ?_, fun w => ?_, ?_⟩
    · rw [keys_put_eq]
      split
      · exact h1
      · rename_i hv
        exact List.nodup_append.2 ⟨h1, by simp, by
          rintro a ha b hb rfl
          rw [List.mem_singleton] at hb
          exact hv (hb ▸ ha)⟩
    · rw [keys_put_eq]
      split
      · rename_i hv
        rw [h2, List.mem_append, List.mem_singleton]
        constructor
        · exact .inl
        · rintro (h | rfl)
          · exact h
          · exact (h2 w).1 hv
      · rw [List.mem_append, List.mem_append, h2]
    · rw [Dict.get?_put, List.count_append, List.count_singleton]
      by_cases hw : v = w
      · subst hw; simp [h3]
      · simp [hw, h3]
    · rw [keys_put_eq]
      split
      · exact h4'
      · rename_i hv
        refine List.pairwise_append.2 ⟨h4', by simp, fun a ha b hb => ?_⟩
        rw [List.mem_singleton] at hb
        subst hb
        have hal := (h2 a).1 ha
        have hbl : b ∉ l := fun h => hv ((h2 b).2 h)
        rw [hidx a hal, List.idxOf_append_of_notMem hbl]
        have := List.idxOf_lt_length_of_mem hal
        omega

theorem entry_count {values : List α} {b : α × Nat} (hb : b ∈ counter values) : b.2 = values.count b.1 := by
  obtain ⟨h1, _, h3, _⟩ := counter_spec values
  have := h3 b.1
  rw [Dict.get?_of_mem h1 (k := b.1) (v := b.2) hb] at this
  exact this

/-- a stable sort of the entries of the counter -/
theorem sorted_bars (values : List α) (le : α × Nat → α × Nat → Bool) (htrans : ∀ a b c, le a b = true → le b c = true → le a c = true)
    (htotal : ∀ a b, (le a b || le b a) = true) :
    (((counter values).mergeSort le).map Prod.fst).Nodup ∧ (∀ v, v ∈ ((counter values).mergeSort le).map Prod.fst ↔ v ∈ values) ∧
    (∀ b ∈ (counter values).mergeSort le, b.2 = values.count b.1) ∧
    ((counter values).mergeSort le).Pairwise fun a b => le a b = true ∧ a.1 ≠ b.1 ∧ (le b a = true → values.idxOf a.1 < values.idxOf b.1) := by
  obtain ⟨h1, h2, h3, h4⟩ := counter_spec values
  have hp : ((counter values).mergeSort le).Perm (counter values) := List.mergeSort_perm _ _
  have hnd : (((counter values).mergeSort le).map Prod.fst).Nodup := (hp.map _).nodup_iff.2 h1
  refine ⟨hnd, fun v => ?_, fun b hb => entry_count (hp.mem_iff.1 hb), ?_⟩
  · rw [(hp.map Prod.fst).mem_iff]; exact h2 v
  · have hs := List.pairwise_mergeSort htrans htotal (counter values)
    rw [List.pairwise_iff_forall_sublist] at hs ⊢
    intro a b hab
    have hne : a.1 ≠ b.1 := by
      have := (hab.map Prod.fst).nodup hnd
      simpa using this
    refine ⟨hs hab, hne, fun hba => ?_⟩
    have hma : a ∈ counter values := hp.mem_iff.1 (hab.subset (by simp))
    have hmb : b ∈ counter values := hp.mem_iff.1 (hab.subset (by simp))
    by_contra hlt
    -- otherwise `b` comes before `a` in the counter, hence in the sorted list
    have hba' : [b, a] <+ counter values := by
      have key : ∀ (l : List (α × Nat)), a ∈ l → b ∈ l → (l.map Prod.fst).Pairwise (fun x y => values.idxOf x < values.idxOf y) → [b, a] <+ l := by
        intro l
        induction l with
        | nil => intro h; cases h
        | cons x l ih =>
          intro ha hb hpw
          rw [List.map_cons, List.pairwise_cons] at hpw
          rcases List.mem_cons.1 hb with rfl | hb'
          · rcases List.mem_cons.1 ha with rfl | ha'
            · exact absurd rfl hne
            · exact List.Sublist.cons_cons _ (List.singleton_sublist.2 ha')
          · rcases List.mem_cons.1 ha with rfl | ha'
            · exact absurd (hpw.1 b.1 (List.mem_map_of_mem hb')) hlt
            · exact (ih ha' hb' hpw.2).cons _
      exact key _ hma hmb h4
    have h5 := List.pair_sublist_mergeSort htrans htotal hba hba'
    -- both orders are impossible in a list without duplicates
    have h6 : ∀ (l : List (α × Nat)), (l.map Prod.fst).Nodup → [a, b] <+ l → [b, a] <+ l → False := by
      intro l
      induction l with
      | nil => intro _ h; simp at h
      | cons x l ih =>
        intro hn ha hb
        rw [List.map_cons, List.nodup_cons] at hn
        cases ha with
        | cons _ ha =>
          cases hb with
          | cons _ hb => exact ih hn.2 ha hb
          | cons_cons _ hb => exact hn.1 (List.mem_map_of_mem (ha.subset (by simp)))
        | cons_cons _ ha =>
          cases hb with
          | cons _ hb => exact hn.1 (List.mem_map_of_mem (hb.subset (by simp)))
          | cons_cons _ hb => exact hne rfl
    exact h6 _ hnd hab h5

omit [LinearOrder α] in
theorem unzipPy_ok {items : List (α × Nat)} (h : items ≠ []) : unzipPy items = .ok (items.map Prod.fst, items.map Prod.snd) := by
  cases items with
  | nil => exact absurd rfl h
  | cons x l => rfl

theorem sorted_ne {values : List α} (hv : values ≠ []) (le : α × Nat → α × Nat → Bool) : (counter values).mergeSort le ≠ [] := by
  intro he
  obtain ⟨_, h2, _⟩ := counter_spec values
  obtain ⟨v, hm⟩ := List.exists_mem_of_ne_nil _ hv
  have hp : ((counter values).mergeSort le).Perm (counter values) := List.mergeSort_perm _ _
  rw [he] at hp
  have := (h2 v).2 hm
  rw [hp.nil_eq.symm] at this
  cases this

/-- the text for an order -/
def orderText : Order → String
  | .value => "value"
  | .frequencyAsc => "frequency_asc"
  | .frequencyDesc => "frequency_desc"

/-- C136: `plot_counts` draws one bar per different value, as high as the number of its occurrences, in the requested order. -/
theorem C136_counts (values : List α) (hv : values ≠ []) (o : Order) :
    ∃ bars : List (α × Nat), plotCounts values (orderText o) = .ok (bars.map Prod.fst, bars.map Prod.snd) ∧ Bars values o bars := by
  cases o with
  | value =>
    have hs := sorted_bars values pairLe (by
      intro a b c
      simp only [pairLe, Bool.or_eq_true, Bool.and_eq_true, decide_eq_true_eq]
      rintro (h | ⟨h, h'⟩) (k | ⟨k, k'⟩)
      · exact .inl (lt_trans h k)
      · exact .inl (k ▸ h)
      · exact .inl (h ▸ k)
      · exact .inr ⟨h.trans k, le_trans h' k'⟩) (by
      intro a b
      simp only [pairLe, Bool.or_eq_true, Bool.and_eq_true, decide_eq_true_eq]
      rcases lt_trichotomy a.1 b.1 with h | h | h
      · exact .inl (.inl h)
      · rcases le_total a.2 b.2 with k | k
        · exact .inl (.inr ⟨h, k⟩)
        · exact .inr (.inr ⟨h.symm, k⟩)
      · exact .inr (.inl h))
    refine ⟨_, ?_, ⟨hs.1, hs.2.1, hs.2.2.1, hs.2.2.2.imp ?_⟩⟩
    · simp only [plotCounts, orderText, if_true]
      exact unzipPy_ok (sorted_ne hv _)
    · rintro a b ⟨h, hne, _⟩
      simp only [pairLe, Bool.or_eq_true, Bool.and_eq_true, decide_eq_true_eq] at h
      rcases h with h | h
      · exact h
      · exact absurd h.1 hne
  | frequencyAsc =>
    have hs := sorted_bars values (fun a b => decide (a.2 ≤ b.2)) (by
      intro a b c; simp only [decide_eq_true_eq]; exact le_trans) (by
      intro a b; simp only [Bool.or_eq_true, decide_eq_true_eq]; exact le_total _ _)
    refine ⟨_, ?_, ⟨hs.1, hs.2.1, hs.2.2.1, hs.2.2.2.imp ?_⟩⟩
    · show (if "frequency_asc" = "value" then _ else if "frequency_asc" = "frequency_asc" then _ else _ : Py _) = _
      rw [if_neg (by decide), if_pos rfl]
      exact unzipPy_ok (sorted_ne hv _)
    · rintro a b ⟨h, hne, hi⟩
      simp only [decide_eq_true_eq] at h hi
      rcases Nat.lt_or_eq_of_le h with h' | h'
      · exact .inl h'
      · exact .inr ⟨h', hi h'.symm.le⟩
  | frequencyDesc =>
    have hs := sorted_bars values (fun a b => decide (-(a.2 : Int) ≤ -(b.2 : Int))) (by
      intro a b c; simp only [decide_eq_true_eq]; exact le_trans) (by
      intro a b; simp only [Bool.or_eq_true, decide_eq_true_eq]; exact le_total _ _)
    refine ⟨_, ?_, ⟨hs.1, hs.2.1, hs.2.2.1, hs.2.2.2.imp ?_⟩⟩
    · show (if "frequency_desc" = "value" then _ else if "frequency_desc" = "frequency_asc" then _ else if "frequency_desc" = "frequency_desc" then _ else _ : Py _) = _
      rw [if_neg (by decide), if_neg (by decide), if_pos rfl]
      exact unzipPy_ok (sorted_ne hv _)
    · rintro a b ⟨h, hne, hi⟩
      simp only [decide_eq_true_eq] at h hi
      have h1 : b.2 ≤ a.2 := by omega
      rcases Nat.lt_or_eq_of_le h1 with h' | h'
      · exact .inl h'
      · exact .inr ⟨h'.symm, hi (by omega)⟩

/-- C136: the heights of the bars sum up to the number of values. -/
theorem C136_counts_sum {values : List α} {orderBy : String} {x : List α} {y : List Nat} (h : plotCounts values orderBy = .ok (x, y)) :
    x.length = y.length ∧ y.sum = values.length := by
  have key : ∀ le : α × Nat → α × Nat → Bool, unzipPy ((counter values).mergeSort le) = .ok (x, y) → x.length = y.length ∧ y.sum = values.length := by
    intro le hu
    have hp : ((counter values).mergeSort le).Perm (counter values) := List.mergeSort_perm _ _
    have hxy : x = ((counter values).mergeSort le).map Prod.fst ∧ y = ((counter values).mergeSort le).map Prod.snd := by
      unfold unzipPy at hu
      split at hu
      · cases hu
      · cases hu; exact ⟨rfl, rfl⟩
    refine ⟨by rw [hxy.1, hxy.2]; simp, ?_⟩
    rw [hxy.2, (hp.map Prod.snd).sum_nat]
    clear hu hxy h hp
    obtain ⟨h1, h2, _, _⟩ := counter_spec values
    have : (counter values).map Prod.snd = (counter values).keys.map values.count := by
      unfold Dict.keys
      rw [List.map_map]
      exact List.map_congr_left fun b hb => entry_count hb
    rw [this]
    generalize (counter values).keys = ks at h1 h2
    clear this
    have main : ∀ (l : List α) (ks : List α), ks.Nodup → (∀ v ∈ l, v ∈ ks) → (ks.map l.count).sum = l.length := by
      intro l
      induction l with
      | nil => intro ks _ _; simp
      | cons v l ih =>
        intro ks hn hm
        have ih' := ih ks hn (fun w hw => hm w (List.mem_cons_of_mem _ hw))
        have hv := hm v (by simp)
        have : (ks.map (v :: l).count).sum = (ks.map l.count).sum + ks.count v := by
          clear ih ih' hm hv hn
          induction ks with
          | nil => simp
          | cons k ks ihk =>
            rw [List.map_cons, List.sum_cons, ihk, List.map_cons, List.sum_cons, List.count_cons, List.count_cons]
            by_cases hkv : k = v
            · subst hkv; simp only [beq_self_eq_true, if_true]; omega
            · have h1 : (k == v) = false := by simpa using hkv
              have h2 : (v == k) = false := by simpa using Ne.symm hkv
              simp only [h1, h2]; simp only [Bool.false_eq_true, if_false]; omega
        rw [this, ih', List.count_eq_one_of_mem hn hv, List.length_cons]
    exact main values ks h1 fun v hv => (h2 v).2 hv
  unfold plotCounts at h
  split at h
  · exact key _ h
  · split at h
    · exact key _ h
    · split at h
      · exact key _ h
      · cases h

/-- C136: no values, or an unknown order, raise ValueError. -/
theorem C136_counts_errors (values : List α) (orderBy : String) :
    plotCounts ([] : List α) orderBy = .error .value ∧
    ((∀ o, orderBy ≠ orderText o) → plotCounts values orderBy = .error .value) := by
  constructor
  · unfold plotCounts counter
    simp [unzipPy]
  · intro h
    unfold plotCounts
    have h1 : orderBy ≠ "value" := h .value
    have h2 : orderBy ≠ "frequency_asc" := h .frequencyAsc
    have h3 : orderBy ≠ "frequency_desc" := h .frequencyDesc
    rw [if_neg h1, if_neg h2, if_neg h3]

end

example : plotCounts [3, 1, 3, 2, 1, 3] "value" = .ok ([1, 2, 3], [2, 1, 3]) := by
  simp [plotCounts, counter, countStep, Dict.put, Dict.get?, List.mergeSort, List.MergeSort.Internal.splitInTwo, pairLe, unzipPy]
example : plotCounts [3, 1, 4, 3, 2] "frequency_desc" = .ok ([3, 1, 4, 2], [2, 1, 1, 1]) := by
  simp [plotCounts, counter, countStep, Dict.put, Dict.get?, List.mergeSort, List.MergeSort.Internal.splitInTwo, unzipPy]

/-- C136: without a number of bins (None or 0) the histogram has the rounded down square root of the number of values as number of
bins, which is 0 only for no values; any other number is used as it is. -/
theorem C136_histogram_bins (n : Nat) (b : Int) :
    (∃ k : Nat, histogramBins n none = k ∧ histogramBins n (some 0) = k ∧ k * k ≤ n ∧ n < (k + 1) * (k + 1) ∧ (k = 0 ↔ n = 0)) ∧
    (b ≠ 0 → histogramBins n (some b) = b) := by
  refine ⟨⟨Nat.sqrt n, rfl, rfl, Nat.sqrt_le n, Nat.lt_succ_sqrt n, Nat.sqrt_eq_zero⟩, fun h => by simp [histogramBins, h]⟩

/-! ### grids -/

theorem grid_eq {A : Type} (ax : Nat → Nat → A) {r c : Nat} (hr : 0 < r) (hc : 0 < c) :
    gridAxes ax r c = .ok ((List.range r).map fun i => (List.range c).map fun j => ax i j) := by
  unfold gridAxes subplots
  rw [if_neg (by omega)]
  by_cases h1 : r = 1
  · by_cases h2 : c = 1
    · subst h1; subst h2; rfl
    · subst h1
      simp [h2, wrap1, bind, Except.bind, pure, Except.pure]
  · by_cases h2 : c = 1
    · subst h2
      simp [h1, wrap1, transposeRow, bind, Except.bind, pure, Except.pure]
    · simp [h1, h2, bind, Except.bind, pure, Except.pure]

/-- C136: whatever the shape of the grid (also with one row or one column, where matplotlib drops a dimension), `get_axes(i, j)`
is the subplot in row `i` and column `j`, and the list of axes contains all of them row by row. An index beyond the grid raises
IndexError; no rows or no columns raise ValueError. -/
theorem C136_grid {A : Type} (ax : Nat → Nat → A) (r c : Nat) :
    (0 < r → 0 < c → ∃ g, gridAxes ax r c = .ok g ∧ (∀ i j : Nat, i < r → j < c → getAxes g i j = .ok (ax i j)) ∧
      (∀ i j : Nat, ¬ (i < r ∧ j < c) → getAxes g i j = .error .index) ∧
      (listOfAxes g).length = r * c ∧ ∀ i j : Nat, i < r → j < c → (listOfAxes g)[i * c + j]? = some (ax i j)) ∧
    (r = 0 ∨ c = 0 → gridAxes ax r c = .error .value) := by
  refine ⟨fun hr hc => ⟨_, grid_eq ax hr hc, fun i j hi hj => ?_, fun i j hij => ?_, ?_, fun i j hi hj => ?_⟩, fun h => ?_⟩
  · unfold getAxes
    rw [pyGet_ofNat (x := (List.range c).map fun j => ax i j) (by rw [List.getElem?_map, List.getElem?_range hi]; rfl)]
    simp only [bind, Except.bind]
    exact pyGet_ofNat (by rw [List.getElem?_map, List.getElem?_range hj]; rfl)
  · have herr : ∀ {B : Type} (l : List B) (k : Nat), l.length ≤ k → pyGet l (k : Int) = .error .index := by
      intro B l k hk
      have h0 : ¬ (k : Int) < 0 := by omega
      simp only [pyGet, h0, if_false, Int.toNat_natCast, List.getElem?_eq_none hk]
    unfold getAxes
    by_cases hi : i < r
    · rw [pyGet_ofNat (x := (List.range c).map fun j => ax i j) (by rw [List.getElem?_map, List.getElem?_range hi]; rfl)]
      simp only [bind, Except.bind]
      exact herr _ _ (by simp; omega)
    · rw [herr _ _ (by simp; omega)]
      rfl
  · unfold listOfAxes
    rw [List.length_flatten, List.map_map]
    have : (List.length ∘ fun i => (List.range c).map fun j => ax i j) = fun _ => c := by funext i; simp
    rw [this, List.map_const', List.sum_replicate_nat]
    simp
  · unfold listOfAxes
    clear hr
    induction r generalizing i ax with
    | zero => omega
    | succ r ih =>
      rw [List.range_succ_eq_map, List.map_cons, List.flatten_cons, List.map_map]
      cases i with
      | zero =>
        rw [List.getElem?_append_left (by simp; omega)]
        rw [Nat.zero_mul, Nat.zero_add, List.getElem?_map, List.getElem?_range hj]; rfl
      | succ i =>
        rw [List.getElem?_append_right (by simp; rw [Nat.succ_mul]; omega)]
        have := ih (fun i j => ax (i + 1) j) i (by omega)
        rw [List.length_map, List.length_range, show (i + 1) * c + j - c = i * c + j by rw [Nat.succ_mul]; omega]
        exact this
  · unfold gridAxes subplots
    rw [if_pos h]; rfl

example : (gridAxes (fun i j => (i, j)) 3 1).toOption = some [[(0, 0)], [(1, 0)], [(2, 0)]] := by decide

/-! ### heatmaps -/

/-- C136: a heatmap has one labelled tick per row and column, in order; it needs a matrix and the right numbers of labels. -/
theorem C136_heatmap (data : NdArray) (rowLabels colLabels : List String) :
    (data.shape = [rowLabels.length, colLabels.length] → ∃ xs ys : List (Nat × String), heatmapTicks data rowLabels colLabels = .ok (xs, ys) ∧
      xs.length = colLabels.length ∧ ys.length = rowLabels.length ∧
      (∀ j : Nat, xs[j]? = colLabels[j]?.map fun s => (j, s)) ∧ (∀ i : Nat, ys[i]? = rowLabels[i]?.map fun s => (i, s))) ∧
    (data.shape ≠ [rowLabels.length, colLabels.length] → heatmapTicks data rowLabels colLabels = .error .value) := by
  have hz : ∀ (l : List String) (i : Nat), ((List.range l.length).zip l)[i]? = l[i]?.map fun s => (i, s) := by
    intro l i
    by_cases hi : i < l.length
    · have h1 : ((List.range l.length).zip l)[i]? = some (i, l[i]) := by
        rw [List.getElem?_eq_getElem (by simp [hi]), List.getElem_zip]
        simp
      rw [h1, List.getElem?_eq_getElem hi]; rfl
    · rw [List.getElem?_eq_none (by simp; omega), List.getElem?_eq_none (by omega)]; rfl
  constructor
  · intro h
    refine ⟨_, _, ?_, ?_, ?_, hz colLabels, hz rowLabels⟩
    · simp only [heatmapTicks, h, ne_eq, not_true_eq_false, if_false]
    · simp
    · simp
  · intro h
    unfold heatmapTicks
    split
    · rename_i n m hs
      split
      · rfl
      · split
        · rfl
        · rename_i h1 h2
          simp only [ne_eq, not_not] at h1 h2
          rw [hs, h1, h2] at h
          exact absurd rfl h
    · rfl

theorem foldl_max_spec (l : List Rat) (x : Rat) : (l.foldl max x = x ∨ l.foldl max x ∈ l) ∧ x ≤ l.foldl max x ∧ ∀ y ∈ l, y ≤ l.foldl max x := by
  induction l generalizing x with
  | nil => simp
  | cons z l ih =>
    obtain ⟨h1, h2, h3⟩ := ih (max x z)
    refine ⟨?_, le_trans (le_max_left _ _) h2, ?_⟩
    · rw [List.foldl_cons]
      rcases h1 with h1 | h1
      · rw [h1]
        rcases max_choice x z with h | h
        · exact .inl h
        · exact .inr (by rw [h]; simp)
      · exact .inr (List.mem_cons_of_mem _ h1)
    · intro y hy
      rcases List.mem_cons.1 hy with rfl | hy
      · exact le_trans (le_max_right _ _) h2
      · exact h3 y hy

/-- C136: with an array (or without data, where the image's array is used) there is exactly one text per cell: at x = column and
y = row, with the value of the cell, in the second color iff the normed value is above the normed threshold, which is half of the
normed maximum by default. -/
theorem C136_annotations (norm : Rat → Rat) (image : List (List Rat)) (data : HeatData) (rows : List (List Rat))
    (hd : (data = .missing ∧ rows = image) ∨ data = .array rows) (threshold : Option Rat) (hne : threshold ≠ none ∨ rows.flatten ≠ []) :
    ∃ t texts, annotate norm image data threshold = .ok texts ∧ texts.length = rows.flatten.length ∧
      (∀ i j x c, (j, i, x, c) ∈ texts ↔ (∃ r, rows[i]? = some r ∧ r[j]? = some x) ∧ c = if t < norm x then 1 else 0) ∧
      (∀ q, threshold = some q → t = norm q) ∧
      (threshold = none → ∃ m ∈ rows.flatten, (∀ x ∈ rows.flatten, x ≤ m) ∧ t = norm m / 2) := by
  have hch : chosen image data = some rows := by
    rcases hd with ⟨rfl, rfl⟩ | rfl <;> rfl
  obtain ⟨t, ht, h1, h2⟩ : ∃ t, normThreshold norm (some rows) threshold = .ok t ∧ (∀ q, threshold = some q → t = norm q) ∧
      (threshold = none → ∃ m ∈ rows.flatten, (∀ x ∈ rows.flatten, x ≤ m) ∧ t = norm m / 2) := by
    cases threshold with
    | some q => exact ⟨norm q, rfl, fun q' h => (by cases h; rfl), fun h => (by cases h)⟩
    | none =>
      have hne : rows.flatten ≠ [] := by simpa using hne
      cases hf : rows.flatten with
      | nil => exact absurd hf hne
      | cons x l =>
        have hs := foldl_max_spec l x
        refine ⟨norm (l.foldl max x) / 2, ?_, fun q h => (by cases h), fun _ => ⟨l.foldl max x, ?_, ?_, rfl⟩⟩
        · simp only [normThreshold, maxOf, hf]; rfl
        · rcases hs.1 with h | h
          · rw [h]; simp
          · exact List.mem_cons_of_mem _ h
        · intro y hy
          rcases List.mem_cons.1 hy with rfl | hy
          · exact hs.2.1
          · exact hs.2.2 y hy
  refine ⟨t, (rows.zipIdx.map fun r => r.1.zipIdx.map fun c => textOf norm t r.2 c.2 c.1).flatten, ?_, ?_, ?_, h1, h2⟩
  · unfold annotate
    simp only [hch, ht, bind, Except.bind]
    rfl
  · rw [List.length_flatten, List.length_flatten, List.map_map]
    have : (List.length ∘ fun r : List Rat × Nat => r.1.zipIdx.map fun c => textOf norm t r.2 c.2 c.1) = List.length ∘ Prod.fst := by
      funext r; simp
    rw [this, ← List.map_map, List.zipIdx_map_fst]
  · intro i j x c
    simp only [List.mem_flatten, List.mem_map, Prod.exists, textOf]
    constructor
    · rintro ⟨_, ⟨r, i', hr, rfl⟩, hm⟩
      obtain ⟨⟨x', j'⟩, hx, he⟩ := List.mem_map.1 hm
      simp only [Prod.mk.injEq] at he
      obtain ⟨rfl, rfl, rfl, rfl⟩ := he
      rw [List.mem_zipIdx_iff_getElem?] at hr hx
      exact ⟨⟨r, hr, hx⟩, rfl⟩
    · rintro ⟨⟨r, hr, hx⟩, rfl⟩
      refine ⟨_, ⟨r, i, List.mem_zipIdx_iff_getElem?.2 hr, rfl⟩, List.mem_map.2 ⟨(x, j), List.mem_zipIdx_iff_getElem?.2 hx, rfl⟩⟩

/-- C136: although the code lets python lists through, data given as a list always raises AttributeError. -/
theorem C136_annotations_list (norm : Rat → Rat) (image : List (List Rat)) (threshold : Option Rat) :
    annotate norm image .list threshold = .error .attribute := by
  cases threshold <;> rfl

example : annotate id [[1, 4], [2, 3]] .missing none = .ok [(0, 0, 1, 0), (1, 0, 4, 1), (0, 1, 2, 0), (1, 1, 3, 1)] := by decide +kernel

end Prolothar.Plots
