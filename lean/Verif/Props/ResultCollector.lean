import Verif.Spec.ResultCollector
import Verif.Props.Statistics
import Mathlib.Tactic.Ring
import Mathlib.Data.List.Induction
import Mathlib.Algebra.Order.Ring.Rat
import Mathlib.Data.Rat.Cast.Order
/-
C71: the result collector.
-/
namespace Prolothar.ResultCollector
open Prolothar.Spec.ResultCollector

variable {C : Type}

/-- a history of calls on a new collector -/
def collect (create : C) (push : C → Rat → C) (h : List Added) : State C :=
  h.foldl (fun s a => addResult create push a.miner a.type a.x a.value s) new

/-- what is collected for a result type, miner and position -/
def lookup (s : State C) (type miner : String) (p : Rat) : Option C :=
  ((s.results.get? type).bind fun d => d.get? miner).bind fun d => d.get? p

theorem labelsOf_append (h : List Added) (a : Added) : labelsOf (h ++ [a]) =
    match a.x with
    | .str s => if s ∈ labelsOf h then labelsOf h else labelsOf h ++ [s]
    | .num _ => labelsOf h := by
  induction h with
  | nil => cases hx : a.x <;> simp [labelsOf, hx]
  | cons b h ih =>
    rw [List.cons_append]
    cases hb : b.x with
    | num q => simp only [labelsOf, hb, ih]
    | str t =>
      simp only [labelsOf, hb, ih]
      cases hx : a.x with
      | num q => rfl
      | str s =>
        simp only
        by_cases hst : s = t
        · subst hst
          by_cases hs : s ∈ labelsOf h
          · simp [hs]
          · simp [hs, List.filter_append]
        · by_cases hs : s ∈ labelsOf h
          · rw [if_pos hs, if_pos (by simp [hs, hst])]
          · rw [if_neg hs, if_neg (by simp [hs, hst]), List.filter_append]
            simp [hst]

theorem labelsOf_nodup (h : List Added) : (labelsOf h).Nodup := by
  induction h with
  | nil => simp [labelsOf]
  | cons b h ih =>
    cases hb : b.x with
    | num q => simpa only [labelsOf, hb] using ih
    | str t =>
      simp only [labelsOf, hb, List.nodup_cons]
      exact ⟨by simp, ih.filter _⟩

theorem mem_labelsOf {h : List Added} {s : String} : s ∈ labelsOf h ↔ ∃ a ∈ h, a.x = .str s := by
  induction h with
  | nil => simp [labelsOf]
  | cons b h ih =>
    cases hb : b.x with
    | num q => simp [labelsOf, hb, ih]
    | str t =>
      simp only [labelsOf, hb, List.mem_cons, List.mem_filter, ih, exists_eq_or_imp, X.str.injEq]
      constructor
      · rintro (rfl | ⟨h1, _⟩)
        · exact .inl rfl
        · exact .inr h1
      · rintro (rfl | h1)
        · exact .inl rfl
        · by_cases hst : s = t
          · exact .inl hst
          · exact .inr ⟨h1, by simpa using hst⟩

/-- the labels as a dictionary -/
def labelDict (l : List String) : Dict Nat String := l.zipIdx.map fun e => (e.2, e.1)

theorem position_labelDict (l : List String) (s : String) : position (labelDict l) s = if s ∈ l then some (l.idxOf s) else none := by
  have key : ∀ (l : List String) (k : Nat), ((l.zipIdx k).map fun e => (e.2, e.1)).find? (fun e => decide (e.2 = s)) =
      if s ∈ l then some (k + l.idxOf s, s) else none := by
    intro l
    induction l with
    | nil => intro k; simp
    | cons t l ih =>
      intro k
      rw [List.zipIdx_cons, List.map_cons, List.find?_cons]
      by_cases hst : t = s
      · subst hst; simp
      · simp only [hst, decide_false]
        rw [ih (k + 1)]
        by_cases hs : s ∈ l
        · rw [if_pos hs, if_pos (List.mem_cons_of_mem _ hs), List.idxOf_cons_ne _ hst]
          congr 2; omega
        · rw [if_neg hs, if_neg (by simp [hs, Ne.symm hst])]
  unfold position labelDict
  rw [key l 0]
  split <;> simp

theorem put_labelDict (l : List String) (s : String) : (labelDict l).put (labelDict l).length s = labelDict (l ++ [s]) := by
  have : ∀ (d : Dict Nat String) (n : Nat), n ∉ d.keys → d.put n s = d ++ [(n, s)] := by
    intro d n
    induction d with
    | nil => intro _; rfl
    | cons e d ih =>
      intro h
      obtain ⟨k, v⟩ := e
      simp only [Dict.keys, List.map_cons, List.mem_cons, not_or] at h
      simp only [Dict.put]
      rw [if_neg (Ne.symm h.1), ih h.2]; rfl
  rw [this]
  · simp [labelDict, List.zipIdx_append]
  · simp only [labelDict, Dict.keys, List.map_map, List.length_map, List.length_zipIdx]
    rw [show (Prod.fst ∘ fun e : String × Nat => (e.2, e.1)) = Prod.snd from rfl, List.zipIdx_map_snd]
    simp

theorem resolve_spec (l : List String) (x : X) (h : List Added) (hl : l = labelsOf h) (a : Added) (ha : a.x = x) :
    resolve (labelDict l) x = (labelDict (labelsOf (h ++ [a])), shownAt (h ++ [a]) x) := by
  subst hl
  rw [labelsOf_append, ha]
  unfold shownAt
  rw [labelsOf_append, ha]
  cases x with
  | num q => rfl
  | str s =>
    simp only [resolve, position_labelDict]
    by_cases hs : s ∈ labelsOf h
    · simp only [if_pos hs]
    · simp only [if_neg hs, put_labelDict]
      congr 1
      rw [List.idxOf_append_of_notMem hs]
      simp [labelDict]

/-- an x value that has been used stays where it is -/
theorem shownAt_append {h : List Added} {a b : Added} (ha : a ∈ h) : shownAt (h ++ [b]) a.x = shownAt h a.x := by
  unfold shownAt
  cases hx : a.x with
  | num q => rfl
  | str s =>
    have hs : s ∈ labelsOf h := mem_labelsOf.2 ⟨a, ha, hx⟩
    simp only
    rw [labelsOf_append]
    cases b.x with
    | num q => rfl
    | str t =>
      simp only
      split
      · rfl
      · rw [List.idxOf_append_of_mem hs]

theorem valuesAt_append (h : List Added) (b : Added) (type miner : String) (p : Rat) : valuesAt (h ++ [b]) type miner p =
    valuesAt h type miner p ++ if b.type = type ∧ b.miner = miner ∧ shownAt (h ++ [b]) b.x = p then [b.value] else [] := by
  unfold valuesAt
  rw [List.filter_append, List.map_append]
  congr 1
  · congr 1
    refine List.filter_congr fun a ha => ?_
    rw [shownAt_append ha]
  · by_cases hc : b.type = type ∧ b.miner = miner ∧ shownAt (h ++ [b]) b.x = p
    · rw [if_pos hc, List.filter_cons_of_pos (by simpa using hc)]; rfl
    · rw [if_neg hc, List.filter_cons_of_neg (by simpa using hc)]; rfl

theorem ensure_get {κ ν : Type} [DecidableEq κ] (d : Dict κ ν) (k : κ) (v : ν) : (ensure d k v).2 = (d.get? k).getD v := by
  unfold ensure
  cases d.get? k <;> rfl

theorem lookup_add (create : C) (push : C → Rat → C) (miner type : String) (x : X) (value : Rat) (s : State C) (type' miner' : String) (p : Rat) :
    lookup (addResult create push miner type x value s) type' miner' p =
      if type = type' ∧ miner = miner' ∧ (resolve s.labels x).2 = p then some (push ((lookup s type' miner' p).getD create) value)
      else lookup s type' miner' p := by
  simp only [lookup, addResult, ensure_get, Dict.get?_put]
  by_cases h1 : type = type'
  · subst h1
    simp only [if_true, true_and, Option.bind_some, Dict.get?_put]
    by_cases h2 : miner = miner'
    · subst h2
      simp only [if_true, true_and, Option.bind_some, Dict.get?_put]
      by_cases h3 : (resolve s.labels x).2 = p
      · subst h3
        simp only [if_true]
        cases h4 : s.results.get? type with
        | none => simp [Dict.get?]
        | some d =>
          simp only [Option.getD_some, Option.bind_some]
          cases h5 : d.get? miner with
          | none => simp [Dict.get?]
          | some e => simp
      · simp only [h3, if_false]
        cases h4 : s.results.get? type with
        | none => simp [Dict.get?]
        | some d =>
          simp only [Option.getD_some, Option.bind_some]
          cases h5 : d.get? miner with
          | none => simp [Dict.get?]
          | some e => simp
    · simp only [h2, if_false, false_and]
      cases h4 : s.results.get? type with
      | none => simp [Dict.get?]
      | some d => simp
  · simp [h1]

theorem collect_spec (create : C) (push : C → Rat → C) (h : List Added) : (collect create push h).labels = labelDict (labelsOf h) ∧
    ∀ type miner p, lookup (collect create push h) type miner p =
      if valuesAt h type miner p = [] then none else some ((valuesAt h type miner p).foldl push create) := by
  induction h using List.reverseRecOn with
  | nil => exact ⟨rfl, fun type miner p => by simp [collect, valuesAt, new, lookup, Dict.get?]⟩
  | append_singleton h a ih =>
    obtain ⟨ih1, ih2⟩ := ih
    have hcol : collect create push (h ++ [a]) = addResult create push a.miner a.type a.x a.value (collect create push h) := by
      simp [collect]
    have hres := resolve_spec (labelsOf h) a.x h rfl a rfl
    rw [hcol]
    refine ⟨?_, fun type miner p => ?_⟩
    · show (resolve (collect create push h).labels a.x).1 = _
      rw [ih1, hres]
    · rw [lookup_add, ih1, hres, ih2, valuesAt_append]
      by_cases hc : a.type = type ∧ a.miner = miner ∧ shownAt (h ++ [a]) a.x = p
      · rw [if_pos hc, if_pos hc]
        simp only [List.append_eq_nil_iff, List.cons_ne_nil, and_false, if_false]
        by_cases hv : valuesAt h type miner p = []
        · simp [hv]
        · simp [hv, List.foldl_append]
      · rw [if_neg hc, if_neg hc, List.append_nil]

/-- C71: after any history, the collector for a result type, miner and position has received exactly the values added
for them, in order; nothing else has been created -/
theorem C71_collected (create : C) (push : C → Rat → C) (h : List Added) (type miner : String) (p : Rat) :
    lookup (collect create push h) type miner p =
      if valuesAt h type miner p = [] then none else some ((valuesAt h type miner p).foldl push create) :=
  (collect_spec create push h).2 type miner p

/-- C71: in scatter mode the list of the values added is stored -/
theorem C71_scatter_values (h : List Added) (type miner : String) (p : Rat) :
    lookup (collect [] (fun l v => l ++ [v]) h) type miner p =
      if valuesAt h type miner p = [] then none else some (valuesAt h type miner p) := by
  rw [C71_collected]
  have : ∀ (l acc : List Rat), l.foldl (fun l v => l ++ [v]) acc = acc ++ l := by
    intro l
    induction l with
    | nil => intro acc; simp
    | cons v l ih => intro acc; rw [List.foldl_cons, ih]; simp
  rw [this, List.nil_append]

/-- C71: in line mode the number of values, their mean and their extremes are those of the values added -/
theorem C71_line_values (h : List Added) (type miner : String) (p : Rat) (hne : valuesAt h type miner p ≠ []) :
    ∃ s, lookup (collect Statistics.new Statistics.push h) type miner p = some s ∧ s.count = (valuesAt h type miner p).length ∧
      s.mean = (valuesAt h type miner p).sum / (valuesAt h type miner p).length ∧
      (∃ m, s.min = some m ∧ m ∈ valuesAt h type miner p ∧ ∀ v ∈ valuesAt h type miner p, m ≤ v) ∧
      (∃ m, s.max = some m ∧ m ∈ valuesAt h type miner p ∧ ∀ v ∈ valuesAt h type miner p, v ≤ m) := by
  obtain ⟨h1, h2, h3, h4, _⟩ := Statistics.C22_push_equals_batch (valuesAt h type miner p) hne
  exact ⟨_, by rw [C71_collected, if_neg hne]; rfl, h1, h2, h3, h4⟩

/-- C71: the labels get the positions 0, 1, … in the order of their first use, and different labels have different
positions -/
theorem C71_labels (create : C) (push : C → Rat → C) (h : List Added) :
    (collect create push h).labels = (labelsOf h).zipIdx.map (fun e => (e.2, e.1)) ∧ (labelsOf h).Nodup ∧
    (∀ s, s ∈ labelsOf h ↔ ∃ a ∈ h, a.x = .str s) ∧
    ∀ s t, s ∈ labelsOf h → shownAt h (.str s) = shownAt h (.str t) → s = t := by
  refine ⟨(collect_spec create push h).1, labelsOf_nodup h, fun s => mem_labelsOf, fun s t hs he => ?_⟩
  simp only [shownAt] at he
  have he' : (labelsOf h).idxOf s = (labelsOf h).idxOf t := by exact_mod_cast he
  exact (List.idxOf_inj hs).1 he'

/-- C71: if all x values are labels, or all are numbers, values with different x are kept apart -/
theorem C71_no_mixing (h : List Added) (hx : (∀ a ∈ h, ∃ s, a.x = .str s) ∨ ∀ a ∈ h, ∃ q, a.x = .num q) (type miner : String) {a : Added} (ha : a ∈ h) :
    valuesAt h type miner (shownAt h a.x) = (h.filter fun b => b.type = type ∧ b.miner = miner ∧ b.x = a.x).map (·.value) := by
  unfold valuesAt
  congr 1
  refine List.filter_congr fun b hb => ?_
  have : shownAt h b.x = shownAt h a.x ↔ b.x = a.x := by
    refine ⟨fun he => ?_, fun he => by rw [he]⟩
    rcases hx with hx | hx
    · obtain ⟨s, hs⟩ := hx a ha
      obtain ⟨t, ht⟩ := hx b hb
      rw [hs, ht] at he ⊢
      rw [(C71_labels (C := Unit) () (fun _ _ => ()) h).2.2.2 t s (mem_labelsOf.2 ⟨b, hb, ht⟩) he]
    · obtain ⟨s, hs⟩ := hx a ha
      obtain ⟨t, ht⟩ := hx b hb
      rw [hs, ht] at he ⊢
      rw [show t = s from he]
  simp only [this]

/-- C71 fails if labels and numbers are mixed: the label "a" and the number 0 are the same position -/
theorem C71_mixing_witness : ∃ h : List Added,
    lookup (collect [] (fun l v => l ++ [v]) h) "t" "m" 0 = some [1, 2] ∧ h.map (fun a => a.x) = [.str "a", .num 0] := by
  refine ⟨[⟨"m", "t", .str "a", 1⟩, ⟨"m", "t", .num 0, 2⟩], by decide +kernel, rfl⟩

/-- C71: the scatter plot of a miner shows every value at its position -/
theorem C71_scatter_xy (d : Dict Rat (List Rat)) : (scatterXY d).1.zip (scatterXY d).2 = d.flatMap (fun e => e.2.map fun v => (e.1, v)) ∧
    (scatterXY d).1.length = (scatterXY d).2.length := by
  have key : ∀ (d : Dict Rat (List Rat)) (a b : List Rat), a.length = b.length →
      (d.foldl (fun acc e => (acc.1 ++ List.replicate e.2.length e.1, acc.2 ++ e.2)) (a, b)).1.length =
        (d.foldl (fun acc e => (acc.1 ++ List.replicate e.2.length e.1, acc.2 ++ e.2)) (a, b)).2.length ∧
      (d.foldl (fun acc e => (acc.1 ++ List.replicate e.2.length e.1, acc.2 ++ e.2)) (a, b)).1.zip
        (d.foldl (fun acc e => (acc.1 ++ List.replicate e.2.length e.1, acc.2 ++ e.2)) (a, b)).2 =
        a.zip b ++ d.flatMap (fun e => e.2.map fun v => (e.1, v)) := by
    intro d
    induction d with
    | nil => intro a b h; simp [h]
    | cons e d ih =>
      intro a b h
      rw [List.foldl_cons]
      obtain ⟨i1, i2⟩ := ih (a ++ List.replicate e.2.length e.1) (b ++ e.2) (by simp [h])
      refine ⟨i1, ?_⟩
      rw [i2, List.zip_append h, List.flatMap_cons, List.append_assoc]
      congr 2
      have : ∀ (l : List Rat) (x : Rat), (List.replicate l.length x).zip l = l.map fun v => (x, v) := by
        intro l x
        induction l with
        | nil => rfl
        | cons v l ih => simp [List.replicate_succ, ih]
      exact this _ _
  obtain ⟨h1, h2⟩ := key d [] [] rfl
  exact ⟨by rw [List.zip_nil_left, List.nil_append] at h2; exact h2, h1⟩

/-- C71: the line plot of a miner has exactly the points (position, mean), from left to right -/
theorem C71_line_xy (mean : C → Rat) (d : Dict Rat C) (hd : d.WF) :
    ((lineXY mean d).1.zip (lineXY mean d).2).Perm (d.map fun e => (e.1, mean e.2)) ∧ (lineXY mean d).1.Pairwise (· < ·) ∧
    (lineXY mean d).1.length = (lineXY mean d).2.length := by
  set r : Rat × Rat → Rat × Rat → Prop := fun a b => a.1 < b.1 ∨ a.1 = b.1 ∧ a.2 ≤ b.2 with hr
  set l := (d.map fun e => (e.1, mean e.2)).insertionSort r with hl
  have hp : l.Perm (d.map fun e => (e.1, mean e.2)) := List.perm_insertionSort _ _
  have h1 : (lineXY mean d) = (l.map Prod.fst, l.map Prod.snd) := by
    unfold lineXY
    simp only [hl, hr]
  have ht : Std.Total r := ⟨fun a b => by
    simp only [hr]
    rcases lt_trichotomy a.1 b.1 with h | h | h
    · exact .inl (.inl h)
    · rcases le_total a.2 b.2 with h' | h'
      · exact .inl (.inr ⟨h, h'⟩)
      · exact .inr (.inr ⟨h.symm, h'⟩)
    · exact .inr (.inl h)⟩
  have htr : IsTrans _ r := ⟨fun a b c h1 h2 => by
    simp only [hr] at h1 h2 ⊢
    rcases h1 with h1 | ⟨h1, h1'⟩ <;> rcases h2 with h2 | ⟨h2, h2'⟩
    · exact .inl (lt_trans h1 h2)
    · exact .inl (h2 ▸ h1)
    · exact .inl (h1 ▸ h2)
    · exact .inr ⟨h1.trans h2, le_trans h1' h2'⟩⟩
  have hs : l.Pairwise r := List.pairwise_insertionSort _ _
  have hn : (l.map Prod.fst).Nodup := by
    rw [(hp.map Prod.fst).nodup_iff, List.map_map]
    exact hd
  rw [h1]
  refine ⟨?_, ?_, by simp⟩
  · simp only
    have : ∀ l : List (Rat × Rat), (l.map Prod.fst).zip (l.map Prod.snd) = l := by
      intro l
      induction l with
      | nil => rfl
      | cons e l ih => simp [ih]
    rw [this]
    exact hp
  · simp only
    have hn' : l.Pairwise fun a b => a.1 ≠ b.1 := List.pairwise_map.1 hn
    refine List.pairwise_map.2 ((hs.and hn').imp fun {a b} h => ?_)
    rcases h.1 with h' | h'
    · exact h'
    · exact absurd h'.1 h.2

theorem longest_same (xs : List Rat) : ∀ (l : List (String × (List Rat × List Rat))) (b : List Rat), (b = [] ∨ b = xs) → (∀ e ∈ l, e.2.1 = xs) → (l ≠ [] ∨ b = xs) →
    l.foldl (fun best e => if best.length < e.2.1.length then e.2.1 else best) b = xs
  | [], b, hb, _, h => by
    rcases h with h | h
    · exact absurd rfl h
    · exact h
  | e :: l, b, hb, hl, _ => by
    rw [List.foldl_cons]
    have he := hl e (by simp)
    refine longest_same xs l _ ?_ (fun f hf => hl f (List.mem_cons_of_mem _ hf)) (.inr ?_)
    · rw [he]; split
      · exact .inr rfl
      · exact hb
    · rw [he]
      rcases hb with rfl | rfl
      · split
        · rfl
        · next h => simp only [List.length_nil, Nat.pos_iff_ne_zero, not_not, List.length_eq_zero_iff] at h; exact h.symm
      · simp

/-- C71: if all miners have values for the same x values, the plot has one column for each miner with its values, its own
colour and the common x values -/
theorem C71_plot_data (color : String → String) (xs : List Rat) (ys : List (String × List Rat)) (hne : ys ≠ []) (hl : ∀ e ∈ ys, e.2.length = xs.length) :
    plotData color (ys.map fun e => (e.1, (xs, e.2))) = (ys, xs, ys.map fun e => color e.1) := by
  unfold plotData
  simp only [List.map_map]
  have h1 : (ys.map ((fun e : String × List Rat × List Rat => (e.1, e.2.2)) ∘ fun e => (e.1, xs, e.2))) = ys := by
    conv_rhs => rw [← List.map_id ys]
    rfl
  rw [h1, if_pos, longest_same xs _ _ (.inl rfl) (fun e he => by obtain ⟨f, _, rfl⟩ := List.mem_map.1 he; rfl) (.inl (by simpa using hne))]
  · rfl
  · rw [List.all_eq_true]
    intro e he
    rw [List.all_eq_true]
    intro f hf
    simp [hl e he, hl f hf]

/-- C71: the columns of the plot are those of the miners with the most values, in order; a miner with fewer values than another one
is left out -/
theorem C71_columns (color : String → String) (xy : List (String × (List Rat × List Rat))) :
    (plotData color xy).1 = (xy.filter fun e => decide (∀ f ∈ xy, f.2.2.length ≤ e.2.2.length)).map fun e => (e.1, e.2.2) := by
  have hbound : ∀ (l : List (String × List Rat)) (a : Nat), a ≤ (l.map fun e => e.2.length).foldl max a ∧
      (∀ e ∈ l, e.2.length ≤ (l.map fun e => e.2.length).foldl max a) ∧
      ((l.map fun e => e.2.length).foldl max a = a ∨ ∃ e ∈ l, e.2.length = (l.map fun e => e.2.length).foldl max a) := by
    intro l
    induction l with
    | nil => intro a; simp
    | cons x l ih =>
      intro a
      obtain ⟨h1, h2, h3⟩ := ih (max a x.2.length)
      simp only [List.map_cons, List.foldl_cons, List.mem_cons, forall_eq_or_imp, exists_eq_or_imp]
      refine ⟨le_trans (le_max_left _ _) h1, ⟨le_trans (le_max_right _ _) h1, h2⟩, ?_⟩
      rcases h3 with h3 | h3
      · rcases le_total a x.2.length with h | h
        · right; left; rw [h3, max_eq_right h]
        · left; rw [h3, max_eq_left h]
      · right; right; exact h3
  have hcol : ∀ (q : String × List Rat → Bool), (xy.map fun e => (e.1, e.2.2)).filter q = (xy.filter fun e => q (e.1, e.2.2)).map fun e => (e.1, e.2.2) := by
    intro q; rw [List.filter_map]; rfl
  unfold plotData
  simp only
  split
  · next hall =>
    simp only
    congr 1
    symm
    rw [List.filter_eq_self]
    intro e he
    rw [decide_eq_true_eq]
    intro f hf
    have := List.all_eq_true.1 (List.all_eq_true.1 hall (e.1, e.2.2) (List.mem_map.2 ⟨e, he, rfl⟩)) (f.1, f.2.2) (List.mem_map.2 ⟨f, hf, rfl⟩)
    exact le_of_eq (by simpa using Eq.symm (by simpa using this))
  · simp only
    rw [hcol]
    congr 1
    apply List.filter_congr
    intro e he
    obtain ⟨-, h2, h3⟩ := hbound (xy.map fun e => (e.1, e.2.2)) 0
    rw [decide_eq_decide]
    constructor
    · intro h f hf
      have := h2 (f.1, f.2.2) (List.mem_map.2 ⟨f, hf, rfl⟩)
      exact h ▸ this
    · intro h
      refine le_antisymm (h2 (e.1, e.2.2) (List.mem_map.2 ⟨e, he, rfl⟩)) ?_
      rcases h3 with h3 | ⟨g, hg, h3⟩
      · rw [h3]; exact Nat.zero_le _
      · obtain ⟨f, hf, rfl⟩ := List.mem_map.1 hg
        rw [← h3]; exact h f hf

/-- C71: the x values of the plot are those of the first miner with the most x values -/
theorem C71_index (color : String → String) (xy : List (String × (List Rat × List Rat))) (hne : xy ≠ []) :
    ∃ pre e post, xy = pre ++ e :: post ∧ (plotData color xy).2.1 = e.2.1 ∧
      (∀ f ∈ pre, f.2.1.length < e.2.1.length ∨ f.2.1 = [] ∧ e.2.1 = []) ∧ ∀ f ∈ post, f.2.1.length ≤ e.2.1.length := by
  have hidx : (plotData color xy).2.1 = xy.foldl (fun best e => if best.length < e.2.1.length then e.2.1 else best) [] := by
    unfold plotData; simp only; split <;> rfl
  rw [hidx]
  have key : ∀ (l : List (String × (List Rat × List Rat))) (b : List Rat),
      (l.foldl (fun best e => if best.length < e.2.1.length then e.2.1 else best) b = b ∧ ∀ f ∈ l, f.2.1.length ≤ b.length) ∨
      ∃ pre e post, l = pre ++ e :: post ∧ l.foldl (fun best e => if best.length < e.2.1.length then e.2.1 else best) b = e.2.1 ∧
        b.length < e.2.1.length ∧ (∀ f ∈ pre, f.2.1.length < e.2.1.length) ∧ ∀ f ∈ post, f.2.1.length ≤ e.2.1.length := by
    intro l
    induction l with
    | nil => intro b; left; simp
    | cons x l ih =>
      intro b
      simp only [List.foldl_cons]
      split
      · next hlt =>
        right
        rcases ih x.2.1 with ⟨h1, h2⟩ | ⟨pre, e, post, rfl, h1, h2, h3, h4⟩
        · exact ⟨[], x, l, rfl, h1, hlt, by simp, h2⟩
        · exact ⟨x :: pre, e, post, rfl, h1, by omega, by simpa using ⟨h2, fun a b c hf => h3 (a, b, c) hf⟩, h4⟩
      · next hge =>
        rcases ih b with ⟨h1, h2⟩ | ⟨pre, e, post, rfl, h1, h2, h3, h4⟩
        · left
          refine ⟨h1, ?_⟩
          intro f hf
          rcases List.mem_cons.1 hf with rfl | hf
          · omega
          · exact h2 f hf
        · right
          refine ⟨x :: pre, e, post, rfl, h1, h2, ?_, h4⟩
          intro f hf
          rcases List.mem_cons.1 hf with rfl | hf
          · omega
          · exact h3 f hf
  rcases key xy [] with ⟨h1, h2⟩ | ⟨pre, e, post, h0, h1, h2, h3, h4⟩
  · cases xy with
    | nil => exact absurd rfl hne
    | cons x l =>
      have hx : x.2.1 = [] := List.length_eq_zero_iff.1 (Nat.le_zero.1 (h2 x List.mem_cons_self))
      refine ⟨[], x, l, rfl, by rw [h1, hx], by simp, ?_⟩
      intro f hf
      rw [hx]
      exact h2 f (List.mem_cons_of_mem _ hf)
  · exact ⟨pre, e, post, h0, h1, fun f hf => .inl (h3 f hf), h4⟩

/-- C71 fails if the miners have different numbers of values: the colour of the last miner is removed instead of
that of the miner that is left out, so here the last miner is drawn in the colour of the first one, which is not drawn -/
theorem C71_wrong_color_witness : plotData (fun m => if m = "crashed" then "red" else "green") [("crashed", ([0], [5])), ("ok", ([0, 1], [1, 2]))] =
    ([("ok", [1, 2])], [0, 1], ["red"]) := by decide +kernel

/-- C71 fails if two miners have the same number of values for different x values: the values of the second miner are
drawn at the x values of the first one -/
theorem C71_wrong_x_witness : plotData (fun _ => "black") [("m1", ([0, 1], [5, 6])), ("m2", ([7, 8], [1, 2]))] =
    ([("m1", [5, 6]), ("m2", [1, 2])], [0, 1], ["black", "black"]) := by decide +kernel

example : let s := collect (C := List Rat) [] (fun l v => l ++ [v]) [⟨"m", "t", .str "a", 1⟩, ⟨"m", "t", .str "b", 2⟩, ⟨"n", "t", .str "b", 3⟩, ⟨"m", "t", .str "b", 4⟩]
    lookup s "t" "m" 1 = some [2, 4] ∧ lookup s "t" "n" 1 = some [3] ∧ lookup s "t" "n" 0 = none := by decide +kernel

end Prolothar.ResultCollector
