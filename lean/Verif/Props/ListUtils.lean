import Verif.Lemmas.ListUtils
import Verif.Spec.Nested
import Mathlib.Data.List.Nodup
/-
Properties C04, C06-C09 of /repo/prolothar_common/collections/list_utils.pyx 132-235.
-/
set_option linter.unusedSectionVars false
set_option linter.unusedSimpArgs false
namespace Prolothar.ListUtils
open Prolothar.Spec
variable {α : Type}

/-! ### C04: view_of_n_partitions -/

/-- C04: for a non-empty list and `n ≥ 1` there are exactly `min n (len l)` non-empty
consecutive blocks that concatenate to `l`; sizes never increase and differ by at most one. -/
theorem C04_partitions (l : List α) (n : Int) (hl : l ≠ []) (hn : 1 ≤ n) :
    ∃ parts, viewOfNPartitions l n = .ok parts ∧ parts.flatten = l ∧
      (parts.length : Int) = min n l.length ∧ (∀ b ∈ parts, b ≠ []) ∧
      parts.Pairwise (fun a b => b.length ≤ a.length) ∧
      ∀ a ∈ parts, ∀ b ∈ parts, a.length ≤ b.length + 1 := by
  have hL : 0 < l.length := List.length_pos_iff.2 hl
  let N : Nat := (min n l.length).toNat
  have hN : (N : Int) = min n l.length := by simp only [N]; omega
  have hN1 : 0 < N := by omega
  have hNL : N ≤ l.length := by omega
  let s := l.length / N
  let r := l.length % N
  have hs : 0 < s := Nat.div_pos hNL hN1
  have hr : r < N := Nat.mod_lt _ hN1
  have hdm : N * s + r = l.length := Nat.div_add_mod _ _
  have hn' : max (min n (l.length : Int)) 0 = (N : Int) := by omega
  have es : ((l.length : Int) / (N : Int)).toNat = s := by
    have : (l.length : Int) / (N : Int) = ((l.length / N : Nat) : Int) := by push_cast; rfl
    rw [this]; exact Int.toNat_natCast _
  have er : ((l.length : Int) % (N : Int)).toNat = r := by
    have : (l.length : Int) % (N : Int) = ((l.length % N : Nat) : Int) := by push_cast; rfl
    rw [this]; exact Int.toNat_natCast _
  have c1 : (r * (s + 1) - 0 + (s + 1) - 1) / (s + 1) = r := by
    have : r * (s + 1) - 0 + (s + 1) - 1 = r * (s + 1) + s := by omega
    rw [this, Nat.mul_comm, Nat.mul_add_div (by omega)]
    rw [Nat.div_eq_of_lt (by omega)]; rfl
  have hrem : l.length - r * (s + 1) = s * (N - r) := by
    have h1 : N * s = s * (N - r) + s * r := by
      rw [← Nat.mul_add, Nat.sub_add_cancel hr.le, Nat.mul_comm]
    have h2 : r * (s + 1) = s * r + r := by ring
    omega
  have c2 : (l.length - r * (s + 1) + s - 1) / s = N - r := by
    rw [hrem]
    have : s * (N - r) + s - 1 = s * (N - r) + (s - 1) := by omega
    rw [this, Nat.mul_add_div hs, Nat.div_eq_of_lt (by omega)]; rfl
  have hle : r * (s + 1) ≤ l.length := by
    have h2 : r * (s + 1) = r * s + r := by ring
    have h3 : r * s ≤ N * s := Nat.mul_le_mul_right s hr.le
    omega
  have hlen1 : ∀ k, k < r → (pySlice l (0 + (s + 1) * k) (0 + (s + 1) * k + (s + 1))).length
      = s + 1 := by
    intro k hk
    have : (s + 1) * (k + 1) ≤ (s + 1) * r := Nat.mul_le_mul_left _ hk
    have e : (s + 1) * (k + 1) = (s + 1) * k + (s + 1) := by ring
    have e2 : (s + 1) * r = r * (s + 1) := by ring
    simp only [pySlice, List.length_drop, List.length_take]
    omega
  have hlen2 : ∀ k, k < N - r →
      (pySlice l (r * (s + 1) + s * k) (r * (s + 1) + s * k + s)).length = s := by
    intro k hk
    have : s * (k + 1) ≤ s * (N - r) := Nat.mul_le_mul_left _ hk
    have e : s * (k + 1) = s * k + s := by ring
    simp only [pySlice, List.length_drop, List.length_take]
    omega
  refine ⟨(List.range r).map (fun k => pySlice l (0 + (s + 1) * k) (0 + (s + 1) * k + (s + 1))) ++
    (List.range (N - r)).map
      (fun k => pySlice l (r * (s + 1) + s * k) (r * (s + 1) + s * k + s)), ?_, ?_, ?_, ?_, ?_, ?_⟩
  · unfold viewOfNPartitions
    simp only [hn', es, er]
    rw [if_neg (by omega)]
    unfold pyRange
    rw [if_neg (by omega), if_neg (by omega), c1, c2]
    simp [bind, Except.bind, pure, Except.pure, Function.comp_def]
  · rw [List.flatten_append, slices_flatten l 0 (s + 1) r, slices_flatten l (r * (s + 1)) s (N - r)]
    have e1 : r * (s + 1) + s * (N - r) = l.length := by omega
    have e2 : 0 + (s + 1) * r = r * (s + 1) := by ring
    rw [e1, e2]
    simp [pySlice]
  · simp; omega
  · intro b hb
    rw [List.mem_append, List.mem_map, List.mem_map] at hb
    apply List.length_pos_iff.1
    rcases hb with ⟨k, hk, rfl⟩ | ⟨k, hk, rfl⟩
    · rw [hlen1 k (List.mem_range.1 hk)]; omega
    · rw [hlen2 k (List.mem_range.1 hk)]; exact hs
  · rw [List.pairwise_append]
    refine ⟨?_, ?_, ?_⟩
    · rw [List.pairwise_map]
      refine List.Pairwise.imp_of_mem (R := fun _ _ => True) ?_ (List.pairwise_of_forall (fun _ _ => trivial))
      intro a b ha hb _
      rw [hlen1 _ (List.mem_range.1 ha), hlen1 _ (List.mem_range.1 hb)]
    · rw [List.pairwise_map]
      refine List.Pairwise.imp_of_mem (R := fun _ _ => True) ?_ (List.pairwise_of_forall (fun _ _ => trivial))
      intro a b ha hb _
      rw [hlen2 _ (List.mem_range.1 ha), hlen2 _ (List.mem_range.1 hb)]
    · intro a ha b hb
      obtain ⟨x, hx, rfl⟩ := List.mem_map.1 ha
      obtain ⟨y, hy, rfl⟩ := List.mem_map.1 hb
      rw [hlen1 _ (List.mem_range.1 hx), hlen2 _ (List.mem_range.1 hy)]; omega
  · have key : ∀ a ∈ (List.range r).map (fun k => pySlice l (0 + (s + 1) * k) (0 + (s + 1) * k + (s + 1))) ++
        (List.range (N - r)).map (fun k => pySlice l (r * (s + 1) + s * k) (r * (s + 1) + s * k + s)),
        a.length = s ∨ a.length = s + 1 := by
      intro a ha
      rw [List.mem_append, List.mem_map, List.mem_map] at ha
      rcases ha with ⟨k, hk, rfl⟩ | ⟨k, hk, rfl⟩
      · right; exact hlen1 k (List.mem_range.1 hk)
      · left; exact hlen2 k (List.mem_range.1 hk)
    intro a ha b hb
    have h1 := key a ha
    have h2 := key b hb
    omega

/-- C04: the error case. -/
theorem C04_partitions_error (l : List α) (n : Int) :
    viewOfNPartitions l n = .error .zeroDivision ↔ l = [] ∨ n ≤ 0 := by
  constructor
  · intro h
    by_contra hc
    rw [not_or] at hc
    obtain ⟨parts, h2, _⟩ := C04_partitions l n hc.1 (by omega)
    rw [h2] at h; cases h
  · intro h
    have : max (min n (l.length : Int)) 0 = 0 := by
      rcases h with rfl | h
      · simp
      · omega
    simp [viewOfNPartitions, this]

example : viewOfNPartitions [1, 2, 3, 4, 5, 6, 7, 8, 9] 4 = .ok [[1, 2, 3], [4, 5], [6, 7], [8, 9]] := by
  decide
example : viewOfNPartitions [1, 2, 3] 4 = .ok [[1], [2], [3]] := by decide

/-! ### enumerate_reversed -/

/-- C75: position `k` of the reversed enumeration carries the index `len - 1 - k` and the
element at this index. -/
theorem C75_enumerate_reversed (l : List α) :
    (enumerateReversed l).length = l.length ∧
    ∀ k, k < l.length → ∃ x, l[l.length - 1 - k]? = some x ∧
      (enumerateReversed l)[k]? = some (((l.length - 1 - k : Nat) : Int), x) := by
  refine ⟨by simp [enumerateReversed], fun k hk => ?_⟩
  refine ⟨l[l.length - 1 - k], List.getElem?_eq_getElem (by omega), ?_⟩
  simp only [enumerateReversed, List.getElem?_map, List.getElem?_zipIdx]
  rw [List.getElem?_reverse hk, List.getElem?_eq_getElem (by omega)]
  simp only [Option.map_some]
  congr 2
  omega

example : enumerateReversed ['a', 'b', 'c'] = [(2, 'c'), (1, 'b'), (0, 'a')] := by decide

/-! ### C06: deep_flatten -/

theorem foldl_append_eq {β : Type} (f : β → List α) : ∀ (xs : List β) (acc : List α),
    xs.foldl (fun acc x => acc ++ f x) acc = acc ++ xs.flatMap f
  | [], acc => by simp
  | x :: xs, acc => by simp [foldl_append_eq f xs, List.append_assoc]

theorem deepFlatten_list (xs : List (Nested α)) :
    deepFlatten (.list xs) = xs.flatMap deepFlatten := by
  rw [deepFlatten, foldl_append_eq (fun (x : {x // x ∈ xs}) => deepFlatten x.1)]
  simp [List.flatMap_subtype]

theorem deepFlatten_leaf (a : α) : deepFlatten (.leaf a) = [a] := by simp [deepFlatten]

theorem written_list (xs : List (Nested α)) :
    written (.list xs) = [.opening] ++ xs.flatMap written ++ [.closing] := by
  rw [written]
  simp [List.flatMap_subtype]

theorem items_append : ∀ (xs ys : List (Tok α)), items (xs ++ ys) = items xs ++ items ys
  | [], ys => by simp [items]
  | .item a :: xs, ys => by simp [items, items_append xs ys]
  | .opening :: xs, ys => by simp [items, items_append xs ys]
  | .closing :: xs, ys => by simp [items, items_append xs ys]

theorem items_flatMap {β : Type} (f : β → List (Tok α)) : ∀ xs : List β,
    items (xs.flatMap f) = xs.flatMap (fun x => items (f x))
  | [] => by simp [items]
  | x :: xs => by simp [items_append, items_flatMap f xs]

/-- C06: the result is the sequence of the non-list items in the order in which they are
written, whatever the nesting. -/
theorem C06_deep_flatten_items : ∀ (x : Nested α), deepFlatten x = items (written x)
  | .leaf a => by simp [deepFlatten_leaf, written, items]
  | .list xs => by
    rw [deepFlatten_list, written_list, items_append, items_append, items_flatMap]
    simp only [items, List.nil_append, List.append_nil]
    rw [List.flatMap_def, List.flatMap_def]
    congr 1
    apply List.map_congr_left
    intro x hx
    have : sizeOf x < sizeOf (Nested.list xs) := by
      have := List.sizeOf_lt_of_mem hx
      simp only [Nested.list.sizeOf_spec]; omega
    exact C06_deep_flatten_items x
termination_by x => sizeOf x

/-- C06: a flat list is unchanged. -/
theorem C06_deep_flatten_flat (xs : List α) : deepFlatten (.list (xs.map .leaf)) = xs := by
  rw [deepFlatten_list, List.flatMap_map]
  simp [deepFlatten_leaf]

/-- C06: removing a pair of inner brackets changes nothing. -/
theorem C06_deep_flatten_unnest (a b c : List (Nested α)) :
    deepFlatten (.list (a ++ [.list b] ++ c)) = deepFlatten (.list (a ++ b ++ c)) := by
  simp [deepFlatten_list, List.flatMap_append]

example : deepFlatten (.list [.leaf 1, .list [.leaf 2], .list [.list [.leaf 3], .leaf 4], .leaf 5])
    = [1, 2, 3, 4, 5] := by
  simp [deepFlatten_list, deepFlatten_leaf]

/-! ### C07: iterate_self_product -/

/-- helper: a list of blocks of equal length -/
theorem getElem?_flatMap_const {β γ : Type} (f : β → List γ) (m : Nat) :
    ∀ (xs : List β), (∀ x ∈ xs, (f x).length = m) → ∀ i j, j < m →
      (xs.flatMap f)[i * m + j]? = (xs[i]?).bind (fun x => (f x)[j]?)
  | [], _, i, j, _ => by simp
  | x :: xs, h, i, j, hj => by
    have hx := h x (by simp)
    cases i with
    | zero =>
      simp only [List.flatMap_cons, Nat.zero_mul, Nat.zero_add]
      rw [List.getElem?_append_left (by omega)]; simp
    | succ i =>
      have e : (i + 1) * m + j = (i * m + j) + m := by ring
      rw [List.flatMap_cons, List.getElem?_append_right (by omega), hx, e,
        Nat.add_sub_cancel, getElem?_flatMap_const f m xs (fun y hy => h y (by simp [hy])) i j hj]
      simp

theorem length_flatMap_const {β γ : Type} (f : β → List γ) (m : Nat) :
    ∀ (xs : List β), (∀ x ∈ xs, (f x).length = m) → (xs.flatMap f).length = xs.length * m
  | [], _ => by simp
  | x :: xs, h => by
    rw [List.flatMap_cons, List.length_append, h x (by simp),
      length_flatMap_const f m xs (fun y hy => h y (by simp [hy]))]
    simp only [List.length_cons]; ring

theorem rowFull (l : List α) (ei : α) (i : Nat) :
    (l.zipIdx.flatMap (fun (p : α × Nat) => if !false || i != p.2 then [(ei, p.1)] else []))
      = l.map (fun x => (ei, x)) := by
  simp only [Bool.not_false, Bool.true_or, if_true]
  apply List.ext_getElem?
  intro k
  have := getElem?_flatMap_const (fun p : α × Nat => [(ei, p.1)]) 1 l.zipIdx (by simp) k 0 (by omega)
  simp only [Nat.mul_one, Nat.add_zero] at this
  rw [this]
  simp only [List.getElem?_zipIdx, List.getElem?_map]
  cases l[k]? <;> simp

/-- C07: without skipping there are `n * n` pairs and pair number `i * n + j` is
`(l[i], l[j])`. -/
theorem C07_self_product (l : List α) :
    (iterateSelfProduct l false).length = l.length * l.length ∧
    ∀ i j, (hi : i < l.length) → (hj : j < l.length) →
      (iterateSelfProduct l false)[i * l.length + j]? = some (l[i], l[j]) := by
  have hrow : iterateSelfProduct l false =
      l.zipIdx.flatMap (fun p => l.map (fun x => (p.1, x))) := by
    unfold iterateSelfProduct
    congr 1
    funext p
    exact rowFull l p.1 p.2
  rw [hrow]
  refine ⟨?_, fun i j hi hj => ?_⟩
  · rw [length_flatMap_const _ l.length _ (by simp)]; simp
  · rw [getElem?_flatMap_const _ l.length _ (by simp) i j hj]
    simp [List.getElem?_zipIdx, hi, hj]

theorem rowSkip (l : List α) (ei : α) (i : Nat) (s : Nat) :
    ((l.zipIdx s).flatMap (fun (p : α × Nat) => if !true || i != p.2 then [(ei, p.1)] else []))
      = if i < s ∨ s + l.length ≤ i then l.map (fun x => (ei, x))
        else (l.eraseIdx (i - s)).map (fun x => (ei, x)) := by
  simp only [Bool.not_true, Bool.false_or]
  induction l generalizing s with
  | nil => simp
  | cons x xs ih =>
    rw [List.zipIdx_cons, List.flatMap_cons, ih (s + 1)]
    by_cases h1 : i = s
    · subst h1
      simp
    · have hne : (i != s) = true := by simpa using h1
      simp only [hne, if_true, List.length_cons]
      by_cases h2 : i < s + 1 ∨ s + 1 + xs.length ≤ i
      · rw [if_pos h2, if_pos (by omega)]; simp
      · rw [if_neg h2, if_neg (by omega)]
        have e : i - s = (i - (s + 1)) + 1 := by omega
        rw [e, List.eraseIdx_cons_succ]; simp

/-- C07: with `skip_diagonal` exactly the pairs of equal positions are left out, the order of
the others being kept: there are `n * (n - 1)` pairs and for `i ≠ j` the pair `(l[i], l[j])`
stands in block `i` at place `j` (`j - 1` behind the diagonal). -/
theorem C07_self_product_skip (l : List α) :
    (iterateSelfProduct l true).length = l.length * (l.length - 1) ∧
    ∀ i j, (hi : i < l.length) → (hj : j < l.length) → i ≠ j →
      (iterateSelfProduct l true)[i * (l.length - 1) + (if j < i then j else j - 1)]?
        = some (l[i], l[j]) := by
  have hrow : ∀ p ∈ l.zipIdx, (l.zipIdx.flatMap (fun (q : α × Nat) =>
      if !true || p.2 != q.2 then [(p.1, q.1)] else [])) = (l.eraseIdx p.2).map (fun x => (p.1, x)) := by
    intro p hp
    have hlt : p.2 < l.length := by
      have := List.snd_lt_of_mem_zipIdx hp; simpa using this
    rw [rowSkip l p.1 p.2 0, if_neg (by omega)]; simp
  have hlen : ∀ p ∈ l.zipIdx, (l.zipIdx.flatMap (fun (q : α × Nat) =>
      if !true || p.2 != q.2 then [(p.1, q.1)] else [])).length = l.length - 1 := by
    intro p hp
    have hlt : p.2 < l.length := by
      have := List.snd_lt_of_mem_zipIdx hp; simpa using this
    rw [hrow p hp]; simp [List.length_eraseIdx, hlt]
  unfold iterateSelfProduct
  refine ⟨?_, fun i j hi hj hij => ?_⟩
  · rw [length_flatMap_const _ (l.length - 1) _ (fun p hp => hlen p hp)]; simp
  · rw [getElem?_flatMap_const _ (l.length - 1) _ (fun p hp => hlen p hp) i _ (by split <;> omega)]
    have hz : l.zipIdx[i]? = some (l[i], i) := by simp [List.getElem?_zipIdx, hi]
    rw [hz]
    simp only [Option.bind_some]
    have := hrow (l[i], i) (List.mem_of_getElem? hz)
    simp only at this
    rw [this, List.getElem?_map, List.getElem?_eraseIdx]
    split
    · rename_i hji
      rw [List.getElem?_eq_getElem hj]; rfl
    · rename_i hji
      have e : j - 1 + 1 = j := by omega
      rw [if_neg (by omega), e, List.getElem?_eq_getElem hj]; rfl

example : iterateSelfProduct [1, 2, 3] true = [(1, 2), (1, 3), (2, 1), (2, 3), (3, 1), (3, 2)] := by
  decide
example : iterateSelfProduct [7, 7] true = [(7, 7), (7, 7)] := by decide

/-! ### C08: longest_common_sublists -/
section
variable [DecidableEq α]

/-- C08: the returned length is the maximal length of a common contiguous block, and the
returned positions are exactly the positions of the common blocks of this length, each once
(none if the length is 0). -/
theorem C08_longest_common_sublists (a b : List α) :
    ∃ m : Nat, (longestCommonSublists a b).1 = m ∧
      (∃ c : List α, c.length = m ∧ c <:+: a ∧ c <:+: b) ∧
      (∀ c : List α, c <:+: a → c <:+: b → c.length ≤ m) ∧
      (m = 0 → (longestCommonSublists a b).2 = []) ∧
      (0 < m → ∀ p : Int × Int, p ∈ (longestCommonSublists a b).2 ↔
        ∃ i j : Nat, p = ((i : Int), (j : Int)) ∧
          ∃ c : List α, c.length = m ∧ OccursAt c a i ∧ OccursAt c b j) ∧
      (longestCommonSublists a b).2.Nodup := by
  have inv := inv_outer a b a.length le_rfl
  have hd : ∀ x y, Done b.length a.length 0 x y ↔ x < a.length ∧ y < b.length := by
    intro x y; unfold Done; omega
  unfold longestCommonSublists
  generalize ((List.range a.length).foldl
      (fun st i => (List.range b.length).foldl (fun st j => lcsBody a b i j st) st)
      { matrix := fun _ _ => 0, length := 0, indices := [] }) = st at inv
  have infix_occ : ∀ {c l : List α}, c <:+: l → ∃ i, OccursAt c l i := by
    rintro c l ⟨x, y, h⟩; exact ⟨x.length, x, y, h.symm, rfl⟩
  have occ_infix : ∀ {c l : List α} {i}, OccursAt c l i → c <:+: l := by
    rintro c l i ⟨x, y, h, _⟩; exact ⟨x, y, h.symm⟩
  obtain ⟨m, hm⟩ : ∃ m : Nat, st.length = m := ⟨st.length.toNat, by have := inv.nonneg; omega⟩
  refine ⟨m, hm, ?_, ?_, ?_, ?_, ?_⟩
  · by_cases h0 : m = 0
    · exact ⟨[], by simp [h0], List.nil_infix, List.nil_infix⟩
    · rcases inv.wit with h | ⟨x, y, h1, h2⟩
      · omega
      · rw [hd] at h1
        have hle := (le_csl_iff a b m x y).1 (by omega)
        have := (common_block_iff a b m (x + 1 - m) (y + 1 - m) (by omega)).2
          ⟨by omega, by omega, by
            have e1 : x + 1 - m + m - 1 = x := by omega
            have e2 : y + 1 - m + m - 1 = y := by omega
            rw [e1, e2]; omega⟩
        obtain ⟨c, hc, o1, o2⟩ := this
        exact ⟨c, hc, occ_infix o1, occ_infix o2⟩
  · intro c h1 h2
    by_cases h0 : c.length = 0
    · omega
    · obtain ⟨i, hi⟩ := infix_occ h1
      obtain ⟨j, hj⟩ := infix_occ h2
      obtain ⟨l1, l2, l3⟩ := (common_block_iff a b c.length i j (by omega)).1 ⟨c, rfl, hi, hj⟩
      have := inv.le (i + c.length - 1) (j + c.length - 1) (by rw [hd]; omega)
      omega
  · intro h0
    simp only
    have : st.indices = [] := by
      apply List.eq_nil_iff_forall_not_mem.2
      intro p hp
      obtain ⟨_, _, _, _, _, h⟩ := (inv.mem p).1 hp
      omega
    rw [this]; rfl
  · intro hpos p
    simp only [List.mem_map]
    constructor
    · rintro ⟨q, hq, rfl⟩
      obtain ⟨x, y, rfl, h1, h2, h3⟩ := (inv.mem q).1 hq
      rw [hd] at h1
      have hle := (le_csl_iff a b m x y).1 (by omega)
      refine ⟨x + 1 - m, y + 1 - m, ?_, ?_⟩
      · simp only [Prod.mk.injEq]; omega
      · refine (common_block_iff a b m (x + 1 - m) (y + 1 - m) (by omega)).2
          ⟨by omega, by omega, ?_⟩
        have e1 : x + 1 - m + m - 1 = x := by omega
        have e2 : y + 1 - m + m - 1 = y := by omega
        rw [e1, e2]; omega
    · rintro ⟨i, j, rfl, hc⟩
      obtain ⟨l1, l2, l3⟩ := (common_block_iff a b m i j hpos).1 hc
      refine ⟨(((i + m - 1 : Nat) : Int), ((j + m - 1 : Nat) : Int)), ?_, ?_⟩
      · rw [inv.mem]
        have hdn : Done b.length a.length 0 (i + m - 1) (j + m - 1) := by rw [hd]; omega
        have := inv.le _ _ hdn
        exact ⟨_, _, rfl, hdn, by omega, by omega⟩
      · simp only [Prod.mk.injEq]; omega
  · apply List.Nodup.map (f := fun p : Int × Int => (p.1 - st.length + 1, p.2 - st.length + 1)) _ inv.nodup
    rintro ⟨x, y⟩ ⟨x', y'⟩ h
    simp only [Prod.mk.injEq] at h ⊢
    omega

example : longestCommonSublists [1, 2, 1, 2] [2, 1, 2, 1] = (3, [(0, 1), (1, 0)]) := by decide
example : longestCommonSublists [0, 3, 5] [7, 6] = (0, []) := by decide
end

/-! ### C09: shuffle_together -/

/-- C09: for every outcome of the shuffle (every rearrangement `order` of the positions of the
shortest list) all lists are rearranged by this one permutation, cut to the shortest length;
the only exception is that no list at all is returned if the shortest length is 0. -/
theorem C09_shuffle_together (lists : List (List α)) (m : Nat) (order : List Nat)
    (hmin : (lists.map List.length).min? = some m) (hperm : order.Perm (List.range m)) :
    shuffleTogether order lists =
      if m = 0 then [] else lists.map (fun l => order.filterMap (fun k => l[k]?)) := by
  have hne : lists ≠ [] := by rintro rfl; simp at hmin
  have hle : ∀ l ∈ lists, m ≤ l.length := by
    intro l hl
    exact (List.min?_eq_some_iff.1 hmin).2 _ (List.mem_map_of_mem hl)
  have hord : ∀ k ∈ order, k < m := fun k hk => List.mem_range.1 (hperm.mem_iff.1 hk)
  have hol : order.length = m := by simpa using hperm.length_eq
  have hz : zipStar lists = (List.range m).map (fun k => lists.filterMap (fun l => l[k]?)) := by
    cases lists with
    | nil => exact absurd rfl hne
    | cons x xs => unfold zipStar; simp only [hmin]; rfl
  have hfull : ∀ k, k < m → ∀ ls : List (List α), (∀ l ∈ ls, m ≤ l.length) →
      ∀ i : Nat, (ls.filterMap (fun l : List α => l[k]?))[i]? = (ls[i]?).bind (fun l => l[k]?) := by
    intro k hk ls
    induction ls with
    | nil => simp
    | cons l ls ih =>
      intro h i
      have hl : k < l.length := lt_of_lt_of_le hk (h l (by simp))
      rw [List.filterMap_cons_some (f := fun l : List α => l[k]?) (List.getElem?_eq_getElem hl)]
      cases i with
      | zero => simp [hl]
      | succ i => simpa using ih (fun l' hl' => h l' (by simp [hl'])) i
  have hlenrow : ∀ k, k < m → (lists.filterMap (fun l => l[k]?)).length = lists.length := by
    intro k hk
    have : ∀ ls : List (List α), (∀ l ∈ ls, m ≤ l.length) →
        (ls.filterMap (fun l => l[k]?)).length = ls.length := by
      intro ls
      induction ls with
      | nil => simp
      | cons l ls ih =>
        intro h
        have hl : k < l.length := lt_of_lt_of_le hk (h l (by simp))
        rw [List.filterMap_cons_some (f := fun l : List α => l[k]?) (List.getElem?_eq_getElem hl)]
        simpa using ih (fun l' hl' => h l' (by simp [hl']))
    exact this lists hle
  -- the shuffled rows
  have hsh : order.filterMap (fun k => (zipStar lists)[k]?) =
      order.map (fun k => lists.filterMap (fun l => l[k]?)) := by
    rw [hz]
    have : ∀ o : List Nat, (∀ k ∈ o, k < m) →
        o.filterMap (fun k => ((List.range m).map (fun k => lists.filterMap (fun l => l[k]?)))[k]?)
          = o.map (fun k => lists.filterMap (fun l => l[k]?)) := by
      intro o ho
      induction o with
      | nil => simp
      | cons k ks ih =>
        have hk := ho k (by simp)
        rw [List.filterMap_cons_some (b := lists.filterMap (fun l => l[k]?))
          (by simp [List.getElem?_map, List.getElem?_range hk])]
        rw [ih (fun k' hk' => ho k' (by simp [hk'])), List.map_cons]
    exact this order hord
  unfold shuffleTogether
  simp only [hsh]
  by_cases h0 : m = 0
  · subst h0
    have : order = [] := List.eq_nil_of_length_eq_zero hol
    rw [this]; simp [zipStar]
  · rw [if_neg h0]
    obtain ⟨k0, ks, rfl⟩ : ∃ k0 ks, order = k0 :: ks := by
      cases order with
      | nil => simp at hol; omega
      | cons a b => exact ⟨a, b, rfl⟩
    have hmin2 : (((k0 :: ks).map (fun k => lists.filterMap (fun l => l[k]?))).map List.length).min?
        = some lists.length := by
      rw [List.min?_eq_some_iff]
      refine ⟨?_, ?_⟩
      · simp [hlenrow k0 (hord k0 (by simp))]
      · intro b hb
        simp only [List.mem_map] at hb
        obtain ⟨r, ⟨k, hk, rfl⟩, rfl⟩ := hb
        rw [hlenrow k (hord k hk)]
    have hz2 : zipStar ((k0 :: ks).map (fun k => lists.filterMap (fun l => l[k]?))) =
        (List.range lists.length).map (fun i =>
          ((k0 :: ks).map (fun k => lists.filterMap (fun l => l[k]?))).filterMap (fun r => r[i]?)) := by
      have : ∀ rows : List (List α), rows ≠ [] → zipStar rows =
          (List.range ((rows.map List.length).min?.getD 0)).map
            (fun i => rows.filterMap (fun r => r[i]?)) := by
        intro rows hr
        cases rows with
        | nil => exact absurd rfl hr
        | cons x xs => rfl
      rw [this _ (by simp), hmin2]; rfl
    rw [hz2]
    apply List.ext_getElem?
    intro i
    simp only [List.getElem?_map]
    by_cases hi : i < lists.length
    · rw [List.getElem?_range hi, List.getElem?_eq_getElem hi]
      simp only [Option.map_some]
      congr 1
      rw [List.filterMap_map]
      apply List.filterMap_congr
      intro k hk
      simp only [Function.comp]
      rw [hfull k (hord k hk) lists hle i, List.getElem?_eq_getElem hi]
      rfl
    · rw [List.getElem?_eq_none (by simpa using hi), List.getElem?_eq_none (by omega)]
      rfl

/-- C09, consequence: every returned list is a permutation of the (cut) input list. -/
theorem C09_shuffle_together_perm (l : List α) (m : Nat) (order : List Nat)
    (hm : m ≤ l.length) (hperm : order.Perm (List.range m)) :
    (order.filterMap (fun k => l[k]?)).Perm (l.take m) := by
  refine (hperm.filterMap _).trans ?_
  have : (List.range m).filterMap (fun k => l[k]?) = l.take m := by
    clear hperm
    induction m with
    | zero => simp
    | succ m ih =>
      rw [List.range_succ, List.filterMap_append, ih (by omega)]
      rw [List.take_add_one]
      congr 1
  rw [this]

example : shuffleTogether [2, 0, 1] [[1, 2, 3], [10, 20, 30, 40]] = [[3, 1, 2], [30, 10, 20]] := by
  decide
example : ([[1, 2, 3], [10, 20, 30, 40]].map List.length).min? = some 3 := by decide
/-- disagreement: for empty lists the number of lists is not kept -/
theorem C09_shuffle_together_empty_lists_lost :
    shuffleTogether [] [([] : List Nat), []] = [] := by decide

end Prolothar.ListUtils
