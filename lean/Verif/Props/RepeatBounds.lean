import Verif.Props.SuffixTree
/-
C182: how many repeats there are: fewer than the sequence has elements, and the tree is of linear size.
-/
namespace Prolothar.SuffixTree
open Prolothar.BoyerMoore Prolothar.Patterns Prolothar.Spec

variable {α : Type} [DecidableEq α]

omit [DecidableEq α] in
theorem occursAt_iff {w l : List α} {i : Nat} : OccursAt w l i ↔ i ≤ l.length ∧ w <+: l.drop i := by
  constructor
  · intro h
    refine ⟨?_, prefix_drop_of_occursAt h⟩
    obtain ⟨a, b, rfl, rfl⟩ := h
    simp
  · intro h
    exact occursAt_of_prefix_drop h.2 h.1

omit [DecidableEq α] in
theorem occursAt_cons_succ {x : α} {w s : List α} {i : Nat} : OccursAt w (x :: s) (i + 1) ↔ OccursAt w s i := by
  simp only [occursAt_iff, List.length_cons, List.drop_succ_cons, Nat.add_le_add_iff_right]

omit [DecidableEq α] in
/-- a word which becomes right maximal when an element is put in front starts the new sequence -/
theorem new_rightMaximal {x : α} {w s : List α} (h : RightMaximal w (x :: s)) (hn : ¬ RightMaximal w s) :
    w <+: x :: s ∧ ∃ j, OccursAt w s j ∧ s[j + w.length]? ≠ (x :: s)[w.length]? := by
  obtain ⟨i, j, hi, hj, hd⟩ := h
  have key : ∀ i j : Nat, OccursAt w (x :: s) i → OccursAt w (x :: s) j →
      (x :: s)[i + w.length]? ≠ (x :: s)[j + w.length]? → i = 0 →
      w <+: x :: s ∧ ∃ j, OccursAt w s j ∧ s[j + w.length]? ≠ (x :: s)[w.length]? := by
    intro i j hi hj hd h0
    subst h0
    refine ⟨(occursAt_iff.mp hi).2, ?_⟩
    cases j with
    | zero => exact absurd rfl hd
    | succ j =>
      refine ⟨j, occursAt_cons_succ.mp hj, ?_⟩
      intro h
      apply hd
      rw [Nat.zero_add, ← h, show j + 1 + w.length = (j + w.length) + 1 by omega, List.getElem?_cons_succ]
  cases i with
  | zero => exact key 0 j hi hj hd rfl
  | succ i =>
    cases j with
    | zero => exact key 0 _ hj hi (Ne.symm hd) rfl
    | succ j =>
      exfalso
      apply hn
      refine ⟨i, j, occursAt_cons_succ.mp hi, occursAt_cons_succ.mp hj, ?_⟩
      intro h
      apply hd
      rw [show i + 1 + w.length = (i + w.length) + 1 by omega, show j + 1 + w.length = (j + w.length) + 1 by omega,
        List.getElem?_cons_succ, List.getElem?_cons_succ, h]

omit [DecidableEq α] in
/-- at most one word becomes right maximal when an element is put in front -/
theorem new_unique_le {x : α} {p q s : List α} (hp : RightMaximal p (x :: s)) (hpn : ¬ RightMaximal p s)
    (hq : RightMaximal q (x :: s)) (hqn : ¬ RightMaximal q s) (hle : p.length ≤ q.length) : p = q := by
  obtain ⟨hp1, j, hj, hjd⟩ := new_rightMaximal hp hpn
  obtain ⟨hq1, k, hk, _⟩ := new_rightMaximal hq hqn
  have hpq : p <+: q := List.prefix_of_prefix_length_le hp1 hq1 hle
  rcases Nat.lt_or_ge p.length q.length with hlt | hge
  · exfalso
    apply hpn
    have hk' := occursAt_iff.mp hk
    have h1 : q[p.length]? = (x :: s)[p.length]? := getElem?_of_prefix hq1 hlt
    have h2 : q[p.length]? = (s.drop k)[p.length]? := getElem?_of_prefix hk'.2 hlt
    rw [List.getElem?_drop] at h2
    refine ⟨j, k, hj, occursAt_iff.mpr ⟨hk'.1, hpq.trans hk'.2⟩, ?_⟩
    rw [← h2, h1]
    exact hjd
  · exact hpq.eq_of_length (by omega)

omit [DecidableEq α] in
theorem new_unique {x : α} {p q s : List α} (hp : RightMaximal p (x :: s)) (hpn : ¬ RightMaximal p s)
    (hq : RightMaximal q (x :: s)) (hqn : ¬ RightMaximal q s) : p = q := by
  rcases Nat.le_total p.length q.length with h | h
  · exact new_unique_le hp hpn hq hqn h
  · exact (new_unique_le hq hqn hp hpn h).symm

omit [DecidableEq α] in
theorem rightMaximal_count : ∀ (l : List α) (r : List (List α)), r.Nodup → (∀ w ∈ r, w ≠ [] ∧ RightMaximal w l) →
    r.length ≤ l.length - 1
  | [], r, _, h => by
    cases r with
    | nil => simp
    | cons w r =>
      obtain ⟨h1, i, _, hi, _⟩ := h w (by simp)
      have := (occursAt_iff.mp hi).2
      rw [List.drop_nil, List.prefix_nil] at this
      exact absurd this h1
  | x :: s, r, hnd, h => by
    classical
    by_cases hs : s = []
    · subst hs
      cases r with
      | nil => simp
      | cons w r =>
        exfalso
        obtain ⟨h1, i, j, hi, hj, hd⟩ := h w (by simp)
        have key : ∀ i, OccursAt w [x] i → i = 0 := by
          intro i hi
          by_contra hne
          have := (occursAt_iff.mp hi).2
          rw [List.drop_eq_nil_of_le (by simp; omega), List.prefix_nil] at this
          exact h1 this
        rw [key i hi, key j hj] at hd
        exact hd rfl
    · have hlen : 0 < s.length := List.length_pos_iff.mpr hs
      let old : List α → Bool := fun w => decide (RightMaximal w s)
      have hsum : r.length = (r.filter old).length + (r.filter fun w => !old w).length := by
        have := List.length_eq_length_filter_add (l := r) old
        exact this
      have h1 := rightMaximal_count s (r.filter old) (hnd.filter _) (by
        intro w hw
        rw [List.mem_filter] at hw
        exact ⟨(h w hw.1).1, of_decide_eq_true hw.2⟩)
      have h2 : (r.filter fun w => !old w).length ≤ 1 := by
        have hnd2 : (r.filter fun w => !old w).Nodup := hnd.filter _
        have hall : ∀ w ∈ (r.filter fun w => !old w), RightMaximal w (x :: s) ∧ ¬ RightMaximal w s := by
          intro w hw
          rw [List.mem_filter] at hw
          refine ⟨(h w hw.1).2, ?_⟩
          have := hw.2
          simpa [old] using this
        generalize (r.filter fun w => !old w) = f at hnd2 hall
        match f, hnd2, hall with
        | [], _, _ => simp
        | [_], _, _ => simp
        | p :: q :: f, hnd2, hall =>
          exfalso
          have hp := hall p (by simp)
          have hq := hall q (by simp)
          have := new_unique hp.1 hp.2 hq.1 hq.2
          rw [this] at hnd2
          simp at hnd2
      rw [List.length_cons]
      omega

/-- C182: `find_maximal_repeats` returns fewer words than the sequence has elements, for any minimal length. -/
theorem C182_count (dollar : α) {seq : List α} (hne : seq ≠ []) (hd : dollar ∉ seq) (minLength : Nat) :
    ∃ r, findMaximal dollar (fun _ _ => false) seq minLength = .ok r ∧ r.length < seq.length := by
  obtain ⟨r, h1, h2, h3⟩ := C94_maximal_repeats dollar hne hd minLength
  refine ⟨r, h1, ?_⟩
  have := rightMaximal_count seq r h2 (fun w hw => ⟨((h3 w).mp hw).1, ((h3 w).mp hw).2.2⟩)
  have := List.length_pos_iff.mpr hne
  omega

/-- C182: the bound cannot be improved: of a sequence of `n` equal elements, all shorter words are returned. -/
theorem C182_tight (dollar a : α) (h : a ≠ dollar) (n : Nat) :
    ∃ r, findMaximal dollar (fun _ _ => false) (List.replicate (n + 1) a) 1 = .ok r ∧ r.length = n ∧
      ∀ w, w ∈ r ↔ ∃ k, 1 ≤ k ∧ k ≤ n ∧ w = List.replicate k a := by
  have hne : List.replicate (n + 1) a ≠ [] := by simp
  have hd : dollar ∉ List.replicate (n + 1) a := by
    intro hm
    exact h (List.eq_of_mem_replicate hm).symm
  obtain ⟨r, h1, h2, h3⟩ := C94_maximal_repeats dollar hne hd 1
  have hcount := rightMaximal_count _ r h2 (fun w hw => ⟨((h3 w).mp hw).1, ((h3 w).mp hw).2.2⟩)
  rw [List.length_replicate] at hcount
  have hmem : ∀ w, w ∈ r ↔ ∃ k, 1 ≤ k ∧ k ≤ n ∧ w = List.replicate k a := by
    intro w
    rw [h3]
    constructor
    · rintro ⟨_, hl, hr⟩
      obtain ⟨i, j, hij, hi, hj⟩ := rightMaximal_repeated hr
      have hocc : ∀ i, OccursAt w (List.replicate (n + 1) a) i → i + w.length ≤ n + 1 ∧ w = List.replicate w.length a := by
        rintro i ⟨u, v, huv, rfl⟩
        constructor
        · have := congrArg List.length huv
          simp at this
          omega
        · apply List.eq_replicate_of_mem
          intro b hb
          have : b ∈ List.replicate (n + 1) a := by
            rw [huv]; simp [hb]
          exact List.eq_of_mem_replicate this
      refine ⟨w.length, hl, ?_, (hocc i hi).2⟩
      have := (hocc i hi).1
      have := (hocc j hj).1
      omega
    · rintro ⟨k, hk1, hk2, rfl⟩
      refine ⟨?_, by simpa using hk1, 0, n + 1 - k, ?_, ?_, ?_⟩
      · intro h0
        have := congrArg List.length h0
        simp at this
        omega
      · refine ⟨[], List.replicate (n + 1 - k) a, ?_, rfl⟩
        rw [List.nil_append, List.replicate_append_replicate]
        congr 1
        omega
      · refine ⟨List.replicate (n + 1 - k) a, [], ?_, by simp⟩
        rw [List.append_nil, List.replicate_append_replicate]
        congr 1
        omega
      · rw [List.length_replicate, List.getElem?_replicate, List.getElem?_replicate, if_pos (by omega), if_neg (by omega)]
        simp
  refine ⟨r, h1, ?_, hmem⟩
  apply Nat.le_antisymm (by omega)
  let f : Nat → List α := fun k => List.replicate (k + 1) a
  have hsub : ((List.range n).map f) ⊆ r := by
    intro w hw
    obtain ⟨k, hk, rfl⟩ := List.mem_map.mp hw
    rw [List.mem_range] at hk
    exact (hmem _).mpr ⟨k + 1, by omega, by omega, rfl⟩
  have hnd : ((List.range n).map f).Nodup := by
    rw [List.nodup_map_iff_inj_on List.nodup_range]
    intro i _ j _ hij
    have := congrArg List.length hij
    simp [f] at this
    omega
  have := (hnd.subperm hsub).length_le
  simpa using this

/-- C182: `find_super_maximal_repeats` returns fewer words than the sequence has elements. -/
theorem C182_super (dollar : α) {seq : List α} (hne : seq ≠ []) (hd : dollar ∉ seq) (minLength : Nat) :
    ∃ r, findSuperMaximal dollar (fun _ _ => false) seq minLength = .ok r ∧ r.length < seq.length := by
  obtain ⟨r, h1, h2, _, h3⟩ := C95_super_maximal_repeats dollar hne hd minLength
  refine ⟨r, h1, ?_⟩
  obtain ⟨ms, k1, k2, k3⟩ := C94_maximal_repeats dollar hne hd minLength
  have := rightMaximal_count seq ms k2 (fun w hw => ⟨((k3 w).mp hw).1, ((k3 w).mp hw).2.2⟩)
  have hpos := List.length_pos_iff.mpr hne
  have hsub : r ⊆ ms := by
    intro w hw
    obtain ⟨h4, h5, h6, h7⟩ := (h3 w).mp hw
    obtain ⟨x, hx⟩ := rightMaximal_extend _ w (Nat.le_refl _) h6
    by_cases hx0 : x = []
    · subst hx0
      rw [List.append_nil] at hx
      exact (k3 w).mpr ⟨h4, h5, hx⟩
    · exact absurd (rightMaximal_repeated hx) (h7 (w ++ x) (by simpa using hx0) ⟨[], x, by simp⟩)
  have := (h2.subperm hsub).length_le
  omega

/-- C182: the suffix tree of a sequence of `n` strings without `'$'` has one node for the root, one for each of
the `n + 1` suffixes and one for each maximal repeat. -/
theorem C182_tree (dollar : α) {seq : List α} (hne : seq ≠ []) (hd : dollar ∉ seq) :
    ∃ t r, create dollar seq = .ok (seq ++ [dollar], t) ∧ findMaximal dollar (fun _ _ => false) seq 0 = .ok r ∧
      t.size = seq.length + 2 + r.length := by
  have hends : Ends (seq ++ [dollar]) := ⟨seq, dollar, rfl, hd⟩
  obtain ⟨t, ws, hb, hinv⟩ := build_spec hends
  obtain ⟨r, h1, h2, h3⟩ := C94_maximal_repeats dollar hne hd 0
  refine ⟨t, r, ?_, h1, ?_⟩
  · unfold create
    obtain ⟨l, x, rfl⟩ : ∃ l x, seq = l ++ [x] := ⟨seq.dropLast, seq.getLast hne, (List.dropLast_append_getLast hne).symm⟩
    have hg : pyGet (l ++ [x]) (-1) = .ok x := by
      unfold pyGet
      simp
    rw [hg]
    have hx : x ≠ dollar := by rintro rfl; exact hd (by simp)
    show (do let t ← build (if x ≠ dollar then (l ++ [x]) ++ [dollar] else l ++ [x])
             return ((if x ≠ dollar then (l ++ [x]) ++ [dollar] else l ++ [x]), t)) = _
    rw [if_pos hx, hb]; rfl
  · have htrie := hinv.toCore.trie
    have hr : ∀ w, w ∈ r ↔ ∃ i, 0 < i ∧ i < t.size ∧ t.kids i ≠ [] ∧ ws i = w := by
      intro w
      rw [h3, inner_iff hends hinv, branching_iff hd]
      simp
    generalize hword : seq ++ [dollar] = word at *
    have hwlen : word.length = seq.length + 1 := by rw [← hword]; simp
    have hnd1 : ((List.range (t.size - 1)).map fun i => ws (i + 1)).Nodup := by
      rw [List.nodup_map_iff_inj_on List.nodup_range]
      intro i hi j hj hij
      rw [List.mem_range] at hi hj
      have := htrie.inj (by omega) (by omega) hij
      omega
    have hnd2 : ((List.range word.length).map fun j => word.drop j).Nodup := by
      rw [List.nodup_map_iff_inj_on List.nodup_range]
      intro i hi j hj hij
      rw [List.mem_range] at hi hj
      have := congrArg List.length hij
      simp only [List.length_drop] at this
      omega
    have hnd3 : (((List.range word.length).map fun j => word.drop j) ++ r).Nodup := by
      rw [List.nodup_append]
      refine ⟨hnd2, h2, ?_⟩
      intro a ha b hb2 hab
      subst hab
      obtain ⟨j, hj, rfl⟩ := List.mem_map.mp ha
      rw [List.mem_range] at hj
      obtain ⟨i, _, hi1, hi2, hi3⟩ := hinv.suf j hj
      obtain ⟨i', _, hi1', hi2', hi3'⟩ := (hr _).mp hb2
      have := htrie.inj hi1 hi1' (by rw [hi3, hi3'])
      subst this
      exact hi2' hi2
    have hperm : ((List.range (t.size - 1)).map fun i => ws (i + 1)).Perm
        (((List.range word.length).map fun j => word.drop j) ++ r) := by
      rw [List.perm_ext_iff_of_nodup hnd1 hnd3]
      intro w
      rw [List.mem_append, hr, List.mem_map, List.mem_map]
      constructor
      · rintro ⟨i, hi, rfl⟩
        rw [List.mem_range] at hi
        by_cases hk : t.kids (i + 1) = []
        · obtain ⟨j, hj, he⟩ := hinv.leaf (i + 1) (by omega) (by omega) hk
          exact .inl ⟨j, List.mem_range.mpr hj, he.symm⟩
        · exact .inr ⟨i + 1, by omega, by omega, hk, rfl⟩
      · rintro (⟨j, hj, rfl⟩ | ⟨i, h0, hi, _, rfl⟩)
        · rw [List.mem_range] at hj
          obtain ⟨i, h0, hi1, _, hi3⟩ := hinv.suf j hj
          exact ⟨i - 1, List.mem_range.mpr (by omega), by rw [Nat.sub_add_cancel h0]; exact hi3⟩
        · exact ⟨i - 1, List.mem_range.mpr (by omega), by rw [Nat.sub_add_cancel h0]⟩
    have hlen := hperm.length_eq
    have hpos := hinv.pos
    rw [List.length_append, List.length_map, List.length_map, List.length_range, List.length_range] at hlen
    omega

/-- C182: hence the tree of a sequence of `n` elements has at most `2 n + 1` nodes. -/
theorem C182_linear (dollar : α) {seq : List α} (hne : seq ≠ []) (hd : dollar ∉ seq) :
    ∃ t, create dollar seq = .ok (seq ++ [dollar], t) ∧ seq.length + 2 ≤ t.size ∧ t.size ≤ 2 * seq.length + 1 := by
  obtain ⟨t, r, h1, h2, h3⟩ := C182_tree dollar hne hd
  obtain ⟨r', h4, h5⟩ := C182_count dollar hne hd 0
  have : r = r' := Except.ok.inj (h2.symm.trans h4)
  subst this
  exact ⟨t, h1, by omega, by omega⟩

/-- the hypotheses are met, and both bounds on the size of the tree are reached -/
example : (∃ r, findMaximal 0 (fun _ _ => false) [1, 2, 1, 2, 3] 1 = .ok r ∧ r.length < 5) ∧
    (∃ t, create 0 [1, 2, 3] = .ok ([1, 2, 3, 0], t) ∧ t.size = 3 + 2) ∧
    ∃ t, create 0 [1, 1, 1] = .ok ([1, 1, 1, 0], t) ∧ t.size = 2 * 3 + 1 :=
  ⟨C182_count 0 (by decide) (by decide) 1, ⟨_, rfl, rfl⟩, ⟨_, rfl, rfl⟩⟩

end Prolothar.SuffixTree
