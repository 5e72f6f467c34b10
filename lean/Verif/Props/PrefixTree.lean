import Verif.Lemmas.PrefixTree
/-
Prefix tree: C52, C53, C85, C86.
-/
set_option linter.unusedSectionVars false
namespace Prolothar.PrefixTree
open Prolothar.Spec.PrefixTree

variable {A : Type} [LinearOrder A]

/-- C52: after adding any sequences, the node at a word exists iff the word is empty or a prefix of an
added sequence, and its count is the number of added sequences with that prefix. -/
theorem C52_counts (seqs : List (List A)) :
    ∃ t, build seqs = .ok t ∧ ∀ w,
      ((∃ n, At t w n) ↔ w = [] ∨ 0 < prefixCount seqs w) ∧
      ∀ n, At t w n → n.count = prefixCount seqs w := by
  obtain ⟨t, h1, h2, _, h4⟩ := foldlM_append seqs (new : Tree A) (new_sorted _)
  refine ⟨t, h1, fun w => ?_⟩
  have hw := h4 w
  rw [get_new] at hw
  constructor
  · constructor
    · rintro ⟨n, hn⟩
      by_contra hc
      push Not at hc
      have := (get_iff h2 w n.count).2 ⟨n, hn, rfl⟩
      rw [hw, if_neg (by omega), if_neg hc.1] at this
      cases this
    · intro hc
      have : ∃ k, get t w = some k := by
        rw [hw]
        split
        · exact ⟨_, rfl⟩
        · rename_i hn
          rw [if_pos (by tauto)]
          exact ⟨_, rfl⟩
      obtain ⟨k, hk⟩ := this
      obtain ⟨n, hn, _⟩ := (get_iff h2 w k).1 hk
      exact ⟨n, hn⟩
  · intro n hn
    have := (get_iff h2 w n.count).2 ⟨n, hn, rfl⟩
    rw [hw] at this
    split at this
    · split at this
      · simpa using this.symm
      · simpa using this.symm
    · rename_i hz
      split at this
      · simp at this; omega
      · cases this

/-- C52: the number of all sequences is the count of the tree, duplicates and empty ones included. -/
theorem C52_total (seqs : List (List A)) {t : Tree A} (h : build seqs = .ok t) : t.count = seqs.length := by
  obtain ⟨t', h1, h2⟩ := C52_counts seqs
  rw [h] at h1
  cases h1
  have := (h2 []).2 t (.root t)
  rw [this]
  simp [prefixCount]

/-- C53: at every node the children are strictly ordered (descending) by symbol. -/
theorem C53_sorted (seqs : List (List A)) {t : Tree A} (h : build seqs = .ok t) (w : List A) (n : Tree A)
    (hn : At t w n) : n.children.Pairwise fun c d => d.1 < c.1 := by
  obtain ⟨t', h1, h2, _⟩ := foldlM_append seqs (new : Tree A) (new_sorted _)
  unfold build at h
  rw [h] at h1
  cases h1
  exact (At.sorted h2 hn).pairwise

/-- C53: at every node the binary search stops at the position of the child with the symbol if there
is one, and otherwise at the position where it belongs. -/
theorem C53_search (seqs : List (List A)) {t : Tree A} (h : build seqs = .ok t) (w : List A) (n : Tree A)
    (hn : At t w n) (a : A) :
    ∃ i, findInsertionPoint n.children a = .ok i ∧ i ≤ n.children.length ∧
      (∀ c, (a, c) ∈ n.children ↔ n.children[i]? = some (a, c)) ∧
      (∀ j d, j < i → n.children[j]? = some d → a < d.1) ∧
      ∀ j d, i < j → n.children[j]? = some d → d.1 < a := by
  have hs := C53_sorted seqs h w n hn
  have hs' : (n.children.map Prod.fst).Pairwise (· > ·) := List.pairwise_map.2 hs
  obtain ⟨i, h1, pre, post, hcs, hl, hpre, hpost⟩ := findInsertionPoint_ok hs' a
  rw [hcs, List.pairwise_append] at hs
  refine ⟨i, h1, by rw [hcs, hl]; simp, ?_, ?_, ?_⟩
  · intro c
    constructor
    · intro hc
      rw [hcs] at hc ⊢
      rcases List.mem_append.1 hc with hc | hc
      · exact absurd (hpre _ hc) (lt_irrefl _)
      · rcases hpost with rfl | ⟨x, post', rfl, hx⟩
        · cases hc
        · rcases List.mem_cons.1 hc with rfl | hc
          · rw [hl]; simp
          · have := (List.pairwise_cons.1 hs.2.1).1 _ hc
            exact absurd (this.trans_le hx) (lt_irrefl _)
    · intro hc
      exact List.mem_of_getElem? hc
  · intro j d hj hd
    rw [hcs, List.getElem?_append_left (by omega)] at hd
    exact hpre d (List.mem_of_getElem? hd)
  · intro j d hj hd
    rw [hcs, List.getElem?_append_right (by omega)] at hd
    rcases hpost with rfl | ⟨x, post', rfl, hx⟩
    · simp at hd
    · rw [show j - pre.length = (j - pre.length - 1) + 1 by omega, List.getElem?_cons_succ] at hd
      have := (List.pairwise_cons.1 hs.2.1).1 _ (List.mem_of_getElem? hd)
      exact this.trans_le hx

/-- C53: a word addresses at most one node. -/
theorem C53_unique (seqs : List (List A)) {t : Tree A} (h : build seqs = .ok t) {w : List A} {n n' : Tree A}
    (hn : At t w n) (hn' : At t w n') : n = n' := by
  obtain ⟨t', h1, h2, _⟩ := foldlM_append seqs (new : Tree A) (new_sorted _)
  unfold build at h
  rw [h] at h1
  cases h1
  exact At.unique h2 hn hn'

/-- C52: a node is a leaf exactly if no added sequence extends its word. -/
theorem C52_leaf (seqs : List (List A)) {t : Tree A} (h : build seqs = .ok t) {w : List A} {n : Tree A} (hn : At t w n) :
    isLeaf n = true ↔ ∀ s ∈ seqs, ¬ ∃ a, w ++ [a] <+: s := by
  obtain ⟨t', h1, h2⟩ := C52_counts seqs
  rw [h] at h1
  cases h1
  have hext : ∀ a c, (a, c) ∈ n.children → At t (w ++ [a]) c := by
    intro a c hc
    clear h2 h
    induction hn with
    | root t => exact .child hc (.root c)
    | child hc' _ ih => exact .child hc' (ih hc)
  constructor
  · rintro hl s hs ⟨a, ha⟩
    have hpos : 0 < prefixCount seqs (w ++ [a]) :=
      List.length_pos_of_mem (List.mem_filter.2 ⟨hs, decide_eq_true ha⟩)
    obtain ⟨m, hm⟩ := ((h2 (w ++ [a])).1).2 (.inr hpos)
    have : ∀ {t : Tree A} {w : List A} {n : Tree A}, At t (w ++ [a]) n → ∃ k, At t w k ∧ k.children ≠ [] := by
      intro t w
      induction w generalizing t with
      | nil =>
        intro n hn
        cases hn with
        | child hc _ => exact ⟨_, .root _, List.ne_nil_of_mem hc⟩
      | cons b w ih =>
        intro n hn
        cases hn with
        | child hc hr =>
          obtain ⟨k, h1, h2⟩ := ih hr
          exact ⟨k, .child hc h1, h2⟩
    obtain ⟨k, hk, hne⟩ := this hm
    have huniq := C53_unique seqs h hn hk
    subst huniq
    exact hne (List.isEmpty_iff.1 hl)
  · intro hs
    unfold isLeaf
    rw [List.isEmpty_iff]
    by_contra hne
    obtain ⟨⟨a, c⟩, hc⟩ := List.exists_mem_of_ne_nil _ hne
    have := ((h2 (w ++ [a])).1).1 ⟨c, hext a c hc⟩
    rcases this with h | h
    · simp at h
    · obtain ⟨s, hs'⟩ := List.exists_mem_of_length_pos h
      rw [List.mem_filter, decide_eq_true_eq] at hs'
      exact hs s hs'.1 ⟨a, hs'.2⟩

/-- C85: different nodes of a tree have different ids. -/
theorem C85_ids_unique (seqs : List (List A)) {t : Tree A} (h : build seqs = .ok t) {w w' : List A} {n n' : Tree A}
    (hn : At t w n) (hn' : At t w' n') (he : n.id = n'.id) : w = w' ∧ n = n' := by
  obtain ⟨t', h1, _, h3, _⟩ := foldlM_append seqs (new : Tree A) (new_sorted _)
  unfold build at h
  rw [h] at h1
  cases h1
  exact At.id_inj hn hn' (h3 (new_idOk _)) he

/-- C86: the level-order traversal ends; it yields every node except the root exactly once, shorter
words first and words of the same length in descending lexicographic order. `words` lists the words
of the yielded nodes. -/
theorem C86_level_order (seqs : List (List A)) {t : Tree A} (h : build seqs = .ok t) :
    ∃ N r, (∀ fuel ≥ N, levelOrder fuel t = .ok r) ∧
      ∃ words : List (List A), words.length = r.length ∧
        (∀ (i : Nat) (w : List A) (c : A × Tree A), words[i]? = some w → r[i]? = some c → At t w c.2 ∧ w.getLast? = some c.1) ∧
        (∀ w, w ∈ words ↔ w ≠ [] ∧ ∃ s ∈ seqs, w <+: s) ∧
        words.Pairwise fun u v => u.length < v.length ∨ (u.length = v.length ∧ v < u) := by
  obtain ⟨t', h1, h2, _⟩ := foldlM_append seqs (new : Tree A) (new_sorted _)
  have h' := h
  unfold build at h'
  rw [h'] at h1
  cases h1
  obtain ⟨fuel, r, r1, r2, r3, r4⟩ := level_ok _ (t.children.map fun c => (([] : List A), c)) (le_refl _) 1
    (by
      intro x hx
      obtain ⟨c, hc, rfl⟩ := List.mem_map.1 hx
      simp [word])
    (by
      rw [List.pairwise_map]
      exact h2.pairwise.imp fun hlt => append_lt_same [] hlt)
    (by
      intro x hx
      obtain ⟨c, hc, rfl⟩ := List.mem_map.1 hx
      exact h2.sub c hc)
  have hstrip : (t.children.map fun c => (([] : List A), c)).map Prod.snd = t.children := by
    rw [List.map_map]
    have : (Prod.snd ∘ fun c => (([] : List A), c)) = (id : A × Tree A → A × Tree A) := rfl
    rw [this, List.map_id]
  rw [hstrip] at r1
  have hmem : ∀ w c, (∃ x ∈ r, word x = w ∧ x.2.2 = c) ↔ w ≠ [] ∧ At t w c := by
    intro w c
    rw [r4]
    constructor
    · rintro ⟨y, hy, v, hv, rfl⟩
      obtain ⟨d, hd, rfl⟩ := List.mem_map.1 hy
      refine ⟨by simp [word], ?_⟩
      exact .child (c := d.2) hd hv
    · rintro ⟨hne, hat⟩
      cases hat with
      | root => exact absurd rfl hne
      | @child _ a d w' _ hc hr =>
        exact ⟨([], (a, d)), List.mem_map.2 ⟨_, hc, rfl⟩, w', hr, rfl⟩
  refine ⟨fuel, r.map Prod.snd, ?_, r.map word, by simp, ?_, ?_, ?_⟩
  · intro f hf
    obtain ⟨k, rfl⟩ := Nat.exists_eq_add_of_le hf
    exact levelLoop_mono' fuel k _ _ r1
  · intro i w c hw hc
    rw [List.getElem?_map] at hw hc
    cases hx : r[i]? with
    | none => rw [hx] at hw; cases hw
    | some x =>
      rw [hx] at hw hc
      simp only [Option.map_some, Option.some.injEq] at hw hc
      subst hw; subst hc
      refine ⟨((hmem (word x) x.2.2).1 ⟨x, List.mem_of_getElem? hx, rfl, rfl⟩).2, by simp [word]⟩
  · intro w
    obtain ⟨t', h1, h5⟩ := C52_counts seqs
    rw [h] at h1
    cases h1
    have hpos : 0 < prefixCount seqs w ↔ ∃ s ∈ seqs, w <+: s := by
      unfold prefixCount
      rw [List.length_pos_iff_exists_mem]
      simp [List.mem_filter]
    constructor
    · intro hw
      obtain ⟨x, hx, rfl⟩ := List.mem_map.1 hw
      obtain ⟨hne, hat⟩ := (hmem _ _).1 ⟨x, hx, rfl, rfl⟩
      refine ⟨hne, hpos.1 ?_⟩
      rcases ((h5 (word x)).1).1 ⟨_, hat⟩ with hc | hc
      · exact absurd hc hne
      · exact hc
    · rintro ⟨hne, hs⟩
      obtain ⟨n, hn⟩ := ((h5 w).1).2 (.inr (hpos.2 hs))
      obtain ⟨x, hx, hw, _⟩ := (hmem w n).2 ⟨hne, hn⟩
      exact List.mem_map.2 ⟨x, hx, hw⟩
  · rw [List.pairwise_map]
    exact r2

/-- a tree with a branch in the middle: counts, order of the children, ids in order of creation and
level order -/
example :
    (build [[2, 1], [3], [2, 4], [], [2, 1], [1]]).toOption.map (fun t =>
      (t.count, t.children.map fun c => (c.1, c.2.count, c.2.id))) =
      some (6, [(3, 1, ".1"), (2, 3, ".0"), (1, 1, ".2")]) ∧
    (build [[2, 1], [3], [2, 4], [], [2, 1], [1]]).toOption.bind (fun t =>
      ((levelOrder 10 t).toOption.map fun r => r.map fun c => (c.1, c.2.count))) =
      some [(3, 1), (2, 3), (1, 1), (4, 1), (1, 2)] := by decide

/-- a leaf and an inner node -/
example : (build [[2, 1], [3], [2]]).toOption.map (fun t => t.children.map fun c => (c.1, isLeaf c.2)) =
    some [(3, true), (2, false)] := by decide

end Prolothar.PrefixTree
