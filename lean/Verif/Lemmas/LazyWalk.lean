import Verif.Model.Lazy
import Verif.Props.PrefixTree
/-
Lemmas about the level order traversal of a prefix tree that grows.
-/
set_option linter.unusedSectionVars false
set_option linter.unusedSimpArgs false
namespace Prolothar.Lazy
open Prolothar.PrefixTree Prolothar.Spec.PrefixTree

variable {A : Type} [LinearOrder A]

/-- the word is a prefix of one of the sequences -/
def Present (seqs : List (List A)) (w : List A) : Prop := ∃ s ∈ seqs, w <+: s

theorem sub_iff {t : PrefixTree.Tree A} (h : Sorted t) (w : List A) (n : PrefixTree.Tree A) :
    sub t w = some n ↔ Spec.PrefixTree.At t w n := by
  induction w generalizing t with
  | nil =>
    constructor
    · intro e; cases e; exact .root _
    · intro e; cases e; rfl
  | cons a w ih =>
    unfold sub
    cases hg : Dict.get? t.children a with
    | none =>
      simp only [reduceCtorEq, false_iff]
      intro e
      cases e with
      | child hc _ =>
        rw [(h.get?_iff _ _).2 hc] at hg
        cases hg
    | some c =>
      have hc := (h.get?_iff _ _).1 hg
      dsimp only
      rw [ih (h.sub _ hc)]
      constructor
      · intro e; exact .child hc e
      · intro e
        cases e with
        | child hc' e =>
          rw [(h.get?_iff _ _).2 hc'] at hg
          cases hg
          exact e

theorem at_append {t n c : PrefixTree.Tree A} {w : List A} {a : A} (hn : Spec.PrefixTree.At t w n)
    (hc : (a, c) ∈ n.children) : Spec.PrefixTree.At t (w ++ [a]) c := by
  induction hn with
  | root t => exact .child hc (.root c)
  | child hc' _ ih => exact .child hc' (ih hc)

theorem at_split {t c : PrefixTree.Tree A} {w : List A} {a : A} (h : Spec.PrefixTree.At t (w ++ [a]) c) :
    ∃ n, Spec.PrefixTree.At t w n ∧ (a, c) ∈ n.children := by
  induction w generalizing t with
  | nil =>
    cases h with
    | child hc h =>
      cases h
      exact ⟨t, .root t, hc⟩
  | cons b w ih =>
    cases h with
    | child hc h =>
      obtain ⟨n, h1, h2⟩ := ih h
      exact ⟨n, .child hc h1, h2⟩

theorem built {seqs : List (List A)} {t : PrefixTree.Tree A} (h : build seqs = .ok t) :
    Sorted t ∧ ∀ w, (∃ n, Spec.PrefixTree.At t w n) ↔ w = [] ∨ Present seqs w := by
  obtain ⟨t', h1, h2, _⟩ := foldlM_append seqs (new : PrefixTree.Tree A) (new_sorted _)
  unfold build at h
  rw [h] at h1
  cases h1
  refine ⟨h2, fun w => ?_⟩
  obtain ⟨t', h3, h4⟩ := C52_counts seqs
  unfold build at h3
  rw [h] at h3
  cases h3
  rw [(h4 w).1]
  unfold prefixCount Present
  rw [List.length_pos_iff_exists_mem]
  simp only [List.mem_filter, decide_eq_true_eq]

theorem mem_kids {seqs : List (List A)} {t : PrefixTree.Tree A} (h : build seqs = .ok t) (w v : List A) :
    v ∈ kids t w ↔ ∃ a, v = w ++ [a] ∧ Present seqs v := by
  obtain ⟨hs, hp⟩ := built h
  unfold kids
  cases hw : sub t w with
  | none =>
    simp only [List.not_mem_nil, false_iff]
    rintro ⟨a, rfl, ha⟩
    obtain ⟨c, hc⟩ := (hp (w ++ [a])).2 (.inr ha)
    obtain ⟨n, hn, _⟩ := at_split hc
    rw [(sub_iff hs w n).2 hn] at hw
    cases hw
  | some n =>
    have hn := (sub_iff hs w n).1 hw
    simp only [List.mem_map]
    constructor
    · rintro ⟨⟨a, c⟩, hc, rfl⟩
      refine ⟨a, rfl, ?_⟩
      rcases (hp _).1 ⟨c, at_append hn hc⟩ with e | e
      · simp at e
      · exact e
    · rintro ⟨a, rfl, ha⟩
      obtain ⟨c, hc⟩ := (hp (w ++ [a])).2 (.inr ha)
      obtain ⟨n', hn', hm⟩ := at_split hc
      cases At.unique hs hn hn'
      exact ⟨(a, c), hm, rfl⟩

theorem kids_nodup {seqs : List (List A)} {t : PrefixTree.Tree A} (h : build seqs = .ok t) (w : List A) :
    (kids t w).Nodup := by
  obtain ⟨hs, _⟩ := built h
  unfold kids
  cases hw : sub t w with
  | none => exact .nil
  | some n =>
    have hn := (sub_iff hs w n).1 hw
    have := (At.sorted hs hn).nodup
    have hm : (n.children.map fun c => w ++ [c.1]) = (n.children.map Prod.fst).map fun a => w ++ [a] := by simp
    dsimp only
    rw [hm]
    exact this.map (fun a b hab => by simpa using hab)

theorem Present.mono {seqs : List (List A)} {w : List A} (s : List A) (h : Present seqs w) : Present (seqs ++ [s]) w := by
  obtain ⟨x, hx, hw⟩ := h
  exact ⟨x, by simp [hx], hw⟩

/-- what holds for the yielded words, the last of them and the queue -/
structure Front (seqs0 seqs zs : List (List A)) (last : List A) (q : List (List A)) : Prop where
  nodup : (zs ++ last :: q).Nodup
  sound : ∀ v ∈ zs ++ last :: q, v ≠ [] ∧ Present seqs v ∧ (v.dropLast = [] ∨ v.dropLast ∈ zs)
  all : ∀ u, (u = [] ∨ u ∈ zs) → ∀ a, Present seqs0 (u ++ [a]) → u ++ [a] ∈ zs ++ last :: q
  level : (zs ++ last :: q).Pairwise fun u v => u.length ≤ v.length
  near : ∀ v ∈ q, v.length ≤ last.length + 1

/-- the invariant: `ys` are the yielded words -/
def WalkInv (seqs0 seqs ys : List (List A)) : Walk A → Prop
  | .fresh => ys = []
  | .suspended q last => ∃ zs, ys = zs ++ [last] ∧ Front seqs0 seqs zs last q
  | .ended => ys.Nodup ∧ (∀ v ∈ ys, v ≠ [] ∧ Present seqs v) ∧ (ys.Pairwise fun u v => u.length ≤ v.length) ∧
      ∀ w, w ≠ [] → Present seqs0 w → w ∈ ys

theorem WalkInv.grow {seqs0 seqs ys : List (List A)} {g : Walk A} (h : WalkInv seqs0 seqs ys g) (s : List A) :
    WalkInv seqs0 (seqs ++ [s]) ys g := by
  cases g with
  | fresh => exact h
  | suspended q last =>
    obtain ⟨zs, h1, h2⟩ := h
    exact ⟨zs, h1, h2.nodup, fun v hv => ⟨(h2.sound v hv).1, (h2.sound v hv).2.1.mono s, (h2.sound v hv).2.2⟩, h2.all, h2.level,
      h2.near⟩
  | ended =>
    obtain ⟨h1, h2, h3, h4⟩ := h
    exact ⟨h1, fun v hv => ⟨(h2 v hv).1, (h2 v hv).2.mono s⟩, h3, h4⟩

theorem present_prefix {seqs : List (List A)} {u v : List A} (h : Present seqs (u ++ v)) : Present seqs u := by
  obtain ⟨s, hs, hp⟩ := h
  exact ⟨s, hs, (List.prefix_append u v).trans hp⟩

/-- all words are found if every found word has been expanded -/
theorem closed {seqs0 ys : List (List A)} (h : ∀ u, (u = [] ∨ u ∈ ys) → ∀ a, Present seqs0 (u ++ [a]) → u ++ [a] ∈ ys)
    (w : List A) (hw : w ≠ []) (hp : Present seqs0 w) : w ∈ ys := by
  induction w using List.reverseRecOn with
  | nil => exact absurd rfl hw
  | append_singleton u a ih =>
    refine h u ?_ a hp
    by_cases hu : u = []
    · exact .inl hu
    · exact .inr (ih hu (present_prefix hp))

/-- one step from the queue `q` after the words `ys`, all of which are expanded -/
theorem pop_inv {seqs0 seqs ys q : List (List A)} (h1 : (ys ++ q).Nodup)
    (h2 : ∀ v ∈ ys ++ q, v ≠ [] ∧ Present seqs v ∧ (v.dropLast = [] ∨ v.dropLast ∈ ys))
    (h3 : ∀ u, (u = [] ∨ u ∈ ys) → ∀ a, Present seqs0 (u ++ [a]) → u ++ [a] ∈ ys ++ q)
    (h4 : (ys ++ q).Pairwise fun u v => u.length ≤ v.length)
    (h5 : ∀ u ∈ q, ∀ v ∈ q, v.length ≤ u.length + 1) :
    match pop q with
    | (g, none) => g = .ended ∧ WalkInv seqs0 seqs ys g
    | (g, some w) => (∃ q', g = .suspended q' w) ∧ WalkInv seqs0 seqs (ys ++ [w]) g := by
  cases q with
  | nil =>
    simp only [List.append_nil] at *
    exact ⟨rfl, h1, fun v hv => ⟨(h2 v hv).1, (h2 v hv).2.1⟩, h4, closed h3⟩
  | cons w q =>
    refine ⟨⟨q, rfl⟩, ys, rfl, h1, ?_, h3, h4, fun v hv => h5 w (by simp) v (by simp [hv])⟩
    intro v hv
    exact h2 v hv

theorem walkNext_inv {seqs0 seqs ys : List (List A)} {t : PrefixTree.Tree A} (ht : build seqs = .ok t)
    (hsub : ∀ w, Present seqs0 w → Present seqs w) {g : Walk A} (h : WalkInv seqs0 seqs ys g) :
    match walkNext t g with
    | (g', none) => g' = .ended ∧ WalkInv seqs0 seqs ys g'
    | (g', some w) => (∃ q', g' = .suspended q' w) ∧ WalkInv seqs0 seqs (ys ++ [w]) g' := by
  cases g with
  | ended => exact ⟨rfl, h⟩
  | fresh =>
    cases h
    refine pop_inv (ys := []) ?_ ?_ ?_ ?_ ?_
    · simpa using kids_nodup ht []
    · intro v hv
      simp only [List.nil_append] at hv
      obtain ⟨a, rfl, ha⟩ := (mem_kids ht [] v).1 hv
      exact ⟨by simp, ha, .inl (by simp)⟩
    · rintro u (rfl | hu) a ha
      · simp only [List.nil_append]
        exact (mem_kids ht [] _).2 ⟨a, rfl, hsub _ ha⟩
      · cases hu
    · simp only [List.nil_append]
      refine List.pairwise_of_forall_mem_list ?_
      intro u hu v hv
      obtain ⟨a, rfl, _⟩ := (mem_kids ht [] u).1 hu
      obtain ⟨b, rfl, _⟩ := (mem_kids ht [] v).1 hv
      simp
    · intro u hu v hv
      obtain ⟨a, rfl, _⟩ := (mem_kids ht [] u).1 hu
      obtain ⟨b, rfl, _⟩ := (mem_kids ht [] v).1 hv
      simp
  | suspended q last =>
    obtain ⟨zs, rfl, hf⟩ := h
    have hassoc : zs ++ [last] ++ (q ++ kids t last) = (zs ++ last :: q) ++ kids t last := by simp
    have hlt : ∀ v ∈ zs ++ last :: q, v.length ≤ last.length + 1 := by
      intro v hv
      rcases List.mem_append.1 hv with hv | hv
      · have := (List.pairwise_append.1 hf.level).2.2 v hv last (by simp)
        omega
      · rcases List.mem_cons.1 hv with rfl | hv
        · omega
        · exact hf.near v hv
    have hge : ∀ v ∈ q, last.length ≤ v.length := by
      intro v hv
      exact (List.pairwise_cons.1 (List.pairwise_append.1 hf.level).2.1).1 v hv
    have hlast : last ∉ zs := by
      intro hm
      exact (List.nodup_append.1 hf.nodup).2.2 last hm last (by simp) rfl
    refine pop_inv ?_ ?_ ?_ ?_ ?_
    · rw [hassoc, List.nodup_append]
      refine ⟨hf.nodup, kids_nodup ht last, ?_⟩
      rintro v hv v' hv' rfl
      obtain ⟨a, rfl, _⟩ := (mem_kids ht last v).1 hv'
      rcases (hf.sound _ hv).2.2 with e | e
      · rw [List.dropLast_concat] at e
        exact (hf.sound last (by simp)).1 e
      · rw [List.dropLast_concat] at e
        exact hlast e
    · rw [hassoc]
      intro v hv
      rcases List.mem_append.1 hv with hv | hv
      · obtain ⟨k1, k2, k3⟩ := hf.sound v hv
        refine ⟨k1, k2, ?_⟩
        rcases k3 with k3 | k3
        · exact .inl k3
        · exact .inr (by simp [k3])
      · obtain ⟨a, rfl, ha⟩ := (mem_kids ht last v).1 hv
        exact ⟨by simp, ha, .inr (by simp)⟩
    · rw [hassoc]
      intro u hu a ha
      by_cases hl : u = last
      · subst hl
        exact List.mem_append_right _ ((mem_kids ht u _).2 ⟨a, rfl, hsub _ ha⟩)
      · refine List.mem_append_left _ (hf.all u ?_ a ha)
        rcases hu with hu | hu
        · exact .inl hu
        · simp only [List.mem_append, List.mem_singleton, hl, or_false] at hu
          exact .inr hu
    · rw [hassoc, List.pairwise_append]
      refine ⟨hf.level, ?_, ?_⟩
      · refine List.pairwise_of_forall_mem_list ?_
        intro u hu v hv
        obtain ⟨a, rfl, _⟩ := (mem_kids ht last u).1 hu
        obtain ⟨b, rfl, _⟩ := (mem_kids ht last v).1 hv
        simp
      · intro u hu v hv
        obtain ⟨b, rfl, _⟩ := (mem_kids ht last v).1 hv
        simpa using hlt u hu
    · intro u hu v hv
      have h1 : last.length ≤ u.length := by
        rcases List.mem_append.1 hu with hu | hu
        · exact hge u hu
        · obtain ⟨a, rfl, _⟩ := (mem_kids ht last u).1 hu
          simp
      have h2 : v.length ≤ last.length + 1 := by
        rcases List.mem_append.1 hv with hv | hv
        · exact hf.near v hv
        · obtain ⟨a, rfl, _⟩ := (mem_kids ht last v).1 hv
          simp
      omega

/-- the sequences that are appended in a history -/
def appended (ops : List (Option (List A))) : List (List A) := ops.filterMap id

theorem build_append {seqs : List (List A)} {t : PrefixTree.Tree A} (h : build seqs = .ok t) (s : List A) :
    ∃ t', append s t = .ok t' ∧ build (seqs ++ [s]) = .ok t' := by
  obtain ⟨t', h1, _⟩ := foldlM_append (seqs ++ [s]) (new : PrefixTree.Tree A) (new_sorted _)
  refine ⟨t', ?_, h1⟩
  rw [List.foldlM_append] at h1
  unfold build at h
  rw [h] at h1
  simp only [bind, Except.bind, pure, Except.pure, List.foldlM_cons, List.foldlM_nil] at h1
  cases ha : append s t with
  | error e => rw [ha] at h1; cases h1
  | ok v => rw [ha] at h1; exact h1

theorem walk_inv (ops : List (Option (List A))) {seqs0 seqs ys : List (List A)} {t : PrefixTree.Tree A}
    (ht : build seqs = .ok t) (hsub : ∀ w, Present seqs0 w → Present seqs w) {g : Walk A} (h : WalkInv seqs0 seqs ys g) :
    ∃ vs t' e, walk ops t g = .ok (vs, t', e) ∧ build (seqs ++ appended ops) = .ok t' ∧
      (e = false → g ≠ .ended ∧ vs.length = ops.count none) ∧ ∃ g', (e = true ↔ g' = .ended) ∧
      WalkInv seqs0 (seqs ++ appended ops) (ys ++ vs) g' := by
  induction ops generalizing seqs ys t g with
  | nil =>
    refine ⟨[], t, _, rfl, by simpa [appended] using ht, ?_, g, ?_, by simpa [appended] using h⟩
    · cases g <;> simp
    · cases g <;> simp
  | cons op ops ih =>
    cases op with
    | some s =>
      obtain ⟨t', h1, h2⟩ := build_append ht s
      obtain ⟨vs, t'', e, k1, k2, k3, k4⟩ := ih h2 (fun w hw => (hsub w hw).mono s) (h.grow s)
      have happ : seqs ++ appended (some s :: ops) = seqs ++ [s] ++ appended ops := by simp [appended]
      refine ⟨vs, t'', e, ?_, by rw [happ]; exact k2, by simpa using k3, by rw [happ]; exact k4⟩
      simp only [walk, h1, bind, Except.bind]
      exact k1
    | none =>
      have happ : appended (none :: ops) = appended ops := rfl
      rw [happ]
      have key := walkNext_inv ht hsub h
      cases hw : walkNext t g with
      | mk g' r =>
        rw [hw] at key
        cases r with
        | none =>
          obtain ⟨rfl, h2⟩ := key
          obtain ⟨vs, t'', e, k1, k2, k3, k4⟩ := ih ht hsub h2
          refine ⟨vs, t'', e, ?_, k2, fun he => absurd rfl (k3 he).1, k4⟩
          simp only [walk, hw]
          exact k1
        | some w =>
          obtain ⟨⟨q', rfl⟩, h2⟩ := key
          obtain ⟨vs, t'', e, k1, k2, k3, k4⟩ := ih ht hsub h2
          refine ⟨w :: vs, t'', e, ?_, k2, ?_, by simpa using k4⟩
          · simp only [walk, hw, k1, bind, Except.bind, pure, Except.pure]
          · intro he
            refine ⟨?_, by simp [(k3 he).2]⟩
            rintro rfl
            simp [walkNext] at hw

end Prolothar.Lazy
