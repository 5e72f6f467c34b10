import Verif.Model.PrefixTreeExc
import Verif.Props.PrefixTree
/-
C207: prefix trees of sequences with symbols that cannot be compared.
-/
namespace Prolothar.PrefixTree
open Prolothar.Spec.PrefixTree
variable {A K : Type} [LinearOrder A] [DecidableEq K]

/-- the sequences whose `append` call did not raise -/
def accepted (seqs : List (List A)) (results : List (Py Unit)) : List (List A) :=
  ((seqs.zip results).filter fun p => p.2.isOk).map Prod.fst

/-- two sequences with a common beginning go on with symbols that cannot be compared -/
def Clash (kind : A → K) (s s' : List A) : Prop :=
  ∃ w a b, w ++ [a] <+: s ∧ w ++ [b] <+: s' ∧ kind a ≠ kind b

/-- the same for a sequence and a tree -/
def Conflict (kind : A → K) (s : List A) (t : Tree A) : Prop :=
  ∃ w a b, w ++ [a] <+: s ∧ (get t (w ++ [b])).isSome ∧ kind a ≠ kind b

def Kinds (kind : A → K) (t : Tree A) : Prop :=
  ∀ w a b, (get t (w ++ [a])).isSome → (get t (w ++ [b])).isSome → kind a = kind b

omit [DecidableEq K] in
theorem kinds_new (kind : A → K) (i : String) : Kinds kind (new i : Tree A) := by
  intro w a b h
  rw [get_new, if_neg (by simp)] at h
  cases h

omit [DecidableEq K] in
theorem conflict_new (kind : A → K) (s : List A) (i : String) : ¬ Conflict kind s (new i : Tree A) := by
  rintro ⟨w, a, b, _, h, _⟩
  rw [get_new, if_neg (by simp)] at h
  cases h

theorem findLoopK_same {kind : A → K} {cs : List (A × Tree A)} {a : A} (h : ∀ c ∈ cs, kind c.1 = kind a) :
    ∀ fuel lo hi, findLoopK kind cs a fuel lo hi = findLoop cs a fuel lo hi
  | 0, _, _ => rfl
  | fuel + 1, lo, hi => by
    unfold findLoopK findLoop
    split
    · dsimp only
      cases hc : cs[(lo + hi) / 2]? with
      | none => rfl
      | some c =>
        dsimp only
        split
        · rfl
        · rw [if_neg (by rw [h c (List.mem_of_getElem? hc)]; exact fun hc => hc rfl), findLoopK_same h, findLoopK_same h]
    · rfl

theorem findK_same {kind : A → K} {cs : List (A × Tree A)} {a : A} (h : ∀ c ∈ cs, kind c.1 = kind a) :
    findK kind cs a = findInsertionPoint cs a := by
  unfold findK findInsertionPoint
  rw [findLoopK_same h]

theorem findK_error {kind : A → K} {cs : List (A × Tree A)} {a : A} (hne : cs ≠ []) (h : ∀ c ∈ cs, kind c.1 ≠ kind a) :
    findK kind cs a = .error .type := by
  unfold findK
  rw [if_neg hne]
  have hl : 0 < cs.length := List.length_pos_iff.2 hne
  unfold findLoopK
  rw [if_pos hl]
  dsimp only
  have hm : (0 + cs.length) / 2 < cs.length := by omega
  rw [List.getElem?_eq_getElem hm]
  dsimp only
  have hk := h _ (List.getElem_mem hm)
  rw [if_neg fun hc => hk (by rw [hc]), if_pos hk]

/-- the child the search has found, or none -/
theorem split_get {cs : List (A × Tree A)} (hs : (cs.map Prod.fst).Pairwise (· > ·)) {a : A} {i : Nat} (h : Split cs a i) :
    (∀ c, cs[i]? = some c → c.1 = a → Dict.get? cs a = some c.2) ∧
    ((∀ c, cs[i]? = some c → c.1 ≠ a) → Dict.get? cs a = none) := by
  obtain ⟨pre, post, rfl, rfl, hpre, hpost⟩ := h
  have hget : Dict.get? (pre ++ post) a = Dict.get? post a := by
    rw [get?_append, get?_none_of_forall fun p hp => ne_of_gt (hpre p hp)]; rfl
  rw [hget, List.getElem?_append_right (Nat.le_refl _), Nat.sub_self]
  rcases hpost with rfl | ⟨x, post', rfl, hx⟩
  · exact ⟨fun c hc => (by cases hc), fun _ => rfl⟩
  · refine ⟨fun c hc hca => ?_, fun hc => ?_⟩
    · cases hc
      obtain ⟨x1, x2⟩ := x
      dsimp only at hca
      subst hca
      simp [Dict.get?]
    · have hxa : x.1 ≠ a := hc x rfl
      refine get?_none_of_forall fun p hp => ?_
      rcases List.mem_cons.1 hp with rfl | hp
      · exact hxa
      · rw [List.map_append, List.map_cons, List.pairwise_append] at hs
        have := (List.pairwise_cons.1 hs.2.1).1 p.1 (List.mem_map_of_mem hp)
        exact ne_of_lt (lt_of_lt_of_le this hx)

theorem get_cons (id : String) (n : Nat) (cs : List (A × Tree A)) (a : A) (w : List A) :
    get (.node id n cs) (a :: w) = (Dict.get? cs a).bind fun c => get c w := rfl

theorem get_single {id : String} {n : Nat} {cs : List (A × Tree A)} {b : A} : (get (.node id n cs) [b]).isSome ↔ ∃ c, (b, c) ∈ cs := by
  rw [get_cons]
  cases hg : Dict.get? cs b with
  | none =>
    rw [Dict.get?_eq_none_iff] at hg
    simp only [Option.bind_none, Option.isSome_none, Bool.false_eq_true, false_iff]
    rintro ⟨c, hc⟩
    exact hg (List.mem_map_of_mem (f := Prod.fst) hc)
  | some c =>
    exact ⟨fun _ => ⟨c, Dict.mem_of_get? hg⟩, fun _ => rfl⟩

theorem append_cases (kind : A → K) (s : List A) : ∀ t : Tree A, Sorted t → Kinds kind t →
    (Conflict kind s t → appendX kind s t = (.error .type, t)) ∧
    (¬ Conflict kind s t → ∃ t', append s t = .ok t' ∧ appendX kind s t = (.ok (), t')) := by
  induction s with
  | nil =>
    rintro ⟨id, n, cs⟩ _ _
    refine ⟨?_, fun _ => ⟨_, rfl, rfl⟩⟩
    rintro ⟨w, a, b, h, _⟩
    simp at h
  | cons a s ih =>
    rintro ⟨id, n, cs⟩ hsorted hkinds
    have hs : (cs.map Prod.fst).Pairwise (· > ·) := by cases hsorted with | mk h _ => exact h
    by_cases hall : ∀ c ∈ cs, kind c.1 = kind a
    · obtain ⟨i, hfind, hsplit⟩ := findInsertionPoint_ok hs a
      have hfindK := (findK_same hall).trans hfind
      obtain ⟨hg1, hg2⟩ := split_get hs hsplit
      -- a conflict can only be below the child with the symbol
      have hconf : Conflict kind (a :: s) (.node id n cs) → ∃ c, Dict.get? cs a = some c ∧ Conflict kind s c := by
        rintro ⟨w, x, b, h1, h2, h3⟩
        cases w with
        | nil =>
          have hx : x = a := by simpa using h1
          obtain ⟨c, hc⟩ := get_single.1 h2
          exact absurd (hall _ hc).symm (by rw [← hx]; exact h3)
        | cons y w =>
          obtain ⟨rfl, h1'⟩ := List.cons_prefix_cons.1 h1
          rw [List.cons_append, get_cons] at h2
          cases hc : Dict.get? cs y with
          | none => rw [hc] at h2; cases h2
          | some c => exact ⟨c, rfl, w, x, b, h1', by rw [hc] at h2; exact h2, h3⟩
      have hnew := (ih (new (id ++ "." ++ toString cs.length)) (new_sorted _) (kinds_new kind _)).2 (conflict_new kind s _)
      obtain ⟨child, hn1, hn2⟩ := hnew
      unfold append appendX
      rw [hfind, hfindK]
      dsimp only [bind, Except.bind]
      cases hi : cs[i]? with
      | none =>
        have hnone := hg2 fun c hc => by rw [hi] at hc; cases hc
        refine ⟨fun hc => ?_, fun _ => ?_⟩
        · obtain ⟨c, hc, _⟩ := hconf hc
          rw [hnone] at hc; cases hc
        · dsimp only
          rw [hn1, hn2]
          exact ⟨_, rfl, rfl⟩
      | some c =>
        dsimp only
        by_cases hca : c.1 = a
        · have hsome := hg1 c hi hca
          rw [if_pos hca, if_pos hca]
          have hcs : Sorted c.2 := hsorted.sub _ (List.mem_of_getElem? hi)
          have hck : Kinds kind c.2 := by
            intro w x y hx hy
            refine hkinds (a :: w) x y ?_ ?_
            · rw [List.cons_append, get_cons, hsome]; exact hx
            · rw [List.cons_append, get_cons, hsome]; exact hy
          obtain ⟨i1, i2⟩ := ih c.2 hcs hck
          refine ⟨fun hc => ?_, fun hc => ?_⟩
          · obtain ⟨d, hd, hdc⟩ := hconf hc
            rw [hsome] at hd
            cases hd
            rw [i1 hdc]
            dsimp only
            have : cs.set i (c.1, c.2) = cs := by
              obtain ⟨hil, hic⟩ := List.getElem?_eq_some_iff.1 hi
              rw [← hic, Prod.eta, List.set_getElem_self]
            rw [this]
          · have hnc : ¬ Conflict kind s c.2 := by
              rintro ⟨w, x, b, h1, h2, h3⟩
              refine hc ⟨a :: w, x, b, List.cons_prefix_cons.2 ⟨rfl, h1⟩, ?_, h3⟩
              rw [List.cons_append, get_cons, hsome]; exact h2
            obtain ⟨t', h1, h2⟩ := i2 hnc
            rw [h1, h2]
            exact ⟨_, rfl, rfl⟩
        · have hnone := hg2 fun d hd => by rw [hi] at hd; cases hd; exact hca
          rw [if_neg hca, if_neg hca]
          refine ⟨fun hc => ?_, fun _ => ?_⟩
          · obtain ⟨c, hc, _⟩ := hconf hc
            rw [hnone] at hc; cases hc
          · rw [hn1, hn2]
            exact ⟨_, rfl, rfl⟩
    · push Not at hall
      obtain ⟨⟨b, c⟩, hbc, hk⟩ := hall
      have hb : (get (.node id n cs) [b]).isSome := get_single.2 ⟨c, hbc⟩
      have hconf : Conflict kind (a :: s) (.node id n cs) := ⟨[], a, b, by simp, hb, fun h => hk h.symm⟩
      refine ⟨fun _ => ?_, fun h => absurd hconf h⟩
      unfold appendX
      rw [findK_error (List.ne_nil_of_mem hbc)]
      rintro ⟨d, e⟩ hd heq
      have := hkinds [] d b (get_single.2 ⟨e, hd⟩) hb
      exact hk (this ▸ heq)

theorem kinds_append {kind : A → K} {s : List A} {t t' : Tree A} (ht : Sorted t) (hk : Kinds kind t) (hc : ¬ Conflict kind s t)
    (h : append s t = .ok t') : Sorted t' ∧ Kinds kind t' ∧ ∀ w, (get t' w).isSome ↔ w <+: s ∨ (get t w).isSome := by
  obtain ⟨u, h1, h2, _, _, h3⟩ := append_ok s t ht
  rw [h] at h1
  cases h1
  have hget : ∀ w, (get t' w).isSome ↔ w <+: s ∨ (get t w).isSome := by
    intro w
    rw [h3]
    split
    · rename_i hw; exact ⟨fun _ => .inl hw, fun _ => rfl⟩
    · rename_i hw; exact ⟨.inr, fun h => h.resolve_left hw⟩
  refine ⟨h2, ?_, hget⟩
  intro w a b ha hb
  rw [hget] at ha hb
  rcases ha with ha | ha <;> rcases hb with hb | hb
  · have := List.prefix_of_prefix_length_le ha hb (by simp)
    have := this.eq_of_length (by simp)
    simp at this
    rw [this]
  · by_contra hne
    exact hc ⟨w, a, b, ha, hb, hne⟩
  · by_contra hne
    exact hc ⟨w, b, a, hb, ha, fun h => hne h.symm⟩
  · exact hk w a b ha hb

/-- what a history leads to, for any tree to begin with -/
theorem run_cases (kind : A → K) : ∀ (seqs : List (List A)) (t : Tree A), Sorted t → Kinds kind t →
    (runX kind seqs t).1.length = seqs.length ∧ (∀ r ∈ (runX kind seqs t).1, r = .ok () ∨ r = .error .type) ∧
    (accepted seqs (runX kind seqs t).1).foldlM (fun t s => append s t) t = .ok (runX kind seqs t).2 ∧
    Sorted (runX kind seqs t).2 ∧ Kinds kind (runX kind seqs t).2 ∧
    ∀ w, (get (runX kind seqs t).2 w).isSome ↔ (∃ s ∈ accepted seqs (runX kind seqs t).1, w <+: s) ∨ (get t w).isSome
  | [], t, hs, hk => ⟨rfl, fun _ h => (by cases h), rfl, hs, hk, fun w => by simp [runX, accepted]⟩
  | s :: seqs, t, hs, hk => by
    obtain ⟨c1, c2⟩ := append_cases kind s t hs hk
    by_cases hc : Conflict kind s t
    · have h := c1 hc
      obtain ⟨i1, i2, i3, i4, i5, i6⟩ := run_cases kind seqs t hs hk
      unfold runX
      rw [h]
      dsimp only
      have hacc : accepted (s :: seqs) (.error .type :: (runX kind seqs t).1) = accepted seqs (runX kind seqs t).1 := rfl
      rw [hacc]
      exact ⟨by simp [i1], by simpa using i2, i3, i4, i5, i6⟩
    · obtain ⟨t', h1, h2⟩ := c2 hc
      obtain ⟨k1, k2, k3⟩ := kinds_append hs hk hc h1
      obtain ⟨i1, i2, i3, i4, i5, i6⟩ := run_cases kind seqs t' k1 k2
      unfold runX
      rw [h2]
      dsimp only
      have hacc : accepted (s :: seqs) (.ok () :: (runX kind seqs t').1) = s :: accepted seqs (runX kind seqs t').1 := rfl
      rw [hacc]
      refine ⟨by simp [i1], by simpa using i2, ?_, i4, i5, fun w => ?_⟩
      · rw [List.foldlM_cons, h1]
        exact i3
      · rw [i6, k3]
        simp only [List.mem_cons, exists_eq_or_imp]
        constructor
        · rintro (h | h | h)
          · exact .inl (.inr h)
          · exact .inl (.inl h)
          · exact .inr h
        · rintro ((h | h) | h)
          · exact .inr (.inl h)
          · exact .inl h
          · exact .inr (.inr h)

/-- C207: after any history of `append` calls, whatever has been raised, the tree is that of the accepted sequences alone: calls that raised left
no trace in it. The only exception is TypeError. So counts, children and ids are as stated for trees of accepted sequences. -/
theorem C207_history (kind : A → K) (seqs : List (List A)) :
    (runX kind seqs new).1.length = seqs.length ∧ (∀ r ∈ (runX kind seqs new).1, r = .ok () ∨ r = .error .type) ∧
    build (accepted seqs (runX kind seqs new).1) = .ok (runX kind seqs new).2 := by
  obtain ⟨h1, h2, h3, _⟩ := run_cases kind seqs new (new_sorted _) (kinds_new kind _)
  exact ⟨h1, h2, h3⟩

/-- C207: a call of `append` raises exactly if an accepted sequence has a beginning in common with the new one and goes on with a symbol that cannot
be compared with that of the new one; then the tree is unchanged. Otherwise the sequence is added, even if the tree has other symbols
that cannot be compared with those of the new sequence. -/
theorem C207_append (kind : A → K) (seqs : List (List A)) (s : List A) :
    ((∃ s' ∈ accepted seqs (runX kind seqs new).1, Clash kind s s') →
      appendX kind s (runX kind seqs new).2 = (.error .type, (runX kind seqs new).2)) ∧
    ((∀ s' ∈ accepted seqs (runX kind seqs new).1, ¬ Clash kind s s') →
      ∃ t', appendX kind s (runX kind seqs new).2 = (.ok (), t') ∧ build (accepted seqs (runX kind seqs new).1 ++ [s]) = .ok t') := by
  obtain ⟨h1, h2, h3, h4, h5, h6⟩ := run_cases kind seqs (new : Tree A) (new_sorted _) (kinds_new kind _)
  obtain ⟨c1, c2⟩ := append_cases kind s _ h4 h5
  refine ⟨?_, fun hc => ?_⟩
  · rintro ⟨s', hs', w, a, b, ha, hb, hne⟩
    exact c1 ⟨w, a, b, ha, (h6 _).2 (.inl ⟨s', hs', hb⟩), hne⟩
  · have hnc : ¬ Conflict kind s (runX kind seqs new).2 := by
      rintro ⟨w, a, b, ha, hb, hne⟩
      rcases (h6 _).1 hb with ⟨s', hs', hb⟩ | hb
      · exact hc s' hs' ⟨w, a, b, ha, hb, hne⟩
      · rw [get_new, if_neg (by simp)] at hb; cases hb
    obtain ⟨t', p1, p2⟩ := c2 hnc
    refine ⟨t', p2, ?_⟩
    unfold build
    rw [List.foldlM_append, h3]
    show [s].foldlM (fun t s => append s t) _ = _
    rw [List.foldlM_cons, p1]
    rfl

/-- C207: the counts after any history: the number of accepted sequences with the prefix. -/
theorem C207_counts (kind : A → K) (seqs : List (List A)) (w : List A) :
    ((∃ n, At (runX kind seqs new).2 w n) ↔ w = [] ∨ 0 < prefixCount (accepted seqs (runX kind seqs new).1) w) ∧
    ∀ n, At (runX kind seqs new).2 w n → n.count = prefixCount (accepted seqs (runX kind seqs new).1) w := by
  obtain ⟨t, h1, h2⟩ := C52_counts (accepted seqs (runX kind seqs new).1)
  rw [(C207_history kind seqs).2.2] at h1
  cases h1
  exact h2 w

omit [LinearOrder A] in
theorem all_accepted : ∀ {seqs : List (List A)} {results : List (Py Unit)}, results.length = seqs.length → (∀ r ∈ results, r = .ok ()) →
    accepted seqs results = seqs
  | [], [], _, _ => rfl
  | s :: seqs, r :: results, hl, h => by
    have hr := h r List.mem_cons_self
    subst hr
    have := all_accepted (seqs := seqs) (results := results) (by simpa using hl) fun r hr => h r (List.mem_cons_of_mem _ hr)
    show s :: accepted seqs results = s :: seqs
    rw [this]

theorem runX_append (kind : A → K) : ∀ (seqs : List (List A)) (s : List A) (t : Tree A),
    runX kind (seqs ++ [s]) t = ((runX kind seqs t).1 ++ [(appendX kind s (runX kind seqs t).2).1], (appendX kind s (runX kind seqs t).2).2)
  | [], _, _ => rfl
  | s' :: seqs, s, t => by
    show runX kind (s' :: (seqs ++ [s])) t = _
    unfold runX
    dsimp only
    rw [runX_append kind seqs s]
    rfl

/-- C207: no call raises if no two sequences clash, for example if all symbols can be compared; then all sequences are in the tree. -/
theorem C207_no_clash (kind : A → K) (seqs : List (List A)) (h : ∀ s ∈ seqs, ∀ s' ∈ seqs, ¬ Clash kind s s') :
    (∀ r ∈ (runX kind seqs new).1, r = .ok ()) ∧ build seqs = .ok (runX kind seqs new).2 := by
  have hr : ∀ r ∈ (runX kind seqs (new : Tree A)).1, r = .ok () := by
    induction seqs using List.reverseRecOn with
    | nil => intro r hr; cases hr
    | append_singleton seqs s ih =>
      have ih := ih fun s hs s' hs' => h s (by simp [hs]) s' (by simp [hs'])
      rw [runX_append]
      have hacc := all_accepted (C207_history kind seqs).1 ih
      obtain ⟨t', ht, _⟩ := (C207_append kind seqs s).2 (by rw [hacc]; exact fun s' hs' => h s (by simp) s' (by simp [hs']))
      intro r hr
      rcases List.mem_append.1 hr with hr | hr
      · exact ih r hr
      · rw [ht] at hr
        simpa using hr
  refine ⟨hr, ?_⟩
  have := (C207_history kind seqs).2.2
  rwa [all_accepted (C207_history kind seqs).1 hr] at this

/-- C207, deviation: with symbols that cannot be compared, the order of the calls decides which sequences are in the tree. -/
theorem C207_order (kind : A → K) {a b : A} (hne : kind a ≠ kind b) :
    (runX kind [[a], [b]] new).1 = [.ok (), .error .type] ∧ (runX kind [[b], [a]] new).1 = [.ok (), .error .type] ∧
    accepted [[a], [b]] (runX kind [[a], [b]] new).1 = [[a]] ∧ accepted [[b], [a]] (runX kind [[b], [a]] new).1 = [[b]] := by
  have key : ∀ a b : A, kind a ≠ kind b → (runX kind [[a], [b]] new).1 = [.ok (), .error .type] := by
    intro a b hne
    have h1 : (runX kind [[a]] (new : Tree A)).1 = [.ok ()] := rfl
    have h2 := (C207_append kind [[a]] [b]).1 ⟨[a], by rw [h1]; exact List.mem_singleton.2 rfl, [], b, a, by simp, by simp, fun h => hne h.symm⟩
    have := runX_append kind [[a]] [b] (new : Tree A)
    rw [show [[a], [b]] = [[a]] ++ [[b]] from rfl, this, h2, h1]
    rfl
  refine ⟨key a b hne, key b a fun h => hne h.symm, ?_, ?_⟩
  · rw [key a b hne]; rfl
  · rw [key b a fun h => hne h.symm]; rfl

/-- numbers and strings: symbols below ten are of another kind than the others. The third call raises, all others are accepted, also the last
one, whose symbol 20 cannot be compared with 1 to 3 but meets only the symbol 21. -/
example : (runX (fun n : Nat => decide (n < 10)) [[1, 2], [3, 21], [1, 20], [2], [3, 20]] new).1 =
    [.ok (), .ok (), .error .type, .ok (), .ok ()] := by decide +kernel

end Prolothar.PrefixTree
