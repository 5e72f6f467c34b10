import Verif.Spec.PrefixTree
import Mathlib.Data.List.Basic
import Mathlib.Data.List.Sort
import Mathlib.Data.List.Infix
import Mathlib.Tactic.Linarith
set_option linter.unusedSectionVars false
set_option linter.unusedVariables false
set_option linter.unusedSimpArgs false
namespace Prolothar.PrefixTree
open Prolothar.Spec.PrefixTree

variable {A : Type} [LinearOrder A]

/-- children strictly decreasing everywhere -/
inductive Sorted : Tree A → Prop
  | mk {id n cs} (h : (cs.map Prod.fst).Pairwise (· > ·)) (hc : ∀ p ∈ cs, Sorted p.2) : Sorted (.node id n cs)

/-- result of the binary search -/
def Split (cs : List (A × Tree A)) (a : A) (i : Nat) : Prop :=
  ∃ pre post, cs = pre ++ post ∧ i = pre.length ∧ (∀ p ∈ pre, a < p.1) ∧
    (post = [] ∨ ∃ x post', post = x :: post' ∧ x.1 ≤ a)

theorem findLoop_ok {cs : List (A × Tree A)} (hs : (cs.map Prod.fst).Pairwise (· > ·)) (a : A)
    (fuel lo hi : Nat) (hf : hi - lo < fuel) (hle : lo ≤ hi) (hhi : hi ≤ cs.length)
    (h1 : ∀ j x, j < lo → cs[j]? = some x → a < x.1) (h2 : ∀ x, cs[hi]? = some x → x.1 < a) :
    ∃ i, findLoop cs a fuel lo hi = .ok i ∧ Split cs a i := by
  have hmono : ∀ (i j : Nat) (x y : A × Tree A), i < j → cs[i]? = some x → cs[j]? = some y → y.1 < x.1 := by
    intro i j x y hij hi hj
    obtain ⟨hil, hi⟩ := List.getElem?_eq_some_iff.1 hi
    obtain ⟨hjl, hj⟩ := List.getElem?_eq_some_iff.1 hj
    have := List.pairwise_iff_getElem.1 hs i j (by simpa using hil) (by simpa using hjl) hij
    simpa [hi, hj] using this
  have build : ∀ i, i ≤ cs.length → (∀ j x, j < i → cs[j]? = some x → a < x.1) →
      (∀ x, cs[i]? = some x → x.1 ≤ a) → Split cs a i := by
    intro i hi h1 h2
    refine ⟨cs.take i, cs.drop i, (List.take_append_drop i cs).symm, by simp [hi], ?_, ?_⟩
    · intro p hp
      obtain ⟨j, hj⟩ := List.mem_iff_getElem?.1 hp
      rw [List.getElem?_take] at hj
      split at hj
      · exact h1 j p ‹_› hj
      · cases hj
    · rcases Nat.lt_or_ge i cs.length with hlt | hge
      · right
        refine ⟨cs[i], cs.drop (i + 1), List.drop_eq_getElem_cons hlt, h2 _ (List.getElem?_eq_getElem hlt)⟩
      · left; exact List.drop_eq_nil_of_le hge
  induction fuel generalizing lo hi with
  | zero => omega
  | succ fuel ih =>
    unfold findLoop
    by_cases hlt : lo < hi
    · rw [if_pos hlt]
      simp only
      have hmid : (lo + hi) / 2 < cs.length := by omega
      rw [List.getElem?_eq_getElem hmid]
      simp only
      have hget := List.getElem?_eq_getElem hmid
      split
      · rename_i heq
        refine ⟨_, rfl, build _ (by omega) ?_ ?_⟩
        · intro j x hj hx
          rw [← heq]; exact hmono _ _ _ _ hj hx hget
        · intro x hx
          rw [hget] at hx
          cases hx
          exact heq.le
      · split
        · rename_i hne hl
          refine ih lo _ (by omega) (by omega) (by omega) h1 ?_
          intro x hx
          rw [hget] at hx
          cases hx
          exact hl
        · rename_i hne hl
          have hgt := lt_of_le_of_ne (not_lt.1 hl) (Ne.symm hne)
          refine ih _ hi (by omega) (by omega) hhi ?_ h2
          intro j x hj hx
          rcases Nat.lt_or_ge j ((lo + hi) / 2) with hj' | hj'
          · exact hgt.trans (hmono _ _ _ _ hj' hx hget)
          · have : j = (lo + hi) / 2 := by omega
            subst this
            rw [hget] at hx
            cases hx
            exact hgt
    · rw [if_neg hlt]
      have : lo = hi := by omega
      subst this
      exact ⟨_, rfl, build _ hhi h1 fun x hx => (h2 x hx).le⟩

theorem findInsertionPoint_ok {cs : List (A × Tree A)} (hs : (cs.map Prod.fst).Pairwise (· > ·)) (a : A) :
    ∃ i, findInsertionPoint cs a = .ok i ∧ Split cs a i := by
  unfold findInsertionPoint
  by_cases h : cs = []
  · rw [if_pos h]
    exact ⟨0, rfl, [], [], by simp [h], rfl, by simp, .inl rfl⟩
  · rw [if_neg h]
    refine findLoop_ok hs a _ _ _ (by omega) (by omega) (le_refl _) (by omega) ?_
    intro x hx
    simp at hx

/-- what is stored at a word -/
def get : Tree A → List A → Option Nat
  | t, [] => some t.count
  | t, a :: w => (Dict.get? t.children a).bind fun c => get c w

theorem get?_append (l l' : List (A × Tree A)) (a : A) :
    Dict.get? (l ++ l') a = (Dict.get? l a).or (Dict.get? l' a) := by
  induction l with
  | nil => rfl
  | cons p l ih =>
    obtain ⟨k, v⟩ := p
    rw [List.cons_append, Dict.get?, Dict.get?, ih]
    split <;> rfl

theorem get?_none_of_forall {l : List (A × Tree A)} {a : A} (h : ∀ p ∈ l, p.1 ≠ a) : Dict.get? l a = none := by
  rw [Dict.get?_eq_none_iff]
  intro hc
  obtain ⟨p, hp, rfl⟩ := List.mem_map.1 hc
  exact h p hp rfl

/-- replacing or inserting the child `a` between greater and smaller symbols -/
theorem step_facts {pre post : List (A × Tree A)} {a : A} {c : Tree A}
    (h1 : ∀ p ∈ pre, a < p.1) (h2 : ∀ p ∈ post, p.1 < a)
    (hp : (pre.map Prod.fst).Pairwise (· > ·)) (hq : (post.map Prod.fst).Pairwise (· > ·)) :
    ((pre ++ (a, c) :: post).map Prod.fst).Pairwise (· > ·) ∧
    Dict.get? (pre ++ (a, c) :: post) a = some c ∧
    ∀ x, x ≠ a → Dict.get? (pre ++ (a, c) :: post) x = Dict.get? (pre ++ post) x := by
  refine ⟨?_, ?_, ?_⟩
  · rw [List.map_append, List.map_cons, List.pairwise_append, List.pairwise_cons]
    refine ⟨hp, ⟨?_, hq⟩, ?_⟩
    · intro y hy
      obtain ⟨p, hp, rfl⟩ := List.mem_map.1 hy
      exact h2 p hp
    · intro x hx y hy
      obtain ⟨p, hp, rfl⟩ := List.mem_map.1 hx
      rcases List.mem_cons.1 hy with rfl | hy
      · exact h1 p hp
      · obtain ⟨p', hp', rfl⟩ := List.mem_map.1 hy
        exact (h2 p' hp').trans (h1 p hp)
  · rw [get?_append, get?_none_of_forall fun p hp => (h1 p hp).ne', Dict.get?, if_pos rfl]
    rfl
  · intro x hx
    rw [get?_append, get?_append, Dict.get?, if_neg (Ne.symm hx)]

theorem new_sorted (i : String) : Sorted (new i : Tree A) := .mk List.Pairwise.nil (by simp)

theorem get_new (i : String) (w : List A) : get (new i) w = if w = [] then some 0 else none := by
  cases w with
  | nil => rfl
  | cons a w => rfl

theorem insertIdx_length {B : Type} (pre post : List B) (x : B) :
    (pre ++ post).insertIdx pre.length x = pre ++ x :: post := by
  induction pre with
  | nil => rfl
  | cons y pre ih => simpa using ih

theorem Sorted.sub {t : Tree A} (h : Sorted t) : ∀ p ∈ t.children, Sorted p.2 := by
  cases h with | mk _ h => exact h

/-- the ids of the children extend the id of their parent by distinct numbers, everywhere -/
inductive IdOk : Tree A → Prop
  | mk {id n cs} (h : ∀ p ∈ cs, ∃ k < cs.length, p.2.id = id ++ "." ++ toString k)
      (hd : (cs.map fun p => p.2.id).Nodup) (hc : ∀ p ∈ cs, IdOk p.2) : IdOk (.node id n cs)

theorem new_idOk (i : String) : IdOk (new i : Tree A) := .mk (by simp) List.nodup_nil (by simp)

theorem toDigits_inj {k k' : Nat} (h : Nat.toDigits 10 k = Nat.toDigits 10 k') : k = k' := by
  have := congrArg (fun l => Nat.ofDigitChars 10 l 0) h
  simpa using this

theorem split_unique {B : Type} (x : B) (l d l' d' : List B) (h : l ++ x :: d = l' ++ x :: d')
    (hd : x ∉ d) (hd' : x ∉ d') : d = d' := by
  induction l generalizing l' with
  | nil =>
    cases l' with
    | nil => simpa using h
    | cons y l' =>
      simp only [List.nil_append, List.cons_append, List.cons.injEq] at h
      exact absurd (by rw [h.2]; simp) hd
  | cons z l ih =>
    cases l' with
    | nil =>
      simp only [List.nil_append, List.cons_append, List.cons.injEq] at h
      exact absurd (by rw [← h.2]; simp) hd'
    | cons y l' =>
      simp only [List.cons_append, List.cons.injEq] at h
      exact ih l' h.2

theorem childId_inj {i i' : String} {k k' : Nat} (h : i ++ "." ++ toString k = i' ++ "." ++ toString k') :
    i = i' ∧ k = k' := by
  have hl := congrArg String.toList h
  simp only [String.toList_append, Nat.toString_eq_ofList_toDigits, String.toList_ofList] at hl
  have hdot : ∀ k, '.' ∉ Nat.toDigits 10 k := by
    intro k hc
    have := Nat.isDigit_of_mem_toDigits (by omega) (by omega) hc
    revert this; decide
  have hk : Nat.toDigits 10 k = Nat.toDigits 10 k' := by
    rw [List.append_assoc, List.append_assoc] at hl
    exact split_unique _ _ _ _ _ hl (hdot k) (hdot k')
  refine ⟨?_, toDigits_inj hk⟩
  rw [hk] at hl
  have := List.append_cancel_right hl
  have := List.append_cancel_right this
  exact String.toList_injective this

/-- the last two branches of `append` compute the same list -/
theorem append_new (a : A) (s : List A) (id : String) (n : Nat) (cs pre post : List (A × Tree A)) (i : Nat)
    (hi : findInsertionPoint cs a = .ok i) (hcs : cs = pre ++ post) (hl : i = pre.length)
    (hp : ∀ x post', post = x :: post' → x.1 ≠ a) (child : Tree A)
    (hc : append s (new (id ++ "." ++ toString cs.length)) = .ok child) :
    append (a :: s) (.node id n cs) = .ok (.node id (n + 1) (pre ++ (a, child) :: post)) := by
  unfold append
  rw [hi]
  show (match cs[i]? with | none => _ | some c => _) = _
  cases post with
  | nil =>
    have : cs[i]? = none := by rw [hcs, hl]; simp
    rw [this]
    simp only
    rw [hc]
    show Except.ok _ = _
    rw [hcs, List.append_nil]
  | cons x post' =>
    have : cs[i]? = some x := by rw [hcs, hl]; simp
    rw [this]
    simp only
    rw [if_neg (hp x post' rfl), hc]
    show Except.ok _ = _
    congr 2
    rw [hcs, hl, insertIdx_length]

theorem append_ok (s : List A) (t : Tree A) (ht : Sorted t) :
    ∃ t', append s t = .ok t' ∧ Sorted t' ∧ t'.id = t.id ∧ (IdOk t → IdOk t') ∧
      ∀ w, get t' w = if w <+: s then some ((get t w).getD 0 + 1) else get t w := by
  induction s generalizing t with
  | nil =>
    obtain ⟨id, n, cs⟩ := t
    obtain ⟨h1, h2⟩ := ht
    refine ⟨.node id (n + 1) cs, rfl, .mk h1 h2, rfl, (fun hi => by cases hi with | mk a b c => exact .mk a b c), ?_⟩
    intro w
    cases w with
    | nil => rw [if_pos (List.prefix_refl _)]; rfl
    | cons a w =>
      rw [if_neg (by simp)]; rfl
  | cons a s ih =>
    obtain ⟨id, n, cs⟩ := t
    obtain ⟨h1, h2⟩ := ht
    obtain ⟨i, hi, pre, post, hcs, hil, hpre, hpost⟩ := findInsertionPoint_ok h1 a
    have hall : (∀ p ∈ pre, Sorted p.2) ∧ ∀ p ∈ post, Sorted p.2 :=
      ⟨fun p hp => h2 p (by rw [hcs]; simp [hp]), fun p hp => h2 p (by rw [hcs]; simp [hp])⟩
    rw [hcs, List.map_append, List.pairwise_append] at h1
    obtain ⟨hp1, hp2, _⟩ := h1
    by_cases hex : ∃ c post', post = (a, c) :: post'
    · obtain ⟨c, post', rfl⟩ := hex
      obtain ⟨c', k1, k2, k3, k5, k4⟩ := ih c (hall.2 (a, c) (by simp))
      have hlt : ∀ p ∈ post', p.1 < a := by
        rw [List.map_cons, List.pairwise_cons] at hp2
        intro p hp
        exact hp2.1 _ (List.mem_map.2 ⟨p, hp, rfl⟩)
      have hp3 : (post'.map Prod.fst).Pairwise (· > ·) := by
        rw [List.map_cons, List.pairwise_cons] at hp2; exact hp2.2
      obtain ⟨f1, f2, f3⟩ := step_facts (c := c') hpre hlt hp1 hp3
      obtain ⟨_, g2, g3⟩ := step_facts (c := c) hpre hlt hp1 hp3
      refine ⟨.node id (n + 1) (pre ++ (a, c') :: post'), ?_, .mk f1 ?_, rfl, ?_, ?_⟩
      · unfold append
        rw [hi]
        show (match cs[i]? with | none => _ | some c => _) = _
        have : cs[i]? = some (a, c) := by rw [hcs, hil]; simp
        rw [this]
        simp only [if_true]
        rw [k1]
        show Except.ok _ = _
        congr 2
        rw [hcs, hil]
        simp
      · intro p hp
        simp only [List.mem_append, List.mem_cons] at hp
        rcases hp with hp | rfl | hp
        · exact hall.1 p hp
        · exact k2
        · exact hall.2 p (by simp [hp])
      · intro hid
        cases hid with
        | mk i1 i2 i3 =>
          subst hcs
          refine .mk ?_ ?_ ?_
          · intro p hp
            simp only [List.mem_append, List.mem_cons] at hp
            rw [show (pre ++ (a, c') :: post').length = (pre ++ (a, c) :: post').length by simp]
            rcases hp with hp | rfl | hp
            · exact i1 p (by simp [hp])
            · simp only [k3]; exact i1 (a, c) (by simp)
            · exact i1 p (by simp [hp])
          · rw [List.map_append, List.map_cons] at i2 ⊢
            simp only [k3]; exact i2
          · intro p hp
            simp only [List.mem_append, List.mem_cons] at hp
            rcases hp with hp | rfl | hp
            · exact i3 p (by simp [hp])
            · exact k5 (i3 (a, c) (by simp))
            · exact i3 p (by simp [hp])
      · intro w
        cases w with
        | nil => rw [if_pos (by simp)]; rfl
        | cons x w =>
          rw [get, get]
          simp only [Tree.children, hcs]
          by_cases hx : x = a
          · subst hx
            rw [f2, g2]
            simp only [Option.bind_some, k4, List.cons_prefix_cons, true_and]
          · rw [f3 x hx, g3 x hx, if_neg]
            rw [List.cons_prefix_cons]; exact fun hc => hx hc.1
    · have hne : ∀ x post', post = x :: post' → x.1 ≠ a := by
        rintro ⟨k, v⟩ post' rfl rfl
        exact hex ⟨v, post', rfl⟩
      obtain ⟨c', k1, k2, k3, k5, k4⟩ := ih (new (id ++ "." ++ toString cs.length)) (new_sorted _)
      have hlt : ∀ p ∈ post, p.1 < a := by
        rcases hpost with rfl | ⟨x, post', rfl, hle⟩
        · simp
        · have hxa := lt_of_le_of_ne hle (hne x post' rfl)
          rw [List.map_cons, List.pairwise_cons] at hp2
          intro p hp
          rcases List.mem_cons.1 hp with rfl | hp
          · exact hxa
          · exact (hp2.1 _ (List.mem_map.2 ⟨p, hp, rfl⟩)).trans hxa
      obtain ⟨f1, f2, f3⟩ := step_facts (c := c') hpre hlt hp1 hp2
      refine ⟨_, append_new a s id n cs pre post i hi hcs hil hne c' k1, .mk f1 ?_, rfl, ?_, ?_⟩
      · intro p hp
        simp only [List.mem_append, List.mem_cons] at hp
        rcases hp with hp | rfl | hp
        · exact hall.1 p hp
        · exact k2
        · exact hall.2 p hp
      · intro hid
        cases hid with
        | mk i1 i2 i3 =>
          have hk3 : c'.id = id ++ "." ++ toString cs.length := k3
          refine .mk ?_ ?_ ?_
          · intro p hp
            simp only [List.mem_append, List.mem_cons] at hp
            have hlen : (pre ++ (a, c') :: post).length = cs.length + 1 := by rw [hcs]; simp; omega
            rw [hlen]
            rcases hp with hp | rfl | hp
            · obtain ⟨k, hk, he⟩ := i1 p (by rw [hcs]; simp [hp])
              exact ⟨k, by omega, he⟩
            · exact ⟨cs.length, by omega, hk3⟩
            · obtain ⟨k, hk, he⟩ := i1 p (by rw [hcs]; simp [hp])
              exact ⟨k, by omega, he⟩
          · have hfresh : ∀ p ∈ cs, p.2.id ≠ c'.id := by
              intro p hp heq
              obtain ⟨k, hk, he⟩ := i1 p hp
              rw [he, hk3] at heq
              have := (childId_inj heq).2
              omega
            have hperm : ((pre ++ (a, c') :: post).map fun p => p.2.id).Perm (c'.id :: cs.map fun p => p.2.id) := by
              rw [hcs, List.map_append, List.map_append, List.map_cons]
              exact List.perm_middle
            rw [hperm.nodup_iff, List.nodup_cons]
            refine ⟨?_, i2⟩
            intro hc
            obtain ⟨p, hp, he⟩ := List.mem_map.1 hc
            exact hfresh p hp he
          · intro p hp
            simp only [List.mem_append, List.mem_cons] at hp
            rcases hp with hp | rfl | hp
            · exact i3 p (by rw [hcs]; simp [hp])
            · exact k5 (new_idOk _)
            · exact i3 p (by rw [hcs]; simp [hp])
      · intro w
        cases w with
        | nil => rw [if_pos (by simp)]; rfl
        | cons x w =>
          rw [get, get]
          simp only [Tree.children, hcs]
          by_cases hx : x = a
          · subst hx
            have : Dict.get? (pre ++ post) x = none := by
              apply get?_none_of_forall
              intro p hp
              rcases List.mem_append.1 hp with hp | hp
              · exact (hpre p hp).ne'
              · exact (hlt p hp).ne
            rw [f2, this]
            simp only [Option.bind_some, k4, List.cons_prefix_cons, true_and, Option.bind_none, Option.getD_none]
            rw [get_new]
            cases w with
            | nil => simp
            | cons y w => simp
          · rw [f3 x hx, if_neg]
            rw [List.cons_prefix_cons]; exact fun hc => hx hc.1

theorem foldlM_append (seqs : List (List A)) (t : Tree A) (ht : Sorted t) :
    ∃ t', seqs.foldlM (fun t s => append s t) t = .ok t' ∧ Sorted t' ∧ (IdOk t → IdOk t') ∧
      ∀ w, get t' w = if 0 < prefixCount seqs w then some ((get t w).getD 0 + prefixCount seqs w) else get t w := by
  induction seqs generalizing t with
  | nil => exact ⟨t, rfl, ht, fun h => h, fun w => by simp [prefixCount]⟩
  | cons s seqs ih =>
    obtain ⟨t1, h1, h2, _, h5, h4⟩ := append_ok s t ht
    obtain ⟨t', k1, k2, k5, k3⟩ := ih t1 h2
    refine ⟨t', ?_, k2, fun h => k5 (h5 h), ?_⟩
    · rw [List.foldlM_cons, h1]; exact k1
    · intro w
      rw [k3, h4]
      have hc : prefixCount (s :: seqs) w = prefixCount seqs w + if w <+: s then 1 else 0 := by
        unfold prefixCount
        rw [List.filter_cons]
        by_cases hw : w <+: s <;> simp [hw]
      rw [hc]
      by_cases hw : w <+: s
      · simp only [hw, if_true]
        by_cases hp : 0 < prefixCount seqs w
        · rw [if_pos hp, if_pos (by omega)]; simp; omega
        · rw [if_neg hp, if_pos (by omega)]
          have : prefixCount seqs w = 0 := by omega
          rw [this]
      · simp only [hw, if_false, Nat.add_zero]

/-! ### words -/

theorem Sorted.nodup {t : Tree A} (h : Sorted t) : (t.children.map Prod.fst).Nodup := by
  cases h with
  | mk h _ => exact h.imp fun h => ne_of_gt h

theorem Sorted.get?_iff {t : Tree A} (h : Sorted t) (a : A) (c : Tree A) :
    Dict.get? t.children a = some c ↔ (a, c) ∈ t.children :=
  (Dict.mem_iff_get? h.nodup).symm

theorem get_iff {t : Tree A} (h : Sorted t) (w : List A) (k : Nat) :
    get t w = some k ↔ ∃ n, At t w n ∧ n.count = k := by
  induction w generalizing t with
  | nil =>
    constructor
    · intro hg
      exact ⟨t, .root t, by simpa [get] using hg⟩
    · rintro ⟨n, hn, rfl⟩
      cases hn
      rfl
  | cons a w ih =>
    have hsub := h.sub
    rw [get, Option.bind_eq_some_iff]
    constructor
    · rintro ⟨c, hc, hg⟩
      have hc := (h.get?_iff a c).1 hc
      obtain ⟨n, hn, hk⟩ := (ih (hsub _ hc)).1 hg
      exact ⟨n, .child hc hn, hk⟩
    · rintro ⟨n, hn, hk⟩
      cases hn with
      | child hc hn =>
        exact ⟨_, (h.get?_iff a _).2 hc, (ih (hsub _ hc)).2 ⟨n, hn, hk⟩⟩

theorem At.unique {t : Tree A} (h : Sorted t) {w : List A} {n n' : Tree A} (hn : At t w n) (hn' : At t w n') : n = n' := by
  induction hn with
  | root => cases hn'; rfl
  | child hc _ ih =>
    have hsub := h.sub
    cases hn' with
    | child hc' hn' =>
      have h1 := (h.get?_iff _ _).2 hc
      have h2 := (h.get?_iff _ _).2 hc'
      rw [h1] at h2
      cases h2
      exact ih (hsub _ hc) hn'

theorem At.sorted {t : Tree A} (h : Sorted t) {w : List A} {n : Tree A} (hn : At t w n) : Sorted n := by
  induction hn with
  | root => exact h
  | child hc _ ih =>
    have hsub := h.sub
    exact ih (hsub _ hc)

/-! ### ids -/

theorem IdOk.sub {t : Tree A} (h : IdOk t) : ∀ p ∈ t.children, IdOk p.2 := by
  cases h with | mk _ _ h => exact h

theorem IdOk.child {t : Tree A} (h : IdOk t) {p : A × Tree A} (hp : p ∈ t.children) :
    ∃ k : Nat, p.2.id = t.id ++ "." ++ toString k := by
  cases h with
  | mk h _ _ =>
    obtain ⟨k, _, hk⟩ := h p hp
    exact ⟨k, hk⟩

theorem IdOk.inj {t : Tree A} (h : IdOk t) {p q : A × Tree A} (hp : p ∈ t.children) (hq : q ∈ t.children)
    (he : p.2.id = q.2.id) : p = q := by
  cases h with
  | mk _ h _ => exact List.inj_on_of_nodup_map h hp hq he

/-- id of a node below `i` -/
def deepId (i : String) (ks : List Nat) : String := ks.foldl (fun i k => i ++ "." ++ toString k) i

theorem deepId_length (i : String) (ks : List Nat) : i.toList.length + ks.length ≤ (deepId i ks).toList.length := by
  induction ks generalizing i with
  | nil => simp [deepId]
  | cons k ks ih =>
    have := ih (i ++ "." ++ toString k)
    have hd : deepId i (k :: ks) = deepId (i ++ "." ++ toString k) ks := rfl
    rw [hd]
    simp only [String.toList_append, List.length_append, List.length_cons] at *
    have : (String.toList ".").length = 1 := by decide
    omega

theorem deepId_inj {i : String} (ks ks' : List Nat) (h : deepId i ks = deepId i ks') : ks = ks' := by
  induction ks using List.reverseRecOn generalizing ks' with
  | nil =>
    have := deepId_length i ks'
    rw [← h] at this
    simp only [deepId, List.foldl_nil] at this
    exact (List.length_eq_zero_iff.1 (by omega)).symm
  | append_singleton ks k ih =>
    rcases List.eq_nil_or_concat ks' with rfl | ⟨ks', k', rfl⟩
    · have := deepId_length i (ks ++ [k])
      rw [h] at this
      simp [deepId] at this
    · have h : deepId i ks ++ "." ++ toString k = deepId i ks' ++ "." ++ toString k' := by
        simpa [deepId, List.foldl_append] using h
      obtain ⟨h1, h2⟩ := childId_inj h
      rw [ih ks' h1, h2]; simp

theorem At.deepId {t n : Tree A} {w : List A} (hn : At t w n) (h : IdOk t) :
    ∃ ks, n.id = PrefixTree.deepId t.id ks := by
  induction hn with
  | root => exact ⟨[], rfl⟩
  | child hc _ ih =>
    obtain ⟨ks, hks⟩ := ih (h.sub _ hc)
    obtain ⟨k, hk⟩ := h.child hc
    refine ⟨k :: ks, ?_⟩
    rw [hks]
    simp only at hk
    rw [hk]; rfl

theorem At.id_inj {t n n' : Tree A} {w w' : List A} (hn : At t w n) (hn' : At t w' n') (h : IdOk t)
    (he : n.id = n'.id) : w = w' ∧ n = n' := by
  induction hn generalizing w' n' with
  | root =>
    cases hn' with
    | root => exact ⟨rfl, rfl⟩
    | child hc hr =>
      obtain ⟨ks, hks⟩ := At.deepId hr (h.sub _ hc)
      obtain ⟨k, hk⟩ := h.child hc
      simp only at hk
      rw [hks, hk] at he
      have := deepId_inj (i := Tree.id _) [] (k :: ks) he
      cases this
  | child hc hr ih =>
    obtain ⟨ks, hks⟩ := At.deepId hr (h.sub _ hc)
    obtain ⟨k, hk⟩ := h.child hc
    simp only at hk
    cases hn' with
    | root =>
      rw [hks, hk] at he
      have := deepId_inj (i := Tree.id _) (k :: ks) [] he
      cases this
    | child hc' hr' =>
      obtain ⟨ks', hks'⟩ := At.deepId hr' (h.sub _ hc')
      obtain ⟨k', hk'⟩ := h.child hc'
      simp only at hk'
      have he' := he
      rw [hks, hk, hks', hk'] at he'
      have := deepId_inj (i := Tree.id _) (k :: ks) (k' :: ks') he'
      cases this
      have := h.inj hc hc' (by simp only [hk, hk'])
      cases this
      obtain ⟨h1, h2⟩ := ih hr' (h.sub _ hc) he
      exact ⟨by rw [h1], h2⟩

/-! ### level order -/

/-- a node with its symbol and the word of its parent -/
abbrev Item (A : Type) := List A × (A × Tree A)

/-- word of a node -/
def word (x : Item A) : List A := x.1 ++ [x.2.1]

/-- children with words -/
def kids (x : Item A) : List (Item A) := x.2.2.children.map fun c => (word x, c)

theorem Sorted.pairwise {t : Tree A} (h : Sorted t) : t.children.Pairwise fun c d => d.1 < c.1 := by
  cases h with
  | mk h _ => exact List.pairwise_map.1 h

/-- sum of sizes -/
noncomputable def total (q : List (A × Tree A)) : Nat := (q.map fun c => sizeOf c.2).sum

theorem total_append (q q' : List (A × Tree A)) : total (q ++ q') = total q + total q' := by
  simp [total]

theorem total_children (t : Tree A) : total t.children < sizeOf t := by
  obtain ⟨id, n, cs⟩ := t
  have h1 : ∀ cs : List (A × Tree A), total cs ≤ sizeOf cs := by
    intro cs
    induction cs with
    | nil => simp [total]
    | cons c cs ih =>
      obtain ⟨a, c⟩ := c
      have : total ((a, c) :: cs) = sizeOf c + total cs := by simp [total]
      rw [this]
      simp only [List.cons.sizeOf_spec, Prod.mk.sizeOf_spec]
      omega
  have := h1 cs
  simp only [Tree.children, Tree.node.sizeOf_spec]
  omega

theorem levelLoop_mono (fuel : Nat) (q : List (A × Tree A)) (r : List (A × Tree A))
    (h : levelLoop fuel q = .ok r) : levelLoop (fuel + 1) q = .ok r := by
  induction fuel generalizing q r with
  | zero => cases h
  | succ fuel ih =>
    cases q with
    | nil => exact h
    | cons c q =>
      unfold levelLoop at h
      cases hr : levelLoop fuel (q ++ c.2.children) with
      | error e => rw [hr] at h; cases h
      | ok rest =>
        rw [hr] at h
        unfold levelLoop
        rw [ih _ _ hr]
        exact h

theorem levelLoop_mono' (fuel k : Nat) (q : List (A × Tree A)) (r : List (A × Tree A))
    (h : levelLoop fuel q = .ok r) : levelLoop (fuel + k) q = .ok r := by
  induction k with
  | zero => exact h
  | succ k ih => exact levelLoop_mono _ _ _ ih

/-- one whole level is taken from the queue before the next -/
theorem levelLoop_level (q q' : List (A × Tree A)) (fuel : Nat) (r : List (A × Tree A))
    (h : levelLoop fuel (q' ++ q.flatMap fun c => c.2.children) = .ok r) :
    levelLoop (fuel + q.length) (q ++ q') = .ok (q ++ r) := by
  induction q generalizing q' r with
  | nil => simpa using h
  | cons c q ih =>
    rw [List.flatMap_cons, ← List.append_assoc] at h
    have := ih _ _ h
    rw [List.length_cons, ← Nat.add_assoc, List.cons_append]
    unfold levelLoop
    rw [List.append_assoc, this]
    rfl

/-- order in which the words are visited -/
def Before (u v : List A) : Prop := u.length < v.length ∨ (u.length = v.length ∧ v < u)

theorem append_lt {u v : List A} (h : u < v) (hl : u.length = v.length) (x y : List A) : u ++ x < v ++ y := by
  induction h with
  | nil => simp at hl
  | rel h => exact .rel h
  | cons h ih => exact .cons (ih (by simpa using hl))

theorem append_lt_same (u : List A) {x y : A} (h : x < y) : u ++ [x] < u ++ [y] := by
  induction u with
  | nil => exact .rel h
  | cons a u ih => exact .cons ih

theorem kids_sorted {q : List (Item A)} {l : Nat} (hl : ∀ x ∈ q, (word x).length = l)
    (hq : q.Pairwise fun x y => word y < word x) (hs : ∀ x ∈ q, Sorted x.2.2) :
    (∀ x ∈ q.flatMap kids, (word x).length = l + 1) ∧ (q.flatMap kids).Pairwise (fun x y => word y < word x) ∧
      ∀ x ∈ q.flatMap kids, Sorted x.2.2 := by
  refine ⟨?_, ?_, ?_⟩
  · intro x hx
    obtain ⟨y, hy, hx⟩ := List.mem_flatMap.1 hx
    obtain ⟨c, hc, rfl⟩ := List.mem_map.1 hx
    rw [← hl y hy]
    simp [word]
  · rw [List.pairwise_flatMap]
    constructor
    · intro x hx
      unfold kids
      rw [List.pairwise_map]
      exact (hs x hx).pairwise.imp fun hlt => append_lt_same _ hlt
    · refine List.Pairwise.imp_of_mem ?_ hq
      intro x y hx hy hlt u hu v hv
      obtain ⟨c, hc, rfl⟩ := List.mem_map.1 hu
      obtain ⟨d, hd, rfl⟩ := List.mem_map.1 hv
      exact append_lt hlt (by rw [hl x hx, hl y hy]) _ _
  · intro x hx
    obtain ⟨y, hy, hx⟩ := List.mem_flatMap.1 hx
    obtain ⟨c, hc, rfl⟩ := List.mem_map.1 hx
    exact (hs y hy).sub c hc

theorem kids_strip (q : List (Item A)) :
    (q.flatMap kids).map Prod.snd = (q.map Prod.snd).flatMap fun c => c.2.children := by
  induction q with
  | nil => rfl
  | cons x q ih =>
    rw [List.flatMap_cons, List.map_append, ih, List.map_cons, List.flatMap_cons]
    congr 1
    unfold kids
    rw [List.map_map]
    have : (Prod.snd ∘ fun c => (word x, c)) = (id : A × Tree A → A × Tree A) := rfl
    rw [this, List.map_id]

theorem total_flatMap (q : List (A × Tree A)) (hq : q ≠ []) :
    total (q.flatMap fun c => c.2.children) < total q := by
  have hle : ∀ q : List (A × Tree A), total (q.flatMap fun c => c.2.children) ≤ total q := by
    intro q
    induction q with
    | nil => exact le_refl _
    | cons c q ih =>
      have := total_children c.2
      have h2 : total (c :: q) = sizeOf c.2 + total q := by simp [total]
      rw [List.flatMap_cons, total_append, h2]
      omega
  cases q with
  | nil => exact absurd rfl hq
  | cons c q =>
    have := total_children c.2
    have h2 : total (c :: q) = sizeOf c.2 + total q := by simp [total]
    rw [List.flatMap_cons, total_append, h2]
    have := hle q
    omega

theorem level_ok (N : Nat) (q : List (Item A)) (hN : total (q.map Prod.snd) ≤ N) (l : Nat)
    (hl : ∀ x ∈ q, (word x).length = l) (hq : q.Pairwise fun x y => word y < word x)
    (hs : ∀ x ∈ q, Sorted x.2.2) :
    ∃ fuel, ∃ r : List (Item A), levelLoop fuel (q.map Prod.snd) = .ok (r.map Prod.snd) ∧
      (r.Pairwise fun x y => Before (word x) (word y)) ∧ (∀ x ∈ r, l ≤ (word x).length) ∧
      ∀ w c, (∃ x ∈ r, word x = w ∧ x.2.2 = c) ↔ ∃ y ∈ q, ∃ v, At y.2.2 v c ∧ w = word y ++ v := by
  induction N generalizing q l with
  | zero =>
    cases q with
    | nil => exact ⟨1, [], rfl, .nil, by simp, by simp⟩
    | cons x q =>
      exfalso
      have h2 : total ((x :: q).map Prod.snd) = sizeOf x.2.2 + total (q.map Prod.snd) := by simp [total]
      have := total_children x.2.2
      omega
  | succ N ih =>
    by_cases hne : q = []
    · subst hne; exact ⟨1, [], rfl, .nil, by simp, by simp⟩
    · obtain ⟨k1, k2, k3⟩ := kids_sorted hl hq hs
      have htot := total_flatMap (q.map Prod.snd) (by simpa using hne)
      obtain ⟨fuel, r, r1, r2, r3, r4⟩ := ih (q.flatMap kids) (by rw [kids_strip]; omega) (l + 1) k1 k2 k3
      rw [kids_strip] at r1
      have hlev := levelLoop_level (q.map Prod.snd) [] fuel _ (by rw [List.nil_append]; exact r1)
      rw [List.append_nil, ← List.map_append] at hlev
      refine ⟨_, q ++ r, hlev, ?_, ?_, ?_⟩
      · rw [List.pairwise_append]
        refine ⟨?_, r2, ?_⟩
        · refine List.Pairwise.imp_of_mem ?_ hq
          intro x y hx hy hlt
          exact .inr ⟨by rw [hl x hx, hl y hy], hlt⟩
        · intro x hx y hy
          left
          have := r3 y hy
          rw [hl x hx]; omega
      · intro x hx
        rcases List.mem_append.1 hx with hx | hx
        · exact (hl x hx).ge
        · have := r3 x hx; omega
      · intro w c
        constructor
        · rintro ⟨x, hx, hw, hc⟩
          rcases List.mem_append.1 hx with hx | hx
          · exact ⟨x, hx, [], by rw [← hc]; exact .root _, by simp [hw]⟩
          · obtain ⟨y, hy, v, hv, hw'⟩ := (r4 w c).1 ⟨x, hx, hw, hc⟩
            obtain ⟨z, hz, hyz⟩ := List.mem_flatMap.1 hy
            obtain ⟨d, hd, rfl⟩ := List.mem_map.1 hyz
            refine ⟨z, hz, d.1 :: v, .child (c := d.2) hd hv, ?_⟩
            rw [hw']; simp [word]
        · rintro ⟨y, hy, v, hv, hw⟩
          generalize ht : y.2.2 = t at hv
          cases hv with
          | root => exact ⟨y, by simp [hy], by simp [hw], ht⟩
          | @child _ a d v' _ hc hr =>
            obtain ⟨x, hx, h1, h2⟩ := (r4 w c).2 ⟨(word y, (a, d)), List.mem_flatMap.2 ⟨y, hy, by
              unfold kids; rw [ht]; exact List.mem_map.2 ⟨_, hc, rfl⟩⟩, v', hr, by rw [hw]; simp [word]⟩
            exact ⟨x, by simp [hx], h1, h2⟩

end Prolothar.PrefixTree
