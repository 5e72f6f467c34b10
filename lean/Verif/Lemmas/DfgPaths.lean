import Verif.Lemmas.DfgSearch
import Mathlib.Data.List.Lex
import Mathlib.Data.List.Sort
/- Breadth first search and the removal and restoration of forbidden edges. -/
set_option linter.unusedSimpArgs false
set_option linter.unusedVariables false
set_option linter.unusedSectionVars false
namespace Prolothar.Dfg
open Prolothar.Spec.Graph
variable {A : Type} [LinearOrder A]

/-- shorter, or equally long and lexicographically smaller -/
def SL (l l' : List A) : Prop := l.length < l'.length ∨ l.length = l'.length ∧ l < l'

theorem SL.trans {a b c : List A} (h : SL a b) (h' : SL b c) : SL a c := by
  unfold SL at *
  rcases h with h | ⟨h, h1⟩ <;> rcases h' with h' | ⟨h', h2⟩
  · exact .inl (by omega)
  · exact .inl (by omega)
  · exact .inl (by omega)
  · exact .inr ⟨by omega, lt_trans h1 h2⟩

theorem SL.irrefl (a : List A) : ¬ SL a a := by
  rintro (h | ⟨_, h⟩)
  · omega
  · exact lt_irrefl _ h

theorem SL.total (a b : List A) : SL a b ∨ a = b ∨ SL b a := by
  unfold SL
  rcases lt_trichotomy a.length b.length with h | h | h
  · exact .inl (.inl h)
  · rcases lt_trichotomy a b with h' | h' | h'
    · exact .inl (.inr ⟨h, h'⟩)
    · exact .inr (.inl h')
    · exact .inr (.inr (.inr ⟨h.symm, h'⟩))
  · exact .inr (.inr (.inl h))

theorem SL.not_of {a b : List A} (h : SL a b) : ¬ SL b a := fun h' => SL.irrefl _ (h.trans h')

theorem SL.of_le {a b c : List A} (h : ¬ SL b a) (h' : SL b c) : SL a c := by
  rcases SL.total a b with h1 | rfl | h1
  · exact h1.trans h'
  · exact h'
  · exact absurd h1 h

theorem SL.le_trans {a b c : List A} (h : ¬ SL b a) (h' : ¬ SL c b) : ¬ SL c a := by
  intro hc
  rcases SL.total a b with h1 | rfl | h1
  · exact h' (hc.trans h1)
  · exact h' hc
  · exact h h1

theorem lt_append (a b : List A) (hl : a.length = b.length) (h : a < b) (x y : A) :
    a ++ [x] < b ++ [y] := by
  induction a generalizing b with
  | nil =>
    cases b with
    | nil => exact absurd h (lt_irrefl _)
    | cons b bs => simp at hl
  | cons a as ih =>
    cases b with
    | nil => simp at hl
    | cons b bs =>
      simp only [List.length_cons, Nat.add_right_cancel_iff] at hl
      rw [List.cons_lt_cons_iff] at h
      show a :: (as ++ [x]) < b :: (bs ++ [y])
      rw [List.cons_lt_cons_iff]
      rcases h with h | ⟨h, h'⟩
      · exact .inl h
      · exact .inr ⟨h, ih bs hl h'⟩

theorem append_lt (k : List A) {x y : A} (h : x < y) : k ++ [x] < k ++ [y] := by
  induction k with
  | nil => simp [List.cons_lt_cons_iff, h]
  | cons a as ih =>
    show a :: (as ++ [x]) < a :: (as ++ [y])
    rw [List.cons_lt_cons_iff]
    exact .inr ⟨rfl, ih⟩

theorem SL.snoc {p k : List A} (h : SL p k) (v b : A) : SL (p ++ [v]) (k ++ [b]) := by
  unfold SL at *
  simp only [List.length_append, List.length_singleton]
  rcases h with h | ⟨h, h'⟩
  · exact .inl (by omega)
  · exact .inr ⟨by omega, lt_append p k h h' v b⟩

theorem SL.snoc_inv {q p : List A} {u v : A} (h : SL (q ++ [u]) (p ++ [v])) : ¬ SL p q :=
  fun h' => (h'.snoc v u).not_of h

theorem SL.append_self (k : List A) (b : A) : SL k (k ++ [b]) := .inl (by simp)

theorem SL.last (k : List A) {x y : A} (h : x < y) : SL (k ++ [x]) (k ++ [y]) :=
  .inr ⟨by simp, append_lt k h⟩

/-- `p ++ [v]` is a walk from `s` to `v` -/
inductive Wk (E : A → A → Prop) (s : A) : List A → A → Prop
  | start : Wk E s [] s
  | snoc {p : List A} {u v : A} : Wk E s p u → E u v → Wk E s (p ++ [u]) v

theorem Wk.inv {E : A → A → Prop} {s : A} {p : List A} {u v : A} (h : Wk E s (p ++ [u]) v) :
    Wk E s p u ∧ E u v := by
  generalize hq : p ++ [u] = q at h
  cases h with
  | start => simp at hq
  | snoc h1 h2 =>
    obtain ⟨rfl, h⟩ := List.append_inj' hq rfl
    simp at h
    subst h
    exact ⟨h1, h2⟩

theorem Wk.nil_inv {E : A → A → Prop} {s v : A} (h : Wk E s [] v) : v = s := by
  generalize hq : ([] : List A) = q at h
  cases h with
  | start => rfl
  | snoc _ _ => simp at hq

theorem wk_iff (E : A → A → Prop) (s v : A) (q : List A) :
    IsWalk E s v q ↔ ∃ p, q = p ++ [v] ∧ Wk E s p v := by
  induction q using List.reverseRecOn generalizing v with
  | nil => simp [IsWalk]
  | append_singleton p x ih =>
    constructor
    · rintro ⟨h1, h2, h3⟩
      rw [List.getLast?_append, List.getLast?_singleton] at h2
      simp at h2
      subst h2
      refine ⟨p, rfl, ?_⟩
      cases hp : p.getLast? with
      | none =>
        rw [List.getLast?_eq_none_iff] at hp
        subst hp
        simp at h1
        subst h1
        exact .start
      | some u =>
        obtain ⟨p', rfl⟩ := List.getLast?_eq_some_iff.1 hp
        rw [List.isChain_append] at h3
        have hu : IsWalk E s u (p' ++ [u]) := by
          refine ⟨?_, hp, h3.1⟩
          rw [List.head?_append] at h1
          cases hh : (p' ++ [u]).head? with
          | none => simp at hh
          | some w => rw [hh] at h1; simpa using h1
        obtain ⟨p2, e, hw⟩ := (ih u).1 hu
        obtain ⟨rfl, _⟩ := List.append_inj' e rfl
        refine .snoc hw (h3.2.2 u ?_ x ?_) <;> simp
    · rintro ⟨p', e, hw⟩
      obtain ⟨rfl, e⟩ := List.append_inj' e rfl
      simp at e
      subst e
      cases hw with
      | start => exact ⟨rfl, rfl, by simp⟩
      | @snoc p2 u _ hw he =>
        have := (ih u).2 ⟨p2, rfl, hw⟩
        obtain ⟨h1, h2, h3⟩ := this
        refine ⟨?_, by simp, ?_⟩
        · rw [List.head?_append, h1]; rfl
        · rw [List.isChain_append]
          refine ⟨h3, by simp, ?_⟩
          intro y hy z hz
          rw [h2] at hy
          simp at hy hz
          subst hy; subst hz; exact he

theorem Wk.reach {E : A → A → Prop} {s : A} {p : List A} {v : A} (h : Wk E s p v) : Reach E s v := by
  induction h with
  | start => exact .refl
  | snoc _ he ih => exact ih.tail he

theorem Reach.wk {E : A → A → Prop} {s v : A} (h : Reach E s v) : ∃ p, Wk E s p v := by
  induction h with
  | refl => exact ⟨[], .start⟩
  | tail _ he ih => obtain ⟨p, hp⟩ := ih; exact ⟨_, hp.snoc he⟩

theorem expand_spec (isEnd : A → Bool) (path : List A) (cur : A) (bs : List A) (hs : bs.Pairwise (· < ·))
    (queue : List (A × List A)) (visited : List A) :
    (∃ b ∈ bs, isEnd b = true ∧ (∀ e ∈ bs, isEnd e = true → b ≤ e) ∧
      expand isEnd path cur bs (queue, visited) = .inl (path ++ [cur, b])) ∨
    ((∀ b ∈ bs, isEnd b = false) ∧
      expand isEnd path cur bs (queue, visited) =
        .inr (queue ++ (bs.filter fun b => decide (b ∉ visited)).map (fun b => (b, path ++ [cur])),
          visited ++ bs.filter fun b => decide (b ∉ visited))) := by
  induction bs generalizing queue visited with
  | nil => right; simp [expand]
  | cons b bs ih =>
    rw [List.pairwise_cons] at hs
    unfold expand
    by_cases hb : isEnd b = true
    · left
      refine ⟨b, by simp, hb, ?_, by simp [hb]⟩
      intro e he _
      rcases List.mem_cons.1 he with rfl | he
      · exact le_rfl
      · exact (hs.1 e he).le
    · have hbf : isEnd b = false := by simpa using hb
      rw [if_neg hb]
      simp only
      by_cases hv : b ∈ visited
      · rw [if_pos hv]
        rcases ih hs.2 queue visited with ⟨c, h1, h2, h3, h4⟩ | ⟨h1, h2⟩
        · left
          refine ⟨c, by simp [h1], h2, ?_, h4⟩
          intro e he hee
          rcases List.mem_cons.1 he with rfl | he
          · rw [hbf] at hee; cases hee
          · exact h3 e he hee
        · right
          refine ⟨?_, ?_⟩
          · intro e he
            rcases List.mem_cons.1 he with rfl | he
            · exact hbf
            · exact h1 e he
          · rw [h2, List.filter_cons_of_neg (by simp [hv])]
      · rw [if_neg hv]
        rcases ih hs.2 (queue ++ [(b, path ++ [cur])]) (visited ++ [b]) with ⟨c, h1, h2, h3, h4⟩ | ⟨h1, h2⟩
        · left
          refine ⟨c, by simp [h1], h2, ?_, h4⟩
          intro e he hee
          rcases List.mem_cons.1 he with rfl | he
          · rw [hbf] at hee; cases hee
          · exact h3 e he hee
        · right
          refine ⟨?_, ?_⟩
          · intro e he
            rcases List.mem_cons.1 he with rfl | he
            · exact hbf
            · exact h1 e he
          · have hf : (bs.filter fun c => decide (c ∉ visited ++ [b])) = bs.filter fun c => decide (c ∉ visited) := by
              apply List.filter_congr
              intro c hc
              have : c ≠ b := (hs.1 c hc).ne'
              simp [this]
            rw [h2, List.filter_cons_of_pos (by simp [hv]), hf]
            simp

theorem bfs_ok {g : Graph A} (h : WF g) (isEnd : A → Bool) (s : A) (hsn : s ∈ g.nodes.keys)
    (fuel : Nat) (queue : List (A × List A)) (visited kl : List A)
    (ha : ∀ e ∈ queue, Wk (Edge g) s e.2 e.1 ∧ e.1 ∈ visited ∧ (∀ q, Wk (Edge g) s q e.1 → ¬ SL q e.2) ∧
      ¬ SL kl e.2 ∧ SL kl (e.2 ++ [e.1]))
    (hb : queue.Pairwise fun e e' => SL (e.2 ++ [e.1]) (e'.2 ++ [e'.1]))
    (hc : ∀ q v, Wk (Edge g) s q v → q ≠ [] → ¬ SL kl q → v ∈ visited)
    (hd : s ∈ visited)
    (he : ∀ x ∈ visited, x ∉ queue.map Prod.fst → ∀ y, Edge g x y → y ∈ visited)
    (hf : ∀ x ∈ visited, isEnd x = false)
    (hnd : visited.Nodup) (hin : ∀ x ∈ visited, x ∈ g.nodes.keys)
    (hfuel : queue.length + g.nodes.keys.length < fuel + visited.length) :
    ∃ r, bfs g isEnd fuel queue visited = .ok r ∧
      ((r = [] ∧ ∀ q e, Wk (Edge g) s q e → isEnd e = false) ∨
       ∃ p e, r = p ++ [e] ∧ Wk (Edge g) s p e ∧ isEnd e = true ∧
         ∀ q e', Wk (Edge g) s q e' → isEnd e' = true → ¬ SL (q ++ [e']) r) := by
  induction fuel generalizing queue visited kl with
  | zero =>
    have := (List.subperm_of_subset hnd hin).length_le
    omega
  | succ fuel ih =>
    cases queue with
    | nil =>
      refine ⟨[], rfl, .inl ⟨rfl, ?_⟩⟩
      intro q e hw
      apply hf
      have := hw.reach
      clear hw
      induction this with
      | refl => exact hd
      | tail _ hbc ihr => exact he _ ihr (by simp) _ hbc
    | cons hd' queue =>
      obtain ⟨cur, path⟩ := hd'
      obtain ⟨a1, a2, a3, a4, a5⟩ := ha (cur, path) (by simp)
      simp only at a1 a2 a3 a4 a5
      have hset : setAdd visited cur = visited := by unfold setAdd; rw [if_pos a2]
      obtain ⟨nb, n1, n2, n3⟩ := following_ok h.toCore (hin cur a2)
      unfold bfs
      rw [n1]
      show ∃ r, (match expand isEnd path cur (nb.insertionSort (· ≤ ·)) (queue, setAdd visited cur) with
        | .inl p => (Except.ok p : Py (List A))
        | .inr st => bfs g isEnd fuel st.1 st.2) = .ok r ∧ _
      rw [hset]
      have hperm := List.perm_insertionSort (· ≤ ·) nb
      have hbm : ∀ b, b ∈ nb.insertionSort (· ≤ ·) ↔ Edge g cur b := by
        intro b; rw [hperm.mem_iff, n3]; rfl
      have hsort : (nb.insertionSort (· ≤ ·)).Pairwise (· < ·) := by
        have h1 : (nb.insertionSort (· ≤ ·)).Pairwise (· ≤ ·) := List.pairwise_insertionSort (· ≤ ·) nb
        have h2 : (nb.insertionSort (· ≤ ·)).Pairwise (· ≠ ·) := hperm.nodup_iff.2 n2
        exact (h1.and h2).imp fun hh => lt_of_le_of_ne hh.1 hh.2
      generalize hbs : nb.insertionSort (· ≤ ·) = bs at *
      -- a walk that extends a walk smaller than the current key ends in a visited node
      have hstrict : ∀ q v, Wk (Edge g) s q v → q ≠ [] → SL q (path ++ [cur]) → v ∈ visited := by
        intro q v hw hq hlt
        by_cases hkl : SL kl q
        · obtain ⟨q0, u, rfl⟩ : ∃ q0 u, q = q0 ++ [u] :=
            ⟨q.dropLast, q.getLast hq, (List.dropLast_append_getLast hq).symm⟩
          obtain ⟨hw0, huv⟩ := hw.inv
          have hq0 : ¬ SL path q0 := hlt.snoc_inv
          have hq0' : ¬ SL kl q0 := SL.le_trans hq0 a4
          have hu : u ∈ visited := by
            by_cases hn : q0 = []
            · subst hn; rw [hw0.nil_inv]; exact hd
            · exact hc q0 u hw0 hn hq0'
          by_cases huq : u ∈ ((cur, path) :: queue).map Prod.fst
          · exfalso
            obtain ⟨⟨u', pu⟩, hm, rfl⟩ := List.mem_map.1 huq
            obtain ⟨_, _, b3, _, _⟩ := ha _ hm
            have hle1 : ¬ SL (q0 ++ [u']) (pu ++ [u']) := by
              intro hc'
              rcases SL.total pu q0 with h1 | h1 | h1
              · exact (h1.snoc u' u').not_of hc'
              · subst h1; exact SL.irrefl _ hc'
              · exact b3 q0 hw0 h1
            have hlt2 : SL (pu ++ [u']) (path ++ [cur]) := SL.of_le hle1 hlt
            rcases List.mem_cons.1 hm with h1 | h1
            · cases h1; exact SL.irrefl _ hlt2
            · exact ((List.pairwise_cons.1 hb).1 _ h1).not_of hlt2
          · exact he u hu huq v huv
        · exact hc q v hw hq hkl
      have hkey : ∀ q v, Wk (Edge g) s q v → q ≠ [] → ¬ SL (path ++ [cur]) q → v ∈ visited ∨ Edge g cur v := by
        intro q v hw hq hle
        rcases SL.total q (path ++ [cur]) with hlt | heq | hgt
        · exact .inl (hstrict q v hw hq hlt)
        · subst heq; exact .inr hw.inv.2
        · exact absurd hgt hle
      rcases expand_spec isEnd path cur bs hsort queue visited with ⟨b, e1, e2, e3, e4⟩ | ⟨e1, e2⟩
      · rw [e4]
        refine ⟨_, rfl, .inr ⟨path ++ [cur], b, by simp, a1.snoc ((hbm b).1 e1), e2, ?_⟩⟩
        intro q e' hw hend hlt
        have hlt' : SL (q ++ [e']) ((path ++ [cur]) ++ [b]) := by simpa using hlt
        have hle := hlt'.snoc_inv
        by_cases hq : q = []
        · subst hq
          rw [hw.nil_inv, hf s hd] at hend
          cases hend
        · rcases SL.total q (path ++ [cur]) with h1 | h1 | h1
          · -- strictly smaller walk: its end is visited already
            have hv := hstrict q e' hw hq h1
            rw [hf e' hv] at hend
            cases hend
          · subst h1
            obtain ⟨_, hcur⟩ := hw.inv
            have := e3 e' ((hbm e').2 hcur) hend
            rcases lt_or_eq_of_le this with h2 | h2
            · exact (SL.last _ h2).not_of hlt'
            · subst h2; exact SL.irrefl _ hlt'
          · exact hle h1
      · rw [e2]
        set new := bs.filter fun b => decide (b ∉ visited) with hnew
        have hnm : ∀ b, b ∈ new ↔ Edge g cur b ∧ b ∉ visited := by
          intro b; rw [hnew, List.mem_filter, hbm]; simp
        have hvis : ∀ x, x ∈ visited ++ new ↔ x ∈ visited ∨ Edge g cur x := by
          intro x
          rw [List.mem_append, hnm]
          by_cases hx : x ∈ visited <;> simp [hx]
        refine ih (queue ++ new.map fun b => (b, path ++ [cur])) (visited ++ new) (path ++ [cur])
          ?_ ?_ ?_ ?_ ?_ ?_ ?_ ?_ ?_
        · intro e hem
          rcases List.mem_append.1 hem with hem | hem
          · obtain ⟨b1, b2, b3, b4, b5⟩ := ha e (by simp [hem])
            refine ⟨b1, by simp [b2], b3, ?_, (List.pairwise_cons.1 hb).1 e hem⟩
            exact SL.le_trans b4 a5.not_of
          · obtain ⟨b, hbm', rfl⟩ := List.mem_map.1 hem
            obtain ⟨h1, h2⟩ := (hnm b).1 hbm'
            refine ⟨a1.snoc h1, by simp [hbm'], ?_, SL.irrefl _, SL.append_self _ _⟩
            intro q hw hlt
            simp only at hlt hw
            apply h2
            by_cases hq : q = []
            · subst hq; rw [hw.nil_inv]; exact hd
            · exact hstrict q b hw hq hlt
        · rw [List.pairwise_append]
          refine ⟨(List.pairwise_cons.1 hb).2, ?_, ?_⟩
          · rw [List.pairwise_map]
            have : new.Pairwise (· < ·) := hsort.filter _
            exact this.imp fun hh => SL.last _ hh
          · intro e hem e' hem'
            obtain ⟨b, _, rfl⟩ := List.mem_map.1 hem'
            obtain ⟨_, _, _, b4, _⟩ := ha e (by simp [hem])
            exact (SL.of_le b4 a5).snoc _ _
        · intro q v hw hq hle
          rw [hvis]
          exact hkey q v hw hq hle
        · simp [hd]
        · intro x hx hxq y hxy
          rw [hvis] at hx ⊢
          by_cases hxc : x = cur
          · subst hxc; exact .inr hxy
          · left
            have hxn : x ∉ new := by
              intro hn
              apply hxq
              simp [hn]
            have hxv : x ∈ visited := by
              rcases hx with hx | hx
              · exact hx
              · by_contra hc'
                exact hxn ((hnm x).2 ⟨hx, hc'⟩)
            apply he x hxv _ y hxy
            simp only [List.map_cons, List.mem_cons, not_or]
            refine ⟨hxc, fun hm => hxq ?_⟩
            rw [List.map_append, List.mem_append]
            exact .inl hm
        · intro x hx
          rw [hvis] at hx
          rcases hx with hx | hx
          · exact hf x hx
          · exact e1 x ((hbm x).2 hx)
        · rw [List.nodup_append]
          refine ⟨hnd, (hsort.filter _).imp fun hh => hh.ne, ?_⟩
          rintro x hx y hy rfl
          exact ((hnm x).1 hy).2 hx
        · intro x hx
          rw [hvis] at hx
          rcases hx with hx | hx
          · exact hin x hx
          · exact (Edge.nodes h hx).2
        · simp only [List.length_append, List.length_map, List.length_cons] at hfuel ⊢
          omega

theorem bfs_start {g : Graph A} (h : WF g) (isEnd : A → Bool) (s : A) (hsn : s ∈ g.nodes.keys)
    (hse : isEnd s = false) :
    ∃ r, bfs g isEnd (g.nodes.length + 1) [(s, [])] [s] = .ok r ∧
      ((r = [] ∧ ∀ q e, Wk (Edge g) s q e → isEnd e = false) ∨
       ∃ p e, r = p ++ [e] ∧ Wk (Edge g) s p e ∧ isEnd e = true ∧
         ∀ q e', Wk (Edge g) s q e' → isEnd e' = true → ¬ SL (q ++ [e']) r) := by
  refine bfs_ok h isEnd s hsn _ _ _ [] ?_ ?_ ?_ ?_ ?_ ?_ ?_ ?_ ?_
  · intro e he
    rw [List.mem_singleton] at he
    subst he
    refine ⟨.start, by simp, ?_, SL.irrefl _, .inl (by simp)⟩
    rintro q _ (h | ⟨h, h'⟩)
    · simp at h
    · simp only [List.length_nil, List.length_eq_zero_iff] at h
      subst h; exact lt_irrefl _ h'
  · simp
  · intro q v _ hq hle
    exact absurd (.inl (by simpa [List.length_pos_iff] using hq)) hle
  · simp
  · intro x hx hxq
    simp at hx hxq
    exact absurd hx hxq
  · intro x hx
    rw [List.mem_singleton.1 hx]; exact hse
  · simp
  · intro x hx
    rw [List.mem_singleton.1 hx]; exact hsn
  · simp [Dict.keys]; omega

/-! ### forbidden edges -/

/-- what `takeOut` leaves behind -/
theorem takeOut_spec (ks : List (A × A)) {g : Graph A} (h : WF g) :
    ∃ g' os, takeOut g ks = .ok (g', os) ∧ WF g' ∧ g'.nodes.keys = g.nodes.keys ∧
      (∀ x y, cnt g' x y = if (x, y) ∈ ks then none else cnt g x y) ∧
      (ks.Nodup → (∀ k ∈ ks, Edge g k.1 k.2) →
        os = ks.map fun k => some ⟨k.1, k.2, (cnt g k.1 k.2).getD 0⟩) ∧
      (¬ (ks.Nodup ∧ ∀ k ∈ ks, Edge g k.1 k.2) → none ∈ os) := by
  induction ks generalizing g with
  | nil => exact ⟨g, [], rfl, h, rfl, by simp, by simp, by simp⟩
  | cons k ks ih =>
    obtain ⟨g1, o, r1, r2, r3, r4, r5⟩ := removeEdge_wf h k.1 k.2
    obtain ⟨g', os, i1, i2, i3, i4, i5, i6⟩ := ih r2
    refine ⟨g', o :: os, ?_, i2, i3.trans r4, ?_, ?_, ?_⟩
    · unfold takeOut
      rw [show removeEdge g k = _ from r1]
      show (takeOut g1 ks >>= _) = _
      rw [i1]
      rfl
    · intro x y
      rw [i4, r5]
      by_cases h1 : (x, y) ∈ ks
      · simp [h1]
      · by_cases h2 : (x, y) = k
        · have : x = k.1 ∧ y = k.2 := ⟨congrArg Prod.fst h2, congrArg Prod.snd h2⟩
          rw [if_neg h1, if_pos this, if_pos (by simp [h2])]
        · have : ¬ (x = k.1 ∧ y = k.2) := fun hh => h2 (Prod.ext hh.1 hh.2)
          rw [if_neg h1, if_neg this, if_neg (by simp [h1, h2])]
    · intro hnd hin
      rw [List.nodup_cons] at hnd
      obtain ⟨c, hc⟩ := Option.isSome_iff_exists.1 (hin k (by simp))
      have hne : ∀ k' ∈ ks, cnt g1 k'.1 k'.2 = cnt g k'.1 k'.2 := by
        intro k' hk'
        rw [r5, if_neg]
        intro hh
        exact hnd.1 (Prod.ext hh.1 hh.2 ▸ hk')
      rw [i5 hnd.2 fun k' hk' => by
        unfold Edge; rw [hne k' hk']; exact hin k' (by simp [hk'])]
      rw [r3, hc, List.map_cons, hc]
      simp only [Option.map_some, Option.getD_some, List.cons.injEq, true_and]
      apply List.map_congr_left
      intro k' hk'
      rw [hne k' hk']
    · intro hbad
      by_cases hk : Edge g k.1 k.2
      · apply List.mem_cons_of_mem
        apply i6
        rintro ⟨hnd, hin⟩
        apply hbad
        refine ⟨List.nodup_cons.2 ⟨?_, hnd⟩, ?_⟩
        · intro hmem
          have := hin k hmem
          unfold Edge at this
          rw [r5, if_pos ⟨rfl, rfl⟩] at this
          cases this
        · intro k' hk'
          rcases List.mem_cons.1 hk' with rfl | hk'
          · exact hk
          · have := hin k' hk'
            unfold Edge at this ⊢
            rw [r5] at this
            split at this
            · cases this
            · exact this
      · have : o = none := by
          rw [r3]
          unfold Edge at hk
          cases hc : cnt g k.1 k.2 with
          | none => rfl
          | some c => rw [hc] at hk; exact absurd rfl hk
        simp [this]

theorem putBack_ok (ks : List (A × A)) (hks : ks.Nodup) (f : A → A → Int) {g : Graph A} (h : WF g)
    (hout : ∀ k ∈ ks, cnt g k.1 k.2 = none) (hends : ∀ k ∈ ks, k.1 ∈ g.nodes.keys ∧ k.2 ∈ g.nodes.keys) :
    ∃ g', putBack g (ks.map fun k => some ⟨k.1, k.2, f k.1 k.2⟩) = (g', .ok ()) ∧ WF g' ∧
      (∀ x, x ∈ g'.nodes.keys ↔ x ∈ g.nodes.keys) ∧
      ∀ x y, cnt g' x y = if (x, y) ∈ ks then some (f x y) else cnt g x y := by
  induction ks generalizing g with
  | nil => exact ⟨g, rfl, h, by simp, by simp⟩
  | cons k ks ih =>
    rw [List.nodup_cons] at hks
    obtain ⟨a1, a2, a3⟩ := addCount_wf h k.1 k.2 (f k.1 k.2)
    obtain ⟨e1, e2⟩ := hends k (by simp)
    have hk : ∀ x, x ∈ (addCount g k.1 k.2 (f k.1 k.2)).nodes.keys ↔ x ∈ g.nodes.keys := by
      intro x
      rw [a2]
      constructor
      · rintro (h | rfl | rfl)
        · exact h
        · exact e1
        · exact e2
      · exact .inl
    obtain ⟨g', i1, i2, i3, i4⟩ := ih hks.2 a1
      (fun k' hk' => by
        rw [a3, if_neg]
        · exact hout k' (by simp [hk'])
        · intro hh; exact hks.1 (Prod.ext hh.1 hh.2 ▸ hk'))
      (fun k' hk' => by rw [hk, hk]; exact hends k' (by simp [hk']))
    refine ⟨g', i1, i2, fun x => by rw [i3, hk], ?_⟩
    intro x y
    rw [i4, a3, hout k (by simp)]
    by_cases h1 : (x, y) ∈ ks
    · rw [if_pos h1, if_pos (by simp [h1])]
    · by_cases h2 : x = k.1 ∧ y = k.2
      · rw [if_neg h1, if_pos h2, if_pos (by rw [h2.1, h2.2]; simp)]
        rw [h2.1, h2.2]; simp
      · rw [if_neg h1, if_neg h2, if_neg]
        intro hc
        rcases List.mem_cons.1 hc with hc | hc
        · exact h2 ⟨congrArg Prod.fst hc, congrArg Prod.snd hc⟩
        · exact h1 hc

theorem putBack_none (os : List (Option (EdgeObj A))) (g : Graph A) (h : none ∈ os) :
    ∃ g', putBack g os = (g', .error .undefined) := by
  induction os generalizing g with
  | nil => cases h
  | cons o os ih =>
    cases o with
    | none => exact ⟨g, rfl⟩
    | some o => exact ih _ (by simpa using h)

end Prolothar.Dfg
