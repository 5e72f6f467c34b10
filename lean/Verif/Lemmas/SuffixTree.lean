import Verif.Lemmas.Patterns
import Verif.Model.SuffixTree
/-
The suffix tree: path words of the nodes and the invariant of the construction.
-/
namespace Prolothar.SuffixTree
open Prolothar.BoyerMoore Prolothar.Patterns Prolothar.Spec

variable {α : Type} [DecidableEq α]

omit [DecidableEq α] in
theorem take_prefix_of_le {a b l : List α} (ha : a <+: l) (hb : b <+: l) (h : a.length ≤ b.length) : a <+: b :=
  List.prefix_of_prefix_length_le ha hb h

/-- tree-shaped path words -/
structure Trie (size : Nat) (kids : Nat → List Nat) (ws : Nat → List α) : Prop where
  root : ws 0 = []
  kid : ∀ i < size, ∀ c ∈ kids i, 0 < c ∧ c < size ∧ ws i <+: ws c ∧ (ws i).length < (ws c).length
  par : ∀ c, 0 < c → c < size → ∃ p < size, c ∈ kids p
  first : ∀ i < size, ∀ c ∈ kids i, ∀ c' ∈ kids i, (ws c)[(ws i).length]? = (ws c')[(ws i).length]? → c = c'

omit [DecidableEq α] in
theorem getElem?_of_prefix {a b : List α} (h : a <+: b) {i : Nat} (hi : i < a.length) : a[i]? = b[i]? := by
  obtain ⟨t, rfl⟩ := h
  rw [List.getElem?_append_left hi]

omit [DecidableEq α] in
theorem take_succ_prefix {p i l : List α} (hi : i.take (p.length + 1) <+: l) (hp : p <+: i) (hl : p.length < i.length) :
    p <+: l ∧ p.length + 1 ≤ l.length ∧ i[p.length]? = l[p.length]? := by
  have hlen : (i.take (p.length + 1)).length = p.length + 1 := by rw [List.length_take]; omega
  refine ⟨?_, ?_, ?_⟩
  · exact (take_prefix_of_le hp (List.take_prefix _ _) (by omega)).trans hi
  · have := hi.length_le; omega
  · rw [← getElem?_of_prefix hi (by omega), List.getElem?_take, if_pos (by omega)]

omit [DecidableEq α] in
theorem Trie.unique {size : Nat} {kids : Nat → List Nat} {ws : Nat → List α} (h : Trie size kids ws) :
    ∀ n, ∀ l < size, (ws l).length ≤ n →
      (∀ j < size, ws j = ws l → j = l) ∧
      (∀ p < size, ∀ i ∈ kids p, (ws i).take ((ws p).length + 1) <+: ws l → ws i <+: ws l) := by
  intro n
  induction n with
  | zero =>
    intro l hl hn
    have hl0 : ws l = [] := List.length_eq_zero_iff.1 (by omega)
    refine ⟨?_, ?_⟩
    · have hz : ∀ j < size, ws j = [] → j = 0 := by
        intro j hj he
        by_contra hne
        obtain ⟨p, hp, hc⟩ := h.par j (by omega) hj
        have := (h.kid p hp j hc).2.2.2
        rw [he] at this; simp at this
      intro j hj he
      rw [hz j hj (he.trans hl0), hz l hl hl0]
    · intro p hp i hi hpre
      obtain ⟨_, _, h3, h4⟩ := h.kid p hp i hi
      have := (take_succ_prefix hpre h3 h4).2.1
      rw [hl0] at this; simp at this
  | succ n ih =>
    intro l hl hn
    rcases Nat.eq_zero_or_pos l with rfl | hlpos
    · exact ih 0 hl (by rw [h.root]; simp)
    obtain ⟨q, hq, hlq⟩ := h.par l hlpos hl
    obtain ⟨_, _, hql, hqlt⟩ := h.kid q hq l hlq
    have hb : ∀ p < size, ∀ i ∈ kids p, (ws i).take ((ws p).length + 1) <+: ws l → ws i <+: ws l := by
      intro p hp i hi hpre
      obtain ⟨_, hisz, hpi, hplt⟩ := h.kid p hp i hi
      obtain ⟨hpl, hple, hsym⟩ := take_succ_prefix hpre hpi hplt
      by_cases hc : (ws p).length + 1 ≤ (ws q).length
      · have : (ws i).take ((ws p).length + 1) <+: ws q :=
          take_prefix_of_le hpre hql (by rw [List.length_take]; omega)
        exact ((ih q hq (by omega)).2 p hp i hi this).trans hql
      · rcases Nat.lt_or_ge (ws q).length (ws p).length with hlt | hge
        · exfalso
          have h1 : (ws l).take ((ws q).length + 1) <+: ws p :=
            take_prefix_of_le (List.take_prefix _ _) hpl (by rw [List.length_take]; omega)
          have h2 := (ih p hp (by omega)).2 q hq l hlq h1
          have := h2.length_le
          omega
        · have heq : (ws p).length = (ws q).length := by omega
          have hw : ws p = ws q := (take_prefix_of_le hpl hql (by omega)).eq_of_length heq
          have hpq : p = q := (ih q hq (by omega)).1 p hp hw
          subst hpq
          have := h.first p hp i hi l hlq hsym
          rw [this]
    refine ⟨?_, hb⟩
    intro j hj he
    rcases Nat.eq_zero_or_pos j with rfl | hjpos
    · rw [← he, h.root] at hqlt; simp at hqlt
    obtain ⟨p, hp, hjp⟩ := h.par j hjpos hj
    obtain ⟨_, _, hpj, hpjlt⟩ := h.kid p hp j hjp
    rw [he] at hpj hpjlt
    rcases Nat.lt_trichotomy (ws p).length (ws q).length with hlt | heq | hlt
    · exfalso
      have h1 : (ws j).take ((ws p).length + 1) <+: ws q := by
        rw [he]
        exact take_prefix_of_le (List.take_prefix _ _) hql (by rw [List.length_take]; omega)
      have h2 := (ih q hq (by omega)).2 p hp j hjp h1
      have := h2.length_le
      rw [he] at this; omega
    · have hw : ws p = ws q := (take_prefix_of_le hpj hql (by omega)).eq_of_length heq
      have hpq : p = q := (ih q hq (by omega)).1 p hp hw
      subst hpq
      exact h.first p hp j hjp l hlq (by rw [he])
    · exfalso
      have h1 : (ws l).take ((ws q).length + 1) <+: ws p :=
        take_prefix_of_le (List.take_prefix _ _) hpj (by rw [List.length_take]; omega)
      have h2 := (ih p hp (by omega)).2 q hq l hlq h1
      have := h2.length_le
      omega

omit [DecidableEq α] in
theorem Trie.inj {size : Nat} {kids : Nat → List Nat} {ws : Nat → List α} (h : Trie size kids ws) {i j : Nat}
    (hi : i < size) (hj : j < size) (he : ws i = ws j) : i = j := (h.unique _ j hj (Nat.le_refl _)).1 i hi he

omit [DecidableEq α] in
theorem Trie.follow {size : Nat} {kids : Nat → List Nat} {ws : Nat → List α} (h : Trie size kids ws) {p i l : Nat}
    (hp : p < size) (hi : i ∈ kids p) (hl : l < size) (hpre : (ws i).take ((ws p).length + 1) <+: ws l) : ws i <+: ws l :=
  (h.unique _ l hl (Nat.le_refl _)).2 p hp i hi hpre

omit [DecidableEq α] in
/-- a prefix of a path word is a path word, or it ends inside an edge -/
theorem Trie.locate {size : Nat} {kids : Nat → List Nat} {ws : Nat → List α} (h : Trie size kids ws) :
    ∀ n, ∀ l < size, (ws l).length ≤ n → ∀ x, x <+: ws l → (∃ i < size, ws i = x) ∨
      ∃ p < size, ∃ c ∈ kids p, (ws p).length < x.length ∧ x.length < (ws c).length ∧ ws c <+: ws l ∧ x <+: ws c := by
  intro n
  induction n with
  | zero =>
    intro l hl hn x hx
    refine .inl ⟨l, hl, ?_⟩
    have h1 : ws l = [] := List.length_eq_zero_iff.1 (by omega)
    rw [h1] at hx ⊢
    exact (List.prefix_nil.1 hx).symm
  | succ n ih =>
    intro l hl hn x hx
    rcases Nat.eq_zero_or_pos l with rfl | hlpos
    · exact ih 0 hl (by rw [h.root]; simp) x hx
    obtain ⟨q, hq, hlq⟩ := h.par l hlpos hl
    obtain ⟨_, _, hql, hqlt⟩ := h.kid q hq l hlq
    by_cases hc : x.length ≤ (ws q).length
    · rcases ih q hq (by omega) x (take_prefix_of_le hx hql hc) with hh | ⟨p, hp, c, hc, h1, h2, h3, h4⟩
      · exact .inl hh
      · exact .inr ⟨p, hp, c, hc, h1, h2, h3.trans hql, h4⟩
    · by_cases he : x.length = (ws l).length
      · exact .inl ⟨l, hl, (hx.eq_of_length he).symm⟩
      · have := hx.length_le
        exact .inr ⟨q, hq, l, hlq, by omega, by omega, List.prefix_refl _, hx⟩

/-- the invariant after the first `k` suffixes have been inserted, without the number of children -/
structure Core (word : List α) (k : Nat) (t : Tree) (ws : Nat → List α) : Prop where
  pos : 0 < t.size
  root : ws 0 = []
  kid : ∀ i < t.size, ∀ c ∈ t.kids i, 0 < c ∧ c < t.size ∧ t.parent c = some i ∧
    ∃ s e, t.edges (i, c) = some (s, e) ∧ s < e ∧ e ≤ word.length ∧ ws c = ws i ++ pySlice word s e
  nodup : ∀ i < t.size, (t.kids i).Nodup
  par : ∀ c, 0 < c → c < t.size → ∃ p < t.size, c ∈ t.kids p
  first : ∀ i < t.size, ∀ c ∈ t.kids i, ∀ c' ∈ t.kids i, (ws c)[(ws i).length]? = (ws c')[(ws i).length]? → c = c'
  pre : ∀ i, 0 < i → i < t.size → ∃ j < k, ws i <+: word.drop j
  leaf : ∀ i, 0 < i → i < t.size → t.kids i = [] → ∃ j < k, ws i = word.drop j
  suf : ∀ j < k, ∃ i, 0 < i ∧ i < t.size ∧ t.kids i = [] ∧ ws i = word.drop j

/-- the invariant after the first `k` suffixes have been inserted -/
structure Inv (word : List α) (k : Nat) (t : Tree) (ws : Nat → List α) : Prop extends Core word k t ws where
  inner : ∀ i, 0 < i → i < t.size → t.kids i ≠ [] → 2 ≤ (t.kids i).length

omit [DecidableEq α] in
theorem length_pySlice {l : List α} {a b : Nat} : (pySlice l a b).length = min b l.length - a := by
  unfold pySlice; rw [List.length_drop, List.length_take]

omit [DecidableEq α] in
theorem drop_eq_slice {l : List α} {a b : Nat} (h : a ≤ b) : l.drop a = pySlice l a b ++ l.drop b := by
  unfold pySlice
  obtain ⟨d, rfl⟩ : ∃ d, b = a + d := ⟨b - a, by omega⟩
  rw [List.drop_take, Nat.add_sub_cancel_left, ← List.drop_drop, List.take_append_drop]

omit [DecidableEq α] in
theorem slice_prefix {l : List α} {a b : Nat} : pySlice l a b <+: l.drop a := by
  unfold pySlice
  rw [List.drop_take]; exact List.take_prefix _ _

omit [DecidableEq α] in
theorem slice_split {l : List α} {a m b : Nat} (h : a ≤ m) (h' : m ≤ b) : pySlice l a b = pySlice l a m ++ pySlice l m b := by
  unfold pySlice
  rw [List.drop_take, List.drop_take, List.drop_take]
  obtain ⟨x, rfl⟩ : ∃ x, m = a + x := ⟨m - a, by omega⟩
  obtain ⟨y, rfl⟩ : ∃ y, b = a + x + y := ⟨b - (a + x), by omega⟩
  have e1 : a + x + y - a = x + y := by omega
  have e2 : a + x - a = x := by omega
  have e3 : a + x + y - (a + x) = y := by omega
  rw [e1, e2, e3, List.take_add, List.drop_drop]

omit [DecidableEq α] in
theorem getElem?_slice_zero {l : List α} {s e : Nat} (h : s < e) : (pySlice l s e)[0]? = l[s]? := by
  unfold pySlice
  rw [List.getElem?_drop, List.getElem?_take, if_pos (by omega), Nat.add_zero]

omit [DecidableEq α] in
theorem Core.trie {word : List α} {k : Nat} {t : Tree} {ws : Nat → List α} (h : Core word k t ws) : Trie t.size t.kids ws where
  root := h.root
  kid := by
    intro i hi c hc
    obtain ⟨h1, h2, _, s, e, _, h3, h4, h5⟩ := h.kid i hi c hc
    refine ⟨h1, h2, ⟨_, h5.symm⟩, ?_⟩
    rw [h5, List.length_append, length_pySlice]; omega
  par := h.par
  first := h.first

/-- the word ends with a symbol that occurs nowhere else -/
def Ends (word : List α) : Prop := ∃ body d, word = body ++ [d] ∧ d ∉ body

omit [DecidableEq α] in
theorem Ends.no_prefix {word : List α} (h : Ends word) {i j : Nat} (hij : j < i) (hi : i < word.length) :
    ¬ word.drop i <+: word.drop j := by
  obtain ⟨body, d, rfl, hd⟩ := h
  intro hp
  rw [List.length_append, List.length_singleton] at hi
  have h1 : ((body ++ [d]).drop i)[body.length - i]? = some d := by
    rw [List.getElem?_drop, List.getElem?_append_right (by omega)]
    have : i + (body.length - i) - body.length = 0 := by omega
    rw [this]; rfl
  have hlen : body.length - i < ((body ++ [d]).drop i).length := by
    rw [List.length_drop, List.length_append, List.length_singleton]; omega
  rw [getElem?_of_prefix hp hlen, List.getElem?_drop, List.getElem?_append_left (by omega)] at h1
  exact hd (List.mem_of_getElem? h1)

omit [DecidableEq α] in
theorem Core.start_lt {word : List α} (hw : Ends word) {k : Nat} {t : Tree} {ws : Nat → List α} (h : Core word k t ws)
    (hk : k < word.length) {p start : Nat} (hp : p < t.size) (he : ws p ++ word.drop start = word.drop k) :
    start < word.length := by
  by_contra hc
  rw [List.drop_eq_nil_of_le (by omega), List.append_nil] at he
  rcases Nat.eq_zero_or_pos p with rfl | hpos
  · rw [h.root] at he
    have := congrArg List.length he
    rw [List.length_drop] at this; simp at this; omega
  · obtain ⟨j, hj, hpre⟩ := h.pre p hpos hp
    rw [he] at hpre
    exact hw.no_prefix hj hk hpre

/-- the outcome of the search for the insertion position -/
def Found (word : List α) (k : Nat) (t : Tree) (ws : Nat → List α) (r : Nat × Nat × Bool) : Prop :=
  (r.2.2 = true ∧ ∃ p < t.size, r.1 ∈ t.kids p ∧ ws p ++ word.drop r.2.1 = word.drop k ∧ r.2.1 < word.length ∧
    ∃ s e, t.edges (p, r.1) = some (s, e) ∧ word[s]? = word[r.2.1]? ∧ ¬ pySlice word s e <+: word.drop r.2.1) ∨
  (r.2.2 = false ∧ r.1 < t.size ∧ ws r.1 ++ word.drop r.2.1 = word.drop k ∧ r.2.1 < word.length ∧
    ∀ c ∈ t.kids r.1, ∀ s e, t.edges (r.1, c) = some (s, e) → word[s]? ≠ word[r.2.1]?)

omit [DecidableEq α] in
theorem slice_eq_iff {word : List α} {start s e : Nat} (h1 : s < e) (h2 : e ≤ word.length) :
    pySlice word start (start + e - s) = pySlice word s e ↔ pySlice word s e <+: word.drop start := by
  constructor
  · intro h; rw [← h]; exact slice_prefix
  · intro h
    have hle := h.length_le
    rw [length_pySlice, List.length_drop] at hle
    refine (take_prefix_of_le slice_prefix h ?_).eq_of_length ?_ <;>
    · rw [length_pySlice, length_pySlice]; omega

theorem scan_spec {word : List α} {k : Nat} {t : Tree} {ws : Nat → List α} (h : Inv word k t ws) {p start : Nat}
    (hp : p < t.size) (hs : start < word.length) : ∀ cs, (∀ c ∈ cs, c ∈ t.kids p) →
    ∃ r, scan word t p start cs = .ok r ∧
      match r with
      | .descend start' c => c ∈ t.kids p ∧ ∃ s e, t.edges (p, c) = some (s, e) ∧ start' = start + (e - s) ∧
          pySlice word s e <+: word.drop start
      | .overlap c => c ∈ t.kids p ∧ ∃ s e, t.edges (p, c) = some (s, e) ∧ word[s]? = word[start]? ∧
          ¬ pySlice word s e <+: word.drop start
      | .done => ∀ c ∈ cs, ∀ s e, t.edges (p, c) = some (s, e) → word[s]? ≠ word[start]?
  | [], _ => ⟨.done, rfl, by simp⟩
  | c :: cs, hcs => by
    obtain ⟨r, hr, hspec⟩ := scan_spec h hp hs cs fun x hx => hcs x (by simp [hx])
    obtain ⟨_, _, _, s, e, hedge, hse, hen, hwc⟩ := h.kid p hp c (hcs c (by simp))
    have hE : t.edge p c = .ok (s, e) := by unfold Tree.edge; rw [hedge]
    by_cases hm : pySlice word start (start + e - s) = pySlice word s e
    · refine ⟨.descend (start + e - s) c, ?_, hcs c (by simp), s, e, hedge, by omega, (slice_eq_iff hse hen).1 hm⟩
      rw [scan, hE]
      show (if pySlice word start (start + e - s) = pySlice word s e then _ else _) = _
      rw [if_pos hm]
    · have hss : word[s]? = some word[s] := List.getElem?_eq_getElem (by omega)
      have hst : word[start]? = some word[start] := List.getElem?_eq_getElem hs
      have hg1 : pyGet word (s : Int) = .ok word[s] := pyGet_ofNat hss
      have hg2 : pyGet word (start : Int) = .ok word[start] := pyGet_ofNat hst
      have hstep : scan word t p start (c :: cs) = if word[s] = word[start] then .ok (.overlap c) else scan word t p start cs := by
        rw [scan, hE]
        show (if pySlice word start (start + e - s) = pySlice word s e then _ else _) = _
        rw [if_neg hm]
        show (pyGet word (s : Int) >>= _) = _
        rw [hg1]
        show (pyGet word (start : Int) >>= _) = _
        rw [hg2]
        rfl
      rw [hstep]
      by_cases hc : word[s] = word[start]
      · rw [if_pos hc]
        refine ⟨_, rfl, hcs c (by simp), s, e, hedge, by rw [hss, hst, hc], ?_⟩
        rw [← slice_eq_iff hse hen]; exact hm
      · rw [if_neg hc]
        refine ⟨r, hr, ?_⟩
        match r, hspec with
        | .descend _ _, hspec => exact hspec
        | .overlap _, hspec => exact hspec
        | .done, hspec =>
          intro x hx s' e' hx'
          rcases List.mem_cons.1 hx with rfl | hx
          · rw [hedge] at hx'
            obtain ⟨rfl, rfl⟩ := Prod.mk.injEq .. ▸ Option.some.inj hx'
            rw [hss, hst]; intro hh; exact hc (Option.some.inj hh)
          · exact hspec x hx s' e' hx'

theorem insertPosition_spec {word : List α} (hw : Ends word) {k : Nat} {t : Tree} {ws : Nat → List α} (h : Inv word k t ws)
    (hk : k < word.length) : ∀ fuel start p, p < t.size → ws p ++ word.drop start = word.drop k →
    word.length - start < fuel → ∃ r, insertPosition word t fuel start p = .ok r ∧ Found word k t ws r
  | 0, _, _, _, _, hf => by omega
  | fuel + 1, start, p, hp, he, hf => by
    have hs := h.start_lt hw hk hp he
    obtain ⟨r, hr, hspec⟩ := scan_spec h hp hs (t.kids p) fun _ h => h
    match r, hr, hspec with
    | .descend start' c, hr, ⟨hc, s, e, hedge, hst, hpre⟩ =>
      obtain ⟨_, hcsz, _, s', e', hedge', hse, hen, hwc⟩ := h.kid p hp c hc
      rw [hedge] at hedge'
      obtain ⟨rfl, rfl⟩ := Prod.mk.injEq .. ▸ Option.some.inj hedge'
      have hle := hpre.length_le
      rw [length_pySlice, List.length_drop] at hle
      have hsl : pySlice word start start' = pySlice word s e := by
        rw [hst]
        have := (slice_eq_iff (start := start) hse hen).2 hpre
        rw [← this]; congr 1; omega
      have he' : ws c ++ word.drop start' = word.drop k := by
        rw [hwc, List.append_assoc, ← hsl, ← drop_eq_slice (by omega), he]
      obtain ⟨r, hr', hF⟩ := insertPosition_spec hw h hk fuel start' c hcsz he' (by omega)
      refine ⟨r, ?_, hF⟩
      rw [insertPosition, hr]; exact hr'
    | .overlap c, hr, ⟨hc, s, e, hedge, hsym, hpre⟩ =>
      refine ⟨(c, start, true), by rw [insertPosition, hr]; rfl, .inl ⟨rfl, p, hp, hc, he, hs, s, e, hedge, hsym, hpre⟩⟩
    | .done, hr, hd =>
      exact ⟨(p, start, false), by rw [insertPosition, hr]; rfl, .inr ⟨rfl, hp, he, hs, hd⟩⟩

/-- the number `l` computed for `insert_len` -/
theorem insertLen_spec {word : List α} {es ps pe : Nat} (hpe : pe ≤ word.length)
    (hnot : ¬ pySlice word ps pe <+: word.drop es) : ∀ fuel l, l ≤ pe - ps + 1 →
      pySlice word es (es + (l - 1)) = pySlice word ps (ps + (l - 1)) → pe - ps + 1 - l < fuel →
      ∃ il, insertLen word es ps fuel l = .ok il ∧ l ≤ il ∧ il ≤ pe - ps ∧
        pySlice word es (es + il) ≠ pySlice word ps (ps + il) ∧
        pySlice word es (es + (il - 1)) = pySlice word ps (ps + (il - 1))
  | 0, _, _, _, hf => by omega
  | fuel + 1, l, hl, heq, hf => by
    rw [insertLen]
    by_cases hc : pySlice word es (es + l) = pySlice word ps (ps + l)
    · rw [if_pos hc]
      have hlt : l < pe - ps ∨ pe ≤ ps + l := by omega
      rcases hlt with hlt | hge
      · obtain ⟨il, h1, h2, h3, h4, h5⟩ := insertLen_spec hpe hnot fuel (l + 1) (by omega) hc (by omega)
        exact ⟨il, h1, by omega, h3, h4, h5⟩
      · exfalso
        apply hnot
        have : pySlice word ps pe <+: pySlice word ps (ps + l) := by
          by_cases hh : ps ≤ pe
          · rw [slice_split hh hge]; exact List.prefix_append _ _
          · have : pySlice word ps pe = [] := List.length_eq_zero_iff.1 (by rw [length_pySlice]; omega)
            rw [this]; exact List.nil_prefix
        rw [← hc] at this
        exact this.trans slice_prefix
    · rw [if_neg hc]
      refine ⟨l, rfl, Nat.le_refl _, ?_, hc, heq⟩
      by_contra hgt
      apply hc
      have : l = pe - ps + 1 := by omega
      exfalso
      apply hnot
      rw [this] at heq
      by_cases hh : ps ≤ pe
      · have e1 : ps + (pe - ps + 1 - 1) = pe := by omega
        rw [e1] at heq
        rw [← heq]; exact slice_prefix
      · have : pySlice word ps pe = [] := List.length_eq_zero_iff.1 (by rw [length_pySlice]; omega)
        rw [this]; exact List.nil_prefix


omit [DecidableEq α] in
theorem Inv.new (word : List α) : Inv word 0 Tree.new (fun _ => []) := by
  refine ⟨?_, ?_⟩
  · constructor <;> simp [Tree.new]
    all_goals intros; omega
  · simp [Tree.new]

omit [DecidableEq α] in
/-- adding a leaf below an existing node -/
theorem Core.addLeaf {word : List α} (hw : Ends word) {k : Nat} {t : Tree} {ws : Nat → List α} (h : Core word k t ws)
    (hk : k < word.length) {p start : Nat} (hp : p < t.size) (he : ws p ++ word.drop start = word.drop k)
    (hs : start < word.length) (hno : ∀ c ∈ t.kids p, ∀ s e, t.edges (p, c) = some (s, e) → word[s]? ≠ word[start]?) :
    Core word (k + 1) (t.addNode p start word.length []) (upd ws t.size (word.drop k)) := by
  have hkids : ∀ x, (t.addNode p start word.length []).kids x = if x = p then t.kids p ++ [t.size] else if x = t.size then [] else t.kids x := by
    intro x; simp only [Tree.addNode, upd]
  have hne : ∀ x, x < t.size → upd ws t.size (word.drop k) x = ws x := fun x hx => upd_ne _ _ (by omega)
  have hself : upd ws t.size (word.drop k) t.size = word.drop k := upd_self _ _ _
  have hslice : pySlice word start word.length = word.drop start := by
    unfold pySlice; rw [List.take_length]
  have hnonleaf : p = 0 ∨ t.kids p ≠ [] := by
    rcases Nat.eq_zero_or_pos p with hp0 | hpos
    · exact .inl hp0
    · refine .inr fun hl => ?_
      obtain ⟨j, hj, hjw⟩ := h.leaf p hpos hp hl
      have : word.drop j <+: word.drop k := ⟨_, by rw [← hjw]; exact he⟩
      -- the leaf word ends with the sentinel
      obtain ⟨body, d, hword, hd⟩ := hw
      have hbl : word.length = body.length + 1 := by rw [hword]; simp
      have := this.length_le
      rw [List.length_drop, List.length_drop] at this
      omega
  have hsym : ∀ c ∈ t.kids p, (ws c)[(ws p).length]? ≠ (word.drop k)[(ws p).length]? := by
    intro c hc
    obtain ⟨_, hcs, _, s, e, hedge, hse, hen, hwc⟩ := h.kid p hp c hc
    have := hno c hc s e hedge
    rw [hwc, ← he, List.getElem?_append_right (by omega), List.getElem?_append_right (by omega), Nat.sub_self,
      getElem?_slice_zero hse, List.getElem?_drop, Nat.add_zero]
    exact this
  constructor
  · show 0 < t.size + 1; omega
  · rw [hne 0 h.pos]; exact h.root
  · intro i hi c hc
    rw [hkids] at hc
    have hi' : i < t.size + 1 := hi
    by_cases hip : i = p
    · subst hip
      rw [if_pos rfl, List.mem_append, List.mem_singleton] at hc
      rcases hc with hc | rfl
      · obtain ⟨h1, h2, h3, s, e, h4, h5, h6, h7⟩ := h.kid i hp c hc
        refine ⟨h1, (by show c < t.size + 1; omega), ?_, s, e, ?_, h5, h6, ?_⟩
        · simp only [Tree.addNode]; rw [upd_ne _ _ (by omega)]; exact h3
        · simp only [Tree.addNode]; rw [upd_ne _ _ (by intro hh; have := congrArg Prod.snd hh; simp at this; omega)]; exact h4
        · rw [hne c h2, hne i hp]; exact h7
      · refine ⟨h.pos, (by show t.size < t.size + 1; omega), by simp [Tree.addNode], start, word.length, by simp [Tree.addNode], hs,
          Nat.le_refl _, ?_⟩
        rw [hself, hne i hp, hslice, he]
    · rw [if_neg hip] at hc
      by_cases his : i = t.size
      · rw [if_pos his] at hc; cases hc
      · rw [if_neg his] at hc
        have hi'' : i < t.size := by omega
        obtain ⟨h1, h2, h3, s, e, h4, h5, h6, h7⟩ := h.kid i hi'' c hc
        refine ⟨h1, (by show c < t.size + 1; omega), ?_, s, e, ?_, h5, h6, ?_⟩
        · simp only [Tree.addNode]; rw [upd_ne _ _ (by omega)]; exact h3
        · simp only [Tree.addNode]; rw [upd_ne _ _ (by intro hh; have := congrArg Prod.fst hh; simp at this; omega)]; exact h4
        · rw [hne c h2, hne i hi'']; exact h7
  · intro i hi
    have hi' : i < t.size + 1 := hi
    rw [hkids]
    split
    · refine List.nodup_append.2 ⟨h.nodup p hp, by simp, ?_⟩
      intro a ha b hb hab
      rw [List.mem_singleton] at hb
      have := (h.kid p hp a ha).2.1
      omega
    · split
      · exact List.nodup_nil
      · exact h.nodup i (by omega)
  · intro c hc hcs
    have hcs' : c < t.size + 1 := hcs
    by_cases hct : c = t.size
    · refine ⟨p, by show p < t.size + 1; omega, ?_⟩
      rw [hkids, if_pos rfl, hct]; simp
    · obtain ⟨q, hq, hcq⟩ := h.par c hc (by omega)
      refine ⟨q, by show q < t.size + 1; omega, ?_⟩
      rw [hkids]
      by_cases hqp : q = p
      · subst hqp; rw [if_pos rfl]; simp [hcq]
      · rw [if_neg hqp, if_neg (by omega)]; exact hcq
  · intro i hi c hc c' hc'
    have hi' : i < t.size + 1 := hi
    rw [hkids] at hc hc'
    by_cases hip : i = p
    · subst hip
      rw [if_pos rfl, List.mem_append, List.mem_singleton] at hc hc'
      rw [hne i hp]
      rcases hc with hc | rfl <;> rcases hc' with hc' | rfl
      · rw [hne c (h.kid i hp c hc).2.1, hne c' (h.kid i hp c' hc').2.1]
        exact h.first i hp c hc c' hc'
      · rw [hne c (h.kid i hp c hc).2.1, hself]
        intro hh; exact absurd hh (hsym c hc)
      · rw [hne c' (h.kid i hp c' hc').2.1, hself]
        intro hh; exact absurd hh.symm (hsym c' hc')
      · intro _; rfl
    · rw [if_neg hip] at hc hc'
      by_cases his : i = t.size
      · rw [if_pos his] at hc; cases hc
      · rw [if_neg his] at hc hc'
        have hi'' : i < t.size := by omega
        rw [hne i hi'', hne c (h.kid i hi'' c hc).2.1, hne c' (h.kid i hi'' c' hc').2.1]
        exact h.first i hi'' c hc c' hc'
  · intro i hi his
    have his' : i < t.size + 1 := his
    by_cases hit : i = t.size
    · exact ⟨k, by omega, by rw [hit, hself]⟩
    · obtain ⟨j, hj, hpre⟩ := h.pre i hi (by omega)
      exact ⟨j, by omega, by rw [hne i (by omega)]; exact hpre⟩
  · intro i hi his hl
    have his' : i < t.size + 1 := his
    by_cases hit : i = t.size
    · exact ⟨k, by omega, by rw [hit, hself]⟩
    · rw [hkids] at hl
      by_cases hip : i = p
      · rw [if_pos hip] at hl; simp at hl
      · rw [if_neg hip, if_neg hit] at hl
        obtain ⟨j, hj, hpre⟩ := h.leaf i hi (by omega) hl
        exact ⟨j, by omega, by rw [hne i (by omega)]; exact hpre⟩
  · intro j hj
    by_cases hjk : j = k
    · refine ⟨t.size, h.pos, by show t.size < t.size + 1; omega, ?_, by rw [hself, hjk]⟩
      rw [hkids, if_neg (by omega), if_pos rfl]
    · obtain ⟨i, h1, h2, h3, h4⟩ := h.suf j (by omega)
      refine ⟨i, h1, by show i < t.size + 1; omega, ?_, by rw [hne i h2]; exact h4⟩
      rw [hkids, if_neg, if_neg (by omega)]
      · exact h3
      · rintro rfl
        rcases hnonleaf with hh | hh
        · omega
        · exact hh h3

omit [DecidableEq α] in
/-- the number of children after adding a leaf -/
theorem inner_addLeaf {word : List α} {t : Tree} {p start : Nat}
    (hin : ∀ i, 0 < i → i < t.size → i ≠ p → t.kids i ≠ [] → 2 ≤ (t.kids i).length)
    (hnp : p = 0 ∨ t.kids p ≠ []) :
    ∀ i, 0 < i → i < (t.addNode p start word.length []).size → (t.addNode p start word.length []).kids i ≠ [] →
      2 ≤ ((t.addNode p start word.length []).kids i).length := by
  have hkids : ∀ x, (t.addNode p start word.length []).kids x = if x = p then t.kids p ++ [t.size] else if x = t.size then [] else t.kids x := by
    intro x; simp only [Tree.addNode, upd]
  intro i hi his hl
  have his' : i < t.size + 1 := his
  rw [hkids] at hl ⊢
  by_cases hip : i = p
  · rw [if_pos hip, List.length_append]
    rcases hnp with hh | hh
    · omega
    · have := List.length_pos_iff.2 hh
      simp; omega
  · rw [if_neg hip] at hl ⊢
    by_cases hit : i = t.size
    · rw [if_pos hit] at hl; exact absurd rfl hl
    · rw [if_neg hit] at hl ⊢
      exact hin i hi (by omega) hip hl

omit [DecidableEq α] in
theorem Core.nonleaf {word : List α} {k : Nat} {t : Tree} {ws : Nat → List α} (h : Core word k t ws)
    (hk : k < word.length) {p start : Nat} (hp : p < t.size) (he : ws p ++ word.drop start = word.drop k) :
    p = 0 ∨ t.kids p ≠ [] := by
  rcases Nat.eq_zero_or_pos p with hp0 | hpos
  · exact .inl hp0
  · refine .inr fun hl => ?_
    obtain ⟨j, hj, hjw⟩ := h.leaf p hpos hp hl
    have : word.drop j <+: word.drop k := ⟨_, by rw [← hjw]; exact he⟩
    have := this.length_le
    rw [List.length_drop, List.length_drop] at this
    omega

/-- the tree after a node has been inserted into the edge from `gp` to `pn` -/
def mid (t : Tree) (gp pn ps pe il : Nat) : Tree :=
  let t1 := t.addNode gp ps (ps + il - 1) [pn]
  { t1 with
    edges := upd (upd t1.edges (gp, pn) none) (t.size, pn) (some (ps + il - 1, pe))
    kids := upd t1.kids gp ((t1.kids gp).erase pn)
    parent := upd t1.parent pn (some t.size) }

theorem split_mid (n : Nat) (t : Tree) (gp pn es ps pe il : Nat) :
    split n t gp pn es ps pe il = (mid t gp pn ps pe il).addNode t.size (es + il - 1) n [] := rfl

theorem mid_kids {t : Tree} {gp pn ps pe il : Nat} (hgp : gp < t.size) (x : Nat) (hpn : pn ∈ t.kids gp) :
    (mid t gp pn ps pe il).kids x =
      if x = t.size then [pn] else if x = gp then (t.kids gp).erase pn ++ [t.size] else t.kids x := by
  simp only [mid, Tree.addNode, upd]
  by_cases hb : x = t.size
  · subst hb
    have h2 : t.size ≠ gp := by omega
    simp [h2]
  · by_cases hc : x = gp
    · subst hc
      simp [hb, List.erase_append_left _ hpn]
    · simp [hb, hc]

theorem mid_edges {t : Tree} {gp pn ps pe il : Nat} (x : Nat × Nat) :
    (mid t gp pn ps pe il).edges x =
      if x = (t.size, pn) then some (ps + il - 1, pe)
      else if x = (gp, pn) then none else if x = (gp, t.size) then some (ps, ps + il - 1) else t.edges x := by
  simp only [mid, Tree.addNode, upd]

theorem mid_parent {t : Tree} {gp pn ps pe il : Nat} (x : Nat) :
    (mid t gp pn ps pe il).parent x =
      if x = pn then some t.size else if x = t.size then some gp else t.parent x := by
  simp only [mid, Tree.addNode, upd]

omit [DecidableEq α] in
/-- inserting a node into an edge -/
theorem Core.insertMid {word : List α} {k : Nat} {t : Tree} {ws : Nat → List α} (h : Core word k t ws)
    {gp pn ps pe m : Nat} (hgp : gp < t.size) (hpn : pn ∈ t.kids gp) (hedge : t.edges (gp, pn) = some (ps, pe))
    (hm : 0 < m) (hm' : ps + m < pe) :
    Core word k (mid t gp pn ps pe (m + 1)) (upd ws t.size (ws gp ++ pySlice word ps (ps + m))) := by
  obtain ⟨hpn0, hpns, hppn, s', e', hedge', hse, hen, hwpn⟩ := h.kid gp hgp pn hpn
  rw [hedge] at hedge'
  obtain ⟨rfl, rfl⟩ := Prod.mk.injEq .. ▸ Option.some.inj hedge'
  have hgpn : gp ≠ pn := by
    rintro rfl
    have := congrArg List.length hwpn
    rw [List.length_append, length_pySlice] at this; omega
  set A := ws gp ++ pySlice word ps (ps + m) with hA
  have hne : ∀ x, x < t.size → upd ws t.size A x = ws x := fun x hx => upd_ne _ _ (by omega)
  have hself : upd ws t.size A t.size = A := upd_self _ _ _
  have hil : ps + (m + 1) - 1 = ps + m := by omega
  have hpnA : ws pn = A ++ pySlice word (ps + m) pe := by
    rw [hwpn, hA, List.append_assoc, ← slice_split (by omega) (by omega)]
  have hlenA : (ws gp).length < A.length := by
    rw [hA, List.length_append, length_pySlice]; omega
  have hsymA : A[(ws gp).length]? = (ws pn)[(ws gp).length]? := by
    rw [hpnA, List.getElem?_append_left hlenA]
  have hkids := fun x => mid_kids (ps := ps) (pe := pe) (il := m + 1) hgp x hpn
  have hkidold : ∀ i < t.size, ∀ c ∈ t.kids i, c ≠ pn ∨ i ≠ gp → 0 < c ∧ c < t.size + 1 ∧ (mid t gp pn ps pe (m + 1)).parent c = some i ∧
      ∃ s e, (mid t gp pn ps pe (m + 1)).edges (i, c) = some (s, e) ∧ s < e ∧ e ≤ word.length ∧
        upd ws t.size A c = upd ws t.size A i ++ pySlice word s e := by
    intro i hi c hc hor
    obtain ⟨h1, h2, h3, s, e, h4, h5, h6, h7⟩ := h.kid i hi c hc
    have hcpn : c ≠ pn := by
      rcases hor with hh | hh
      · exact hh
      · rintro rfl
        rw [hppn] at h3
        exact hh (Option.some.inj h3).symm
    refine ⟨h1, by omega, ?_, s, e, ?_, h5, h6, by rw [hne i hi, hne c h2]; exact h7⟩
    · rw [mid_parent, if_neg hcpn, if_neg (by omega)]; exact h3
    · rw [mid_edges, if_neg, if_neg, if_neg]
      · exact h4
      · intro hh; have := congrArg Prod.snd hh; simp at this; omega
      · intro hh; have := congrArg Prod.snd hh; simp at this; exact hcpn this
      · intro hh; have := congrArg Prod.fst hh; simp at this; omega
  constructor
  · show 0 < t.size + 1; omega
  · rw [hne 0 h.pos]; exact h.root
  · intro i hi c hc
    have hi' : i < t.size + 1 := hi
    show 0 < c ∧ c < t.size + 1 ∧ _
    rw [hkids] at hc
    by_cases his : i = t.size
    · rw [if_pos his, List.mem_singleton] at hc
      subst hc his
      refine ⟨hpn0, by omega, by rw [mid_parent, if_pos rfl], ps + m, pe, by rw [mid_edges, if_pos rfl, hil], by omega, hen, ?_⟩
      rw [hne c hpns, hself]; exact hpnA
    · rw [if_neg his] at hc
      by_cases hig : i = gp
      · subst hig
        rw [if_pos rfl, List.mem_append, List.mem_singleton] at hc
        rcases hc with hc | rfl
        · have := (h.nodup i hgp).mem_erase_iff.1 hc
          exact hkidold i hgp c this.2 (.inl this.1)
        · refine ⟨h.pos, by omega, by rw [mid_parent, if_neg (by omega), if_pos rfl], ps, ps + m, ?_, by omega, by omega, ?_⟩
          · rw [mid_edges, if_neg, if_neg, if_pos rfl, hil]
            · intro hh; have := congrArg Prod.snd hh; simp at this; omega
            · intro hh; have := congrArg Prod.fst hh; simp at this; omega
          · rw [hself, hne i hgp]
      · rw [if_neg hig] at hc
        exact hkidold i (by omega) c hc (.inr hig)
  · intro i hi
    have hi' : i < t.size + 1 := hi
    rw [hkids]
    by_cases his : i = t.size
    · rw [if_pos his]; simp
    · rw [if_neg his]
      by_cases hig : i = gp
      · rw [if_pos hig]
        refine List.nodup_append.2 ⟨(h.nodup gp hgp).erase _, by simp, ?_⟩
        intro a ha b hb hab
        rw [List.mem_singleton] at hb
        have := (h.kid gp hgp a (List.mem_of_mem_erase ha)).2.1
        omega
      · rw [if_neg hig]; exact h.nodup i (by omega)
  · intro c hc hcs
    have hcs' : c < t.size + 1 := hcs
    by_cases hct : c = t.size
    · refine ⟨gp, by show gp < t.size + 1; omega, ?_⟩
      rw [hkids, if_neg (by omega), if_pos rfl, hct]; simp
    · by_cases hcp : c = pn
      · refine ⟨t.size, by show t.size < t.size + 1; omega, ?_⟩
        rw [hkids, if_pos rfl, hcp]; simp
      · obtain ⟨q, hq, hcq⟩ := h.par c hc (by omega)
        refine ⟨q, by show q < t.size + 1; omega, ?_⟩
        rw [hkids, if_neg (by omega)]
        by_cases hqp : q = gp
        · subst hqp
          rw [if_pos rfl, List.mem_append]
          exact .inl ((h.nodup q hq).mem_erase_iff.2 ⟨hcp, hcq⟩)
        · rw [if_neg hqp]; exact hcq
  · intro i hi c hc c' hc'
    have hi' : i < t.size + 1 := hi
    rw [hkids] at hc hc'
    by_cases his : i = t.size
    · rw [if_pos his, List.mem_singleton] at hc hc'
      intro _; rw [hc, hc']
    · rw [if_neg his] at hc hc'
      by_cases hig : i = gp
      · subst hig
        rw [if_pos rfl, List.mem_append, List.mem_singleton] at hc hc'
        rw [hne i hgp]
        rcases hc with hc | rfl <;> rcases hc' with hc' | rfl
        · have h1 := List.mem_of_mem_erase hc
          have h2 := List.mem_of_mem_erase hc'
          rw [hne c (h.kid i hgp c h1).2.1, hne c' (h.kid i hgp c' h2).2.1]
          exact h.first i hgp c h1 c' h2
        · have h1 := (h.nodup i hgp).mem_erase_iff.1 hc
          rw [hne c (h.kid i hgp c h1.2).2.1, hself, hsymA]
          intro hh
          exact absurd (h.first i hgp c h1.2 pn hpn hh) h1.1
        · have h1 := (h.nodup i hgp).mem_erase_iff.1 hc'
          rw [hne c' (h.kid i hgp c' h1.2).2.1, hself, hsymA]
          intro hh
          exact absurd (h.first i hgp c' h1.2 pn hpn hh.symm) h1.1
        · intro _; rfl
      · rw [if_neg hig] at hc hc'
        have hi'' : i < t.size := by omega
        rw [hne i hi'', hne c (h.kid i hi'' c hc).2.1, hne c' (h.kid i hi'' c' hc').2.1]
        exact h.first i hi'' c hc c' hc'
  · intro i hi his
    have his' : i < t.size + 1 := his
    by_cases hit : i = t.size
    · obtain ⟨j, hj, hpre⟩ := h.pre pn hpn0 hpns
      refine ⟨j, hj, ?_⟩
      rw [hit, hself]
      rw [hpnA] at hpre
      exact (List.prefix_append _ _).trans hpre
    · obtain ⟨j, hj, hpre⟩ := h.pre i hi (by omega)
      exact ⟨j, by omega, by rw [hne i (by omega)]; exact hpre⟩
  · intro i hi his hl
    have his' : i < t.size + 1 := his
    rw [hkids] at hl
    by_cases hit : i = t.size
    · rw [if_pos hit] at hl; simp at hl
    · rw [if_neg hit] at hl
      by_cases hip : i = gp
      · rw [if_pos hip] at hl; simp at hl
      · rw [if_neg hip] at hl
        obtain ⟨j, hj, hpre⟩ := h.leaf i hi (by omega) hl
        exact ⟨j, by omega, by rw [hne i (by omega)]; exact hpre⟩
  · intro j hj
    obtain ⟨i, h1, h2, h3, h4⟩ := h.suf j hj
    refine ⟨i, h1, by show i < t.size + 1; omega, ?_, by rw [hne i h2]; exact h4⟩
    rw [hkids, if_neg (by omega), if_neg]
    · exact h3
    · rintro rfl
      rw [h3] at hpn; cases hpn

theorem addSuffix_spec {word : List α} (hw : Ends word) {k : Nat} {t : Tree} {ws : Nat → List α} (h : Inv word k t ws)
    (hk : k < word.length) : ∃ t' ws', addSuffix word t k = .ok t' ∧ Inv word (k + 1) t' ws' := by
  obtain ⟨r, hr, hF⟩ := insertPosition_spec hw h hk (word.length + 1) k 0 h.pos (by rw [h.root]; rfl) (by omega)
  have hstep : addSuffix word t k = if r.2.2 then (do
      let gp ← t.parentOf r.1
      let e ← t.edge gp r.1
      let il ← insertLen word r.2.1 e.1 (word.length + 2) 0
      return split word.length t gp r.1 r.2.1 e.1 e.2 il)
      else return t.addNode r.1 r.2.1 word.length [] := by
    unfold addSuffix; rw [hr]; rfl
  rw [hstep]
  rcases hF with ⟨hb, gp, hgp, hpn, he, hs, ps, pe, hedge, hsym, hnot⟩ | ⟨hb, hp, he, hs, hno⟩
  · rw [if_pos hb]
    obtain ⟨hpn0, hpns, hppn, s', e', hedge', hse, hen, hwpn⟩ := h.kid gp hgp r.1 hpn
    rw [hedge] at hedge'
    obtain ⟨rfl, rfl⟩ := Prod.mk.injEq .. ▸ Option.some.inj hedge'
    have hpo : t.parentOf r.1 = .ok gp := by unfold Tree.parentOf; rw [hppn]
    have hE : t.edge gp r.1 = .ok (ps, pe) := by unfold Tree.edge; rw [hedge]
    obtain ⟨il, hil, _, hle, hdiff, hsame⟩ := insertLen_spec hen hnot (word.length + 2) 0 (by omega) (by simp [pySlice]) (by omega)
    have hz : ∀ a, pySlice word a (a + 0) = [] := fun a => List.length_eq_zero_iff.1 (by rw [length_pySlice]; omega)
    have hone : ∀ a, a < word.length → pySlice word a (a + 1) = [word[a]?].filterMap id := by
      intro a ha
      unfold pySlice
      rw [List.drop_take, Nat.add_sub_cancel_left, List.getElem?_eq_getElem ha]
      rw [List.drop_eq_getElem_cons ha]; rfl
    have hil2 : 2 ≤ il := by
      rcases il with _ | _ | il
      · exact absurd (by rw [hz, hz]) hdiff
      · exfalso; apply hdiff
        rw [hone _ hs, hone _ (by omega), hsym]
      · omega
    obtain ⟨m, rfl⟩ : ∃ m, il = m + 1 := ⟨il - 1, by omega⟩
    rw [Nat.add_sub_cancel] at hsame
    have hlen := congrArg List.length hsame
    rw [length_pySlice, length_pySlice] at hlen
    have hmid := h.toCore.insertMid hgp hpn hedge (m := m) (by omega) (by omega)
    have hA : ws gp ++ pySlice word ps (ps + m) ++ word.drop (r.2.1 + m) = word.drop k := by
      rw [← hsame, List.append_assoc, ← drop_eq_slice (by omega), he]
    have hstart : r.2.1 + m < word.length := by
      refine hmid.start_lt hw hk (p := t.size) (by show t.size < t.size + 1; omega) ?_
      rw [upd_self]; exact hA
    have hneq : word[ps + m]? ≠ word[r.2.1 + m]? := by
      intro hh
      apply hdiff
      rw [slice_split (a := r.2.1) (m := r.2.1 + m) (by omega) (by omega),
        slice_split (a := ps) (m := ps + m) (by omega) (by omega), hsame,
        ← Nat.add_assoc, ← Nat.add_assoc, hone _ hstart, hone _ (by omega), hh]
    have hfin := hmid.addLeaf hw hk (p := t.size) (start := r.2.1 + m) (by show t.size < t.size + 1; omega)
      (by rw [upd_self]; exact hA) hstart (by
        intro c hc s e hce
        rw [mid_kids hgp _ hpn, if_pos rfl, List.mem_singleton] at hc
        subst hc
        rw [mid_edges, if_pos rfl] at hce
        obtain ⟨rfl, rfl⟩ := Prod.mk.injEq .. ▸ Option.some.inj hce
        exact hneq)
    refine ⟨_, _, ?_, ⟨hfin, ?_⟩⟩
    · rw [hpo]
      show (t.edge gp r.1 >>= _) = _
      rw [hE]
      show (insertLen word r.2.1 ps (word.length + 2) 0 >>= _) = _
      rw [hil]
      show Except.ok (split word.length t gp r.1 r.2.1 ps pe (m + 1)) = _
      rw [split_mid]; rfl
    · refine inner_addLeaf ?_ (.inr (by rw [mid_kids hgp _ hpn, if_pos rfl]; simp))
      intro i hi his hit hl
      have his' : i < t.size + 1 := his
      rw [mid_kids hgp _ hpn, if_neg hit] at hl ⊢
      by_cases hig : i = gp
      · subst hig
        rw [if_pos rfl, List.length_append, List.length_erase_of_mem hpn]
        have := h.inner i hi hgp (List.ne_nil_of_mem hpn)
        simp; omega
      · rw [if_neg hig] at hl ⊢
        exact h.inner i hi (by omega) hl
  · rw [if_neg (by simp [hb])]
    exact ⟨_, _, rfl, h.toCore.addLeaf hw hk hp he hs hno,
      inner_addLeaf (fun i h1 h2 _ => h.inner i h1 h2) (h.toCore.nonleaf hk hp he)⟩

theorem build_spec {word : List α} (hw : Ends word) : ∃ t ws, build word = .ok t ∧ Inv word word.length t ws := by
  have : ∀ k, k ≤ word.length → ∃ t ws, (List.range k).foldlM (addSuffix word) Tree.new = .ok t ∧ Inv word k t ws := by
    intro k
    induction k with
    | zero => exact fun _ => ⟨_, _, rfl, Inv.new word⟩
    | succ k ih =>
      intro hk
      obtain ⟨t, ws, h1, h2⟩ := ih (by omega)
      obtain ⟨t', ws', h3, h4⟩ := addSuffix_spec hw h2 (by omega)
      refine ⟨t', ws', ?_, h4⟩
      rw [List.range_succ, List.foldlM_append, h1]
      show (do let x ← addSuffix word t k; [].foldlM _ x) = _
      rw [h3]; rfl
  exact this _ (Nat.le_refl _)

end Prolothar.SuffixTree
