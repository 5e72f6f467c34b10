import Verif.Props.DfgQueries
import Mathlib.Tactic.Linarith
import Mathlib.Algebra.Order.BigOperators.Group.List
/-
C171: repeating, combining and swapping the reductions of directly-follows graphs.
-/
set_option linter.unusedSectionVars false
set_option linter.unusedDecidableInType false
namespace Prolothar.Dfg
open Prolothar.Spec.Dfg

section
variable {A : Type} [LinearOrder A]

/-! ### Specification -/

/-- both calls succeed and their results are equal (`==`) -/
def SameGraph (r s : Py (Graph A)) : Prop := ∃ f f', r = .ok f ∧ s = .ok f' ∧ graphEq f f' = true

/-- all counts are positive, as in graphs that are read from logs -/
def Positive (g : Graph A) : Prop := ∀ x y c, (view g).count x y = some c → 0 < c

/-! ### Auxiliary -/

/-- `f` is the part of `g` on the nodes in `keep` -/
structure Part (g f : Graph A) (keep : A → Prop) : Prop where
  node : ∀ x, (view f).node x ↔ (view g).node x ∧ keep x
  count : ∀ x y c, (view f).count x y = some c ↔ (view g).count x y = some c ∧ keep x ∧ keep y

theorem edge_nodes {g : Graph A} (hb : Built g) {x y : A} {c : Int} (h : (view g).count x y = some c) :
    (view g).node x ∧ (view g).node y := by
  rw [view_node, view_node]
  exact Edge.nodes hb.wf ((view_edge g x y).1 ⟨c, h⟩)

theorem Part.edge {g f : Graph A} {keep : A → Prop} (p : Part g f keep) (x y : A) :
    (view f).Edge x y ↔ (view g).Edge x y ∧ keep x ∧ keep y := by
  unfold Digraph.Edge
  constructor
  · rintro ⟨c, hc⟩
    have := (p.count x y c).1 hc
    exact ⟨⟨c, this.1⟩, this.2⟩
  · rintro ⟨⟨c, hc⟩, hk⟩
    exact ⟨c, (p.count x y c).2 ⟨hc, hk⟩⟩

theorem Part.trans {g f e : Graph A} {k k' : A → Prop} (p : Part g f k) (q : Part f e k') : Part g e fun x => k x ∧ k' x where
  node x := by rw [q.node, p.node, and_assoc]
  count x y c := by rw [q.count, p.count]; tauto

theorem Part.eq {g f f' : Graph A} {k k' : A → Prop} (hb : Built g) (hf : Built f) (hf' : Built f') (p : Part g f k) (q : Part g f' k')
    (h : ∀ x, (view g).node x → (k x ↔ k' x)) : graphEq f f' = true := by
  refine (C123_equality hf hf').2 ⟨fun x => ?_, fun x y => ?_⟩
  · rw [p.node, q.node]
    exact and_congr_right (h x)
  · ext c
    rw [p.count, q.count]
    refine and_congr_right fun hc => ?_
    obtain ⟨h1, h2⟩ := edge_nodes hb hc
    rw [h x h1, h y h2]

theorem select_part {g : Graph A} (hb : Built g) (keep : A → Bool) :
    ∃ f, selectNodes g keep = .ok f ∧ Built f ∧ Part g f fun x => keep x = true := by
  obtain ⟨f, h1, h2, h3⟩ := (C43_copy_select_join hb).2.1 keep
  refine ⟨f, h1, .selectNodes hb keep h1, h2, fun x y c => ?_⟩
  rw [h3]
  split
  · next h => simp [h]
  · next h => simp only [reduceCtorEq, false_iff]; exact fun hh => h hh.2

theorem part_of {g r : Graph A} (hb : Built g) (hr : Built r) {keep : A → Prop} (h1 : ∀ x, (view r).node x ↔ (view g).node x ∧ keep x)
    (h2 : ∀ x y, (view r).node x → (view r).node y → (view r).count x y = (view g).count x y) : Part g r keep where
  node := h1
  count x y c := by
    constructor
    · intro h
      obtain ⟨n1, n2⟩ := edge_nodes hr h
      rw [h2 x y n1 n2] at h
      exact ⟨h, ((h1 x).1 n1).2, ((h1 y).1 n2).2⟩
    · rintro ⟨h, k1, k2⟩
      obtain ⟨n1, n2⟩ := edge_nodes hb h
      rw [h2 x y ((h1 x).2 ⟨n1, k1⟩) ((h1 y).2 ⟨n2, k2⟩)]
      exact h

theorem start_part {g : Graph A} (hb : Built g) (allowed : A → Bool) :
    ∃ r, removeNotAllowedStart g allowed = .ok r ∧ Built r ∧ Part g r (fun x => ¬ MustGo (view g).Edge (fun x => allowed x = true) x) ∧
      ∀ x ∈ sources r, allowed x = true := by
  obtain ⟨r, h1, h2, h3, h4⟩ := C51_start hb allowed
  have hr : Built r := .pruneStart hb allowed h1
  exact ⟨r, h1, hr, part_of hb hr h2 h3, h4⟩

theorem end_part {g : Graph A} (hb : Built g) (allowed : A → Bool) :
    ∃ r, removeNotAllowedEnd g allowed = .ok r ∧ Built r ∧
      Part g r (fun x => ¬ MustGo (fun b a => (view g).Edge a b) (fun x => allowed x = true) x) ∧ ∀ x ∈ sinks r, allowed x = true := by
  obtain ⟨r, h1, h2, h3, h4⟩ := C51_end hb allowed
  have hr : Built r := .pruneEnd hb allowed h1
  exact ⟨r, h1, hr, part_of hb hr h2 h3, h4⟩

/-! ### C171 -/

/-- C171: filtering by two absolute counts is filtering by the larger one -/
theorem C171_absolute {g : Graph A} (hb : Built g) (m m' : Int) :
    SameGraph ((filterAbsolute g m).bind fun f => filterAbsolute f m') (filterAbsolute g (max m m')) := by
  obtain ⟨f, h1, h2, h3⟩ := C43_filter_absolute hb m
  have hf : Built f := .filterAbsolute hb m h1
  obtain ⟨f', i1, i2, i3⟩ := C43_filter_absolute hf m'
  obtain ⟨e, j1, j2, j3⟩ := C43_filter_absolute hb (max m m')
  refine ⟨f', e, by rw [h1]; exact i1, j1, (C123_equality (.filterAbsolute hf m' i1) (.filterAbsolute hb _ j1)).2 ⟨fun x => ?_, fun x y => ?_⟩⟩
  · rw [i2, h2, j2]
  · ext c
    rw [i3, h3, j3, max_le_iff, and_assoc]

/-- C171: selecting nodes twice is selecting the common nodes; the selection can be swapped with the filter by absolute counts -/
theorem C171_select {g : Graph A} (hb : Built g) (keep keep' : A → Bool) (m : Int) :
    SameGraph ((selectNodes g keep).bind fun f => selectNodes f keep') (selectNodes g fun x => keep x && keep' x) ∧
    SameGraph ((selectNodes g keep).bind fun f => filterAbsolute f m) ((filterAbsolute g m).bind fun f => selectNodes f keep) := by
  obtain ⟨f, h1, h2, h3⟩ := select_part hb keep
  obtain ⟨f', i1, i2, i3⟩ := select_part h2 keep'
  obtain ⟨e, j1, j2, j3⟩ := select_part hb fun x => keep x && keep' x
  obtain ⟨a, k1, k2, k3⟩ := C43_filter_absolute h2 m
  obtain ⟨b, l1, l2, l3⟩ := C43_filter_absolute hb m
  have hbb : Built b := .filterAbsolute hb m l1
  obtain ⟨b', o1, o2, o3⟩ := select_part hbb keep
  constructor
  · exact ⟨f', e, by rw [h1]; exact i1, j1, (h3.trans i3).eq hb i2 j2 j3 fun x _ => by simp⟩
  · refine ⟨a, b', by rw [h1]; exact k1, by rw [l1]; exact o1, (C123_equality (.filterAbsolute h2 m k1) o2).2 ⟨fun x => ?_, fun x y => ?_⟩⟩
    · rw [k2, h3.node, o3.node, l2]
    · ext c
      rw [k3, h3.count, o3.count, l3]; tauto

/-- C171: nothing that reads a log leads to counts below 1: the filter by absolute counts changes nothing up to a minimum of 1 -/
theorem C171_log_absolute {I V : Type} (log : EventLog.Log I A V) {m : Int} (hm : m ≤ 1) :
    Positive (createFromLog log) ∧ SameGraph (filterAbsolute (createFromLog log) m) (.ok (createFromLog log)) := by
  have hb : Built (createFromLog log) := .readCounts .new log
  obtain ⟨h1, h2, _⟩ := C44_counts log
  have hpos : Positive (createFromLog log) := by
    intro x y c hc
    obtain ⟨t, ht, hp⟩ := (h2 x y).1 ⟨c, hc⟩
    have hcount := h1 x y
    have hg : getCount (createFromLog log) x y = c := by
      rw [getCount_eq]
      show (cnt (createFromLog log) x y).getD 0 = c
      rw [show cnt (createFromLog log) x y = some c from hc]; rfl
    rw [hg] at hcount
    rw [hcount]
    have : adjacentCount x y t.activities ≤ (log.map fun t => adjacentCount x y t.activities).sum :=
      List.single_le_sum (by simp) _ (List.mem_map.2 ⟨t, ht, rfl⟩)
    omega
  refine ⟨hpos, ?_⟩
  obtain ⟨f, i1, i2, i3⟩ := C43_filter_absolute hb m
  refine ⟨f, _, i1, rfl, (C123_equality (.filterAbsolute hb m i1) hb).2 ⟨i2, fun x y => ?_⟩⟩
  ext c
  rw [i3]
  exact ⟨fun hh => hh.1, fun hh => ⟨hh, by have := hpos x y c hh; omega⟩⟩

/-- auxiliary: an ordered list of the successors of a node -/
theorem exists_succs {g : Graph A} (hb : Built g) (x : A) : ∃ l : List A, l.Nodup ∧ ∀ b, b ∈ l ↔ (view g).Edge x b := by
  by_cases hx : x ∈ g.nodes.keys
  · obtain ⟨l, _, h2, h3⟩ := following_ok hb.wf.toCore hx
    exact ⟨l, h2, fun b => by rw [h3, view_edge]; rfl⟩
  · refine ⟨[], List.nodup_nil, fun b => ?_⟩
    simp only [List.not_mem_nil, false_iff]
    rintro ⟨c, hc⟩
    have := (edge_nodes hb hc).1
    rw [view_node] at this
    exact hx this

theorem getCount_of {g : Graph A} {x y : A} {c : Int} (hc : (view g).count x y = some c) : getCount g x y = c := by
  rw [getCount_eq]
  show (cnt g x y).getD 0 = c
  rw [show cnt g x y = some c from hc]; rfl

/-- auxiliary: an edge of `g` that is left in the part `f` has at least the frequency in `f` that it has in `g` -/
theorem frequency_le {g f : Graph A} (hp : Positive g) {x : A} (hsub : ∀ b c, (view f).count x b = some c → (view g).count x b = some c)
    {l l' : List A} (hs : ∀ b, b ∈ l ↔ (view g).Edge x b) (hl' : l'.Nodup) (hs' : ∀ b, b ∈ l' ↔ (view f).Edge x b)
    {y : A} {c : Int} (hc : (view f).count x y = some c) :
    0 < (l'.map fun b => getCount f x b).sum ∧
      (c : ℚ) / ((l.map fun b => getCount g x b).sum : ℤ) ≤ (c : ℚ) / ((l'.map fun b => getCount f x b).sum : ℤ) := by
  have hcpos := hp x y c (hsub y c hc)
  have heq : (l'.map fun b => getCount f x b) = l'.map fun b => getCount g x b := by
    refine List.map_congr_left fun b hbm => ?_
    obtain ⟨k, hk⟩ := (hs' b).1 hbm
    rw [getCount_of hk, getCount_of (hsub b k hk)]
  have hpos : ∀ b ∈ l, 0 < getCount g x b := by
    intro b hbm
    obtain ⟨k, hk⟩ := (hs b).1 hbm
    rw [getCount_of hk]; exact hp x b k hk
  have hss : ∀ b ∈ l', b ∈ l := by
    intro b hbm
    obtain ⟨k, hk⟩ := (hs' b).1 hbm
    exact (hs b).2 ⟨k, hsub b k hk⟩
  have hle : (l'.map fun b => getCount g x b).sum ≤ (l.map fun b => getCount g x b).sum := by
    obtain ⟨l2, hp2, hsl⟩ := hl'.subperm hss
    rw [← (hp2.map fun b => getCount g x b).sum_eq]
    refine (hsl.map fun b => getCount g x b).sum_le_sum ?_
    intro v hv
    obtain ⟨b, hbm, rfl⟩ := List.mem_map.1 hv
    exact (hpos b hbm).le
  have hge : c ≤ (l'.map fun b => getCount f x b).sum := by
    rw [← getCount_of hc]
    refine List.single_le_sum (l := l'.map fun b => getCount f x b) ?_ _ (List.mem_map.2 ⟨y, (hs' y).2 ⟨c, hc⟩, rfl⟩)
    intro v hv
    obtain ⟨b, hbm, rfl⟩ := List.mem_map.1 hv
    obtain ⟨k, hk⟩ := (hs' b).1 hbm
    rw [getCount_of hk]
    exact (hp x b k (hsub b k hk)).le
  rw [heq] at hge ⊢
  refine ⟨by omega, ?_⟩
  have h1 : (0 : ℚ) < ((l'.map fun b => getCount g x b).sum : ℤ) := by exact_mod_cast (by omega : 0 < (l'.map fun b => getCount g x b).sum)
  have h2 : (((l'.map fun b => getCount g x b).sum : ℤ) : ℚ) ≤ ((l.map fun b => getCount g x b).sum : ℤ) := by exact_mod_cast hle
  exact div_le_div_of_nonneg_left (by exact_mod_cast hcpos.le) h1 h2

/-- auxiliary: the local filter, with a list of successors -/
theorem local_succs {g : Graph A} (hb : Built g) (q : ℚ) :
    ∃ f, filterLocal g q false = .ok f ∧ Built f ∧ (∀ x, (view f).node x ↔ (view g).node x) ∧
      ∀ x, ∃ l : List A, l.Nodup ∧ (∀ b, b ∈ l ↔ (view g).Edge x b) ∧ ∀ y c, (view f).count x y = some c ↔ (view g).count x y = some c ∧
          0 < (l.map fun b => getCount g x b).sum ∧ q ≤ (c : ℚ) / ((l.map fun b => getCount g x b).sum : ℤ) := by
  obtain ⟨f, h1, h2, h3⟩ := C43_filter_local hb q
  refine ⟨f, h1, .filterLocal hb q false h1, h2, fun x => ?_⟩
  obtain ⟨l, i1, i2⟩ := exists_succs hb x
  exact ⟨l, i1, i2, h3 x l i1 i2⟩

/-- C171: the filter by local frequencies is idempotent -/
theorem C171_local_twice {g : Graph A} (hb : Built g) (hp : Positive g) (q : ℚ) :
    SameGraph ((filterLocal g q false).bind fun f => filterLocal f q false) (filterLocal g q false) := by
  obtain ⟨f, h1, h2, h3, h4⟩ := local_succs hb q
  obtain ⟨f', i1, i2, i3, i4⟩ := local_succs h2 q
  refine ⟨f', f, by rw [h1]; exact i1, h1, (C123_equality i2 h2).2 ⟨i3, fun x y => ?_⟩⟩
  obtain ⟨l, j1, j2, j3⟩ := h4 x
  obtain ⟨l', k1, k2, k3⟩ := i4 x
  ext c
  rw [k3]
  refine ⟨fun hh => hh.1, fun hc => ⟨hc, ?_⟩⟩
  obtain ⟨s1, s2⟩ := frequency_le hp (fun b c hc => ((j3 b c).1 hc).1) j2 k1 k2 hc
  exact ⟨s1, ((j3 y c).1 hc).2.2.trans s2⟩

/-- C171: with increasing frequencies, filtering in two steps keeps every edge that the second filter alone keeps -/
theorem C171_local_steps {g : Graph A} (hb : Built g) (hp : Positive g) {q q' : ℚ} (hq : q ≤ q') :
    ∃ f f' e, filterLocal g q false = .ok f ∧ filterLocal f q' false = .ok f' ∧ filterLocal g q' false = .ok e ∧
      ∀ x y c, (view e).count x y = some c → (view f').count x y = some c := by
  obtain ⟨f, h1, h2, h3, h4⟩ := local_succs hb q
  obtain ⟨f', i1, i2, i3, i4⟩ := local_succs h2 q'
  obtain ⟨e, o1, o2, o3⟩ := C43_filter_local hb q'
  refine ⟨f, f', e, h1, i1, o1, fun x y c hc => ?_⟩
  obtain ⟨l, j1, j2, j3⟩ := h4 x
  obtain ⟨l', k1, k2, k3⟩ := i4 x
  have he := (o3 x l j1 j2 y c).1 hc
  have hcf : (view f).count x y = some c := (j3 y c).2 ⟨he.1, he.2.1, hq.trans he.2.2⟩
  obtain ⟨s1, s2⟩ := frequency_le hp (fun b c hc => ((j3 b c).1 hc).1) j2 k1 k2 hcf
  exact (k3 y c).2 ⟨hcf, s1, he.2.2.trans s2⟩

/-- C171: it can keep more: of the counts 5, 4 and 2, the filter by 0.44 alone keeps only the first (4/11 < 0.44 <= 5/11); after the filter
by 0.3, which removes the last, 0.44 keeps both (0.44 <= 4/9) -/
theorem C171_local_steps_witness :
    let g := addCount (addCount (addCount (empty : Graph Nat) 1 2 5) 1 3 4) 1 4 2
    ((filterLocal g (44 / 100) false).toOption.map fun f => f.edges.keys) = some [(1, 2)] ∧
    (((filterLocal g (30 / 100) false).bind fun f => filterLocal f (44 / 100) false).toOption.map fun f => f.edges.keys) = some [(1, 2), (1, 3)] := by
  decide +kernel

/-- C171: the filter that keeps at least one outgoing edge is idempotent as well -/
theorem C171_local_keep_twice {g : Graph A} (hb : Built g) (hp : Positive g) (q : ℚ) :
    SameGraph ((filterLocal g q true).bind fun f => filterLocal f q true) (filterLocal g q true) := by
  have hno : ∀ {g : Graph A}, Positive g → ¬ ∃ a, (∃ b, (view g).Edge a b) ∧ ∀ b c, (view g).count a b = some c → c ≤ 0 := by
    rintro g hp ⟨a, ⟨b, c, hc⟩, hle⟩
    have h1 := hp a b c hc
    have h2 := hle b c hc
    omega
  rcases C43_filter_local_keep hb q with ⟨hbad, _⟩ | ⟨f, f0, h1, h2, h3, h4⟩
  · exact absurd hbad (hno hp)
  have hf : Built f := .filterLocal hb q true h1
  obtain ⟨f0', g1, _, _, g4⟩ := local_succs hb q
  rw [h2] at g1
  obtain rfl := Except.ok.inj g1
  have hsub : ∀ x y c, (view f).count x y = some c → (view g).count x y = some c := by
    intro x y c hc
    obtain ⟨l, j1, j2, j3⟩ := g4 x
    by_cases hex : ∃ b, (view f0).Edge x b
    · rw [(h4 x).1 hex] at hc
      exact ((j3 y c).1 hc).1
    · push Not at hex
      rcases (h4 x).2 hex with ⟨_, h5⟩ | ⟨b, c', hb1, _, hb3⟩
      · exact absurd ⟨c, hc⟩ (h5 y)
      · rw [hb3] at hc
        split at hc
        · next hy => subst hy; rw [← Option.some.inj hc]; exact hb1
        · cases hc
  have hpf : Positive f := fun x y c hc => hp x y c (hsub x y c hc)
  rcases C43_filter_local_keep hf q with ⟨hbad, _⟩ | ⟨e, e0, i1, i2, i3, i4⟩
  · exact absurd hbad (hno hpf)
  obtain ⟨e0', k1, _, _, k4⟩ := local_succs hf q
  rw [i2] at k1
  obtain rfl := Except.ok.inj k1
  refine ⟨e, f, by rw [h1]; exact i1, h1, (C123_equality (.filterLocal hf q true i1) hf).2 ⟨i3, fun x y => ?_⟩⟩
  obtain ⟨l, j1, j2, j3⟩ := g4 x
  obtain ⟨l', m1, m2, m3⟩ := k4 x
  by_cases hex : ∃ b, (view f0).Edge x b
  · have hsame := (h4 x).1 hex
    have hall : ∀ b c, (view f).count x b = some c → (view e0).count x b = some c := by
      intro b c hc
      have hc0 := hc
      rw [hsame] at hc0
      obtain ⟨s1, s2⟩ := frequency_le hp (hsub x) j2 m1 m2 hc
      exact (m3 b c).2 ⟨hc, s1, ((j3 b c).1 hc0).2.2.trans s2⟩
    have hex' : ∃ b, (view e0).Edge x b := by
      obtain ⟨b, c, hc⟩ := hex
      exact ⟨b, c, hall b c (by rw [hsame]; exact hc)⟩
    rw [(i4 x).1 hex' y]
    ext c
    exact ⟨fun hh => ((m3 y c).1 hh).1, hall y c⟩
  · push Not at hex
    rcases (h4 x).2 hex with ⟨_, h5⟩ | ⟨b, c, hb1, hb2, hb3⟩
    · have hex' : ∀ b, ¬ (view e0).Edge x b := by
        rintro b ⟨c, hc⟩
        exact h5 b ⟨c, ((m3 b c).1 hc).1⟩
      rcases (i4 x).2 hex' with ⟨_, i5⟩ | ⟨b, c, n1, _⟩
      · ext c
        exact ⟨fun hh => absurd ⟨c, hh⟩ (i5 y), fun hh => absurd ⟨c, hh⟩ (h5 y)⟩
      · exact absurd ⟨c, n1⟩ (h5 b)
    · by_cases hex' : ∃ b, (view e0).Edge x b
      · rw [(i4 x).1 hex' y]
        obtain ⟨b', c', hc'⟩ := hex'
        have hbc := ((m3 b' c').1 hc').1
        rw [hb3] at hbc
        split at hbc
        · next hbb =>
          subst hbb
          obtain rfl := Option.some.inj hbc
          rw [hb3]
          split
          · next hy => subst hy; exact hc'
          · next hy =>
            ext c'
            refine ⟨fun hh => ?_, fun hh => by cases hh⟩
            have := ((m3 y c').1 hh).1
            rw [hb3, if_neg hy] at this
            exact this
        · cases hbc
      · push Not at hex'
        rcases (i4 x).2 hex' with ⟨i5, _⟩ | ⟨b', c', n1, _, n3⟩
        · exact absurd ⟨c, by rw [hb3, if_pos rfl]⟩ (i5 b)
        · rw [hb3] at n1
          split at n1
          · next hbb =>
            subst hbb
            obtain rfl := Option.some.inj n1
            rw [n3, hb3]
          · cases n1

/-- auxiliary: what must go does not depend on nodes that only lead out of the part -/
theorem mustGo_part {into into' : A → A → Prop} {allowed keep : A → Prop} (h1 : ∀ a b, into' b a ↔ into b a ∧ keep b ∧ keep a)
    (h2 : ∀ a b, keep a → into b a → keep b) {x : A} (hx : keep x) : MustGo into' allowed x ↔ MustGo into allowed x := by
  constructor
  · intro h
    induction h with
    | intro a ha _ ih => exact .intro a ha fun b hb hne => ih b ((h1 a b).2 ⟨hb, h2 a b hx hb, hx⟩) hne (h2 a b hx hb)
  · intro h
    induction h with
    | intro a ha _ ih => exact .intro a ha fun b hb hne => ih b ((h1 a b).1 hb).1 hne ((h1 a b).1 hb).2.1

/-- auxiliary: what must go because of the end does not lead into anything that is left after the removal of the starts, and vice versa -/
theorem mustGo_closed {into : A → A → Prop} {allowed : A → Prop} {a b : A} (ha : ¬ MustGo into allowed a) (hab : into a b) : ¬ MustGo into allowed b := by
  intro h
  cases h with
  | intro _ hn hp =>
    by_cases hne : a = b
    · subst hne; exact ha (.intro a hn hp)
    · exact ha (hp a hab hne)

/-- C171: removing disallowed start activities is idempotent, and so is removing disallowed end activities -/
theorem C171_prune_twice {g : Graph A} (hb : Built g) (allowed : A → Bool) :
    SameGraph ((removeNotAllowedStart g allowed).bind fun f => removeNotAllowedStart f allowed) (removeNotAllowedStart g allowed) ∧
    SameGraph ((removeNotAllowedEnd g allowed).bind fun f => removeNotAllowedEnd f allowed) (removeNotAllowedEnd g allowed) := by
  constructor
  · obtain ⟨f, h1, h2, h3, h4⟩ := start_part hb allowed
    obtain ⟨f', i1, i2, i3, i4⟩ := start_part h2 allowed
    refine ⟨f', f, by rw [h1]; exact i1, h1, (h3.trans i3).eq hb i2 h2 h3 fun x hx => ⟨fun hh => hh.1, fun hh => ⟨hh, fun hm => ?_⟩⟩⟩
    clear i1 i2 i3 i4
    induction hm with
    | intro a ha hp ih =>
      refine hh (.intro a ha fun b hba hne => ?_)
      by_contra hk
      exact ih b ((h3.edge b a).2 ⟨hba, hk, hh⟩) hne (by obtain ⟨c, hc⟩ := hba; exact (edge_nodes hb hc).1) hk
  · obtain ⟨f, h1, h2, h3, h4⟩ := end_part hb allowed
    obtain ⟨f', i1, i2, i3, i4⟩ := end_part h2 allowed
    refine ⟨f', f, by rw [h1]; exact i1, h1, (h3.trans i3).eq hb i2 h2 h3 fun x hx => ⟨fun hh => hh.1, fun hh => ⟨hh, fun hm => ?_⟩⟩⟩
    clear i1 i2 i3 i4
    induction hm with
    | intro a ha hp ih =>
      refine hh (.intro a ha fun b hba hne => ?_)
      by_contra hk
      exact ih b ((h3.edge a b).2 ⟨hba, hh, hk⟩) hne (by obtain ⟨c, hc⟩ := hba; exact (edge_nodes hb hc).2) hk

/-- C171: removing disallowed start activities and removing disallowed end activities can be swapped; afterwards all sources and all sinks
are allowed -/
theorem C171_prune_both {g : Graph A} (hb : Built g) (starts ends : A → Bool) :
    SameGraph ((removeNotAllowedStart g starts).bind fun f => removeNotAllowedEnd f ends)
      ((removeNotAllowedEnd g ends).bind fun f => removeNotAllowedStart f starts) ∧
    ∀ f, ((removeNotAllowedStart g starts).bind fun f => removeNotAllowedEnd f ends) = .ok f →
      (∀ x ∈ sources f, starts x = true) ∧ ∀ x ∈ sinks f, ends x = true := by
  obtain ⟨s, h1, h2, h3, h4⟩ := start_part hb starts
  obtain ⟨se, i1, i2, i3, i4⟩ := end_part h2 ends
  obtain ⟨e, j1, j2, j3, j4⟩ := end_part hb ends
  obtain ⟨es, k1, k2, k3, k4⟩ := start_part j2 starts
  have key1 : ∀ x, ¬ MustGo (view g).Edge (fun x => starts x = true) x →
      (MustGo (fun b a => (view s).Edge a b) (fun x => ends x = true) x ↔ MustGo (fun b a => (view g).Edge a b) (fun x => ends x = true) x) := by
    intro x hx
    exact mustGo_part (keep := fun x => ¬ MustGo (view g).Edge (fun x => starts x = true) x)
      (fun a b => (h3.edge a b).trans (by tauto)) (fun a b ha hab => mustGo_closed ha hab) hx
  have key2 : ∀ x, ¬ MustGo (fun b a => (view g).Edge a b) (fun x => ends x = true) x →
      (MustGo (view e).Edge (fun x => starts x = true) x ↔ MustGo (view g).Edge (fun x => starts x = true) x) := by
    intro x hx
    exact mustGo_part (keep := fun x => ¬ MustGo (fun b a => (view g).Edge a b) (fun x => ends x = true) x)
      (fun a b => j3.edge b a) (fun a b ha hab => mustGo_closed (into := fun b a => (view g).Edge a b) ha hab) hx
  have hok : ((removeNotAllowedStart g starts).bind fun f => removeNotAllowedEnd f ends) = .ok se := by rw [h1]; exact i1
  have heq : graphEq se es = true := (h3.trans i3).eq hb i2 k2 (j3.trans k3) fun x _ => by
    constructor
    · rintro ⟨a, b⟩
      have hb' : ¬ MustGo (fun b a => (view g).Edge a b) (fun x => ends x = true) x := fun hh => b ((key1 x a).2 hh)
      exact ⟨hb', fun hh => a ((key2 x hb').1 hh)⟩
    · rintro ⟨a, b⟩
      have hb' : ¬ MustGo (view g).Edge (fun x => starts x = true) x := fun hh => b ((key2 x a).2 hh)
      exact ⟨hb', fun hh => a ((key1 x hb').1 hh)⟩
  refine ⟨⟨se, es, hok, by rw [j1]; exact k1, heq⟩, ?_⟩
  intro f hf
  rw [hok] at hf
  obtain rfl := Except.ok.inj hf
  refine ⟨fun x hx => k4 x ?_, i4⟩
  obtain ⟨e1, e2⟩ := (C123_equality i2 k2).1 heq
  have hx := (C50_sources_sinks i2 x).1.1 hx
  refine (C50_sources_sinks k2 x).1.2 ⟨(e1 x).1 hx.1, fun b hbx => hx.2 b ?_⟩
  obtain ⟨c, hc⟩ := hbx
  exact ⟨c, by rw [e2]; exact hc⟩

/-- C171: the largest component of the largest component is itself, whatever choices are made -/
theorem C171_largest_twice (pick pick' : List A → Nat) {g : Graph A} (hb : Built g) :
    SameGraph ((largestWeakComponent pick g).bind fun f => largestWeakComponent pick' f) (largestWeakComponent pick g) := by
  obtain ⟨f, comp, h1, h2, h3, h4, h5, h6⟩ := C48_largest pick hb
  have hf : Built f := .largest hb pick h1
  obtain ⟨e, comp', i1, i2, i3, i4, i5, i6⟩ := C48_largest pick' hf
  refine ⟨e, f, by rw [h1]; exact i1, h1, (C123_equality (.largest hf pick' i1) hf).2 ?_⟩
  have hedge : ∀ x y, x ∈ comp → y ∈ comp → ((view f).Edge x y ↔ (view g).Edge x y) := by
    intro x y hx hy
    unfold Digraph.Edge
    simp only [h4, if_pos (And.intro hx hy)]
  have hconn : ∀ x ∈ comp, ∀ y, Connected (view g) x y → Connected (view f) x y := by
    intro x hx y hxy
    have : y ∈ comp ∧ Connected (view f) x y := by
      induction hxy with
      | refl => exact ⟨hx, .refl⟩
      | tail _ hbc ih =>
        obtain ⟨k1, k2⟩ := ih
        rename_i b c _
        have hc : c ∈ comp := by
          rw [(h5 b k1).2 c]
          exact Relation.ReflTransGen.single hbc
        refine ⟨hc, Relation.ReflTransGen.tail k2 ?_⟩
        rcases hbc with hh | hh
        · exact .inl ((hedge b c k1 hc).2 hh)
        · exact .inr ((hedge c b hc k1).2 hh)
    exact this.2
  have hall : ∀ x, x ∈ comp' ↔ x ∈ comp := by
    have hsub : ∀ x ∈ comp', x ∈ comp := fun x hx => (h3 x).1 ((i5 x hx).1)
    have hle := i6 comp h2 fun x hx => ⟨(h3 x).2 hx, fun y hy => hconn x hx y (((h5 x hx).2 y).1 hy)⟩
    intro x
    refine ⟨hsub x, fun hx => ?_⟩
    have hperm := (i2.subperm hsub).perm_of_length_le hle
    exact hperm.mem_iff.2 hx
  constructor
  · intro x
    rw [i3, h3, hall]
  · intro x y
    rw [i4]
    simp only [hall]
    split
    · rfl
    · next hn => rw [h4, if_neg hn]

end

/-! ### The hypotheses are met -/

/-- a graph with a chain, a cycle, a self-loop and two components -/
def exReduce : Graph Nat :=
  addCount (addCount (addCount (addCount (addCount (addCount (empty : Graph Nat) 1 2 5) 1 3 1) 2 3 2) 3 2 4) 4 5 1) 5 5 3

theorem exReduce_built : Built exReduce :=
  .addCount (.addCount (.addCount (.addCount (.addCount (.addCount .new 1 2 5) 1 3 1) 2 3 2) 3 2 4) 4 5 1) 5 5 3

theorem exReduce_positive : Positive exReduce := by
  intro x y c hc
  have hm : (x, y) ∈ exReduce.edges.keys := by
    by_contra hn
    have : exReduce.edges.get? (x, y) = none := Dict.get?_eq_none_iff.2 hn
    have hc : (exReduce.edges.get? (x, y)).bind _ = some c := hc
    rw [this] at hc; cases hc
  have hm : (x, y) ∈ [(1, 2), (1, 3), (2, 3), (3, 2), (4, 5), (5, 5)] := by
    have hk : exReduce.edges.keys = [(1, 2), (1, 3), (2, 3), (3, 2), (4, 5), (5, 5)] := by decide +kernel
    rw [hk] at hm; exact hm
  simp only [List.mem_cons, Prod.mk.injEq, List.not_mem_nil, or_false] at hm
  rcases hm with ⟨rfl, rfl⟩ | ⟨rfl, rfl⟩ | ⟨rfl, rfl⟩ | ⟨rfl, rfl⟩ | ⟨rfl, rfl⟩ | ⟨rfl, rfl⟩ <;>
    (cases hc; decide +kernel)

example := C171_local_twice exReduce_built exReduce_positive (1 / 4)
example := C171_local_keep_twice exReduce_built exReduce_positive (9 / 10)
example := C171_local_steps exReduce_built exReduce_positive (q := 1 / 4) (q' := 1 / 2) (by norm_num)
example := C171_absolute exReduce_built 2 3
example := C171_select exReduce_built (fun x => x < 4) (fun x => 1 < x) 2
example := C171_prune_both exReduce_built (fun x => x = 3) (fun x => x = 5)
example := C171_prune_twice exReduce_built (fun x => x = 3)
example := C171_largest_twice (fun _ => 0) (fun _ => 1) exReduce_built
example : ((filterLocal exReduce (1 / 4) false).toOption.map fun f => f.edges.keys) = some [(1, 2), (2, 3), (3, 2), (4, 5), (5, 5)] := by decide +kernel

end Prolothar.Dfg
