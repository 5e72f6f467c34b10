import Verif.Lemmas.DfgPaths
import Verif.Spec.Dfg
import Mathlib.Data.Finset.Range
import Mathlib.Tactic.Ring
/- Local frequency filter, reading logs, renaming, largest component. -/
set_option linter.unusedSimpArgs false
set_option linter.unusedVariables false
set_option linter.unusedSectionVars false
namespace Prolothar.Dfg
open Prolothar.EventLog (Log Event Trace keepFirst)
variable {A : Type} [DecidableEq A]

theorem getCount_eq (g : Graph A) (a b : A) : getCount g a b = (cnt g a b).getD 0 := by
  unfold getCount cnt
  cases g.edges.get? (a, b) with
  | none => rfl
  | some e => cases h : g.heap[e]? <;> simp [h]

theorem keys_nodup_iff {l l' : List A} (h : ∀ x, x ∈ l ↔ x ∈ l') : ∀ x ∈ l, x ∈ l' := fun x hx => (h x).1 hx

/-- `filter_edges_by_local_frequency` without `keep_at_least_one` -/
theorem filterLocalBy_plain {g : Graph A} (h : WF g) (test : Int → EdgeObj A → Bool) :
    ∃ f, filterLocalBy g test false = .ok f ∧ WF f ∧ (∀ x, x ∈ f.nodes.keys ↔ x ∈ g.nodes.keys) ∧
      ∀ x y c, cnt f x y = some c ↔ cnt g x y = some c ∧ test (outTotal g x) ⟨x, y, c⟩ = true := by
  obtain ⟨f, e1, e2, e3, e4⟩ := withoutEdges_ok h
  obtain ⟨h1, h2, h3⟩ := addFrequentAll_ok h test e2 (fun x => by rw [e3]) e4
  refine ⟨_, ?_, h1, h2, h3⟩
  unfold filterLocalBy
  rw [e1]
  rfl

/-- `filter_edges_by_local_frequency` with `keep_at_least_one` -/
theorem filterLocalBy_keep {g : Graph A} (h : WF g) (test : Int → EdgeObj A → Bool) :
    ((∃ a, (∃ b c, cnt g a b = some c) ∧ ∀ b c, cnt g a b = some c → c ≤ 0) ∧
      filterLocalBy g test true = .error .attribute) ∨
    ∃ f, filterLocalBy g test true = .ok f ∧ WF f ∧ (∀ x, x ∈ f.nodes.keys ↔ x ∈ g.nodes.keys) ∧
      ∀ a, ((∃ b c, cnt g a b = some c ∧ test (outTotal g a) ⟨a, b, c⟩ = true) ∧
          ∀ b c, cnt f a b = some c ↔ cnt g a b = some c ∧ test (outTotal g a) ⟨a, b, c⟩ = true) ∨
        ((∀ b c, cnt g a b = some c → test (outTotal g a) ⟨a, b, c⟩ = false) ∧
          (((∀ b, cnt g a b = none) ∧ ∀ b, cnt f a b = none) ∨
           ∃ b c, cnt g a b = some c ∧ (∀ b' c', cnt g a b' = some c' → c' ≤ c) ∧
             ∀ y, cnt f a y = if y = b then some c else none)) := by
  obtain ⟨f0, e1, e2, e3, e4⟩ := withoutEdges_ok h
  obtain ⟨h1, h2, h3⟩ := addFrequentAll_ok h test e2 (fun x => by rw [e3]) e4
  generalize hf1 : g.nodes.values.foldl (addFrequent g test) f0 = f1 at *
  have heq : filterLocalBy g test true = f1.nodes.keys.foldlM (keepOne g) f1 := by
    unfold filterLocalBy
    rw [e1]
    show (g.nodes.values.foldl (addFrequent g test) f0).nodes.keys.foldlM (keepOne g) _ = _
    rw [hf1]
  rw [heq]
  have hnone : ∀ a, (∀ b, cnt f1 a b = none) →
      ∀ b c, cnt g a b = some c → test (outTotal g a) ⟨a, b, c⟩ = false := by
    intro a ha b c hc
    by_contra hfr
    have := (h3 a b c).2 ⟨hc, by simpa using hfr⟩
    rw [ha b] at this; cases this
  rcases keepAll_ok h h1 h2 f1.nodes.keys h1.nodesWF (fun a ha => (h2 a).1 ha) with
    ⟨⟨a, _, _, h5, h6⟩, h7⟩ | ⟨f', i1, i2, i3, i4, i5⟩
  · exact .inl ⟨⟨a, h5, h6⟩, h7⟩
  · refine .inr ⟨f', i1, i2, i3, ?_⟩
    intro a
    by_cases ha : a ∈ f1.nodes.keys
    · rcases i5 a ha with ⟨hor, hcn⟩ | ⟨hno, b, c, hb, hmax, hcn⟩
      · by_cases hsome : ∃ b, cnt f1 a b ≠ none
        · left
          obtain ⟨b, hb⟩ := hsome
          obtain ⟨c, hc⟩ := Option.ne_none_iff_exists'.1 hb
          refine ⟨⟨b, c, (h3 a b c).1 hc⟩, ?_⟩
          intro b c; rw [hcn, h3]
        · have hno : ∀ b, cnt f1 a b = none := fun b => by
            by_contra hc; exact hsome ⟨b, hc⟩
          have hgn := hor.resolve_left hsome
          right
          refine ⟨fun b c hc => ?_, .inl ⟨hgn, fun b => by rw [hcn, hno]⟩⟩
          rw [hgn] at hc; cases hc
      · exact .inr ⟨hnone a hno, .inr ⟨b, c, hb, hmax, hcn⟩⟩
    · right
      have hgn : ∀ b, cnt g a b = none := by
        intro b
        cases hc : cnt g a b with
        | none => rfl
        | some c => exact absurd ((h2 a).2 (h.node_of_cnt hc).1) ha
      refine ⟨fun b c hc => ?_, .inl ⟨hgn, fun b => ?_⟩⟩
      · rw [hgn] at hc; cases hc
      · rw [i4 a ha]
        cases hc : cnt f1 a b with
        | none => rfl
        | some c => exact absurd (h1.node_of_cnt hc).1 ha

theorem filterLocal_plain {g : Graph A} (h : WF g) (q : ℚ) :
    ∃ f, filterLocal g q false = .ok f ∧ WF f ∧ (∀ x, x ∈ f.nodes.keys ↔ x ∈ g.nodes.keys) ∧
      ∀ x y c, cnt f x y = some c ↔ cnt g x y = some c ∧ frequent (outTotal g x) q ⟨x, y, c⟩ = true :=
  filterLocalBy_plain h fun total => frequent total q

theorem filterLocal_keep {g : Graph A} (h : WF g) (q : ℚ) :
    ((∃ a, (∃ b c, cnt g a b = some c) ∧ ∀ b c, cnt g a b = some c → c ≤ 0) ∧
      filterLocal g q true = .error .attribute) ∨
    ∃ f, filterLocal g q true = .ok f ∧ WF f ∧ (∀ x, x ∈ f.nodes.keys ↔ x ∈ g.nodes.keys) ∧
      ∀ a, ((∃ b c, cnt g a b = some c ∧ frequent (outTotal g a) q ⟨a, b, c⟩ = true) ∧
          ∀ b c, cnt f a b = some c ↔ cnt g a b = some c ∧ frequent (outTotal g a) q ⟨a, b, c⟩ = true) ∨
        ((∀ b c, cnt g a b = some c → frequent (outTotal g a) q ⟨a, b, c⟩ = false) ∧
          (((∀ b, cnt g a b = none) ∧ ∀ b, cnt f a b = none) ∨
           ∃ b c, cnt g a b = some c ∧ (∀ b' c', cnt g a b' = some c' → c' ≤ c) ∧
             ∀ y, cnt f a y = if y = b then some c else none)) :=
  filterLocalBy_keep h fun total => frequent total q

theorem outTotal_eq {g : Graph A} (h : WF g) (a : A) (l : List A) (hl : l.Nodup)
    (hm : ∀ b, b ∈ l ↔ ∃ c, cnt g a b = some c) : outTotal g a = (l.map fun b => getCount g a b).sum := by
  unfold outTotal
  cases hn : g.nodes.get? a with
  | none =>
    have : l = [] := by
      rw [List.eq_nil_iff_forall_not_mem]
      intro b hb
      obtain ⟨c, hc⟩ := (hm b).1 hb
      exact Dict.get?_eq_none_iff.1 hn (h.node_of_cnt hc).1
    rw [this]; rfl
  | some n =>
    simp only
    unfold totalCount
    have hperm : (outObjs g n).Perm (l.map fun b => ⟨a, b, getCount g a b⟩) := by
      rw [List.perm_ext_iff_of_nodup (outObjs_nodup h.toCore hn)]
      · intro o
        rw [mem_outObjs h.toCore hn, List.mem_map]
        constructor
        · rintro ⟨h1, h2⟩
          refine ⟨o.stop, (hm _).2 ⟨_, h2⟩, ?_⟩
          cases o with
          | mk s t c =>
            simp only at h1 h2 ⊢
            rw [getCount_eq, h2, h1]; rfl
        · rintro ⟨b, hb, rfl⟩
          obtain ⟨c, hc⟩ := (hm b).1 hb
          refine ⟨rfl, ?_⟩
          simp only
          rw [getCount_eq, hc]; rfl
      · refine hl.map ?_
        intro b b' hbb
        simp only [EdgeObj.mk.injEq, true_and] at hbb
        exact hbb.1
    have := (hperm.map EdgeObj.count).sum_eq
    rw [this, List.map_map]
    rfl

/-! ### reading logs -/

theorem count_eq_card {α : Type} [DecidableEq α] [BEq α] [LawfulBEq α] (l : List α) (x : α) :
    l.count x = ((Finset.range l.length).filter fun i => l[i]? = some x).card := by
  induction l using List.reverseRecOn with
  | nil => simp
  | append_singleton l y ih =>
    rw [List.count_append, ih, List.length_append, List.length_singleton, Finset.range_add_one,
      Finset.filter_insert]
    have hfe : ((Finset.range l.length).filter fun i => (l ++ [y])[i]? = some x) =
        (Finset.range l.length).filter fun i => l[i]? = some x := by
      apply Finset.filter_congr
      intro i hi
      rw [List.getElem?_append_left (Finset.mem_range.1 hi)]
    rw [hfe, List.getElem?_concat_length]
    by_cases hy : y = x
    · subst hy
      rw [if_pos rfl, Finset.card_insert_of_notMem (by simp)]
      simp
    · rw [if_neg (by simpa using hy)]
      simp [hy]

theorem zip_tail_getElem? (l : List A) (i : Nat) (a b : A) :
    (l.zip l.tail)[i]? = some (a, b) ↔ l[i]? = some a ∧ l[i + 1]? = some b := by
  rw [List.getElem?_zip_eq_some, List.getElem?_tail]

theorem count_zip_tail (l : List A) (a b : A) : (l.zip l.tail).count (a, b) = Spec.Dfg.adjacentCount a b l := by
  rw [count_eq_card]
  unfold Spec.Dfg.adjacentCount
  congr 1
  ext i
  simp only [Finset.mem_filter, Finset.mem_range, zip_tail_getElem?]
  constructor
  · rintro ⟨_, h⟩
    exact ⟨(List.getElem?_eq_some_iff.1 h.1).1, h⟩
  · rintro ⟨_, h⟩
    refine ⟨?_, h⟩
    have := (List.getElem?_eq_some_iff.1 h.2).1
    simp only [List.length_zip, List.length_tail]
    omega

theorem readCounts_ok {I V : Type} (log : Log I A V) {g : Graph A} (h : WF g) :
    WF (readCounts g log) ∧
      (∀ x, x ∈ (readCounts g log).nodes.keys ↔ x ∈ g.nodes.keys ∨ ∃ t ∈ log, x ∈ t.activities) ∧
      ∀ x y, cnt (readCounts g log) x y =
        if ∃ t ∈ log, 0 < Spec.Dfg.adjacentCount x y t.activities then
          some ((cnt g x y).getD 0 + ((log.map fun t => Spec.Dfg.adjacentCount x y t.activities).sum : Nat))
        else cnt g x y := by
  unfold readCounts
  induction log generalizing g with
  | nil => exact ⟨h, by simp, by simp⟩
  | cons t log ih =>
    obtain ⟨r1, r2, r3⟩ := readTrace_ok h t.activities
    obtain ⟨i1, i2, i3⟩ := ih r1
    rw [List.foldl_cons]
    refine ⟨i1, ?_, ?_⟩
    · intro x
      rw [i2, r2]
      simp [or_assoc]
    · intro x y
      rw [i3, r3]
      have hmem : (x, y) ∈ t.activities.zip t.activities.tail ↔ 0 < Spec.Dfg.adjacentCount x y t.activities := by
        rw [← count_zip_tail, List.count_pos_iff]
      rw [count_zip_tail]
      simp only [hmem]
      by_cases h1 : 0 < Spec.Dfg.adjacentCount x y t.activities
      · rw [if_pos h1]
        rw [if_pos (c := ∃ t_1 ∈ t :: log, 0 < Spec.Dfg.adjacentCount x y t_1.activities) ⟨t, by simp, h1⟩]
        simp only [List.map_cons, List.sum_cons, Option.getD_some]
        split
        · congr 1
          push_cast
          ring
        · rename_i hno
          have : (log.map fun t => Spec.Dfg.adjacentCount x y t.activities).sum = 0 := by
            apply List.sum_eq_zero
            intro n hn
            obtain ⟨t', ht', rfl⟩ := List.mem_map.1 hn
            by_contra hc
            exact hno ⟨t', ht', by omega⟩
          rw [this]; simp
      · rw [if_neg h1]
        have h0 : Spec.Dfg.adjacentCount x y t.activities = 0 := by omega
        simp [h0]

/-- pairs of positions `i < j` of a list -/
def allPairs : List A → List (A × A)
  | [] => []
  | a :: rest => rest.map (fun b => (a, b)) ++ allPairs rest

theorem readPairs_eq (g : Graph A) (l : List A) :
    readPairs g l = (allPairs l).foldl (fun g p => addCount g p.1 p.2 1) g := by
  induction l generalizing g with
  | nil => rfl
  | cons a l ih =>
    rw [readPairs, ih, allPairs, List.foldl_append, List.foldl_map]

theorem mem_allPairs (l : List A) (x y : A) :
    (x, y) ∈ allPairs l ↔ ∃ i j : Nat, i < j ∧ l[i]? = some x ∧ l[j]? = some y := by
  induction l with
  | nil => simp [allPairs]
  | cons a l ih =>
    simp only [allPairs, List.mem_append, List.mem_map, Prod.mk.injEq, ih]
    constructor
    · rintro (⟨b, hb, rfl, rfl⟩ | ⟨i, j, hij, hi, hj⟩)
      · obtain ⟨j, hj⟩ := List.mem_iff_getElem?.1 hb
        exact ⟨0, j + 1, by omega, rfl, by simpa using hj⟩
      · exact ⟨i + 1, j + 1, by omega, by simpa using hi, by simpa using hj⟩
    · rintro ⟨i, j, hij, hi, hj⟩
      cases j with
      | zero => omega
      | succ j =>
        simp only [List.getElem?_cons_succ] at hj
        cases i with
        | zero =>
          simp only [List.getElem?_cons_zero, Option.some.injEq] at hi
          exact .inl ⟨y, List.mem_iff_getElem?.2 ⟨j, hj⟩, hi, rfl⟩
        | succ i =>
          exact .inr ⟨i, j, by omega, by simpa using hi, hj⟩

theorem allPairs_nodup {l : List A} (h : l.Nodup) : (allPairs l).Nodup := by
  induction l with
  | nil => exact List.nodup_nil
  | cons a l ih =>
    rw [List.nodup_cons] at h
    rw [allPairs, List.nodup_append]
    refine ⟨h.2.map fun b b' hb => by simpa using hb, ih h.2, ?_⟩
    rintro ⟨x, y⟩ hx ⟨x', y'⟩ hx' heq
    obtain ⟨b, _, hb⟩ := List.mem_map.1 hx
    obtain ⟨i, j, _, hi, _⟩ := (mem_allPairs l x' y').1 hx'
    have : x' ∈ l := List.mem_of_getElem? hi
    simp only [Prod.mk.injEq] at hb heq
    rw [← heq.1, ← hb.1] at this
    exact h.1 this

theorem readPairs_ok {g : Graph A} (h : WF g) {l : List A} (hl : l.Nodup) :
    WF (readPairs g l) ∧
      (∀ x, x ∈ (readPairs g l).nodes.keys ↔ x ∈ g.nodes.keys ∨ x ∈ l ∧ 2 ≤ l.length) ∧
      ∀ x y, cnt (readPairs g l) x y =
        if (x, y) ∈ allPairs l then some ((cnt g x y).getD 0 + 1) else cnt g x y := by
  rw [readPairs_eq]
  obtain ⟨h1, h2, h3⟩ := foldl_addCount_wf h (allPairs l) Prod.fst Prod.snd (fun _ => 1)
  refine ⟨h1, ?_, ?_⟩
  · intro x
    rw [h2]
    apply or_congr_right
    constructor
    · rintro ⟨⟨a, b⟩, hp, hx⟩
      obtain ⟨i, j, hij, hi, hj⟩ := (mem_allPairs l a b).1 hp
      have := (List.getElem?_eq_some_iff.1 hj).1
      refine ⟨?_, by omega⟩
      rcases hx with rfl | rfl
      · exact List.mem_of_getElem? hi
      · exact List.mem_of_getElem? hj
    · rintro ⟨hx, hlen⟩
      obtain ⟨i, hi⟩ := List.mem_iff_getElem?.1 hx
      have hil := (List.getElem?_eq_some_iff.1 hi).1
      cases i with
      | zero =>
        obtain ⟨y, hy⟩ : ∃ y, l[1]? = some y := ⟨l[1], List.getElem?_eq_getElem (by omega)⟩
        exact ⟨(x, y), (mem_allPairs l x y).2 ⟨0, 1, by omega, hi, hy⟩, .inl rfl⟩
      | succ i =>
        obtain ⟨y, hy⟩ : ∃ y, l[0]? = some y := ⟨l[0], List.getElem?_eq_getElem (by omega)⟩
        exact ⟨(y, x), (mem_allPairs l y x).2 ⟨0, i + 1, by omega, hy, hi⟩, .inr rfl⟩
  · intro x y
    rw [h3]
    have hiff : (∃ p ∈ allPairs l, p.1 = x ∧ p.2 = y) ↔ (x, y) ∈ allPairs l := by
      constructor
      · rintro ⟨⟨a, b⟩, hp, h1, h2⟩
        simp only at h1 h2; subst h1; subst h2; exact hp
      · exact fun hp => ⟨(x, y), hp, rfl, rfl⟩
    simp only [hiff]
    by_cases hp : (x, y) ∈ allPairs l
    · rw [if_pos hp, if_pos hp]
      rw [filter_unique (allPairs_nodup hl) hp (by simp)]
      · simp
      · rintro ⟨a, b⟩ _ hh
        simpa using hh
    · rw [if_neg hp, if_neg hp]

/-! ### renaming -/

theorem foldl_modifyEdge (l : List Nat) (hl : l.Nodup) (f : EdgeObj A → EdgeObj A) (g : Graph A) :
    (l.foldl (fun g e => modifyEdge g e f) g).nodes = g.nodes ∧
    (l.foldl (fun g e => modifyEdge g e f) g).edges = g.edges ∧
    ∀ e, (l.foldl (fun g e => modifyEdge g e f) g).heap[e]? = (g.heap[e]?).map fun o => if e ∈ l then f o else o := by
  induction l generalizing g with
  | nil => exact ⟨rfl, rfl, by simp⟩
  | cons e0 l ih =>
    rw [List.nodup_cons] at hl
    obtain ⟨i1, i2, i3⟩ := ih hl.2 (modifyEdge g e0 f)
    refine ⟨i1, i2, ?_⟩
    intro e
    rw [List.foldl_cons, i3]
    show Option.map _ ((g.heap.modify e0 f)[e]?) = _
    rw [List.getElem?_modify]
    by_cases he : e0 = e
    · subst he
      cases g.heap[e0]? <;> simp [hl.1]
    · cases g.heap[e]? <;> simp [he, Ne.symm he]

theorem rekey_ok {H : List (EdgeObj A)} (step : Graph A → Nat → Py (Graph A)) (P : Nat → Prop) [DecidablePred P]
    (okey nkey : Nat → A × A) (es : List Nat) (hes : es.Nodup)
    (hstep : ∀ g : Graph A, g.heap = H → ∀ e ∈ es, P e → g.edges.get? (okey e) = some e →
      step g e = .ok { g with edges := (g.edges.del (okey e)).put (nkey e) e })
    (hskip : ∀ g : Graph A, g.heap = H → ∀ e ∈ es, ¬ P e → step g e = .ok g)
    (hninj : ∀ e ∈ es, P e → ∀ e' ∈ es, P e' → nkey e = nkey e' → e = e')
    (g : Graph A) (hH : g.heap = H) (hW : g.edges.WF)
    (hinj : ∀ k k' e, g.edges.get? k = some e → g.edges.get? k' = some e → k = k')
    (hok : ∀ e ∈ es, P e → g.edges.get? (okey e) = some e)
    (hnew : ∀ e ∈ es, P e → g.edges.get? (nkey e) = none) :
    ∃ g', es.foldlM step g = .ok g' ∧ g'.heap = H ∧ g'.nodes = g.nodes ∧ g'.edges.WF ∧
      ∀ k e, g'.edges.get? k = some e ↔
        (e ∈ es ∧ P e ∧ k = nkey e) ∨ (¬ (e ∈ es ∧ P e) ∧ g.edges.get? k = some e) := by
  induction es generalizing g with
  | nil => exact ⟨g, rfl, hH, rfl, hW, by simp⟩
  | cons e0 es ih =>
    rw [List.nodup_cons] at hes
    have ih' := ih hes.2 (fun g hg e he => hstep g hg e (by simp [he]))
      (fun g hg e he => hskip g hg e (by simp [he]))
      (fun e he hp e' he' hp' => hninj e (by simp [he]) hp e' (by simp [he']) hp')
    rw [List.foldlM_cons]
    by_cases hP : P e0
    · have hk0 := hok e0 (by simp) hP
      have hn0 := hnew e0 (by simp) hP
      rw [hstep g hH e0 (by simp) hP hk0]
      have hget : ∀ k, Dict.get? ((g.edges.del (okey e0)).put (nkey e0) e0) k =
          if nkey e0 = k then some e0 else if okey e0 = k then none else g.edges.get? k := by
        intro k
        rw [Dict.get?_put, Dict.get?_del hW]
      have hrel : ∀ k e, Dict.get? ((g.edges.del (okey e0)).put (nkey e0) e0) k = some e ↔
          (e = e0 ∧ k = nkey e0) ∨ (e ≠ e0 ∧ g.edges.get? k = some e) := by
        intro k e
        rw [hget]
        by_cases h1 : nkey e0 = k
        · subst h1
          rw [if_pos rfl]
          constructor
          · intro hh
            simp only [Option.some.injEq] at hh
            exact .inl ⟨hh.symm, rfl⟩
          · rintro (⟨rfl, _⟩ | ⟨_, hh⟩)
            · rfl
            · rw [hn0] at hh; cases hh
        · rw [if_neg h1]
          by_cases h2 : okey e0 = k
          · subst h2
            rw [if_pos rfl]
            constructor
            · intro hh; cases hh
            · rintro (⟨_, hh⟩ | ⟨hne, hh⟩)
              · exact absurd hh.symm h1
              · rw [hk0] at hh
                simp only [Option.some.injEq] at hh
                exact absurd hh.symm hne
          · rw [if_neg h2]
            constructor
            · intro hh
              refine .inr ⟨?_, hh⟩
              rintro rfl
              exact h2 (hinj _ _ _ hk0 hh)
            · rintro (⟨_, hh⟩ | ⟨_, hh⟩)
              · exact absurd hh.symm h1
              · exact hh
      obtain ⟨g', j1, j2, j3, j4, j5⟩ := ih' { g with edges := (g.edges.del (okey e0)).put (nkey e0) e0 } hH
        ((hW.del _).put _ _)
        (by
          intro k k' e hk hk'
          have hk := (hrel k e).1 hk
          have hk' := (hrel k' e).1 hk'
          rcases hk with ⟨h1, h2⟩ | ⟨h1, h2⟩ <;> rcases hk' with ⟨h3, h4⟩ | ⟨h3, h4⟩
          · rw [h2, h4]
          · exact absurd h1 h3
          · exact absurd h3 h1
          · exact hinj _ _ _ h2 h4)
        (by
          intro e he hp
          refine (hrel _ _).2 (.inr ⟨fun hc => hes.1 (hc ▸ he), hok e (by simp [he]) hp⟩))
        (by
          intro e he hp
          show Dict.get? ((g.edges.del (okey e0)).put (nkey e0) e0) (nkey e) = none
          rw [hget, if_neg]
          · split
            · rfl
            · exact hnew e (by simp [he]) hp
          · intro hc
            have := hninj e0 (by simp) hP e (by simp [he]) hp hc
            exact hes.1 (this ▸ he))
      refine ⟨g', j1, j2, j3, j4, ?_⟩
      intro k e
      rw [j5]
      show _ ∨ (_ ∧ Dict.get? ((g.edges.del (okey e0)).put (nkey e0) e0) k = some e) ↔ _
      rw [hrel]
      by_cases hee : e = e0
      · subst hee
        simp [hes.1, hP]
      · simp [hee]
    · rw [hskip g hH e0 (by simp) hP]
      obtain ⟨g', j1, j2, j3, j4, j5⟩ := ih' g hH hW hinj (fun e he => hok e (by simp [he]))
        (fun e he => hnew e (by simp [he]))
      refine ⟨g', j1, j2, j3, j4, ?_⟩
      intro k e
      rw [j5]
      have : (e ∈ e0 :: es ∧ P e) ↔ (e ∈ es ∧ P e) := by
        constructor
        · rintro ⟨h1, h2⟩
          rcases List.mem_cons.1 h1 with rfl | h1
          · exact absurd h2 hP
          · exact ⟨h1, h2⟩
        · exact fun hh => ⟨by simp [hh.1], hh.2⟩
      rw [this, ← and_assoc, ← and_assoc, this]

/-- new name of a node -/
def ren (old new x : A) : A := if x = old then new else x

theorem rename_ok {g : Graph A} (h : WF g) {old new : A} (ho : old ∈ g.nodes.keys) (hn : new ∉ g.nodes.keys) :
    ∃ g', rename g old new = .ok g' ∧ WF g' ∧
      (∀ x, x ∈ g'.nodes.keys ↔ ∃ x0 ∈ g.nodes.keys, x = ren old new x0) ∧
      (∀ x y c, cnt g' x y = some c ↔ ∃ x0 y0, cnt g x0 y0 = some c ∧ x = ren old new x0 ∧ y = ren old new y0) := by
  obtain ⟨n, hnode⟩ := Dict.mem_keys_iff.1 ho
  obtain ⟨on, om⟩ := h.out old n hnode
  obtain ⟨inn, im⟩ := h.ing old n hnode
  have hne : new ≠ old := fun hc => hn (hc ▸ ho)
  have hinj : ∀ x y, x ≠ new → y ≠ new → ren old new x = ren old new y → x = y := by
    intro x y hx hy hh
    unfold ren at hh
    split at hh <;> split at hh
    · rename_i h1 h2; rw [h1, h2]
    · exact absurd hh.symm hy
    · exact absurd hh hx
    · exact hh
  have hends : ∀ k e, g.edges.get? k = some e → k.1 ≠ new ∧ k.2 ≠ new := by
    intro k e hk
    obtain ⟨h1, h2⟩ := h.ends k e hk
    exact ⟨fun hc => hn (hc ▸ h1), fun hc => hn (hc ▸ h2)⟩
  have rold : ren old new old = new := by simp [ren]
  have rother : ∀ x, x ≠ old → ren old new x = x := fun x hx => by simp [ren, hx]
  have rnew_iff : ∀ x, x ≠ new → (ren old new x = new ↔ x = old) := by
    intro x hx
    unfold ren
    split
    · rename_i h1; simp [h1]
    · rename_i h1; simp [hx, h1]
  have rne_old : ∀ x, ren old new x ≠ old := by
    intro x
    unfold ren
    split
    · exact hne
    · assumption
  -- the steps
  let N : Dict A NodeObj := (g.nodes.put new n).del old
  let g1 : Graph A := { g with nodes := N }
  obtain ⟨b1, b2, b3⟩ := foldl_modifyEdge n.out on (fun o => { o with start := new }) g1
  let g2 := n.out.foldl (fun g e => modifyEdge g e fun o => { o with start := new }) g1
  obtain ⟨c1, c2, c3⟩ := foldl_modifyEdge n.ing inn (fun o => { o with stop := new }) g2
  let g3 := n.ing.foldl (fun g e => modifyEdge g e fun o => { o with stop := new }) g2
  have hE3 : g3.edges = g.edges := c2.trans b2
  have hN3 : g3.nodes = N := c1.trans b1
  have hheap : ∀ k e, g.edges.get? k = some e → ∃ c, g.heap[e]? = some ⟨k.1, k.2, c⟩ ∧
      g3.heap[e]? = some ⟨ren old new k.1, ren old new k.2, c⟩ := by
    intro k e hk
    obtain ⟨c, hc⟩ := h.obj k e hk
    refine ⟨c, hc, ?_⟩
    show (n.ing.foldl _ g2).heap[e]? = _
    rw [c3]
    show Option.map _ ((n.out.foldl _ g1).heap[e]?) = _
    rw [b3]
    show Option.map _ (Option.map _ g.heap[e]?) = _
    rw [hc]
    have m1 : e ∈ n.out ↔ k.1 = old := by
      rw [om]
      constructor
      · rintro ⟨b, hb⟩
        exact congrArg Prod.fst (h.inj hk hb)
      · intro hh
        exact ⟨k.2, by rw [← hh]; exact hk⟩
    have m2 : e ∈ n.ing ↔ k.2 = old := by
      rw [im]
      constructor
      · rintro ⟨b, hb⟩
        exact congrArg Prod.snd (h.inj hk hb)
      · intro hh
        exact ⟨k.1, by rw [← hh]; exact hk⟩
    simp only [Option.map_some, m1, m2, ren]
    by_cases h1 : k.1 = old <;> by_cases h2 : k.2 = old <;> simp [h1, h2]
  -- the name of the other end of an edge
  let oth : Nat → A := fun e => match g.heap[e]? with | some o => o.start | none => old
  let oth' : Nat → A := fun e => match g.heap[e]? with | some o => o.stop | none => old
  have hoth : ∀ e ∈ n.ing, g.edges.get? (oth e, old) = some e := by
    intro e he
    obtain ⟨b, hb⟩ := (im e).1 he
    obtain ⟨c, hc⟩ := h.obj _ _ hb
    have : oth e = b := by simp only [oth]; rw [hc]
    rw [this]; exact hb
  have hoth' : ∀ e ∈ n.out, g.edges.get? (old, oth' e) = some e := by
    intro e he
    obtain ⟨b, hb⟩ := (om e).1 he
    obtain ⟨c, hc⟩ := h.obj _ _ hb
    have : oth' e = b := by simp only [oth']; rw [hc]
    rw [this]; exact hb
  obtain ⟨g4, d1, d2, d3, d4, d5⟩ := rekey_ok (H := g3.heap) (renameIng old new) (fun _ => True)
    (fun e => (oth e, old)) (fun e => (ren old new (oth e), new)) n.ing inn
    (by
      intro g' hg' e he _ hk
      obtain ⟨c, _, hc⟩ := hheap _ _ (hoth e he)
      have hk' : g'.edges.has (oth e, old) = true := by
        rw [Dict.has_iff, Dict.mem_keys_iff]; exact ⟨e, hk⟩
      unfold renameIng
      rw [hg', hc]
      simp only [rold]
      by_cases hs : oth e = old
      · simp only [hs, rold, if_true] at hk' ⊢
        rw [if_pos hk']
      · have hne' : ren old new (oth e) ≠ new := by
          rw [Ne, rnew_iff _ (hends _ _ (hoth e he)).1]; exact hs
        rw [if_neg hne', rother _ hs, if_pos hk'])
    (fun _ _ _ _ hc => absurd trivial hc)
    (by
      intro e he _ e' he' _ hee
      simp only [Prod.mk.injEq, and_true] at hee
      have : oth e = oth e' := hinj _ _ (hends _ _ (hoth e he)).1 (hends _ _ (hoth e' he')).1 hee
      have h1 := hoth e he
      rw [this, hoth e' he'] at h1
      simpa using h1.symm)
    g3 rfl (by rw [hE3]; exact h.edgesWF) (fun k k' e => by rw [hE3]; exact h.inj)
    (fun e he _ => by rw [hE3]; exact hoth e he)
    (by
      intro e he _
      rw [hE3]
      by_contra hc
      obtain ⟨f, hf⟩ := Option.ne_none_iff_exists'.1 hc
      exact (hends _ _ hf).2 rfl)
  have hrel4 : ∀ k e, g4.edges.get? k = some e ↔
      (e ∈ n.ing ∧ k = (ren old new (oth e), new)) ∨ (e ∉ n.ing ∧ g.edges.get? k = some e) := by
    intro k e
    rw [d5, hE3]
    simp
  have inj4 : ∀ k k' e, g4.edges.get? k = some e → g4.edges.get? k' = some e → k = k' := by
    intro k k' e hk hk'
    rw [hrel4] at hk hk'
    rcases hk with ⟨h1, h2⟩ | ⟨h1, h2⟩ <;> rcases hk' with ⟨h3, h4⟩ | ⟨h3, h4⟩
    · rw [h2, h4]
    · exact absurd h1 h3
    · exact absurd h3 h1
    · exact h.inj h2 h4
  have hself : ∀ e ∈ n.out, (e ∈ n.ing ↔ oth' e = old) := by
    intro e he
    rw [im]
    constructor
    · rintro ⟨b, hb⟩
      have := h.inj (hoth' e he) hb
      exact congrArg Prod.snd this
    · intro hh
      exact ⟨old, by have := hoth' e he; rwa [hh] at this⟩
  obtain ⟨g5, f1, f2, f3, f4, f5⟩ := rekey_ok (H := g3.heap) (renameOut old new) (fun e => oth' e ≠ old)
    (fun e => (old, oth' e)) (fun e => (new, oth' e)) n.out on
    (by
      intro g' hg' e he hP hk
      obtain ⟨c, _, hc⟩ := hheap _ _ (hoth' e he)
      have hk' : g'.edges.has (old, oth' e) = true := by
        rw [Dict.has_iff, Dict.mem_keys_iff]; exact ⟨e, hk⟩
      unfold renameOut
      rw [hg', hc]
      simp only [rold, rother _ hP]
      rw [if_neg (fun hc => (hends _ _ (hoth' e he)).2 hc.symm), if_pos hk'])
    (by
      intro g' hg' e he hP
      obtain ⟨c, _, hc⟩ := hheap _ _ (hoth' e he)
      have hP : oth' e = old := by simpa using hP
      unfold renameOut
      rw [hg', hc]
      simp only [hP, rold, if_true])
    (by
      intro e he _ e' he' _ hee
      simp only [Prod.mk.injEq, true_and] at hee
      have h1 := hoth' e he
      rw [hee, hoth' e' he'] at h1
      simpa using h1.symm)
    g4 d2 d4 inj4
    (by
      intro e he hP
      rw [hrel4]
      exact .inr ⟨fun hc => hP ((hself e he).1 hc), hoth' e he⟩)
    (by
      intro e he hP
      by_contra hc
      obtain ⟨f, hf⟩ := Option.ne_none_iff_exists'.1 hc
      rw [hrel4] at hf
      rcases hf with ⟨_, h2⟩ | ⟨_, h2⟩
      · simp only [Prod.mk.injEq] at h2
        exact (hends _ _ (hoth' e he)).2 h2.2
      · exact (hends _ _ h2).1 rfl)
  have hrel5 : ∀ k e, g5.edges.get? k = some e ↔
      ∃ k0, g.edges.get? k0 = some e ∧ k = (ren old new k0.1, ren old new k0.2) := by
    intro k e
    rw [f5, hrel4]
    constructor
    · rintro (⟨h1, h2, h3⟩ | ⟨h1, ⟨h2, h3⟩ | ⟨h2, h3⟩⟩)
      · exact ⟨(old, oth' e), hoth' e h1, by rw [h3, rold, rother _ h2]⟩
      · exact ⟨(oth e, old), hoth e h2, by rw [h3, rold]⟩
      · refine ⟨k, h3, ?_⟩
        have k2 : k.2 ≠ old := by
          intro hc
          exact h2 ((im e).2 ⟨k.1, by rw [← hc]; exact h3⟩)
        have k1 : k.1 ≠ old := by
          intro hc
          have heo : e ∈ n.out := (om e).2 ⟨k.2, by rw [← hc]; exact h3⟩
          apply h1
          refine ⟨heo, ?_⟩
          intro hc'
          exact h2 ((hself e heo).2 hc')
        rw [rother _ k1, rother _ k2]
    · rintro ⟨k0, hk0, rfl⟩
      by_cases h2 : k0.2 = old
      · have hei : e ∈ n.ing := (im e).2 ⟨k0.1, by rw [← h2]; exact hk0⟩
        right
        refine ⟨?_, .inl ⟨hei, ?_⟩⟩
        · rintro ⟨heo, hP⟩
          exact hP ((hself e heo).1 hei)
        · have := h.inj hk0 (hoth e hei)
          rw [this, rold]
      · have hni : e ∉ n.ing := by
          intro hc
          have := h.inj hk0 (hoth e hc)
          exact h2 (congrArg Prod.snd this)
        by_cases h1 : k0.1 = old
        · have heo : e ∈ n.out := (om e).2 ⟨k0.2, by rw [← h1]; exact hk0⟩
          have hk := h.inj hk0 (hoth' e heo)
          have hP : oth' e ≠ old := by
            intro hc; exact hni ((hself e heo).2 hc)
          exact .inl ⟨heo, hP, by rw [hk, rold, rother _ hP]⟩
        · right
          refine ⟨?_, .inr ⟨hni, ?_⟩⟩
          · rintro ⟨heo, _⟩
            have := h.inj hk0 (hoth' e heo)
            exact h1 (congrArg Prod.fst this)
          · rw [rother _ h1, rother _ h2]; exact hk0
  have hN5 : g5.nodes = N := f3.trans (d3.trans hN3)
  have hNget : ∀ x, Dict.get? N x = if x = old then none else if x = new then some n else g.nodes.get? x := by
    intro x
    show Dict.get? ((g.nodes.put new n).del old) x = _
    rw [Dict.get?_del (h.nodesWF.put _ _), Dict.get?_put]
    by_cases h1 : x = old
    · simp [h1]
    · simp only [Ne.symm h1, h1, if_false]
      by_cases h2 : x = new
      · simp [h2]
      · simp [h2, Ne.symm h2]
  have hkeys : ∀ x, x ∈ g5.nodes.keys ↔ ∃ x0 ∈ g.nodes.keys, x = ren old new x0 := by
    intro x
    rw [hN5, Dict.mem_keys_iff, hNget]
    by_cases h1 : x = old
    · subst h1
      simp only [if_true]
      constructor
      · rintro ⟨_, hh⟩; cases hh
      · rintro ⟨x0, _, hh⟩; exact absurd hh.symm (rne_old x0)
    · rw [if_neg h1]
      by_cases h2 : x = new
      · subst h2
        simp only [if_true]
        exact ⟨fun _ => ⟨old, ho, rold.symm⟩, fun _ => ⟨n, rfl⟩⟩
      · rw [if_neg h2, ← Dict.mem_keys_iff]
        constructor
        · exact fun hh => ⟨x, hh, (rother x h1).symm⟩
        · rintro ⟨x0, hx0, hh⟩
          unfold ren at hh
          split at hh
          · exact absurd hh h2
          · rw [hh]; exact hx0
  have hobj5 : ∀ k e, g5.edges.get? k = some e → ∃ c, g5.heap[e]? = some ⟨k.1, k.2, c⟩ := by
    intro k e hk
    obtain ⟨k0, hk0, rfl⟩ := (hrel5 k e).1 hk
    obtain ⟨c, _, hc⟩ := hheap k0 e hk0
    exact ⟨c, by rw [f2]; exact hc⟩
  refine ⟨g5, ?_, ⟨⟨f4, ?_, hobj5, ?_, ?_⟩, ?_⟩, hkeys, ?_⟩
  · unfold rename
    have : g.nodes.getItem old = .ok n := by
      unfold Dict.getItem; rw [hnode]
    rw [this]
    show (n.ing.foldlM (renameIng old new) g3 >>= _) = _
    rw [d1]
    exact f1
  · rw [hN5]; exact (h.nodesWF.put _ _).del _
  · intro x m hm
    rw [hN5, hNget] at hm
    by_cases h1 : x = old
    · rw [if_pos h1] at hm; cases hm
    · rw [if_neg h1] at hm
      by_cases h2 : x = new
      · rw [if_pos h2] at hm
        cases hm
        refine ⟨on, fun e => ?_⟩
        constructor
        · intro he
          exact ⟨ren old new (oth' e), (hrel5 _ _).2 ⟨_, hoth' e he, by rw [h2, rold]⟩⟩
        · rintro ⟨b, hb⟩
          obtain ⟨k0, hk0, hh⟩ := (hrel5 _ _).1 hb
          simp only [Prod.mk.injEq] at hh
          have := (rnew_iff _ (hends _ _ hk0).1).1 (hh.1.symm.trans h2)
          exact (om e).2 ⟨k0.2, by rw [← this]; exact hk0⟩
      · rw [if_neg h2] at hm
        obtain ⟨o1, o2⟩ := h.out x m hm
        refine ⟨o1, fun e => ?_⟩
        rw [o2]
        constructor
        · rintro ⟨b, hb⟩
          exact ⟨ren old new b, (hrel5 _ _).2 ⟨_, hb, by rw [rother x h1]⟩⟩
        · rintro ⟨b, hb⟩
          obtain ⟨k0, hk0, hh⟩ := (hrel5 _ _).1 hb
          simp only [Prod.mk.injEq] at hh
          have : k0.1 = x := by
            have hh1 := hh.1
            unfold ren at hh1
            split at hh1
            · exact absurd hh1 h2
            · exact hh1.symm
          exact ⟨k0.2, by rw [← this]; exact hk0⟩
  · intro x m hm
    rw [hN5, hNget] at hm
    by_cases h1 : x = old
    · rw [if_pos h1] at hm; cases hm
    · rw [if_neg h1] at hm
      by_cases h2 : x = new
      · rw [if_pos h2] at hm
        cases hm
        refine ⟨inn, fun e => ?_⟩
        constructor
        · intro he
          exact ⟨ren old new (oth e), (hrel5 _ _).2 ⟨_, hoth e he, by rw [h2, rold]⟩⟩
        · rintro ⟨b, hb⟩
          obtain ⟨k0, hk0, hh⟩ := (hrel5 _ _).1 hb
          simp only [Prod.mk.injEq] at hh
          have := (rnew_iff _ (hends _ _ hk0).2).1 (hh.2.symm.trans h2)
          exact (im e).2 ⟨k0.1, by rw [← this]; exact hk0⟩
      · rw [if_neg h2] at hm
        obtain ⟨o1, o2⟩ := h.ing x m hm
        refine ⟨o1, fun e => ?_⟩
        rw [o2]
        constructor
        · rintro ⟨b, hb⟩
          exact ⟨ren old new b, (hrel5 _ _).2 ⟨_, hb, by rw [rother x h1]⟩⟩
        · rintro ⟨b, hb⟩
          obtain ⟨k0, hk0, hh⟩ := (hrel5 _ _).1 hb
          simp only [Prod.mk.injEq] at hh
          have : k0.2 = x := by
            have hh1 := hh.2
            unfold ren at hh1
            split at hh1
            · exact absurd hh1 h2
            · exact hh1.symm
          exact ⟨k0.1, by rw [← this]; exact hk0⟩
  · intro k e hk
    obtain ⟨k0, hk0, rfl⟩ := (hrel5 k e).1 hk
    obtain ⟨h1, h2⟩ := h.ends _ _ hk0
    exact ⟨(hkeys _).2 ⟨_, h1, rfl⟩, (hkeys _).2 ⟨_, h2, rfl⟩⟩
  · intro x y c
    constructor
    · intro hc
      unfold cnt at hc
      obtain ⟨e, he, hh⟩ := Option.bind_eq_some_iff.1 hc
      obtain ⟨k0, hk0, hk⟩ := (hrel5 _ _).1 he
      simp only [Prod.mk.injEq] at hk
      obtain ⟨c', h1, h2⟩ := hheap k0 e hk0
      rw [f2, h2] at hh
      simp at hh
      refine ⟨k0.1, k0.2, ?_, hk.1, hk.2⟩
      unfold cnt
      rw [show g.edges.get? (k0.1, k0.2) = some e from hk0]
      simp [h1, hh]
    · rintro ⟨x0, y0, hc, rfl, rfl⟩
      unfold cnt at hc
      obtain ⟨e, he, hh⟩ := Option.bind_eq_some_iff.1 hc
      obtain ⟨c', h1, h2⟩ := hheap _ e he
      rw [h1] at hh
      simp at hh
      unfold cnt
      rw [(hrel5 _ _).2 ⟨(x0, y0), he, rfl⟩]
      simp only [Option.bind_some]
      rw [f2, h2]
      simp [hh]

end Prolothar.Dfg
