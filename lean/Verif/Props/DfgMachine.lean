import Verif.Model.DfgMachine
import Verif.Lemmas.Float
import Verif.Props.Dfg
import Verif.Props.CInt
/-
C147: bounded counts of directly-follows graphs. C148: floating point frequencies.
-/
namespace Prolothar.Dfg
open Prolothar.EventLog (Log Event Trace)
open Prolothar.Spec.Dfg Prolothar.Spec.Float Prolothar.Float
variable {A : Type} [LinearOrder A]

/-! ### C147 -/

/-- all counts of the graph are values of the C type `int` -/
def Fits (g : Graph A) : Prop := ∀ a b, -2 ^ 31 ≤ getCount g a b ∧ getCount g a b ≤ 2 ^ 31 - 1

theorem isInt_iff (x : Int) : CInt.isInt x = true ↔ -2 ^ 31 ≤ x ∧ x ≤ 2 ^ 31 - 1 := by
  unfold CInt.isInt
  simp

theorem addCountInt_small {g : Graph A} (h : WF g) (a b : A) (k : Int) (hk : CInt.isInt k = true)
    (hs : CInt.isInt (getCount g a b + k) = true) : addCountInt g a b k = (addCount g a b k, .ok ()) := by
  unfold addCountInt addCount
  have e1 : CInt.toInt k = .ok k := by unfold CInt.toInt; rw [if_pos hk]
  rw [e1]
  dsimp only
  have h2 := addNode_core (addNode_core h a) b
  have hc : getCount (addNode (addNode g a) b) a b = getCount g a b := by
    rw [getCount_eq, getCount_eq, addNode_cnt, addNode_cnt]
  rw [← hc] at hs
  generalize addNode (addNode g a) b = g2 at *
  cases he : g2.edges.get? (a, b) with
  | some e =>
    obtain ⟨c, hc1, hc2⟩ := h2.toCore.cnt_eq he
    rw [getCount_eq, hc2] at hs
    simp only [Option.getD_some] at hs
    dsimp only
    unfold increase
    rw [hc1]
    dsimp only
    have e2 : CInt.toInt (c + k) = .ok (c + k) := by unfold CInt.toInt; rw [if_pos hs]
    rw [e2]
    dsimp only
    congr 1
    unfold modifyEdge
    congr 1
    refine List.ext_getElem? ?_
    intro i
    rw [List.getElem?_modify, List.getElem?_modify]
    by_cases hi : e = i
    · subst hi; simp [hc1]
    · simp [hi]
  | none =>
    rw [getCount_eq, cnt_none he] at hs
    simp only [Option.getD_none, zero_add] at hs
    dsimp only
    unfold increase
    have hh : (appendIng (appendOut (newEdge g2 (a, b) 0) a g2.heap.length) b g2.heap.length).heap[g2.heap.length]? =
        some ⟨a, b, 0⟩ := by
      have : ∀ (g : Graph A) (x : A) (f), (modifyNode g x f).heap = g.heap := by
        intro g x f; unfold modifyNode; split <;> rfl
      unfold appendIng appendOut
      rw [this, this]
      simp [newEdge]
    rw [hh]
    dsimp only
    have e2 : CInt.toInt (0 + k) = .ok (0 + k) := by unfold CInt.toInt; rw [zero_add, if_pos hs]
    rw [e2]
    dsimp only
    congr 1
    unfold modifyEdge
    congr 1
    refine List.ext_getElem? ?_
    intro i
    rw [List.getElem?_modify, List.getElem?_modify]
    by_cases hi : g2.heap.length = i
    · subst hi; simp [hh]
    · simp [hi]

/-- C147: `add_count` on a graph with bounded counts: either the argument and the new count are in the range of a C `int`, and the
result is the one of unbounded counts, or OverflowError is raised and the graph is exactly as before. No count ever wraps around. -/
theorem C147_add_count {g : Graph A} (hb : Built g) (a b : A) (k : Int) :
    addCountInt g a b k =
      if -2 ^ 31 ≤ k ∧ k ≤ 2 ^ 31 - 1 ∧ -2 ^ 31 ≤ getCount g a b + k ∧ getCount g a b + k ≤ 2 ^ 31 - 1 then
        (addCount g a b k, .ok ())
      else (g, .error .overflow) := by
  have h := hb.wf
  split
  · rename_i hh
    exact addCountInt_small h a b k ((isInt_iff k).2 ⟨hh.1, hh.2.1⟩) ((isInt_iff _).2 ⟨hh.2.2.1, hh.2.2.2⟩)
  · rename_i hh
    unfold addCountInt
    by_cases hk : CInt.isInt k = true
    · have e1 : CInt.toInt k = .ok k := by unfold CInt.toInt; rw [if_pos hk]
      rw [e1]
      dsimp only
      have hs : ¬ CInt.isInt (getCount g a b + k) = true := by
        intro hs
        rw [isInt_iff] at hk hs
        exact hh ⟨hk.1, hk.2, hs.1, hs.2⟩
      cases he : g.edges.get? (a, b) with
      | none =>
        rw [getCount_eq, cnt_none he] at hs
        simp only [Option.getD_none, zero_add] at hs
        exact absurd hk hs
      | some e =>
        obtain ⟨m1, m2⟩ := h.ends _ _ he
        rw [addNode_of_mem m1, addNode_of_mem m2, he]
        obtain ⟨c, hc1, hc2⟩ := h.toCore.cnt_eq he
        rw [getCount_eq, hc2] at hs
        simp only [Option.getD_some] at hs
        dsimp only
        unfold increase
        rw [hc1]
        dsimp only
        have e2 : CInt.toInt (c + k) = .error .overflow := by unfold CInt.toInt; rw [if_neg hs]
        rw [e2]
    · have e1 : CInt.toInt k = .error .overflow := by unfold CInt.toInt; rw [if_neg hk]
      rw [e1]

theorem getCount_addCount {g : Graph A} (h : WF g) (a b x y : A) (k : Int) :
    getCount (addCount g a b k) x y = getCount g x y + if x = a ∧ y = b then k else 0 := by
  rw [getCount_eq, getCount_eq, (addCount_wf h a b k).2.2 x y]
  split
  · rename_i hh
    obtain ⟨rfl, rfl⟩ := hh
    simp
  · simp

/-- the outcome of reading counts that end in the graph `G`: `G` if its counts fit, and otherwise OverflowError with a graph that
has some of the counts -/
def Outcome (g G : Graph A) (r : Graph A × Py Unit) : Prop :=
  (Fits G ∧ r = (G, .ok ())) ∨
  ∃ g', r = (g', .error .overflow) ∧ Built g' ∧ Fits g' ∧ (∀ a b, getCount g a b ≤ getCount g' a b ∧ getCount g' a b ≤ getCount G a b) ∧
    ∃ a b, getCount g' a b = 2 ^ 31 - 1 ∧ 2 ^ 31 ≤ getCount G a b

theorem built_pairs {g : Graph A} (hb : Built g) (ps : List (A × A)) :
    Built (ps.foldl (fun g p => addCount g p.1 p.2 1) g) ∧
      ∀ x y, getCount g x y ≤ getCount (ps.foldl (fun g p => addCount g p.1 p.2 1) g) x y := by
  induction ps generalizing g with
  | nil => exact ⟨hb, fun _ _ => le_refl _⟩
  | cons p ps ih =>
    obtain ⟨i1, i2⟩ := ih (hb.addCount p.1 p.2 1)
    refine ⟨i1, fun x y => le_trans ?_ (i2 x y)⟩
    rw [getCount_addCount hb.wf]
    split <;> omega

theorem readPairsInt_ok {g : Graph A} (hb : Built g) (hf : Fits g) (ps : List (A × A)) :
    Outcome g (ps.foldl (fun g p => addCount g p.1 p.2 1) g) (readPairsInt g ps) := by
  induction ps generalizing g with
  | nil => exact .inl ⟨hf, rfl⟩
  | cons p ps ih =>
    have hadd := C147_add_count (hb.addNode p.1) p.1 p.2 1
    have hg : getCount (addNode g p.1) p.1 p.2 = getCount g p.1 p.2 := by
      rw [getCount_eq, getCount_eq, addNode_cnt]
    rw [hg, addCount_addNode] at hadd
    have h1 := hf p.1 p.2
    have hb1 := hb.addCount p.1 p.2 1
    obtain ⟨m1, m2⟩ := built_pairs hb1 ps
    unfold readPairsInt
    rw [hadd, List.foldl_cons]
    by_cases hs : getCount g p.1 p.2 + 1 ≤ 2 ^ 31 - 1
    · rw [if_pos ⟨by omega, by omega, by omega, hs⟩]
      have hf1 : Fits (addCount g p.1 p.2 1) := by
        intro x y
        rw [getCount_addCount hb.wf]
        have := hf x y
        split
        · rename_i hh; obtain ⟨rfl, rfl⟩ := hh; omega
        · omega
      rcases ih hb1 hf1 with ⟨i1, i2⟩ | ⟨g', i1, i2, i3, i4, i5⟩
      · exact .inl ⟨i1, i2⟩
      · refine .inr ⟨g', i1, i2, i3, fun a b => ⟨le_trans ?_ (i4 a b).1, (i4 a b).2⟩, i5⟩
        rw [getCount_addCount hb.wf]
        split <;> omega
    · rw [if_neg (by intro hh; exact hs hh.2.2.2)]
      have hmono : ∀ a b, getCount g a b ≤ getCount (ps.foldl (fun g p => addCount g p.1 p.2 1) (addCount g p.1 p.2 1)) a b := by
        intro a b
        refine le_trans ?_ (m2 a b)
        rw [getCount_addCount hb.wf]
        split <;> omega
      have hsame : ∀ a b, getCount (addNode g p.1) a b = getCount g a b := by
        intro a b; rw [getCount_eq, getCount_eq, addNode_cnt]
      refine .inr ⟨_, rfl, hb.addNode p.1, ?_, ?_, p.1, p.2, ?_, ?_⟩
      · intro a b; rw [hsame]; exact hf a b
      · intro a b; rw [hsame]; exact ⟨le_refl _, hmono a b⟩
      · rw [hsame]; omega
      · refine le_trans ?_ (m2 p.1 p.2)
        rw [getCount_addCount hb.wf, if_pos ⟨rfl, rfl⟩]
        omega

theorem readTrace_eq (g : Graph A) (acts : List A) :
    readTrace g acts = (acts.zip acts.tail).foldl (fun g p => addCount g p.1 p.2 1) (addFirst g acts) := by
  unfold readTrace
  dsimp only
  congr 1
  funext g p
  exact addCount_addNode ..

theorem readCountsInt_ok {I V : Type} {g : Graph A} (hb : Built g) (hf : Fits g) (log : Log I A V) :
    Outcome g (readCounts g log) (readCountsInt g log) := by
  induction log generalizing g with
  | nil => exact .inl ⟨hf, rfl⟩
  | cons t log ih =>
    have hfirst : Built (addFirst g t.activities) ∧ ∀ a b, getCount (addFirst g t.activities) a b = getCount g a b := by
      cases t.activities with
      | nil => exact ⟨hb, fun _ _ => rfl⟩
      | cons x _ => exact ⟨hb.addNode x, fun a b => by rw [getCount_eq, getCount_eq]; unfold addFirst; rw [addNode_cnt]⟩
    obtain ⟨hb1, hc1⟩ := hfirst
    have hf1 : Fits (addFirst g t.activities) := by intro a b; rw [hc1]; exact hf a b
    have hp := readPairsInt_ok hb1 hf1 (t.activities.zip t.activities.tail)
    obtain ⟨m1, m2⟩ := built_pairs hb1 (t.activities.zip t.activities.tail)
    rw [← readTrace_eq] at hp m1 m2
    have hall : readCounts g (t :: log) = readCounts (readTrace g t.activities) log := rfl
    have hmono : ∀ a b, getCount (readTrace g t.activities) a b ≤ getCount (readCounts g (t :: log)) a b := by
      intro a b
      rw [hall, C44_read_more m1]
      omega
    unfold readCountsInt
    rcases hp with ⟨p1, p2⟩ | ⟨g', p1, p2, p3, p4, x, y, p5, p6⟩
    · rw [p2]
      dsimp only
      rw [hall]
      rcases ih m1 p1 with ⟨i1, i2⟩ | ⟨g', i1, i2, i3, i4, i5⟩
      · exact .inl ⟨i1, i2⟩
      · refine .inr ⟨g', i1, i2, i3, fun a b => ⟨le_trans ?_ (i4 a b).1, (i4 a b).2⟩, i5⟩
        rw [← hc1]
        exact m2 a b
    · rw [p1]
      dsimp only
      refine .inr ⟨g', rfl, p2, p3, fun a b => ⟨?_, le_trans (p4 a b).2 (hmono a b)⟩, x, y, p5, le_trans p6 (hmono x y)⟩
      rw [← hc1]
      exact (p4 a b).1

/-- C147: reading the counts of a log into a graph gives the exact counts if these are in the range of a C `int`. Otherwise
OverflowError is raised; some count has then reached the largest value, and the counts of the graph, all of which are in the range, lie
between those before the call and the exact ones. -/
theorem C147_read {I V : Type} {g : Graph A} (hb : Built g) (hf : Fits g) (log : Log I A V) :
    (Fits (readCounts g log) → readCountsInt g log = (readCounts g log, .ok ())) ∧
    (¬ Fits (readCounts g log) → ∃ g', readCountsInt g log = (g', .error .overflow) ∧ Built g' ∧ Fits g' ∧
      (∀ a b, getCount g a b ≤ getCount g' a b ∧ getCount g' a b ≤ getCount (readCounts g log) a b) ∧
      ∃ a b, getCount g' a b = 2 ^ 31 - 1 ∧ 2 ^ 31 ≤ getCount (readCounts g log) a b) := by
  rcases readCountsInt_ok hb hf log with ⟨h1, h2⟩ | ⟨g', h1, h2, h3, h4, a, b, h5, h6⟩
  · exact ⟨fun _ => h2, fun h => absurd h1 h⟩
  · refine ⟨fun h => ?_, fun _ => ⟨g', h1, h2, h3, h4, a, b, h5, h6⟩⟩
    have := (h a b).2
    omega

/-- C147: the counts of a log with less than `2 ^ 31` events never overflow. -/
theorem C147_small_log {I V : Type} (log : Log I A V) (h : (log.map fun t => t.activities.length).sum < 2 ^ 31) :
    readCountsInt empty log = (createFromLog log, .ok ()) := by
  refine (C147_read (g := (empty : Graph A)) .new ?_ log).1 ?_
  · intro a b
    have : getCount (empty : Graph A) a b = 0 := rfl
    rw [this]; decide
  · intro a b
    have e := (C44_counts log).1 a b
    unfold createFromLog at e
    rw [e]
    have hle : (log.map fun t => adjacentCount a b t.activities).sum ≤ (log.map fun t => t.activities.length).sum := by
      apply List.sum_le_sum
      intro t _
      unfold adjacentCount
      exact le_trans (Finset.card_filter_le _ _) (by simp)
    omega

/-- a graph of a log, read twice -/
example : ∃ g : Graph Nat, Built g ∧ Fits g ∧ getCount g 1 2 = 2 ^ 31 - 1 ∧ addCountInt g 1 2 1 = (g, .error .overflow) := by
  have hb : Built (addCount (empty : Graph Nat) 1 2 (2 ^ 31 - 1)) := Built.new.addCount 1 2 _
  have hc : ∀ x y, getCount (addCount (empty : Graph Nat) 1 2 (2 ^ 31 - 1)) x y = if x = 1 ∧ y = 2 then 2 ^ 31 - 1 else 0 := by
    intro x y
    rw [getCount_addCount Built.new.wf, show getCount (empty : Graph Nat) x y = 0 from rfl, zero_add]
  refine ⟨_, hb, ?_, by rw [hc]; simp, ?_⟩
  · intro x y
    rw [hc]
    split <;> norm_num
  · rw [C147_add_count hb, hc, if_neg (by norm_num)]

/-! ### C148 -/

/-- C148: what is computed: `filter_edges_by_local_frequency` keeps all nodes and exactly the edges whose share of the outgoing
counts, rounded to a double, is at least the threshold, rounded to a single precision float. -/
theorem C148_filter {g : Graph A} (hb : Built g) (q : ℚ) :
    ∃ f, filterLocalFloat g q false = .ok f ∧ (∀ x, (view f).node x ↔ (view g).node x) ∧
      ∀ (x : A) (succs : List A), succs.Nodup → (∀ b, b ∈ succs ↔ (view g).Edge x b) →
        ∀ y c, (view f).count x y = some c ↔ (view g).count x y = some c ∧
          0 < (succs.map fun b => getCount g x b).sum ∧
          rnd 24 q ≤ rnd 53 ((c : ℚ) / ((succs.map fun b => getCount g x b).sum : ℤ)) := by
  obtain ⟨f, h1, _, h3, h4⟩ := filterLocalBy_plain hb.wf (frequentFloat q)
  simp only [view_node]
  refine ⟨f, h1, h3, ?_⟩
  intro x succs hnd hs y c
  have := outTotal_eq hb.wf x succs hnd (fun b => by rw [hs]; rfl)
  rw [← this]
  show cnt f x y = some c ↔ cnt g x y = some c ∧ _
  rw [h4]
  unfold frequentFloat
  simp

/-- C148: the rounding of the model is the one of IEEE 754: the result is a float with `p` significant bits that is nearest to the
argument. -/
theorem C148_rounding (p : Nat) (hp : 1 ≤ p) (x : ℚ) : IsNearest p x (rnd p x) := rnd_nearest p hp x

/-- two frequency tests that agree on all edges of a graph filter it in the same way -/
theorem filterLocalBy_congr {g : Graph A} (t t' : Int → EdgeObj A → Bool) (keep : Bool)
    (h : ∀ n ∈ g.nodes.values, ∀ o ∈ outObjs g n, t (totalCount (outObjs g n)) o = t' (totalCount (outObjs g n)) o) :
    filterLocalBy g t keep = filterLocalBy g t' keep := by
  have e : ∀ l : List NodeObj, (∀ n ∈ l, n ∈ g.nodes.values) → ∀ f, l.foldl (addFrequent g t) f = l.foldl (addFrequent g t') f := by
    intro l
    induction l with
    | nil => intro _ f; rfl
    | cons n l ih =>
      intro hl f
      simp only [List.foldl_cons]
      have e1 : addFrequent g t f n = addFrequent g t' f n := by
        unfold addFrequent
        have e2 : ∀ l' : List (EdgeObj A), (∀ o ∈ l', o ∈ outObjs g n) → ∀ f,
            l'.foldl (fun f o => if t (totalCount (outObjs g n)) o then addCount f o.start o.stop o.count else f) f =
            l'.foldl (fun f o => if t' (totalCount (outObjs g n)) o then addCount f o.start o.stop o.count else f) f := by
          intro l'
          induction l' with
          | nil => intro _ f; rfl
          | cons o l' ih' =>
            intro hl' f
            simp only [List.foldl_cons]
            rw [h n (hl n (by simp)) o (hl' o (by simp))]
            exact ih' (fun o ho => hl' o (by simp [ho])) _
        exact e2 _ (fun o ho => ho) f
      rw [e1]
      exact ih (fun n hn => hl n (by simp [hn])) _
  unfold filterLocalBy
  congr 1
  funext f
  rw [e _ (fun n hn => hn)]

/-- the same in terms of the view of a graph -/
theorem filterLocalFloat_eq {g : Graph A} (hb : Built g) (q : ℚ) (keep : Bool)
    (h : ∀ (x : A) (succs : List A), succs.Nodup → (∀ b, b ∈ succs ↔ (view g).Edge x b) → ∀ y c, (view g).count x y = some c →
      0 < (succs.map fun b => getCount g x b).sum →
      (rnd 24 q ≤ rnd 53 ((c : ℚ) / ((succs.map fun b => getCount g x b).sum : ℤ)) ↔
        q ≤ (c : ℚ) / ((succs.map fun b => getCount g x b).sum : ℤ))) :
    filterLocalFloat g q keep = filterLocal g q keep := by
  unfold filterLocalFloat filterLocal
  refine filterLocalBy_congr _ _ _ ?_
  intro n hn o ho
  obtain ⟨a, ha⟩ : ∃ a, g.nodes.get? a = some n := by
    obtain ⟨⟨a, n'⟩, hp, rfl⟩ := List.mem_map.1 hn
    exact ⟨a, Dict.get?_of_mem hb.wf.nodesWF hp⟩
  obtain ⟨h1, h2⟩ := (mem_outObjs hb.wf.toCore ha o).1 ho
  have hs : ∀ b, b ∈ ((outObjs g n).map EdgeObj.stop).dedup ↔ (view g).Edge a b := by
    intro b
    rw [List.mem_dedup, List.mem_map]
    constructor
    · rintro ⟨o', ho', rfl⟩
      exact ⟨_, ((mem_outObjs hb.wf.toCore ha o').1 ho').2⟩
    · rintro ⟨c, hc⟩
      exact ⟨⟨a, b, c⟩, (mem_outObjs hb.wf.toCore ha _).2 ⟨rfl, hc⟩, rfl⟩
  have key := h a _ (List.nodup_dedup _) hs o.stop o.count h2
  have e := outTotal_eq hb.wf a _ (List.nodup_dedup _) (fun b => by rw [hs]; rfl)
  rw [← e] at key
  have e' : outTotal g a = totalCount (outObjs g n) := by unfold outTotal; rw [ha]
  rw [e'] at key
  unfold frequentFloat frequent
  by_cases hp : 0 < totalCount (outObjs g n)
  · simp only [hp, true_and]
    rw [decide_eq_decide]
    exact key hp
  · simp only [hp, false_and]

theorem rnd_le {p : Nat} {x : ℚ} (hx : 0 ≤ x) : rnd p x * 2 ^ p ≤ x * (2 ^ p + 1) := by
  have := rnd_err p x
  rw [abs_of_nonneg hx] at this
  nlinarith [le_abs_self (rnd p x - x), show (0 : ℚ) < 2 ^ p by positivity]

theorem le_rnd {p : Nat} {x : ℚ} (hx : 0 ≤ x) : x * (2 ^ p - 1) ≤ rnd p x * 2 ^ p := by
  have := rnd_err p x
  rw [abs_of_nonneg hx] at this
  nlinarith [neg_abs_le (rnd p x - x), show (0 : ℚ) < 2 ^ p by positivity]

theorem rnd_neg {p : Nat} (hp : 1 ≤ p) {x : ℚ} (hx : x < 0) : rnd p x < 0 := by
  have := rnd_err p x
  rw [abs_of_neg hx] at this
  have h2 : (2 : ℚ) ≤ 2 ^ p := by
    calc (2 : ℚ) = 2 ^ 1 := by norm_num
      _ ≤ 2 ^ p := pow_le_pow_right₀ (by norm_num) hp
  by_contra hc
  push Not at hc
  rw [abs_of_pos (by linarith)] at this
  nlinarith

/-- C148: if no share of an edge is within a relative distance of `2 ^ -22` of the threshold then the compiled filter and the exact one
agree, with and without `keep_at_least_one_outgoing_edge`. -/
theorem C148_clear {g : Graph A} (hb : Built g) (q : ℚ) (hq : 0 < q) (keep : Bool)
    (h : ∀ (x : A) (succs : List A), succs.Nodup → (∀ b, b ∈ succs ↔ (view g).Edge x b) → ∀ y c, (view g).count x y = some c →
      (c : ℚ) / ((succs.map fun b => getCount g x b).sum : ℤ) ≤ q * (1 - 1 / 2 ^ 22) ∨
      q * (1 + 1 / 2 ^ 22) ≤ (c : ℚ) / ((succs.map fun b => getCount g x b).sum : ℤ)) :
    filterLocalFloat g q keep = filterLocal g q keep := by
  refine filterLocalFloat_eq hb q keep ?_
  intro x succs hnd hs y c hc hpos
  have := h x succs hnd hs y c hc
  generalize (c : ℚ) / ((succs.map fun b => getCount g x b).sum : ℤ) = s at *
  have u1 := rnd_le (p := 24) hq.le
  have u2 := le_rnd (p := 24) hq.le
  rcases this with h1 | h1
  · refine iff_of_false ?_ ?_
    · push Not
      rcases lt_or_ge s 0 with hs0 | hs0
      · have := rnd_neg (p := 53) (by norm_num) hs0
        norm_num at u2
        linarith
      · have u3 := rnd_le (p := 53) hs0
        norm_num at u1 u2 u3 h1 ⊢
        linarith
    · push Not
      norm_num at h1
      linarith
  · have hs0 : 0 ≤ s := by
      norm_num at h1
      linarith
    have u3 := le_rnd (p := 53) hs0
    refine iff_of_true ?_ ?_
    · norm_num at u1 u2 u3 h1 ⊢
      linarith
    · norm_num at h1
      linarith

/-- C148: the compiled filter agrees with the exact one for every threshold that is a single precision float `k / 2 ^ m`, like `0.5`, `0.25`
or `0.375`, as long as no node has an outgoing count of more than `2 ^ 29`. -/
theorem C148_float_threshold {g : Graph A} (hb : Built g) (k m : Nat) (hk : k < 2 ^ 24) (keep : Bool)
    (h : ∀ (x : A) (succs : List A), succs.Nodup → (∀ b, b ∈ succs ↔ (view g).Edge x b) →
      (succs.map fun b => getCount g x b).sum ≤ 2 ^ 29) :
    filterLocalFloat g ((k : ℚ) / 2 ^ m) keep = filterLocal g ((k : ℚ) / 2 ^ m) keep := by
  refine filterLocalFloat_eq hb _ keep ?_
  intro x succs hnd hs y c hc hpos
  have htot := h x succs hnd hs
  generalize (succs.map fun b => getCount g x b).sum = T at *
  have hrep : ∀ p : Nat, 24 ≤ p → Representable p ((k : ℚ) / 2 ^ m) := by
    intro p hp
    refine ⟨k, -(m : Int), ?_, ?_⟩
    · rw [Nat.abs_cast]
      calc ((k : Nat) : Int) < 2 ^ 24 := by exact_mod_cast hk
        _ ≤ 2 ^ p := pow_le_pow_right₀ (by norm_num) hp
    · rw [zpow_neg, zpow_natCast, div_eq_mul_inv]; norm_cast
  rw [rnd_representable 24 (by norm_num) (hrep 24 le_rfl)]
  have hT : (0 : ℚ) < T := by exact_mod_cast hpos
  have h2 : (0 : ℚ) < 2 ^ m := by positivity
  constructor
  · intro hle
    by_contra hlt
    push Not at hlt
    rcases lt_or_ge ((c : ℚ) / T) 0 with hs0 | hs0
    · have := rnd_neg (p := 53) (by norm_num) hs0
      have : (0 : ℚ) ≤ (k : ℚ) / 2 ^ m := by positivity
      linarith
    · have u := rnd_le (p := 53) hs0
      -- the two sides differ by at least `1 / (T * 2 ^ m)`
      have hgap : (c : ℚ) * 2 ^ m + 1 ≤ k * T := by
        rw [div_lt_div_iff₀ hT h2] at hlt
        have : c * 2 ^ m < (k : Int) * T := by exact_mod_cast hlt
        have : c * 2 ^ m + 1 ≤ (k : Int) * T := this
        exact_mod_cast this
      have hk' : (k : ℚ) ≤ 2 ^ 24 := by exact_mod_cast hk.le
      have hT' : (T : ℚ) ≤ 2 ^ 29 := by exact_mod_cast htot
      have v : (k : ℚ) / 2 ^ m * 2 ^ 53 ≤ (c : ℚ) / T * (2 ^ 53 + 1) := le_trans (by nlinarith) u
      have v' : (k : ℚ) * T * 2 ^ 53 ≤ c * 2 ^ m * (2 ^ 53 + 1) := by
        have e1 : (k : ℚ) / 2 ^ m * 2 ^ 53 * (T * 2 ^ m) = k * T * 2 ^ 53 := by field_simp
        have e2 : (c : ℚ) / T * (2 ^ 53 + 1) * (T * 2 ^ m) = c * 2 ^ m * (2 ^ 53 + 1) := by field_simp
        rw [← e1, ← e2]
        exact mul_le_mul_of_nonneg_right v (by positivity)
      have w : (k : ℚ) * T ≤ 2 ^ 24 * 2 ^ 29 := mul_le_mul hk' hT' hT.le (by positivity)
      norm_num at v' w
      nlinarith
  · intro hle
    have := rnd_mono 53 (by norm_num) hle
    rwa [rnd_representable 53 (by norm_num) (hrep 53 (by norm_num))] at this

/-- one tenth is no float; the single precision float next to it is larger than the double next to it -/
theorem tenth_rounded : rnd 53 (1 / 10) < rnd 24 (rnd 53 (1 / 10)) := by decide +kernel

/-- C148: so the threshold `0.1` drops all edges whose share is exactly one tenth, although `1 / 10 >= 0.1` holds in python: all
edges of a node with ten successors of count one are lost. -/
theorem C148_tenth {g : Graph A} (hb : Built g) :
    ∃ f, filterLocalFloat g (rnd 53 (1 / 10)) false = .ok f ∧
      ∀ (x : A) (succs : List A), succs.Nodup → (∀ b, b ∈ succs ↔ (view g).Edge x b) →
        ∀ y c, (view g).count x y = some c → 10 * c = (succs.map fun b => getCount g x b).sum → (view f).count x y = none := by
  obtain ⟨f, h1, _, h3⟩ := C148_filter hb (rnd 53 (1 / 10))
  refine ⟨f, h1, ?_⟩
  intro x succs hnd hs y c hc h10
  cases hf : (view f).count x y with
  | none => rfl
  | some c' =>
    exfalso
    obtain ⟨k1, k2, k3⟩ := (h3 x succs hnd hs y c').1 hf
    rw [hc] at k1
    obtain rfl := Option.some.inj k1
    rw [← h10] at k2 k3
    have hc0 : (c : ℚ) ≠ 0 := by
      have : c ≠ 0 := by omega
      exact_mod_cast this
    have e : (c : ℚ) / ((10 * c : Int) : ℚ) = 1 / 10 := by
      push_cast
      field_simp
    rw [e] at k3
    exact absurd tenth_rounded (not_lt.2 k3)

/-- a graph with ten edges of count one -/
def tenEdges : Graph Nat := (List.range 10).foldl (fun g b => addCount g 100 b) empty

theorem tenEdges_built : Built tenEdges := by
  have : ∀ (l : List Nat) (g : Graph Nat), Built g → Built (l.foldl (fun g b => addCount g 100 b) g) := by
    intro l
    induction l with
    | nil => intro g hg; exact hg
    | cons b l ih => intro g hg; exact ih _ (hg.addCount 100 b 1)
  exact this _ _ .new

/-- the hypotheses of `C148_tenth` hold for it, and those of `C148_float_threshold` -/
example : getCount tenEdges 100 3 = 1 ∧ ((List.range 10).map fun b => getCount tenEdges 100 b).sum = 10 := by decide +kernel

example : filterLocalFloat tenEdges ((1 : Nat) / 2 ^ 4) true = filterLocal tenEdges ((1 : Nat) / 2 ^ 4) true := by
  refine C148_float_threshold tenEdges_built 1 4 (by norm_num) true ?_
  intro x succs hnd hs
  have hle : ∀ b ∈ succs, b < 10 ∧ x = 100 := by
    intro b hb
    obtain ⟨c, hc⟩ := (hs b).1 hb
    have : ∀ p ∈ tenEdges.edges.keys, p.2 < 10 ∧ p.1 = 100 := by decide +kernel
    have hm : (x, b) ∈ tenEdges.edges.keys := by
      rw [Dict.mem_keys_iff]
      unfold view at hc
      dsimp only at hc
      cases he : tenEdges.edges.get? (x, b) with
      | none => rw [he] at hc; cases hc
      | some e => exact ⟨e, rfl⟩
    exact this _ hm
  have hone : ∀ b < 10, getCount tenEdges 100 b = 1 := by decide +kernel
  have hsum : (succs.map fun b => getCount tenEdges x b) = succs.map fun _ => (1 : Int) := by
    refine List.map_congr_left ?_
    intro b hb
    rw [(hle b hb).2]
    exact hone b (hle b hb).1
  have hlen : succs.length ≤ 10 := by
    have h1 : succs ⊆ List.range 10 := by
      intro b hb
      exact List.mem_range.2 (hle b hb).1
    have := (hnd.subperm h1).length_le
    simpa using this
  rw [hsum]
  simp
  omega

end Prolothar.Dfg
