import Verif.Model.Ray
import Mathlib.Tactic.Common
/-
C139: the ray engine, for every schedule of the remote tasks.
-/
namespace Prolothar.Ray
open Prolothar.Parallel
variable {α O : Type}

theorem getAll_map (f : α → Except O O) (l : List α) : getAll (l.map f) = l.mapM f := by
  unfold getAll
  induction l with
  | nil => rfl
  | cons x xs ih => simp only [List.map_cons, List.mapM_cons, ih]; rfl

/-- the results of finished tasks are right -/
def ResOk (f : α → Except O O) (l : List α) (res : Nat → Option (Except O O)) : Prop :=
  ∀ i r, res i = some r → ∃ x, l[i]? = some x ∧ r = f x

theorem resOk_upd {f : α → Except O O} {l : List α} {res : Nat → Option (Except O O)} (h : ResOk f l res) {i : Nat} {x : α}
    (hx : l[i]? = some x) : ResOk f l (upd res i (some (f x))) := by
  intro j r hj
  by_cases hji : j = i
  · subst hji
    rw [upd_self] at hj
    exact ⟨x, hx, by cases hj; rfl⟩
  · rw [upd_ne _ _ hji] at hj
    exact h j r hj

def MapInv (f : α → Except O O) (l : List α) (s : MapState O) : Prop :=
  ResOk f l s.res ∧ match s.main with
    | .submitting k => k ≤ l.length
    | .waiting => True
    | .finished out => out = l.mapM f

theorem mapInv_step {f : α → Except O O} {l : List α} {s s' : MapState O} (h : MapInv f l s) (hs : MapStep f l s s') : MapInv f l s' := by
  cases hs with
  | submit hk => exact ⟨h.1, hk⟩
  | get => exact ⟨h.1, trivial⟩
  | work _ hx _ => exact ⟨resOk_upd h.1 hx, h.2⟩
  | @finish res rs hlen hres =>
    refine ⟨h.1, ?_⟩
    show getAll rs = _
    rw [← getAll_map]
    congr 1
    apply List.ext_getElem? 
    intro i
    by_cases hi : i < l.length
    · have h1 := hres i hi
      obtain ⟨x, hx, hr⟩ := h.1 i rs[i] (h1.trans (List.getElem?_eq_getElem (by omega)))
      rw [List.getElem?_map, hx, List.getElem?_eq_getElem (by omega), hr]; rfl
    · rw [List.getElem?_eq_none (by omega), List.getElem?_eq_none (by simp; omega)]

theorem mapInv_reach {f : α → Except O O} {l : List α} {s : MapState O} (h : Relation.ReflTransGen (MapStep f l) MapState.init s) :
    MapInv f l s := by
  induction h with
  | refl => exact ⟨fun _ _ h => (by cases h), Nat.zero_le _⟩
  | tail _ hs ih => exact mapInv_step ih hs

/-- C139: for every schedule, `map` returns what the single thread engine returns, or raises what it raises. -/
theorem C139_map (f : α → Except O O) (l : List α) (out : Except O (List O)) (h : RayMap f l out) : out = localMap f l := by
  obtain ⟨res, h⟩ := h
  exact (mapInv_reach h).2

/-- C139: for every schedule, `map_reduce` combines the results in the order of the list, for any operation, also if it is neither
associative nor commutative; an empty list raises TypeError. If no function raises, this is the result of the single thread engine. -/
theorem C139_map_reduce (B : Builtins O) (f : α → Except O O) (op : O → O → Except O O) (l : List α) (out : Except O O)
    (h : RayMapReduce B f op l out) :
    (l = [] → out = .error B.typeError) ∧
    (∀ e, localMap f l = .error e → out = .error e) ∧
    (∀ y ys, localMap f l = .ok (y :: ys) → out = ys.foldlM op y) ∧
    ((∀ x ∈ l, ∃ o, f x = .ok o) → out = localMapReduce B f op l) := by
  obtain ⟨mapped, hm, rfl⟩ := h
  rw [C139_map f l mapped hm]
  refine ⟨?_, ?_, ?_, ?_⟩
  · rintro rfl; rfl
  · intro e he; rw [he]; rfl
  · intro y ys he; rw [he]; rfl
  · intro htot
    cases l with
    | nil => rfl
    | cons x xs =>
      have hxs : ∃ ys, xs.mapM f = .ok ys ∧ ∀ r, ys.foldlM op r = xs.foldlM (fun r y => do let v ← f y; op r v) r := by
        have : ∀ y ∈ xs, ∃ o, f y = .ok o := fun y hy => htot y (List.mem_cons_of_mem _ hy)
        clear htot hm
        induction xs with
        | nil => exact ⟨[], rfl, fun _ => rfl⟩
        | cons y ys ih =>
          obtain ⟨zs, h1, h2⟩ := ih fun z hz => this z (List.mem_cons_of_mem _ hz)
          obtain ⟨o, ho⟩ := this y List.mem_cons_self
          refine ⟨o :: zs, ?_, fun r => ?_⟩
          · rw [List.mapM_cons, ho, h1]; rfl
          · rw [List.foldlM_cons, List.foldlM_cons, ho]
            show (op r o >>= fun s => zs.foldlM op s) = (op r o >>= fun s => ys.foldlM _ s)
            congr 1
            funext s
            exact h2 s
      obtain ⟨ys, h1, h2⟩ := hxs
      obtain ⟨o, ho⟩ := htot x List.mem_cons_self
      show (localMap f (x :: xs)).bind _ = _
      unfold localMap localMapReduce reduceGen
      simp only [List.mapM_cons, ho, h1]
      exact h2 o

/-! ### map_filter -/

/-- the state of the calling thread after `k` elements were filtered -/
def Kept (f : α → Except O O) (p : O → Except O Bool) (l : List α) (k : Nat) (kept : List Nat) : Prop :=
  k ≤ l.length ∧ ∃ os, (l.take k).mapM (mapFilterAct f p) = .ok os ∧
    kept.map (fun i => l[i]?.map f) = (os.filterMap id).map fun o => some (.ok o)

def FilterInv (f : α → Except O O) (p : O → Except O Bool) (l : List α) (s : FilterState O) : Prop :=
  ResOk f l s.res ∧ (∀ i b, s.fres i = some b → ∃ x, l[i]? = some x ∧ b = (f x).bind p) ∧ match s.main with
    | .submitting k => k ≤ l.length
    | .filtering k kept => Kept f p l k kept
    | .awaiting k kept => Kept f p l k kept ∧ k < l.length
    | .getting kept => Kept f p l l.length kept
    | .finished out => out = (l.mapM (mapFilterAct f p)).map fun os => os.filterMap id

theorem take_step (l : List α) (k : Nat) (x : α) (hx : l[k]? = some x) : l.take (k + 1) = l.take k ++ [x] := by
  rw [List.take_add_one, hx]; rfl

theorem kept_step {f : α → Except O O} {p : O → Except O Bool} {l : List α} {k : Nat} {kept : List Nat} (h : Kept f p l k kept) {x : α}
    (hx : l[k]? = some x) {b : Bool} (hb : .ok b = (f x).bind p) : Kept f p l (k + 1) (if b then kept ++ [k] else kept) := by
  obtain ⟨h1, os, h2, h3⟩ := h
  have hk : k < l.length := by
    by_contra hc
    rw [List.getElem?_eq_none (by omega)] at hx; cases hx
  cases hf : f x with
  | error e => rw [hf] at hb; cases hb
  | ok o =>
    rw [hf] at hb
    have hb' : p o = .ok b := hb.symm
    have hact : mapFilterAct f p x = .ok (if b then some o else none) := by
      unfold mapFilterAct
      rw [hf]
      show (p o >>= _) = _
      rw [hb']; rfl
    refine ⟨hk, os ++ [if b then some o else none], ?_, ?_⟩
    · rw [take_step l k x hx, List.mapM_append, h2, List.mapM_cons, hact]; rfl
    · cases b
      · simpa using h3
      · simp [h3, hx, hf]

theorem mapM_ok_id (l : List O) : getAll (l.map fun o => (.ok o : Except O O)) = .ok l := by
  rw [getAll_map]
  induction l with
  | nil => rfl
  | cons x xs ih => rw [List.mapM_cons, ih]; rfl

theorem filterInv_step {f : α → Except O O} {p : O → Except O Bool} {l : List α} {s s' : FilterState O} (h : FilterInv f p l s)
    (hs : FilterStep f p l s s') : FilterInv f p l s' := by
  obtain ⟨hr, hf, hm⟩ := h
  cases hs with
  | submit hk => exact ⟨hr, hf, hk⟩
  | filters => exact ⟨hr, hf, Nat.zero_le _, [], rfl, rfl⟩
  | work _ hx _ => exact ⟨resOk_upd hr hx, hf, hm⟩
  | @filterWork main res fres i r hi hn hres =>
    refine ⟨hr, fun j b hj => ?_, hm⟩
    by_cases hji : j = i
    · subst hji
      simp only [upd_self] at hj
      obtain ⟨x, hx, rfl⟩ := hr j r hres
      exact ⟨x, hx, by cases hj; rfl⟩
    · simp only [upd_ne _ _ hji] at hj
      exact hf j b hj
  | submitFilter hk => exact ⟨hr, hf, hm, hk⟩
  | @keep k kept res fres hk =>
    obtain ⟨x, hx, hb⟩ := hf _ _ hk
    exact ⟨hr, hf, kept_step hm.1 hx hb⟩
  | @skip k kept res fres hk =>
    obtain ⟨x, hx, hb⟩ := hf _ _ hk
    exact ⟨hr, hf, kept_step hm.1 hx hb⟩
  | @raise k kept res fres e hk =>
    obtain ⟨x, hx, hb⟩ := hf _ _ hk
    refine ⟨hr, hf, ?_⟩
    obtain ⟨⟨h1, os, h2, h3⟩, hlt⟩ := hm
    have hact : mapFilterAct f p x = .error e := by
      unfold mapFilterAct
      cases hfx : f x with
      | error e' => rw [hfx] at hb; cases hb; rfl
      | ok o =>
        rw [hfx] at hb
        have hb' : p o = .error e := hb.symm
        show (p o >>= _) = _
        rw [hb']; rfl
    have hl : l = l.take k ++ x :: l.drop (k + 1) := by
      have := List.getElem?_eq_some_iff.mp hx
      obtain ⟨h4, h5⟩ := this
      rw [← h5, List.getElem_cons_drop, List.take_append_drop]
    show Except.error e = _
    rw [hl, List.mapM_append, h2, List.mapM_cons, hact]; rfl
  | get => exact ⟨hr, hf, hm⟩
  | @finish kept res fres rs hlen hres =>
    refine ⟨hr, hf, ?_⟩
    obtain ⟨h1, os, h2, h3⟩ := hm
    rw [List.take_length] at h2
    show getAll rs = _
    rw [h2, show rs = (os.filterMap id).map fun o => .ok o from ?_, mapM_ok_id]
    · rfl
    · have h4 : rs.map some = kept.map (fun i => l[i]?.map f) := by
        apply List.ext_getElem?
        intro j
        rw [List.getElem?_map, List.getElem?_map]
        by_cases hj : j < kept.length
        · have h5 := hres j kept[j] (List.getElem?_eq_getElem hj)
          rw [List.getElem?_eq_getElem (by omega : j < rs.length)] at h5 ⊢
          rw [List.getElem?_eq_getElem hj]
          obtain ⟨x, hx, hrx⟩ := hr _ _ h5
          simp [hx, hrx]
        · rw [List.getElem?_eq_none (by omega), List.getElem?_eq_none (by omega)]; rfl
      rw [h3] at h4
      have h5 : (os.filterMap id).map (fun o => some (Except.ok o : Except O O)) = ((os.filterMap id).map Except.ok).map some := by
        rw [List.map_map]; rfl
      rw [h5] at h4
      exact (List.map_inj_right fun _ _ h => Option.some.inj h).mp h4

theorem filterInv_reach {f : α → Except O O} {p : O → Except O Bool} {l : List α} {s : FilterState O}
    (h : Relation.ReflTransGen (FilterStep f p l) FilterState.init s) : FilterInv f p l s := by
  induction h with
  | refl => exact ⟨fun _ _ h => (by cases h), fun _ _ h => (by cases h), Nat.zero_le _⟩
  | tail _ hs ih => exact filterInv_step ih hs

/-- C139: for every schedule, `map_filter` returns the kept results in the order of the list; if a function raises, the exception of the
first element of the list whose mapping or filtering fails is raised. If no function raises, this is the result of the single thread
engine. -/
theorem C139_map_filter (f : α → Except O O) (p : O → Except O Bool) (l : List α) (out : Except O (List O)) (h : RayMapFilter f p l out) :
    (∀ g q, (∀ x ∈ l, f x = .ok (g x)) → (∀ x ∈ l, p (g x) = .ok (q (g x))) →
      out = .ok ((l.map g).filter q) ∧ out = localMapFilter f p l) ∧
    (∀ pre x post e, l = pre ++ x :: post → (∀ y ∈ pre, ∃ b, (f y).bind p = .ok b) → (f x).bind p = .error e → out = .error e) := by
  obtain ⟨res, fres, h⟩ := h
  have h0 : out = (l.mapM (mapFilterAct f p)).map fun os => os.filterMap id := (filterInv_reach h).2.2
  clear h
  constructor
  · intro g q hg hq
    have h1 : l.mapM (mapFilterAct f p) = .ok (l.map fun x => if q (g x) then some (g x) else none) := by
      clear h0
      induction l with
      | nil => rfl
      | cons x xs ih =>
        have hact : mapFilterAct f p x = .ok (if q (g x) then some (g x) else none) := by
          unfold mapFilterAct
          rw [hg x List.mem_cons_self]
          show (p (g x) >>= _) = _
          rw [hq x List.mem_cons_self]; rfl
        rw [List.mapM_cons, hact, ih (fun y hy => hg y (List.mem_cons_of_mem _ hy)) fun y hy => hq y (List.mem_cons_of_mem _ hy)]
        rfl
    have h2 : (l.map fun x => if q (g x) then some (g x) else none).filterMap id = (l.map g).filter q := by
      clear h0 h1 hg hq
      induction l with
      | nil => rfl
      | cons x xs ih =>
        cases hqx : q (g x) <;> simp [hqx] <;> simpa using ih
    have h3 : out = .ok ((l.map g).filter q) := by rw [h0, h1, ← h2]; rfl
    refine ⟨h3, ?_⟩
    rw [h3]
    have h4 : localMap f l = .ok (l.map g) := by
      clear h0 h1 h2 h3 hq
      unfold localMap
      induction l with
      | nil => rfl
      | cons x xs ih =>
        rw [List.mapM_cons, hg x List.mem_cons_self, ih fun y hy => hg y (List.mem_cons_of_mem _ hy)]; rfl
    have h5 : (l.map g).mapM (fun o => do
        let b ← p o
        return if b then some o else none) = .ok (l.map fun x => if q (g x) then some (g x) else none) := by
      clear h0 h1 h2 h3 h4 hg
      induction l with
      | nil => rfl
      | cons x xs ih =>
        rw [List.map_cons, List.mapM_cons, hq x List.mem_cons_self, ih fun y hy => hq y (List.mem_cons_of_mem _ hy)]; rfl
    unfold localMapFilter
    rw [h4]
    show _ = ((l.map g).mapM (fun o => do
        let b ← p o
        return if b then some o else none) >>= fun kept => pure (kept.filterMap id))
    rw [h5, ← h2]; rfl
  · rintro pre x post e rfl hpre hx
    have hpre' : ∃ os, pre.mapM (mapFilterAct f p) = .ok os := by
      clear h0
      induction pre with
      | nil => exact ⟨[], rfl⟩
      | cons y ys ih =>
        obtain ⟨os, hos⟩ := ih fun z hz => hpre z (List.mem_cons_of_mem _ hz)
        obtain ⟨b, hb⟩ := hpre y List.mem_cons_self
        have hact : ∃ o, mapFilterAct f p y = .ok o := by
          unfold mapFilterAct
          cases hfy : f y with
          | error e' => rw [hfy] at hb; cases hb
          | ok o =>
            rw [hfy] at hb
            have hb' : p o = .ok b := hb
            refine ⟨if b then some o else none, ?_⟩
            show (p o >>= _) = _
            rw [hb']; rfl
        obtain ⟨o, ho⟩ := hact
        exact ⟨o :: os, by rw [List.mapM_cons, ho, hos]; rfl⟩
    obtain ⟨os, hos⟩ := hpre'
    have hact : mapFilterAct f p x = .error e := by
      unfold mapFilterAct
      cases hfx : f x with
      | error e' => rw [hfx] at hx; cases hx; rfl
      | ok o =>
        rw [hfx] at hx
        have hb' : p o = .error e := hx
        show (p o >>= _) = _
        rw [hb']; rfl
    rw [h0, List.mapM_append, hos, List.mapM_cons, hact]; rfl

/-! ### termination -/

/-- the number of tasks without a result -/
def undone {β : Type} (n : Nat) (res : Nat → Option β) : Nat := (List.range n).countP fun i => (res i).isNone

theorem undone_upd {β : Type} (n : Nat) (res : Nat → Option β) (i : Nat) (b : β) (hi : i < n) (hn : res i = none) :
    undone n (upd res i (some b)) < undone n res := by
  unfold undone
  have h1 : ∀ m, m ≤ n → (List.range m).countP (fun j => (upd res i (some b) j).isNone) + (if i < m then 1 else 0) =
      (List.range m).countP fun j => (res j).isNone := by
    intro m
    induction m with
    | zero => intro _; rfl
    | succ m ih =>
      intro hm
      rw [List.range_succ, List.countP_append, List.countP_append, ← ih (by omega)]
      by_cases him : m = i
      · subst him
        simp [upd_self, hn]
      · rw [List.countP_singleton, List.countP_singleton, upd_ne _ _ him]
        have : (i < m + 1) = (i < m) := by simp; omega
        simp only [this]
        omega
  have := h1 n (Nat.le_refl _)
  rw [if_pos hi] at this
  omega

def mapRank (n : Nat) (s : MapState O) : Nat :=
  undone n s.res + match s.main with
    | .submitting k => n - k + 2
    | .waiting => 1
    | .finished _ => 0

theorem mapRank_step {f : α → Except O O} {l : List α} {s s' : MapState O} (hs : MapStep f l s s') :
    mapRank l.length s' < mapRank l.length s := by
  unfold mapRank
  cases hs with
  | submit hk => simp only; omega
  | get => simp only; omega
  | @work main res i x _ hx hn =>
    have := undone_upd l.length _ _ (f x) (List.getElem?_eq_some_iff.mp hx).1 hn
    exact Nat.add_lt_add_right this _
  | finish => simp only; omega

theorem map_progress {f : α → Except O O} {l : List α} {s : MapState O} (h : MapInv f l s) (hs : ∀ s', ¬ MapStep f l s s') :
    ∃ out, s.main = .finished out := by
  obtain ⟨main, res⟩ := s
  match main, h with
  | .submitting k, h =>
    by_cases hk : k < l.length
    · exact absurd (MapStep.submit hk) (hs _)
    · have hk' : k ≤ l.length := h.2
      obtain rfl : k = l.length := by omega
      exact absurd MapStep.get (hs _)
  | .waiting, h =>
    have hall : ∀ i, i < l.length → ∃ r, res i = some r := by
      intro i hi
      cases hri : res i with
      | some r => exact ⟨r, rfl⟩
      | none => exact absurd (MapStep.work (main := .waiting) (f := f) hi (List.getElem?_eq_getElem hi) hri) (hs _)
    refine absurd (MapStep.finish (rs := l.map f) (by simp) fun i hi => ?_) (hs _)
    obtain ⟨r, hr⟩ := hall i hi
    obtain ⟨x, hx, rfl⟩ := h.1 i r hr
    rw [hr, List.getElem?_map, hx]; rfl
  | .finished out, _ => exact ⟨out, rfl⟩

def filterRank (n : Nat) (s : FilterState O) : Nat :=
  undone n s.res + undone n s.fres + match s.main with
    | .submitting k => n - k + 2 * n + 3
    | .filtering k _ => 2 * (n - k) + 2
    | .awaiting k _ => 2 * (n - k) + 1
    | .getting _ => 1
    | .finished _ => 0

theorem filterRank_step {f : α → Except O O} {p : O → Except O Bool} {l : List α} {s s' : FilterState O} (h : FilterInv f p l s)
    (hs : FilterStep f p l s s') : filterRank l.length s' < filterRank l.length s := by
  unfold filterRank
  cases hs with
  | submit hk => simp only; omega
  | filters => simp only; omega
  | @work main res fres i x _ hx hn =>
    have := undone_upd l.length _ _ (f x) (List.getElem?_eq_some_iff.mp hx).1 hn
    exact Nat.add_lt_add_right (Nat.add_lt_add_right this _) _
  | @filterWork main res fres i r _ hn hres =>
    obtain ⟨x, hx, _⟩ := h.1 _ _ hres
    have := undone_upd l.length _ _ (r.bind p) (List.getElem?_eq_some_iff.mp hx).1 hn
    exact Nat.add_lt_add_right (Nat.add_lt_add_left this _) _
  | submitFilter hk => simp only; omega
  | keep hk => have := h.2.2.2; simp only; omega
  | skip hk => have := h.2.2.2; simp only; omega
  | raise hk => simp only; omega
  | get => simp only; omega
  | finish => simp only; omega

theorem filter_progress {f : α → Except O O} {p : O → Except O Bool} {l : List α} {s : FilterState O} (h : FilterInv f p l s)
    (hs : ∀ s', ¬ FilterStep f p l s s') : ∃ out, s.main = .finished out := by
  obtain ⟨main, res, fres⟩ := s
  have hall : (∀ i, i < l.length → main.submitted l.length i) → ∀ i, i < l.length → ∃ r, res i = some r := by
    intro hsub i hi
    cases hri : res i with
    | some r => exact ⟨r, rfl⟩
    | none => exact absurd (FilterStep.work (f := f) (hsub i hi) (List.getElem?_eq_getElem hi) hri) (hs _)
  match main, h with
  | .submitting k, h =>
    by_cases hk : k < l.length
    · exact absurd (FilterStep.submit hk) (hs _)
    · have hk' : k ≤ l.length := h.2.2
      obtain rfl : k = l.length := by omega
      exact absurd FilterStep.filters (hs _)
  | .filtering k kept, h =>
    by_cases hk : k < l.length
    · exact absurd (FilterStep.submitFilter hk) (hs _)
    · have hk' : k ≤ l.length := h.2.2.1
      obtain rfl : k = l.length := by omega
      exact absurd FilterStep.get (hs _)
  | .awaiting k kept, h =>
    obtain ⟨r, hr⟩ := hall (fun _ hi => hi) k h.2.2.2
    cases hf : fres k with
    | none => exact absurd (FilterStep.filterWork (main := .awaiting k kept) rfl hf hr) (hs _)
    | some b =>
      match b, hf with
      | .ok true, hf => exact absurd (FilterStep.keep hf) (hs _)
      | .ok false, hf => exact absurd (FilterStep.skip hf) (hs _)
      | .error e, hf => exact absurd (FilterStep.raise hf) (hs _)
  | .getting kept, h =>
    obtain ⟨_, os, _, h3⟩ := h.2.2
    have h4 := congrArg List.length h3
    refine absurd (FilterStep.finish (rs := (os.filterMap id).map Except.ok) (by simpa using h4.symm) fun j i hj => ?_) (hs _)
    have h5 := congrArg (·[j]?) h3
    simp only [List.getElem?_map, hj, Option.map_some] at h5
    cases hl : l[i]? with
    | none =>
      rw [hl] at h5
      cases ho : (os.filterMap id)[j]? <;> rw [ho] at h5 <;> simp at h5
    | some x =>
      obtain ⟨r, hr⟩ := hall (fun _ hi => hi) i (List.getElem?_eq_some_iff.mp hl).1
      obtain ⟨x', hx', rfl⟩ := h.1 i r hr
      have hr : res i = some (f x') := hr
      rw [hl] at hx' h5
      cases hx'
      rw [hr, List.getElem?_map]
      cases ho : (os.filterMap id)[j]? with
      | none => rw [ho] at h5; simp at h5
      | some o => rw [ho] at h5; simpa using h5
  | .finished out, _ => exact ⟨out, rfl⟩

theorem no_infinite {σ : Type} {R : σ → σ → Prop} {s0 : σ} (rank : σ → Nat)
    (h : ∀ s s', Relation.ReflTransGen R s0 s → R s s' → rank s' < rank s) : ¬ ∃ run : Nat → σ, run 0 = s0 ∧ ∀ i, R (run i) (run (i + 1)) := by
  rintro ⟨run, h0, hr⟩
  have hreach : ∀ i, Relation.ReflTransGen R s0 (run i) := by
    intro i
    induction i with
    | zero => rw [h0]
    | succ i ih => exact ih.tail (hr i)
  have : ∀ i, rank (run i) + i ≤ rank (run 0) := by
    intro i
    induction i with
    | zero => omega
    | succ i ih =>
      have := h _ _ (hreach i) (hr i)
      omega
  have := this (rank (run 0) + 1)
  omega

/-- C139: `map` always ends: no execution is infinite, and an execution that cannot continue has a result (no deadlock). -/
theorem C139_map_terminates (f : α → Except O O) (l : List α) :
    (¬ ∃ run : Nat → MapState O, run 0 = MapState.init ∧ ∀ i, MapStep f l (run i) (run (i + 1))) ∧
    ∀ s, Relation.ReflTransGen (MapStep f l) MapState.init s → (∀ s', ¬ MapStep f l s s') → ∃ out, s.main = .finished out :=
  ⟨no_infinite (mapRank l.length) fun _ _ _ hs => mapRank_step hs, fun _ h hs => map_progress (mapInv_reach h) hs⟩

/-- C139: `map_filter` always ends. -/
theorem C139_map_filter_terminates (f : α → Except O O) (p : O → Except O Bool) (l : List α) :
    (¬ ∃ run : Nat → FilterState O, run 0 = FilterState.init ∧ ∀ i, FilterStep f p l (run i) (run (i + 1))) ∧
    ∀ s, Relation.ReflTransGen (FilterStep f p l) FilterState.init s → (∀ s', ¬ FilterStep f p l s s') → ∃ out, s.main = .finished out :=
  ⟨no_infinite (filterRank l.length) fun _ _ h hs => filterRank_step (filterInv_reach h) hs,
    fun _ h hs => filter_progress (filterInv_reach h) hs⟩

/-- an execution exists, for every function and list -/
theorem exists_run {σ : Type} {R : σ → σ → Prop} {s0 : σ} (rank : σ → Nat)
    (h : ∀ s s', Relation.ReflTransGen R s0 s → R s s' → rank s' < rank s) : ∃ s, Relation.ReflTransGen R s0 s ∧ ∀ s', ¬ R s s' := by
  by_contra hc
  push Not at hc
  have : ∀ n s, Relation.ReflTransGen R s0 s → rank s < n → False := by
    intro n
    induction n with
    | zero => intro s _ h; omega
    | succ n ih =>
      intro s hs hn
      obtain ⟨s', hs'⟩ := hc s hs
      have := h s s' hs hs'
      exact ih s' (hs.tail hs') (by omega)
  exact this _ s0 .refl (Nat.lt_succ_self _)

/-- C139: every call of `map`, `map_reduce` and `map_filter` has a result. -/
theorem C139_result (B : Builtins O) (f : α → Except O O) (op : O → O → Except O O) (p : O → Except O Bool) (l : List α) :
    (∃ out, RayMap f l out) ∧ (∃ out, RayMapReduce B f op l out) ∧ ∃ out, RayMapFilter f p l out := by
  have h1 : ∃ out, RayMap f l out := by
    obtain ⟨s, h, hs⟩ := exists_run (R := MapStep f l) (s0 := MapState.init) (mapRank l.length) fun _ _ _ hs => mapRank_step hs
    obtain ⟨out, ho⟩ := map_progress (mapInv_reach h) hs
    obtain ⟨main, res⟩ := s
    cases ho
    exact ⟨out, res, h⟩
  refine ⟨h1, ?_, ?_⟩
  · obtain ⟨out, ho⟩ := h1
    exact ⟨_, out, ho, rfl⟩
  · obtain ⟨s, h, hs⟩ := exists_run (R := FilterStep f p l) (s0 := FilterState.init) (filterRank l.length)
      fun _ _ h hs => filterRank_step (filterInv_reach h) hs
    obtain ⟨out, ho⟩ := filter_progress (filterInv_reach h) hs
    obtain ⟨main, res, fres⟩ := s
    cases ho
    exact ⟨out, res, fres, h⟩

/-- a schedule in which the second task ends before the first one, which fails -/
example : RayMap (fun n : Nat => if n = 1 then Except.error 7 else .ok (n + 10)) [1, 2] (.error 7) := by
  refine ⟨_, (((((Relation.ReflTransGen.refl.tail (.submit (by decide))).tail (.submit (by decide))).tail
    (.work (i := 1) (x := 2) (by simp [MapMain.submitted]) rfl rfl)).tail .get).tail (.work (i := 0) (x := 1) (by simp [MapMain.submitted]) rfl rfl)).tail
    (MapStep.finish (rs := [.error 7, .ok 12]) rfl ?_)⟩
  intro i hi
  match i, hi with
  | 0, _ => rfl
  | 1, _ => rfl

/-- the engine is not the single thread engine if functions raise: filtering the first element fails before mapping the second one -/
example : ∀ out, RayMapFilter (fun n : Nat => if n = 2 then Except.error 7 else .ok n) (fun n => if n = 1 then .error 8 else .ok true) [1, 2] out →
    out = .error 8 ∧ localMapFilter (fun n : Nat => if n = 2 then Except.error 7 else .ok n) (fun n => if n = 1 then .error 8 else .ok true) [1, 2] = .error 7 :=
  fun out h => ⟨(C139_map_filter _ _ _ out h).2 [] 1 [2] 8 rfl (by simp) rfl, rfl⟩

end Prolothar.Ray
