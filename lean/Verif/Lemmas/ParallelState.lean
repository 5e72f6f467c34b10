import Verif.Spec.ParallelState
import Mathlib.Data.List.Perm.Basic
/-
Lemmas about threads with side effects: what a worker has done is a path through its program.
-/
namespace Prolothar.Parallel
open Prolothar.ListUtils Prolothar.Spec.ParallelState
variable {α O σ : Type}

/-- from `p` to `q` with these calls, answers and appended objects -/
inductive Follows : Prog α O → List (Call α O × Except O O) → Prog α O → List O → Prop
  | nil {p} : Follows p [] p []
  | call {c next r h q outs} : Follows (next r) h q outs → Follows (.call c next) ((c, r) :: h) q outs
  | append {o p h q outs} : Follows p h q outs → Follows (.append o p) h q (o :: outs)

theorem Follows.trans {p q r : Prog α O} {h1 h2 o1 o2} (h : Follows p h1 q o1) (h' : Follows q h2 r o2) : Follows p (h1 ++ h2) r (o1 ++ o2) := by
  induction h with
  | nil => exact h'
  | call _ ih => exact .call (ih h')
  | append _ ih => exact .append (ih h')

theorem follows_map_done : ∀ {xs : List α} {h} {outs : List O}, Follows (mapProg xs) h .done outs → Maps xs h outs
  | [], h, outs, hf => by
    unfold mapProg at hf; cases hf; exact .nil
  | x :: xs, h, outs, hf => by
    unfold mapProg at hf
    cases hf with
    | @call _ _ r _ _ _ hf =>
      cases r with
      | error e => cases hf
      | ok v =>
        dsimp only at hf
        cases hf with
        | append hf => exact .cons (follows_map_done hf)

theorem follows_map_fail : ∀ {xs : List α} {h} {outs : List O} {e : O}, Follows (mapProg xs) h (.fail e) outs →
    ∃ pre x post h', xs = pre ++ x :: post ∧ Maps pre h' outs ∧ h = h' ++ [(.map x, .error e)]
  | [], h, outs, e, hf => by
    unfold mapProg at hf; cases hf
  | x :: xs, h, outs, e, hf => by
    unfold mapProg at hf
    cases hf with
    | @call _ _ r _ _ _ hf =>
      cases r with
      | error e =>
        dsimp only at hf
        cases hf
        exact ⟨[], x, xs, [], rfl, .nil, rfl⟩
      | ok v =>
        dsimp only at hf
        cases hf with
        | append hf =>
          obtain ⟨pre, y, post, h', h1, h2, h3⟩ := follows_map_fail hf
          exact ⟨x :: pre, y, post, _, by rw [h1]; rfl, .cons h2, by rw [h3]; rfl⟩

theorem follows_map_prefix : ∀ {xs : List α} {h} {q : Prog α O} {outs : List O}, Follows (mapProg xs) h q outs → h.map Prod.fst <+: xs.map .map
  | [], h, q, outs, hf => by
    unfold mapProg at hf; cases hf; exact List.nil_prefix
  | x :: xs, h, q, outs, hf => by
    unfold mapProg at hf
    cases hf with
    | nil => exact List.nil_prefix
    | @call _ _ r _ _ _ hf =>
      cases r with
      | error e =>
        dsimp only at hf
        cases hf
        exact ⟨xs.map .map, rfl⟩
      | ok v =>
        dsimp only at hf
        cases hf with
        | nil => exact ⟨xs.map .map, rfl⟩
        | append hf =>
          rw [List.map_cons, List.map_cons, List.prefix_cons_inj]
          exact follows_map_prefix hf

theorem follows_filter_done {truthy : O → Bool} : ∀ {xs : List α} {h} {outs : List O}, Follows (mapFilterProg truthy xs) h .done outs →
    Filters truthy xs h outs
  | [], h, outs, hf => by
    unfold mapFilterProg at hf; cases hf; exact .nil
  | x :: xs, h, outs, hf => by
    unfold mapFilterProg at hf
    cases hf with
    | @call _ _ r _ _ _ hf =>
      cases r with
      | error e => cases hf
      | ok v =>
        dsimp only at hf
        cases hf with
        | @call _ _ r _ _ _ hf =>
          cases r with
          | error e => cases hf
          | ok b =>
            dsimp only at hf
            cases hb : truthy b with
            | true =>
              rw [hb, if_pos rfl] at hf
              cases hf with
              | append hf => exact .keep hb (follows_filter_done hf)
            | false =>
              rw [hb, if_neg (by decide)] at hf
              exact .drop hb (follows_filter_done hf)

theorem follows_reduceLoop_done : ∀ {xs : List α} {acc : O} {h} {outs : List O}, Follows (reduceLoop acc xs) h .done outs →
    ∃ out, outs = [out] ∧ Folds acc xs h out
  | [], acc, h, outs, hf => by
    unfold reduceLoop at hf
    cases hf with
    | append hf => cases hf; exact ⟨acc, rfl, .nil⟩
  | x :: xs, acc, h, outs, hf => by
    unfold reduceLoop at hf
    cases hf with
    | @call _ _ r _ _ _ hf =>
      cases r with
      | error e => cases hf
      | ok v =>
        dsimp only at hf
        cases hf with
        | @call _ _ r _ _ _ hf =>
          cases r with
          | error e => cases hf
          | ok b =>
            dsimp only at hf
            obtain ⟨out, h1, h2⟩ := follows_reduceLoop_done hf
            exact ⟨out, h1, .cons h2⟩

theorem follows_reduce_done {B : Builtins O} {xs : List α} {h} {outs : List O} (hf : Follows (reduceProg B xs) h .done outs) :
    ∃ out, outs = [out] ∧ Reduces xs h out := by
  cases xs with
  | nil => unfold reduceProg at hf; cases hf
  | cons x xs =>
    unfold reduceProg at hf
    cases hf with
    | @call _ _ r _ _ _ hf =>
      cases r with
      | error e => cases hf
      | ok v =>
        dsimp only at hf
        obtain ⟨out, h1, h2⟩ := follows_reduceLoop_done hf
        exact ⟨out, h1, .mk h2⟩

/-- the state of a worker belongs to what it has done -/
def StWorkerInv (p : Option (Prog α O)) (h : List (Call α O × Except O O)) (outs : List O) : SW α O → Prop
  | .idle => h = [] ∧ outs = []
  | .running q => ∃ p0, p = some p0 ∧ Follows p0 h q outs
  | .calling c next => ∃ p0, p = some p0 ∧ Follows p0 h (.call c next) outs
  | .finished => ∃ p0, p = some p0 ∧ Follows p0 h .done outs
  | .failed e => ∃ p0, p = some p0 ∧ Follows p0 h (.fail e) outs

/-- the calling thread -/
def StMainInv (n : Nat) (ws : Nat → SW α O) : TMain O → Prop
  | .starting j => j ≤ n ∧ (∀ k < j, ws k ≠ .idle) ∧ ∀ k, j ≤ k → ws k = .idle
  | .joining j => j ≤ n ∧ (∀ k < n, ws k ≠ .idle) ∧ (∀ k, n ≤ k → ws k = .idle) ∧ ∀ i < j, ws i = .finished
  | .returned => (∀ k, n ≤ k → ws k = .idle) ∧ ∀ i < n, ws i = .finished
  | .raised e => (∀ k < n, ws k ≠ .idle) ∧ (∀ k, n ≤ k → ws k = .idle) ∧ ∃ k < n, ws k = .failed e ∧ ∀ i < k, ws i = .finished

structure SInv (fn : Call α O → σ → Except O O × σ) (progs : List (Prog α O)) (dest : Nat → Nat) (m : σ) (s : SS σ α O) : Prop where
  worker : ∀ k, StWorkerInv progs[k]? (of k s.calls) (s.written k) (s.ws k)
  serial : Serial fn m (s.calls.map Prod.snd) s.mem
  main : StMainInv progs.length s.ws s.main
  own : dest = id → s.lists = s.written
  shared : (∀ k, dest k = 0) → (s.lists 0).Perm ((List.range progs.length).flatMap s.written)
  known : ∀ c ∈ s.calls, c.1 < progs.length

theorem serial_snoc {fn : Call α O → σ → Except O O × σ} : ∀ {calls : List (Call α O × Except O O)} {m m' : σ} (c : Call α O),
    Serial fn m calls m' → Serial fn m (calls ++ [(c, (fn c m').1)]) (fn c m').2
  | [], m, m', c, h => by
    have h : m' = m := h
    subst h; exact ⟨rfl, rfl⟩
  | (d, r) :: calls, m, m', c, h => ⟨h.1, serial_snoc c h.2⟩

theorem of_snoc_self (k : Nat) (calls : List (Nat × Call α O × Except O O)) (c : Call α O) (r : Except O O) :
    of k (calls ++ [(k, c, r)]) = of k calls ++ [(c, r)] := by
  unfold of; rw [List.filter_append, List.map_append]; simp

theorem of_snoc_ne {j k : Nat} (h : j ≠ k) (calls : List (Nat × Call α O × Except O O)) (c : Call α O) (r : Except O O) :
    of k (calls ++ [(j, c, r)]) = of k calls := by
  unfold of; rw [List.filter_append, List.map_append]; simp [h]

theorem flatMap_update_notMem {w : Nat → List O} {k : Nat} {v : List O} : ∀ {ks : List Nat}, k ∉ ks → ks.flatMap (Function.update w k v) = ks.flatMap w
  | [], _ => rfl
  | j :: ks, h => by
    rw [List.flatMap_cons, List.flatMap_cons, flatMap_update_notMem (List.not_mem_of_not_mem_cons h),
      Function.update_of_ne (show j ≠ k from fun hh => h (hh ▸ List.mem_cons_self))]

theorem flatMap_update_perm {w : Nat → List O} {k : Nat} {o : O} : ∀ {ks : List Nat}, ks.Nodup → k ∈ ks →
    (ks.flatMap w ++ [o]).Perm (ks.flatMap (Function.update w k (w k ++ [o])))
  | j :: ks, hn, hk => by
    rw [List.nodup_cons] at hn
    by_cases h : j = k
    · subst h
      rw [List.flatMap_cons, List.flatMap_cons, flatMap_update_notMem hn.1, Function.update_self, List.append_assoc, List.append_assoc]
      exact List.perm_append_comm.append_left _
    · rw [List.flatMap_cons, List.flatMap_cons, Function.update_of_ne h, List.append_assoc]
      refine (flatMap_update_perm hn.2 ?_).append_left _
      rcases List.mem_cons.1 hk with hk | hk
      · exact absurd hk.symm h
      · exact hk

/-- a worker that has been started goes on or ends -/
theorem stMainInv_update {n : Nat} {ws : Nat → SW α O} {main : TMain O} {k : Nat} {w : SW α O} (hw : w ≠ .idle) (hk : ws k ≠ .idle)
    (hf : ws k ≠ .finished) (hr : ∀ e, ws k ≠ .failed e) (h : StMainInv n ws main) : StMainInv n (Function.update ws k w) main := by
  have idle : ∀ i, ws i = .idle → Function.update ws k w i = .idle := fun i hi => by
    rw [Function.update_of_ne (show i ≠ k from fun hh => hk (hh ▸ hi)), hi]
  have nidle : ∀ i, ws i ≠ .idle → Function.update ws k w i ≠ .idle := fun i hi => by
    by_cases h : i = k
    · subst h; rw [Function.update_self]; exact hw
    · rw [Function.update_of_ne h]; exact hi
  have fin : ∀ i, ws i = .finished → Function.update ws k w i = .finished := fun i hi => by
    rw [Function.update_of_ne (show i ≠ k from fun hh => hf (hh ▸ hi)), hi]
  cases main with
  | starting j => exact ⟨h.1, fun i hi => nidle i (h.2.1 i hi), fun i hi => idle i (h.2.2 i hi)⟩
  | joining j => exact ⟨h.1, fun i hi => nidle i (h.2.1 i hi), fun i hi => idle i (h.2.2.1 i hi), fun i hi => fin i (h.2.2.2 i hi)⟩
  | returned => exact ⟨fun i hi => idle i (h.1 i hi), fun i hi => fin i (h.2 i hi)⟩
  | raised e =>
    obtain ⟨h1, h2, i, hi, hi2, hi3⟩ := h
    refine ⟨fun i hi => nidle i (h1 i hi), fun i hi => idle i (h2 i hi), i, hi, ?_, fun j hj => fin j (hi3 j hj)⟩
    rw [Function.update_of_ne (show i ≠ k from fun hh => hr e (hh ▸ hi2)), hi2]

theorem worker_update {progs : List (Prog α O)} {calls : List (Nat × Call α O × Except O O)} {written : Nat → List O} {ws : Nat → SW α O} {k : Nat}
    {w : SW α O} (h : ∀ i, StWorkerInv progs[i]? (of i calls) (written i) (ws i)) (hw : StWorkerInv progs[k]? (of k calls) (written k) w) :
    ∀ i, StWorkerInv progs[i]? (of i calls) (written i) (Function.update ws k w i) := fun i => by
  by_cases hi : i = k
  · subst hi; rw [Function.update_self]; exact hw
  · rw [Function.update_of_ne hi]; exact h i

theorem st_sinv_init (fn : Call α O → σ → Except O O × σ) (progs : List (Prog α O)) (dest : Nat → Nat) (m : σ) : SInv fn progs dest m (SS.init m) where
  worker _ := ⟨rfl, rfl⟩
  serial := rfl
  main := ⟨Nat.zero_le _, fun _ h => absurd h (Nat.not_lt_zero _), fun _ _ => rfl⟩
  own _ := rfl
  shared _ := by
    have : (List.range progs.length).flatMap (fun _ : Nat => ([] : List O)) = [] := by
      rw [List.flatMap_eq_nil_iff]; exact fun _ _ => rfl
    exact this ▸ List.Perm.nil
  known _ h := absurd h List.not_mem_nil

theorem st_lt_of_some {progs : List (Prog α O)} {k : Nat} {p : Prog α O} (h : progs[k]? = some p) : k < progs.length := by
  rw [List.getElem?_eq_some_iff] at h; exact h.1

theorem st_sinv_step {fn : Call α O → σ → Except O O × σ} {progs : List (Prog α O)} {dest : Nat → Nat} {m : σ} {s t : SS σ α O}
    (hi : SInv fn progs dest m s) (h : SStep fn progs dest s t) : SInv fn progs dest m t := by
  obtain ⟨i1, i2, i3, i4, i5, i6⟩ := hi
  cases h with
  | @start k p hm hp =>
    rw [hm] at i3
    have hidle := i3.2.2 k (Nat.le_refl k)
    have hw := i1 k
    rw [hidle] at hw
    refine ⟨worker_update i1 ⟨p, hp, ?_⟩, i2, ⟨st_lt_of_some hp, ?_, ?_⟩, i4, i5, i6⟩
    · rw [hw.1, hw.2]; exact .nil
    · intro j hj
      dsimp only
      by_cases h : j = k
      · subst h; rw [Function.update_self]; exact fun hh => by cases hh
      · rw [Function.update_of_ne h]; exact i3.2.1 j (by omega)
    · intro j hj
      dsimp only
      rw [Function.update_of_ne (by omega)]; exact i3.2.2 j (by omega)
  | started hm =>
    rw [hm] at i3
    exact ⟨i1, i2, ⟨Nat.zero_le _, i3.2.1, i3.2.2, fun _ h => absurd h (Nat.not_lt_zero _)⟩, i4, i5, i6⟩
  | @join k hm hk hw =>
    rw [hm] at i3
    refine ⟨i1, i2, ⟨hk, i3.2.1, i3.2.2.1, fun i hi => ?_⟩, i4, i5, i6⟩
    by_cases h : i = k
    · subst h; exact hw
    · exact i3.2.2.2 i (by omega)
  | @joinRaise k e hm hk hw =>
    rw [hm] at i3
    exact ⟨i1, i2, ⟨i3.2.1, i3.2.2.1, k, hk, hw, i3.2.2.2⟩, i4, i5, i6⟩
  | joined hm =>
    rw [hm] at i3
    exact ⟨i1, i2, ⟨i3.2.2.1, i3.2.2.2⟩, i4, i5, i6⟩
  | @enter k c next hw =>
    have h1 := i1 k
    rw [hw] at h1
    exact ⟨worker_update i1 h1, i2, stMainInv_update (fun h => by cases h) (by rw [hw]; exact fun h => by cases h) (by rw [hw]; exact fun h => by cases h)
      (by rw [hw]; exact fun _ h => by cases h) i3, i4, i5, i6⟩
  | @effect k c next hw =>
    have h1 := i1 k
    rw [hw] at h1
    obtain ⟨p0, hp0, hf⟩ := h1
    refine ⟨fun i => ?_, ?_, stMainInv_update (fun h => by cases h) (by rw [hw]; exact fun h => by cases h) (by rw [hw]; exact fun h => by cases h)
      (by rw [hw]; exact fun _ h => by cases h) i3, i4, i5, ?_⟩
    · dsimp only
      by_cases h : i = k
      · subst h
        rw [Function.update_self, of_snoc_self]
        refine ⟨p0, hp0, ?_⟩
        have := hf.trans (.call (r := (fn c s.mem).1) (.nil))
        rwa [List.append_nil] at this
      · rw [Function.update_of_ne h, of_snoc_ne (Ne.symm h)]; exact i1 i
    · dsimp only
      rw [List.map_append]; exact serial_snoc c i2
    · intro d hd
      rcases List.mem_append.1 hd with hd | hd
      · exact i6 d hd
      · rw [List.mem_singleton.1 hd]; exact st_lt_of_some hp0
  | @append k o p hw =>
    have h1 := i1 k
    rw [hw] at h1
    obtain ⟨p0, hp0, hf⟩ := h1
    refine ⟨fun i => ?_, i2, stMainInv_update (fun h => by cases h) (by rw [hw]; exact fun h => by cases h) (by rw [hw]; exact fun h => by cases h)
      (by rw [hw]; exact fun _ h => by cases h) i3, fun hd => ?_, fun hd => ?_, i6⟩
    · dsimp only
      by_cases h : i = k
      · subst h
        rw [Function.update_self, Function.update_self]
        refine ⟨p0, hp0, ?_⟩
        have := hf.trans (.append .nil)
        rwa [List.append_nil] at this
      · rw [Function.update_of_ne h, Function.update_of_ne h]; exact i1 i
    · dsimp only
      rw [i4 hd, hd]; rfl
    · dsimp only
      rw [hd k, Function.update_self]
      exact ((i5 hd).append_right _).trans (flatMap_update_perm List.nodup_range (List.mem_range.2 (st_lt_of_some hp0)))
  | @finish k hw =>
    have h1 := i1 k
    rw [hw] at h1
    exact ⟨worker_update i1 h1, i2, stMainInv_update (fun h => by cases h) (by rw [hw]; exact fun h => by cases h) (by rw [hw]; exact fun h => by cases h)
      (by rw [hw]; exact fun _ h => by cases h) i3, i4, i5, i6⟩
  | @fail k e hw =>
    have h1 := i1 k
    rw [hw] at h1
    exact ⟨worker_update i1 h1, i2, stMainInv_update (fun h => by cases h) (by rw [hw]; exact fun h => by cases h) (by rw [hw]; exact fun h => by cases h)
      (by rw [hw]; exact fun _ h => by cases h) i3, i4, i5, i6⟩

theorem st_sinv_reach {fn : Call α O → σ → Except O O × σ} {progs : List (Prog α O)} {dest : Nat → Nat} {m : σ} {s : SS σ α O}
    (h : SReach fn progs dest m s) : SInv fn progs dest m s := by
  unfold SReach at h
  induction h with
  | refl => exact st_sinv_init fn progs dest m
  | tail _ h ih => exact st_sinv_step ih h

end Prolothar.Parallel
