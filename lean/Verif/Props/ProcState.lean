import Verif.Lemmas.ProcState
import Verif.Props.ParallelState
/-
C198: the process engine and functions with side effects.
-/
namespace Prolothar.Parallel
open Prolothar.ListUtils Prolothar.Spec.ParallelState Prolothar.Spec.ProcState
variable {α O σ : Type}

/-! ### helpers -/

theorem maps_flatten {fn : Call α O → σ → Except O O × σ} {l : List α} {parts : List (List α)} {vss : List (List O)} {m m' : σ}
    {calls : List (Nat × Call α O × Except O O)} (g : α → O) (hg : ∀ x ∈ l, ∀ m, (fn (.map x) m).1 = .ok (g x)) (hl : parts.flatten = l)
    (hlen : vss.length = parts.length) (hs : Serial fn m (calls.map Prod.snd) m')
    (hk : ∀ k part vs, parts[k]? = some part → vss[k]? = some vs → Maps part (of k calls) vs) : vss.flatten = l.map g := by
  have : vss = parts.map (List.map g) := by
    refine List.ext_getElem? fun k => ?_
    rw [List.getElem?_map]
    cases hpk : parts[k]? with
    | none =>
      rw [List.getElem?_eq_none_iff] at hpk
      exact List.getElem?_eq_none (by omega)
    | some part =>
      have hlt : k < vss.length := by
        have := (List.getElem?_eq_some_iff.1 hpk).1; omega
      have hv := List.getElem?_eq_getElem hlt
      have hmaps := hk k part _ hpk hv
      rw [hv, Option.map_some]
      congr 1
      have hsub : ∀ c ∈ of k calls, c ∈ calls.map Prod.snd := fun c hc => List.mem_map.2 ⟨_, mem_of_mem hc, rfl⟩
      have hmem : ∀ x ∈ part, x ∈ l := fun x hx => by
        rw [← hl]; exact List.mem_flatten.2 ⟨part, List.mem_of_getElem? hpk, hx⟩
      generalize vss[k] = vs at hmaps
      generalize of k calls = H at hmaps hsub
      clear hk hv hpk
      induction hmaps with
      | nil => rfl
      | @cons x xs v h vs _ ih =>
        rw [List.map_cons, ih (fun y hy => hmem y (List.mem_cons_of_mem _ hy)) fun c hc => hsub c (List.mem_cons_of_mem _ hc)]
        obtain ⟨m2, h2⟩ := serial_answer hs _ (hsub _ List.mem_cons_self)
        dsimp only at h2
        rw [hg x (hmem x List.mem_cons_self)] at h2
        cases h2; rfl
  rw [this, ← hl, List.map_flatten]

theorem parts_pair (x y : α) : viewOfNPartitions [x, y] 1 = .ok [[x, y]] := by
  obtain ⟨parts, h1, h2, h3, h4, _⟩ := C04_partitions [x, y] 1 (by simp) (by omega)
  rw [h1]
  match parts, h3 with
  | [p], _ => simp at h2; rw [h2]

/-! ### the properties -/

/-- C198: if `map` returns, then the map function was called exactly once for every element of the list and no other call was made, whatever the calls have
returned or raised. The calls of a worker are those for the elements of its block, in their order. The calls took effect one after the other in some order, and
the outside state is what this order gives. -/
theorem C198_exactly_once {B : Builtins O} {n : Int} {fn : Call α O → σ → Except O O × σ} {keepOrder : Bool} {l : List α} {m : σ} {s : XS σ α O} {out : List O}
    (h : ProcMapReturns B n fn keepOrder l m s out) :
    (s.calls.map fun c => c.2.1).Perm (l.map .map) ∧ Serial fn m (s.calls.map Prod.snd) s.mem ∧
    ∃ parts, viewOfNPartitions l n = .ok parts ∧ ∀ k part, parts[k]? = some part → (of k s.calls).map Prod.fst = part.map .map := by
  obtain ⟨parts, hp, hm, hr, _⟩ := h
  have hi := x_inv_reach hr
  have hk : ∀ k part, parts[k]? = some part → (of k s.calls).map Prod.fst = part.map .map := fun k part hk =>
    (follows_procMap_done (x_returned_blocks hi hm k (procMapProg B part) (by rw [List.getElem?_map, hk]; rfl))).1
  refine ⟨?_, hi.serial, parts, hp, hk⟩
  have h1 := (calls_perm _ s.calls hi.known).map Prod.fst
  rw [List.length_map, List.map_map, List.map_flatMap, flatMap_eq_range (fun part : List α => part.map Call.map) parts] at h1
  · have h2 : parts.flatMap (fun part : List α => part.map (Call.map (O := O))) = l.map .map := by
      rw [← (parts_ok hp).2.2.1, List.flatMap_def, List.map_flatten]
    rw [h2] at h1
    exact h1.symm
  · exact hk

/-- C198: if `map` returns, no function has raised StopIteration and none has returned an exception object, then no call has raised anything, and the result
consists of the values that the calls have returned, in the order of the list if the order is kept. -/
theorem C198_map {B : Builtins O} {n : Int} {fn : Call α O → σ → Except O O × σ} {keepOrder : Bool} {l : List α} {m : σ} {s : XS σ α O} {out : List O}
    (h : ProcMapReturns B n fn keepOrder l m s out) (hplain : ∀ c ∈ s.calls, Plain B c.2.1 c.2.2) :
    ∃ (parts : List (List α)) (vss : List (List O)), viewOfNPartitions l n = .ok parts ∧ vss.length = parts.length ∧
      (∀ k part vs, parts[k]? = some part → vss[k]? = some vs → Maps part (of k s.calls) vs) ∧
      (keepOrder = true → out = vss.flatten) ∧ out.Perm vss.flatten := by
  obtain ⟨parts, hp, hm, hr, ho⟩ := h
  have hi := x_inv_reach hr
  obtain ⟨w, h1, h2, h3⟩ := x_returned_all hi hm (fun p hp => by obtain ⟨part, _, rfl⟩ := List.mem_map.1 hp; exact ends_map B part) hplain
  rw [List.length_map] at h1 h2 h3
  have hout : (keepOrder = true → out = ((List.range parts.length).map w).flatten) ∧ out.Perm ((List.range parts.length).map w).flatten := by
    cases keepOrder with
    | true =>
      rw [if_pos rfl, reduce_flatten, List.map_congr_left fun k hk => h2 rfl k (List.mem_range.1 hk)] at ho
      exact ⟨fun _ => ho, ho ▸ .refl _⟩
    | false =>
      rw [if_neg (by decide)] at ho
      have := h3 rfl
      rw [List.flatMap_def, ← ho] at this
      exact ⟨fun h => by (cases h), this⟩
  refine ⟨parts, (List.range parts.length).map w, hp, by rw [List.length_map, List.length_range], fun k part vs hk hv => ?_, hout⟩
  have hlt : k < parts.length := (List.getElem?_eq_some_iff.1 hk).1
  rw [List.getElem?_map, List.getElem?_range hlt, Option.map_some] at hv
  cases hv
  obtain ⟨h4, h5⟩ := follows_procMap_done (x_returned_blocks hi hm k (procMapProg B part) (by rw [List.getElem?_map, hk]; rfl))
  obtain ⟨h6, h7⟩ := h1 k hlt
  rw [h6] at h5 h7
  have h8 := (List.append_inj' h5 rfl).1
  rw [h8]
  have hpl : ∀ c ∈ of k s.calls, Plain B c.1 c.2 := fun c hc => hplain _ (mem_of_mem hc)
  refine maps_of_clean h4 hpl fun c hc => ?_
  have hmem : object c.2 ∈ w k := by rw [h8]; exact List.mem_map.2 ⟨c, hc, rfl⟩
  rcases h7 _ (List.mem_append_left _ hmem) with h | h
  · rcases c with ⟨c, r⟩
    have hq := hpl _ hc
    cases r with
    | error e =>
      have h : B.isStop e = true := h
      have hq : B.isExc e = true ∧ B.isStop e = false := hq
      rw [hq.2] at h; cases h
    | ok v =>
      have h4' : c ∈ part.map (Call.map (O := O)) := by rw [← h4]; exact List.mem_map.2 ⟨_, hc, rfl⟩
      obtain ⟨x, _, rfl⟩ := List.mem_map.1 h4'
      exact hq
  · exact h

/-- C198: when the call has returned, every worker process has ended: no function is being called any more, and none will be. -/
theorem C198_nothing_runs_after_return {B : Builtins O} {fn : Call α O → σ → Except O O × σ} {ordered : Bool} {progs : List (Prog α O)} {m : σ} {s : XS σ α O}
    (h : XReach B fn ordered progs m s) (hm : s.main = .returned) : (∀ k < progs.length, s.ws k = .finished) ∧ ∀ t, ¬ XStep B fn ordered progs s t := by
  have h1 := (x_inv_reach h).main
  rw [hm] at h1
  have hw : ∀ k, s.ws k = .idle ∨ s.ws k = .finished := fun k => by
    by_cases hk : k < progs.length
    · exact .inr (h1.2 k hk)
    · exact .inl (h1.1 k (by omega))
  refine ⟨fun k hk => h1.2 k hk, fun t ht => ?_⟩
  cases ht with
  | start h _ => rw [hm] at h; cases h
  | started h => rw [hm] at h; cases h
  | getStop _ h => rw [hm] at h; cases h
  | getExc _ h => rw [hm] at h; cases h
  | getItem _ h => rw [hm] at h; cases h
  | collected _ h => rw [hm] at h; cases h
  | getStopOf _ h => rw [hm] at h; cases h
  | getExcOf _ h => rw [hm] at h; cases h
  | getItemOf _ h => rw [hm] at h; cases h
  | collectedAll _ h => rw [hm] at h; cases h
  | join h => rw [hm] at h; cases h
  | joined h => rw [hm] at h; cases h
  | @enter k _ _ h => rcases hw k with h2 | h2 <;> rw [h2] at h <;> cases h
  | @effect k _ _ h => rcases hw k with h2 | h2 <;> rw [h2] at h <;> cases h
  | @put k _ _ h => rcases hw k with h2 | h2 <;> rw [h2] at h <;> cases h
  | @finish k h => rcases hw k with h2 | h2 <;> rw [h2] at h <;> cases h
  | kill h => rw [hm] at h; cases h

/-- C198: at every moment, whatever has been raised and whichever worker has been ended by a signal, the map function has been called at most once for every
element: the calls of a worker are those for the first elements of its block, in their order, and they took effect one after the other. -/
theorem C198_at_most_once {B : Builtins O} {fn : Call α O → σ → Except O O × σ} {ordered : Bool} {parts : List (List α)} {m : σ} {s : XS σ α O}
    (h : XReach B fn ordered (parts.map (procMapProg B)) m s) : Serial fn m (s.calls.map Prod.snd) s.mem ∧ (∀ c ∈ s.calls, c.1 < parts.length) ∧
    ∀ k part, parts[k]? = some part → (of k s.calls).map Prod.fst <+: part.map .map := by
  have hi := x_inv_reach h
  refine ⟨hi.serial, fun c hc => by have := hi.known c hc; rwa [List.length_map] at this, fun k part hk => ?_⟩
  have h1 := hi.worker k
  have hp : (parts.map (procMapProg (α := α) B))[k]? = some (procMapProg B part) := by rw [List.getElem?_map, hk]; rfl
  rw [hp] at h1
  cases hw : s.ws k with
  | idle =>
    rw [hw] at h1
    rw [h1.1]; exact List.nil_prefix
  | running q =>
    rw [hw] at h1
    obtain ⟨p0, hp0, hf⟩ := h1
    cases hp0; exact follows_procMap_prefix hf
  | calling c next =>
    rw [hw] at h1
    obtain ⟨p0, hp0, hf⟩ := h1
    cases hp0; exact follows_procMap_prefix hf
  | finished =>
    rw [hw] at h1
    obtain ⟨p0, hp0, hf⟩ := h1
    cases hp0; exact follows_procMap_prefix hf
  | killed =>
    rw [hw] at h1
    obtain ⟨p0, q, hp0, hf⟩ := h1
    cases hp0; exact follows_procMap_prefix hf

/-- the programs of the workers of the three operations -/
def WorkersOf (B : Builtins O) (truthy : O → Bool) (parts : List (List α)) (progs : List (Prog α O)) : Prop :=
  progs = parts.map (procMapProg B) ∨ progs = parts.map (procFilterProg B truthy) ∨ progs = parts.map (procReduceProg B)

theorem x_follows {p : Option (Prog α O)} {h : List (Call α O × Except O O)} {outs : List O} {w : XW α O} (hw : XWorkerInv p h outs w) :
    (h = [] ∧ outs = []) ∨ ∃ p0 q, p = some p0 ∧ Follows p0 h q outs := by
  cases w with
  | idle => exact .inl hw
  | running q => obtain ⟨p0, h1, h2⟩ := hw; exact .inr ⟨p0, _, h1, h2⟩
  | calling c next => obtain ⟨p0, h1, h2⟩ := hw; exact .inr ⟨p0, _, h1, h2⟩
  | finished => obtain ⟨p0, h1, h2⟩ := hw; exact .inr ⟨p0, _, h1, h2⟩
  | killed => exact .inr hw

/-- C198: if the call raises an exception while it collects the results, then this object is what some call of one of the functions has raised (or has returned,
if a function returns exception objects); it is an exception and not StopIteration. -/
theorem C198_raised {B : Builtins O} {truthy : O → Bool} {fn : Call α O → σ → Except O O × σ} {ordered : Bool} {l : List α} {n : Int} {parts : List (List α)}
    (hparts : viewOfNPartitions l n = .ok parts) {progs : List (Prog α O)} (hp : WorkersOf B truthy parts progs) {m : σ} {s : XS σ α O} {e : O}
    (h : XReach B fn ordered progs m s) (hm : s.main = .raised e) :
    B.isExc e = true ∧ B.isStop e = false ∧ ∃ c ∈ s.calls, Gave e c.2.1 c.2.2 ∧ (Plain B c.2.1 c.2.2 → c.2.2 = .error e) := by
  have hi := x_inv_reach h
  obtain ⟨h1, h2, k, hk, h3⟩ := hi.exc e hm
  refine ⟨h1, h2, ?_⟩
  have h4 : e ∈ s.written k := by rw [hi.queue k]; exact List.mem_append_left _ h3
  rcases x_follows (hi.worker k) with ⟨_, h5⟩ | ⟨p0, q, h5, h6⟩
  · rw [h5] at h4; cases h4
  · have hknown : Known B (fun _ => False) p0 := by
      have hmem := List.mem_of_getElem? h5
      rcases hp with rfl | rfl | rfl <;> obtain ⟨part, hpart, rfl⟩ := List.mem_map.1 hmem
      · exact known_map B part _
      · exact known_filter B truthy part _
      · exact known_reduce B ((parts_ok hparts).2.2.2.2 part hpart) _
    rcases known_follows h6 hknown e h4 with h7 | h7 | ⟨c, hc, h7⟩
    · exact h7.elim
    · rw [h7, B.stop_isStop] at h2; cases h2
    · refine ⟨_, mem_of_mem hc, h7, fun hq => ?_⟩
      rcases c with ⟨c, r⟩
      cases r with
      | error e' => have h7 : e = e' := h7; rw [h7]
      | ok v =>
        cases c with
        | filter o => exact h7.elim
        | map x => have h7 : e = v := h7; have hq : B.isExc v = false := hq; rw [← h7, h1] at hq; cases hq
        | reduce a b => have h7 : e = v := h7; have hq : B.isExc v = false := hq; rw [← h7, h1] at hq; cases hq

/-- C198: if the values of the map function do not depend on the outside state and are no exceptions, then `map` returns the same list as without processes. -/
theorem C198_values {B : Builtins O} {n : Int} {fn : Call α O → σ → Except O O × σ} {keepOrder : Bool} {l : List α} {m : σ} {s : XS σ α O} {out : List O}
    (g : α → O) (hg : ∀ x ∈ l, ∀ m, (fn (.map x) m).1 = .ok (g x)) (hexc : ∀ x ∈ l, B.isExc (g x) = false)
    (h : ProcMapReturns B n fn keepOrder l m s out) : (keepOrder = true → out = l.map g) ∧ out.Perm (l.map g) := by
  obtain ⟨hperm, hs, _⟩ := C198_exactly_once h
  obtain ⟨parts, vss, hp, hlen, hk, ho, hperm'⟩ := C198_map h fun c hc => by
    obtain ⟨x, hx, hx2⟩ := List.mem_map.1 (hperm.mem_iff.1 (List.mem_map.2 ⟨c, hc, rfl⟩))
    obtain ⟨m2, h2⟩ := serial_answer hs _ (List.mem_map.2 ⟨c, hc, rfl⟩)
    rw [← hx2, hg x hx] at h2
    rw [← hx2, ← h2]
    exact hexc x hx
  have key := maps_flatten g hg (parts_ok hp).2.2.1 hlen hs hk
  exact ⟨fun h => (ho h).trans key, key ▸ hperm'⟩

/-- C198: if the effects of the map function on the outside state commute, then `map` leaves this state as the single-threaded loop does. -/
theorem C198_commuting_effects {B : Builtins O} {n : Int} {fn : Call α O → σ → Except O O × σ} {keepOrder : Bool} {l : List α} {m : σ} {s : XS σ α O}
    {out : List O} (hc : ∀ x ∈ l, ∀ y ∈ l, ∀ m, (fn (.map y) (fn (.map x) m).2).2 = (fn (.map x) (fn (.map y) m).2).2)
    (h : ProcMapReturns B n fn keepOrder l m s out) : s.mem = l.foldl (fun m x => (fn (.map x) m).2) m := by
  obtain ⟨hperm, hs, _⟩ := C198_exactly_once h
  have h1 := serial_fold hs
  rw [List.map_map] at h1
  have h2 : (s.calls.map (Prod.fst ∘ Prod.snd)) = s.calls.map fun c => c.2.1 := rfl
  rw [h2] at h1
  rw [h1, hperm.foldl_eq' (f := fun m c => (fn c m).2), List.foldl_map]
  intro x hx y hy z
  obtain ⟨a, ha, rfl⟩ := List.mem_map.1 (hperm.mem_iff.1 hx)
  obtain ⟨b, hb, rfl⟩ := List.mem_map.1 (hperm.mem_iff.1 hy)
  exact hc a ha b hb z

/-- C198: the same for `map_filter`: every worker has called the map function and then the filter function for every element of its block, in the order of the
block; the result consists of the values the filter function has accepted. -/
theorem C198_map_filter {B : Builtins O} {n : Int} {truthy : O → Bool} {fn : Call α O → σ → Except O O × σ} {l : List α} {m : σ} {s : XS σ α O} {out : List O}
    (h : ProcMapFilterReturns B n truthy fn l m s out) (hplain : ∀ c ∈ s.calls, Plain B c.2.1 c.2.2) :
    ∃ (parts : List (List α)) (vss : List (List O)), viewOfNPartitions l n = .ok parts ∧ vss.length = parts.length ∧ (∀ c ∈ s.calls, c.1 < parts.length) ∧
      Serial fn m (s.calls.map Prod.snd) s.mem ∧
      (∀ k part vs, parts[k]? = some part → vss[k]? = some vs → Filters truthy part (of k s.calls) vs) ∧ out.Perm vss.flatten := by
  obtain ⟨parts, hp, hm, hr, ho⟩ := h
  have hi := x_inv_reach hr
  obtain ⟨w, h1, _, h3⟩ := x_returned_all hi hm (fun p hp => by obtain ⟨part, _, rfl⟩ := List.mem_map.1 hp; exact ends_filter B truthy part) hplain
  rw [List.length_map] at h1 h3
  refine ⟨parts, (List.range parts.length).map w, hp, by rw [List.length_map, List.length_range],
    fun c hc => by have := hi.known c hc; rwa [List.length_map] at this, hi.serial, fun k part vs hk hv => ?_, ?_⟩
  · have hlt : k < parts.length := (List.getElem?_eq_some_iff.1 hk).1
    rw [List.getElem?_map, List.getElem?_range hlt, Option.map_some] at hv
    cases hv
    obtain ⟨h6, h7⟩ := h1 k hlt
    obtain ⟨vs, h4, h5⟩ := follows_procFilter_done (x_returned_blocks hi hm k (procFilterProg B truthy part) (by rw [List.getElem?_map, hk]; rfl))
      (fun c hc => hplain _ (mem_of_mem hc)) h7
    rw [h6] at h4
    rw [(List.append_inj' h4 rfl).1]; exact h5
  · have := h3 rfl
    rw [List.flatMap_def, ← ho] at this
    exact this

/-- C198: the same for `map_reduce`: every worker has reduced its block, and the calling process has reduced the values of the blocks, in the order in which
they have arrived. -/
theorem C198_map_reduce {B : Builtins O} {n : Int} {fn : Call α O → σ → Except O O × σ} {l : List α} {m : σ} {s : XS σ α O}
    {last : List (Call α O × Except O O)} {m' : σ} {out : O} (h : ProcMapReduceReturns B n fn l m s last m' out)
    (hplain : ∀ c ∈ s.calls, Plain B c.2.1 c.2.2) :
    ∃ parts vs o os, viewOfNPartitions l n = .ok parts ∧ vs.length = parts.length ∧ (∀ c ∈ s.calls, c.1 < parts.length) ∧
      Serial fn m (s.calls.map Prod.snd ++ last) m' ∧
      (∀ k part v, parts[k]? = some part → vs[k]? = some v → Reduces part (of k s.calls) v) ∧
      (o :: os).Perm vs ∧ reduceMain fn o os s.mem = (last, .ok out, m') := by
  obtain ⟨parts, hp, hm, hr, o, os, ho, hmain⟩ := h
  have hi := x_inv_reach hr
  have hne := (parts_ok hp).2.2.2.2
  obtain ⟨w, h1, _, h3⟩ := x_returned_all hi hm (fun p hp => by obtain ⟨part, hpart, rfl⟩ := List.mem_map.1 hp; exact ends_reduce B (hne part hpart)) hplain
  rw [List.length_map] at h1 h3
  have hred : ∀ k part, parts[k]? = some part → ∃ v, w k = [v] ∧ Reduces part (of k s.calls) v := fun k part hk => by
    have hlt : k < parts.length := (List.getElem?_eq_some_iff.1 hk).1
    obtain ⟨h6, h7⟩ := h1 k hlt
    obtain ⟨v, h4, h5⟩ := follows_procReduce_done (hne part (List.mem_of_getElem? hk))
      (x_returned_blocks hi hm k (procReduceProg B part) (by rw [List.getElem?_map, hk]; rfl)) (fun c hc => hplain _ (mem_of_mem hc)) h7
    rw [h6] at h4
    exact ⟨v, (List.append_inj' (t₁ := [B.stop]) (t₂ := [B.stop]) (s₂ := [v]) h4 rfl).1, h5⟩
  have hex : ∀ j ≤ parts.length, ∃ vs : List O, vs.length = j ∧ (List.range j).flatMap w = vs ∧ ∀ k v, vs[k]? = some v → w k = [v] := by
    intro j
    induction j with
    | zero => exact fun _ => ⟨[], rfl, rfl, fun k v h => by cases h⟩
    | succ j ih =>
      intro hj
      obtain ⟨vs, h1, h2, h3⟩ := ih (by omega)
      obtain ⟨v, hv, _⟩ := hred j parts[j] (List.getElem?_eq_getElem _)
      refine ⟨vs ++ [v], by rw [List.length_append, h1]; rfl, by rw [List.range_succ, List.flatMap_append, h2]; simp [hv], fun k w hw => ?_⟩
      by_cases hk : k < vs.length
      · rw [List.getElem?_append_left hk] at hw; exact h3 k w hw
      · have hlt := (List.getElem?_eq_some_iff.1 hw).1
        rw [List.length_append] at hlt
        have hkj : k = j := by simp at hlt; omega
        subst hkj
        rw [List.getElem?_append_right (by omega), h1, Nat.sub_self] at hw
        cases hw; exact hv
  obtain ⟨vs, e1, e2, e3⟩ := hex parts.length (Nat.le_refl _)
  refine ⟨parts, vs, o, os, hp, e1, fun c hc => by have := hi.known c hc; rwa [List.length_map] at this, serial_append hi.serial (reduceMain_serial hmain),
    fun k part v hk hv => ?_, ?_, hmain⟩
  · obtain ⟨v', hv', hr'⟩ := hred k part hk
    rw [e3 k v hv] at hv'
    cases hv'; exact hr'
  · have := h3 rfl
    rw [e2, ho] at this
    exact this

/-! ### the end of the call -/

/-- the steps a worker can still make -/
def XLeft (B : Builtins O) (p : Option (Prog α O)) (d : Nat) : XW α O → Prop
  | .idle => ∀ p0, p = some p0 → Short B d p0
  | .running q => Short B d q ∨ (q = .done ∧ 1 ≤ d)
  | .calling _ next => ∃ d', d = d' + 1 ∧ ∀ r, Short B d' (next r)
  | .finished => True
  | .killed => True

def xMainLeft (n : Nat) : PMain O → Nat
  | .starting j => (n - j) + n + 4
  | .collecting => n + 3
  | .joining j => (n - j) + 1
  | .returned => 0
  | .raised _ => 0

/-- at most `N` further steps: those of the workers, twice, because everything that is put is got; the messages in the queues; those of the calling process -/
def XAtMost (B : Builtins O) (progs : List (Prog α O)) (s : XS σ α O) (N : Nat) : Prop :=
  ∃ d : Nat → Nat, (∀ k, XLeft B progs[k]? (d k) (s.ws k)) ∧ (∀ k, s.ws k ≠ .idle → k < progs.length) ∧
    N = (∑ k ∈ Finset.range progs.length, (2 * d k + ((s.written k).length - (s.taken k).length))) + xMainLeft progs.length s.main

theorem xAtMost_step {B : Builtins O} {fn : Call α O → σ → Except O O × σ} {ordered : Bool} {progs : List (Prog α O)} {m : σ} {s t : XS σ α O} {N : Nat}
    (hi : XInv B fn ordered progs m s) (h : XAtMost B progs s N) (hs : XStep B fn ordered progs s t) : ∃ N' < N, XAtMost B progs t N' := by
  obtain ⟨d, hd, hlen, rfl⟩ := h
  -- a step of worker `k` that leaves it `v` further steps and puts at most one message for two steps
  have worker : ∀ (k v : Nat) (w : XW α O) (t : XS σ α O), t.ws = Function.update s.ws k w → t.main = s.main → t.taken = s.taken →
      (∀ i, i ≠ k → t.written i = s.written i) → (t.written k).length ≤ (s.written k).length + 1 → s.ws k ≠ .idle → v < d k →
      XLeft B progs[k]? v w → ∃ N' < (∑ k ∈ Finset.range progs.length, (2 * d k + ((s.written k).length - (s.taken k).length))) +
        xMainLeft progs.length s.main, XAtMost B progs t N' := by
    intro k v w t ht hm htk hwr hwk hk hv hw
    have hk' := hlen k hk
    refine ⟨_, ?_, Function.update d k v, fun i => ?_, fun i hi => ?_, rfl⟩
    · rw [hm, Nat.add_lt_add_iff_right, htk]
      refine Finset.sum_lt_sum (fun i _ => ?_) ⟨k, Finset.mem_range.2 hk', by rw [Function.update_self]; omega⟩
      by_cases h : i = k
      · subst h; rw [Function.update_self]; omega
      · rw [Function.update_of_ne h, hwr i h]
    · rw [ht]
      by_cases h : i = k
      · subst h; rw [Function.update_self, Function.update_self]; exact hw
      · rw [Function.update_of_ne h, Function.update_of_ne h]; exact hd i
    · rw [ht] at hi
      by_cases h : i = k
      · subst h; exact hk'
      · rw [Function.update_of_ne h] at hi; exact hlen i hi
  -- a message of worker `j` is got
  have get : ∀ (i j : Nat) (o : O) (q : List (Nat × O)) (t : XS σ α O), s.queues i = (j, o) :: q → t.ws = s.ws → t.written = s.written →
      t.taken = Function.update s.taken j (s.taken j ++ [o]) → xMainLeft progs.length t.main ≤ xMainLeft progs.length s.main →
      ∃ N' < (∑ k ∈ Finset.range progs.length, (2 * d k + ((s.written k).length - (s.taken k).length))) +
        xMainLeft progs.length s.main, XAtMost B progs t N' := by
    intro i j o q t hq hws hwr htk hm
    obtain ⟨q1, q2, _, q4⟩ := queue_get hq hi.tags hi.queue
    refine ⟨_, ?_, d, fun k => by rw [hws]; exact hd k, fun k hk => hlen k (by rw [hws] at hk; exact hk), rfl⟩
    rw [hwr, htk]
    have hlt : ∑ k ∈ Finset.range progs.length, (2 * d k + ((s.written k).length - (Function.update s.taken j (s.taken j ++ [o]) k).length)) <
        ∑ k ∈ Finset.range progs.length, (2 * d k + ((s.written k).length - (s.taken k).length)) := by
      refine Finset.sum_lt_sum (fun k _ => ?_) ⟨j, Finset.mem_range.2 q1, ?_⟩
      · by_cases h : k = j
        · subst h; rw [Function.update_self, List.length_append]; omega
        · rw [Function.update_of_ne h]
      · have h4 := congrArg List.length (q4 j)
        rw [Function.update_self, List.length_append, List.length_append] at h4
        rw [Function.update_self, List.length_append]
        simp only [List.length_cons, List.length_nil] at h4 ⊢
        omega
    omega
  cases hs with
  | @start k p hm hp =>
    have hk := st_lt_of_some hp
    refine ⟨_, ?_, d, fun i => ?_, fun i hi' => ?_, rfl⟩
    · dsimp only; rw [hm]; unfold xMainLeft; dsimp only; omega
    · dsimp only
      by_cases h : i = k
      · subst h
        rw [Function.update_self]
        have h1 := hd i
        have h2 := hi.main
        rw [hm] at h2
        rw [h2.2.2 i (Nat.le_refl i)] at h1
        exact .inl (h1 p hp)
      · rw [Function.update_of_ne h]; exact hd i
    · dsimp only at hi'
      by_cases h : i = k
      · subst h; exact hk
      · rw [Function.update_of_ne h] at hi'; exact hlen i hi'
  | started hm => exact ⟨_, by dsimp only; rw [hm]; unfold xMainLeft; dsimp only; omega, d, hd, hlen, rfl⟩
  | @getStop j o q _ hm _ hq _ => exact get 0 j o q _ hq rfl rfl rfl (Nat.le_refl _)
  | @getExc j o q _ hm _ hq _ _ => exact get 0 j o q _ hq rfl rfl rfl (Nat.zero_le _)
  | @getItem j o q _ hm _ hq _ _ => exact get 0 j o q _ hq rfl rfl rfl (Nat.le_refl _)
  | collected _ hm _ => exact ⟨_, by dsimp only; rw [hm]; unfold xMainLeft; dsimp only; omega, d, hd, hlen, rfl⟩
  | @getStopOf os k j o q _ hm _ hq _ => exact get k j o q _ hq rfl rfl rfl (Nat.le_refl _)
  | @getExcOf os k j o q _ hm _ hq _ _ => exact get k j o q _ hq rfl rfl rfl (Nat.zero_le _)
  | @getItemOf os k j o q _ hm _ hq _ _ => exact get k j o q _ hq rfl rfl rfl (Nat.le_refl _)
  | collectedAll _ hm _ => exact ⟨_, by dsimp only; rw [hm]; unfold xMainLeft; dsimp only; omega, d, hd, hlen, rfl⟩
  | @join k hm hk hw => exact ⟨_, by dsimp only; rw [hm]; unfold xMainLeft; dsimp only; omega, d, hd, hlen, rfl⟩
  | joined hm => exact ⟨_, by dsimp only; rw [hm]; unfold xMainLeft; dsimp only; omega, d, hd, hlen, rfl⟩
  | @enter k c next hw =>
    have h1 := hd k
    rw [hw] at h1
    have h1 : Short B (d k) (.call c next) := h1.resolve_right fun h => by cases h.1
    generalize hdk : d k = D at h1
    cases h1 with
    | @call n _ _ h1 =>
      exact worker k (n + 1) _ _ rfl rfl rfl (fun _ _ => rfl) (Nat.le_succ _) (by rw [hw]; exact fun h => by cases h) (by omega) ⟨n, rfl, h1⟩
  | @effect k c next hw =>
    have h1 := hd k
    rw [hw] at h1
    obtain ⟨d', h1, h2⟩ := h1
    exact worker k d' _ _ rfl rfl rfl (fun _ _ => rfl) (Nat.le_succ _) (by rw [hw]; exact fun h => by cases h) (by omega) (.inl (h2 _))
  | @put k o p hw =>
    have h1 := hd k
    rw [hw] at h1
    have h1 : Short B (d k) (.append o p) := h1.resolve_right fun h => by cases h.1
    generalize hdk : d k = D at h1
    have hwr : (Function.update s.written k (s.written k ++ [o]) k).length ≤ (s.written k).length + 1 := by
      rw [Function.update_self, List.length_append]; exact Nat.le_refl _
    cases h1 with
    | @append n _ _ h1 =>
      exact worker k n _ _ rfl rfl rfl (fun i hi => Function.update_of_ne hi _ _) hwr (by rw [hw]; exact fun h => by cases h) (by omega) (.inl h1)
    | @stop n =>
      exact worker k (n + 1) _ _ rfl rfl rfl (fun i hi => Function.update_of_ne hi _ _) hwr (by rw [hw]; exact fun h => by cases h) (by omega)
        (.inr ⟨rfl, by omega⟩)
  | @finish k hw =>
    have h1 := hd k
    rw [hw] at h1
    rcases h1 with h1 | ⟨_, h1⟩
    · generalize d k = D at h1
      cases h1
    · exact worker k 0 _ _ rfl rfl rfl (fun _ _ => rfl) (Nat.le_succ _) (by rw [hw]; exact fun h => by cases h) (by omega) trivial
  | @kill k e hm hw =>
    have hpos : 0 < d k ∧ s.ws k ≠ .idle := by
      have h1 := hd k
      rcases hw with ⟨p, hw⟩ | ⟨c, next, hw⟩
      · rw [hw] at h1 ⊢
        refine ⟨?_, fun h => by cases h⟩
        rcases h1 with h1 | ⟨_, h1⟩
        · generalize d k = D at h1
          cases h1 <;> omega
        · omega
      · rw [hw] at h1 ⊢
        obtain ⟨d', h1, _⟩ := h1
        exact ⟨by omega, fun h => by cases h⟩
    exact worker k 0 _ _ rfl rfl rfl (fun _ _ => rfl) (Nat.le_succ _) hpos.2 hpos.1 trivial

theorem short_progs {B : Builtins O} {truthy : O → Bool} {parts : List (List α)} {progs : List (Prog α O)} (hp : WorkersOf B truthy parts progs) :
    ∀ p ∈ progs, ∃ n, Short B n p := by
  rcases hp with rfl | rfl | rfl
  · intro p hp; obtain ⟨part, _, rfl⟩ := List.mem_map.1 hp; exact ⟨_, short_map B part⟩
  · intro p hp; obtain ⟨part, _, rfl⟩ := List.mem_map.1 hp; exact ⟨_, short_filter B truthy part⟩
  · intro p hp; obtain ⟨part, _, rfl⟩ := List.mem_map.1 hp; exact ⟨_, short_reduce B part⟩

theorem xAtMost_reach {B : Builtins O} {fn : Call α O → σ → Except O O × σ} {ordered : Bool} {progs : List (Prog α O)}
    (hbound : ∀ p ∈ progs, ∃ n, Short B n p) {m : σ} {s : XS σ α O} (h : XReach B fn ordered progs m s) : ∃ N, XAtMost B progs s N := by
  unfold XReach at h
  induction h with
  | refl =>
    have : ∀ k : Nat, ∃ d, XLeft B progs[k]? d (.idle : XW α O) := fun k => by
      cases hk : progs[k]? with
      | none => exact ⟨0, fun p0 h => by cases h⟩
      | some p =>
        obtain ⟨n, hn⟩ := hbound p (List.mem_of_getElem? hk)
        exact ⟨n, fun p0 h => by cases h; exact hn⟩
    choose d hd using this
    exact ⟨_, d, hd, fun k h => absurd rfl h, rfl⟩
  | tail hr hs ih =>
    obtain ⟨N, hN⟩ := ih
    obtain ⟨N', _, hN'⟩ := xAtMost_step (x_inv_reach hr) hN hs
    exact ⟨N', hN'⟩

/-- C198: under every schedule the call ends, whatever the functions write, return and raise: no schedule runs forever, and a state in which nothing can run is
one in which the call has returned or raised an exception and all workers have ended. -/
theorem C198_ends {B : Builtins O} {truthy : O → Bool} (fn : Call α O → σ → Except O O × σ) (ordered : Bool) (parts : List (List α)) (progs : List (Prog α O))
    (hp : WorkersOf B truthy parts progs) (m : σ) :
    (¬ ∃ run : Nat → XS σ α O, run 0 = XS.init m ∧ ∀ i, XStep B fn ordered progs (run i) (run (i + 1))) ∧
    ∀ s, XReach B fn ordered progs m s → (∀ t, ¬ XStep B fn ordered progs s t) →
      (s.main = .returned ∨ ∃ e, s.main = .raised e) ∧ AllEnded progs.length s := by
  constructor
  · have none_from : ∀ (N : Nat) (s : XS σ α O), XInv B fn ordered progs m s → XAtMost B progs s N →
        ¬ ∃ run : Nat → XS σ α O, run 0 = s ∧ ∀ i, XStep B fn ordered progs (run i) (run (i + 1)) := by
      intro N
      induction N using Nat.strong_induction_on with
      | _ N ih =>
        rintro s hi hN ⟨run, h0, hrun⟩
        have h1 := hrun 0
        rw [h0] at h1
        obtain ⟨N', hlt, hN'⟩ := xAtMost_step hi hN h1
        exact ih N' hlt (run (0 + 1)) (x_inv_step hi h1) hN' ⟨fun i => run (i + 1), rfl, fun i => hrun (i + 1)⟩
    obtain ⟨N, hN⟩ := xAtMost_reach (fn := fn) (ordered := ordered) (m := m) (short_progs hp) .refl
    exact none_from N _ (x_inv_init B fn ordered progs m) hN
  · intro s hr hstop
    have hinv := x_inv_reach hr
    have hi := hinv.main
    have hw : ∀ k, s.ws k = .idle ∨ s.ws k = .finished ∨ s.ws k = .killed := fun k => by
      cases hk : s.ws k with
      | idle => exact .inl rfl
      | finished => exact .inr (.inl rfl)
      | killed => exact .inr (.inr rfl)
      | calling c next => exact absurd (XStep.effect hk) (hstop _)
      | running p =>
        cases p with
        | done => exact absurd (XStep.finish hk) (hstop _)
        | append o p => exact absurd (XStep.put hk) (hstop _)
        | call c next => exact absurd (XStep.enter hk) (hstop _)
        | fail e =>
          have h1 := hinv.worker k
          rw [hk] at h1
          obtain ⟨p0, hp0, hf⟩ := h1
          obtain ⟨n, hn⟩ := short_progs hp p0 (List.mem_of_getElem? hp0)
          rcases short_follows hf hn with ⟨n', h⟩ | ⟨h, _⟩ <;> cases h
    -- if the call has not raised, the workers have finished, and the stop marker is among what they have put
    have hfin : (∀ e, s.main ≠ .raised e) → ∀ k < progs.length, s.ws k ≠ .idle → s.ws k = .finished ∧ B.stop ∈ s.written k := fun hne k hk hidle => by
      rcases hw k with h | h | h
      · exact absurd h hidle
      · refine ⟨h, ?_⟩
        have h1 := hinv.worker k
        rw [h] at h1
        obtain ⟨p0, hp0, hf⟩ := h1
        obtain ⟨n, hn⟩ := short_progs hp p0 (List.mem_of_getElem? hp0)
        rcases short_follows hf hn with ⟨n', h⟩ | ⟨_, h⟩
        · cases h
        · exact h
      · obtain ⟨e, he⟩ := hinv.killed k h
        exact absurd he (hne e)
    cases hm : s.main with
    | starting j =>
      rw [hm] at hi
      by_cases hj : j < progs.length
      · exact absurd (XStep.start hm (List.getElem?_eq_getElem hj)) (hstop _)
      · have : j = progs.length := by have := hi.1; omega
        subst this
        exact absurd (XStep.started hm) (hstop _)
    | collecting =>
      rw [hm] at hi
      have hf := fun k hk => (hfin (fun e he => by rw [hm] at he; cases he) k hk (hi.1 k hk)).2
      have hempty : ∀ i, s.queues i = [] → ∀ k < progs.length, ofQueue ordered k = i → B.stop ∈ s.taken k := fun i h0 k hk hik => by
        have := hf k hk
        rw [hinv.queue k, hik, h0] at this
        simpa using this
      exfalso
      cases hord : ordered with
      | false =>
        have hsh := hinv.shared hord
        rw [hm] at hsh
        by_cases hn : s.nrFinished < progs.length
        · cases hq : s.queues 0 with
          | nil =>
            have := flatMap_length_ge (w := fun k => (s.taken k).filter B.isStop) (n := progs.length) fun k hk hnil => by
              have h1 := hempty 0 hq k hk (by rw [hord]; rfl)
              have h2 : B.stop ∈ (s.taken k).filter B.isStop := List.mem_filter.2 ⟨h1, B.stop_isStop⟩
              rw [hnil] at h2; cases h2
            have := hsh.2.1
            omega
          | cons x q =>
            rcases x with ⟨j, o⟩
            cases hs : B.isStop o with
            | true => exact hstop _ (XStep.getStop hord hm hn hq hs)
            | false =>
              cases he : B.isExc o with
              | true => exact hstop _ (XStep.getExc hord hm hn hq hs he)
              | false => exact hstop _ (XStep.getItem hord hm hn hq hs he)
        · exact hstop _ (XStep.collected hord hm hn)
      | true =>
        have hown := hinv.own hord
        rw [hm] at hown
        rcases List.eq_nil_or_concat s.openWorkers with h0 | ⟨os, k, h0⟩
        · exact hstop _ (XStep.collectedAll hord hm h0)
        · rw [List.concat_eq_append] at h0
          have hmem : k ∈ s.openWorkers := by rw [h0]; exact List.mem_append_right _ List.mem_cons_self
          have hk := hown.2.1 k hmem
          cases hq : s.queues k with
          | nil =>
            have h1 := (hown.2.2.1 k hk).1 hmem B.stop (hempty k hq k hk (by rw [hord]; rfl))
            rw [B.stop_isStop] at h1; cases h1
          | cons x q =>
            rcases x with ⟨j, o⟩
            cases hs : B.isStop o with
            | true => exact hstop _ (XStep.getStopOf hord hm h0 hq hs)
            | false =>
              cases he : B.isExc o with
              | true => exact hstop _ (XStep.getExcOf hord hm h0 hq hs he)
              | false => exact hstop _ (XStep.getItemOf hord hm h0 hq hs he)
    | joining j =>
      rw [hm] at hi
      by_cases hj : j < progs.length
      · exact absurd (XStep.join hm hj (hfin (fun e he => by rw [hm] at he; cases he) j hj (hi.2.1 j hj)).1) (hstop _)
      · have : j = progs.length := by have := hi.1; omega
        subst this
        exact absurd (XStep.joined hm) (hstop _)
    | returned =>
      rw [hm] at hi
      exact ⟨.inl rfl, fun k hk => .inl (hi.2 k hk)⟩
    | raised e =>
      rw [hm] at hi
      refine ⟨.inr ⟨e, rfl⟩, fun k hk => ?_⟩
      rcases hw k with h | h
      · exact absurd h (hi.1 k hk)
      · exact h

/-- C198: from every state that can be reached, the call can go on to its end. -/
theorem C198_can_end {B : Builtins O} {truthy : O → Bool} {fn : Call α O → σ → Except O O × σ} {ordered : Bool} {parts : List (List α)}
    {progs : List (Prog α O)} (hp : WorkersOf B truthy parts progs) {m : σ} {s : XS σ α O} (h : XReach B fn ordered progs m s) :
    ∃ t, Relation.ReflTransGen (XStep B fn ordered progs) s t ∧ (t.main = .returned ∨ ∃ e, t.main = .raised e) ∧ AllEnded progs.length t := by
  have key : ∀ (N : Nat) (s : XS σ α O), XReach B fn ordered progs m s → XAtMost B progs s N → ∃ t,
      Relation.ReflTransGen (XStep B fn ordered progs) s t ∧ (t.main = .returned ∨ ∃ e, t.main = .raised e) ∧ AllEnded progs.length t := by
    intro N
    induction N using Nat.strong_induction_on with
    | _ N ih =>
      intro s hr hN
      by_cases hn : ∃ t, XStep B fn ordered progs s t
      · obtain ⟨t, ht⟩ := hn
        obtain ⟨N', hlt, hN'⟩ := xAtMost_step (x_inv_reach hr) hN ht
        obtain ⟨u, hu, h2⟩ := ih N' hlt t (hr.tail ht) hN'
        exact ⟨u, .head ht hu, h2⟩
      · push Not at hn
        exact ⟨s, .refl, (C198_ends fn ordered parts progs hp m).2 s hr hn⟩
  obtain ⟨N, hN⟩ := xAtMost_reach (short_progs hp) h
  exact key N s h hN

/-- C198: if the functions never raise an exception and never return an exception object, then every run that has ended has returned, and there is such a run:
the hypotheses of the theorems above are met for every list and all such functions. -/
theorem C198_returns {n : Int} (hn : 1 ≤ n) {fn : Call α O → σ → Except O O × σ} {l : List α} (hl : l ≠ []) (B : Builtins O) (truthy : O → Bool)
    (hf : ∀ c m, ∃ v, (fn c m).1 = .ok v ∧ B.isExc v = false) (m : σ) :
    (∀ keepOrder, ∃ s out, ProcMapReturns B n fn keepOrder l m s out) ∧ (∃ s out, ProcMapFilterReturns B n truthy fn l m s out) ∧
    ∃ s last m' out, ProcMapReduceReturns B n fn l m s last m' out := by
  obtain ⟨parts, hp, _⟩ := C04_partitions l n hl hn
  have key : ∀ (ordered : Bool) (progs : List (Prog α O)), WorkersOf B truthy parts progs → ∃ s, XReach B fn ordered progs m s ∧ s.main = .returned := by
    intro ordered progs hprogs
    obtain ⟨t, h1, h2, _⟩ := C198_can_end (fn := fn) (ordered := ordered) (m := m) hprogs .refl
    have hr : XReach B fn ordered progs m t := h1
    rcases h2 with h2 | ⟨e, h2⟩
    · exact ⟨t, hr, h2⟩
    · obtain ⟨h3, _, c, hc, h4, _⟩ := C198_raised hp hprogs hr h2
      obtain ⟨m2, h5⟩ := serial_answer (x_inv_reach hr).serial _ (List.mem_map.2 ⟨c, hc, rfl⟩)
      obtain ⟨v, h6, h7⟩ := hf c.2.1 m2
      rw [h5] at h6
      rw [h6] at h4
      have h4 : e = v := by
        revert h4
        cases c.2.1 with
        | filter o => exact fun h => h.elim
        | map x => exact fun h => h
        | reduce a b => exact fun h => h
      rw [← h4, h3] at h7; cases h7
  refine ⟨fun keepOrder => ?_, ?_, ?_⟩
  · obtain ⟨s, h1, h2⟩ := key keepOrder _ (.inl rfl)
    exact ⟨s, _, parts, hp, h2, h1, rfl⟩
  · obtain ⟨s, h1, h2⟩ := key false _ (.inr (.inl rfl))
    exact ⟨s, _, parts, hp, h2, h1, rfl⟩
  · obtain ⟨s, h1, h2⟩ := key false _ (.inr (.inr rfl))
    have hi := x_inv_reach h1
    have hne := (parts_ok hp).2.2.2.2
    have hplain : ∀ c ∈ s.calls, Plain B c.2.1 c.2.2 := fun c hc => by
      obtain ⟨m2, h5⟩ := serial_answer hi.serial _ (List.mem_map.2 ⟨c, hc, rfl⟩)
      obtain ⟨v, h6, h7⟩ := hf c.2.1 m2
      rw [h5] at h6
      rw [h6]
      cases c.2.1 with
      | filter o => trivial
      | map x => exact h7
      | reduce a b => exact h7
    obtain ⟨w, e1, _, e3⟩ := x_returned_all hi h2 (fun p hp => by obtain ⟨part, hpart, rfl⟩ := List.mem_map.1 hp; exact ends_reduce B (hne part hpart)) hplain
    have hlt : 0 < parts.length := List.length_pos_iff.2 (parts_ok hp).2.2.2.1
    have hlt' : 0 < (parts.map (procReduceProg (α := α) B)).length := by rw [List.length_map]; exact hlt
    obtain ⟨h6, h7⟩ := e1 0 hlt'
    obtain ⟨v, h4, _⟩ := follows_procReduce_done (hne parts[0] (List.getElem_mem hlt))
      (x_returned_blocks hi h2 0 (procReduceProg B parts[0]) (by rw [List.getElem?_map, List.getElem?_eq_getElem hlt]; rfl))
      (fun c hc => hplain _ (mem_of_mem hc)) h7
    rw [h6] at h4
    have h8 : w 0 = [v] := (List.append_inj' (t₁ := [B.stop]) (t₂ := [B.stop]) (s₂ := [v]) h4 rfl).1
    cases hs : s.mapped 0 with
    | nil =>
      have := e3 rfl
      rw [hs] at this
      have h9 := List.flatMap_eq_nil_iff.1 this.nil_eq.symm 0 (List.mem_range.2 hlt')
      rw [h8] at h9; cases h9
    | cons o os =>
      obtain ⟨last, out, m', hmain⟩ := reduceMain_ok (fn := fn) (fun c m e h => by obtain ⟨v, hv, _⟩ := hf c m; rw [hv] at h; cases h) os o s.mem
      exact ⟨s, last, m', out, parts, hp, h2, h1, o, os, hs, hmain⟩

/-- C198, deviation: when `map` raises an exception it is open what has been done. Here the first of two elements fails, with one worker: the call can raise the
exception and end with the second element worked through, and it can raise the same exception and end without the second element. -/
theorem C198_open_after_exception (B : Builtins O) (fn : Call α O → σ → Except O O × σ) (x y : α) (m : σ) (e : O) (m1 : σ)
    (hx : fn (.map x) m = (.error e, m1)) (he : B.isExc e = true) (hs : B.isStop e = false) :
    viewOfNPartitions [x, y] 1 = .ok [[x, y]] ∧
    (∃ s, XReach B fn true ([[x, y]].map (procMapProg B)) m s ∧ s.main = .raised e ∧ AllEnded 1 s ∧ s.mem = m1 ∧ s.calls = [(0, .map x, .error e)]) ∧
    ∃ s, XReach B fn true ([[x, y]].map (procMapProg B)) m s ∧ s.main = .raised e ∧ AllEnded 1 s ∧ s.mem = (fn (.map y) m1).2 ∧
      s.calls = [(0, .map x, .error e), (0, .map y, (fn (.map y) m1).1)] := by
  have hx1 : (fn (.map x) m).1 = .error e := by rw [hx]
  have hx2 : (fn (.map x) m).2 = m1 := by rw [hx]
  let P := [[x, y]].map (procMapProg (α := α) B)
  let k0 : List α → Except O O → Prog α O := fun xs r => match r with
    | .error e => .append e (procMapProg B xs)
    | .ok o => .append o (procMapProg B xs)
  let w : XW α O → Nat → XW α O := fun v i => if i = 0 then v else .idle
  have hwu : ∀ v v', Function.update (w v) 0 v' = w v' := fun v v' => by
    funext i
    by_cases h : i = 0
    · subst h; rw [Function.update_self]; rfl
    · rw [Function.update_of_ne h]; show w v i = w v' i; unfold w; rw [if_neg h, if_neg h]
  let z : List O → Nat → List O := fun v i => if i = 0 then v else []
  have hzu : ∀ v v', Function.update (z v) 0 v' = z v' := fun v v' => by
    funext i
    by_cases h : i = 0
    · subst h; rw [Function.update_self]; rfl
    · rw [Function.update_of_ne h]; show z v i = z v' i; unfold z; rw [if_neg h, if_neg h]
  let u : List (Nat × O) → Nat → List (Nat × O) := fun v i => if i = 0 then v else []
  have huu : ∀ v v', Function.update (u v) 0 v' = u v' := fun v v' => by
    funext i
    by_cases h : i = 0
    · subst h; rw [Function.update_self]; rfl
    · rw [Function.update_of_ne h]; show u v i = u v' i; unfold u; rw [if_neg h, if_neg h]
  let c1 : List (Nat × Call α O × Except O O) := [(0, .map x, .error e)]
  let S : PMain O → XW α O → List (Nat × O) → σ → List (Nat × Call α O × Except O O) → List O → List O → XS σ α O :=
    fun main v q mem calls wr tk => ⟨main, w v, u q, fun _ => [], [0], 0, mem, calls, z wr, z tk⟩
  -- up to the exception in the queue
  have r0 : XReach B fn true P m (S .collecting (.running (procMapProg B [x, y])) [] m [] [] []) := by
    have h1 := XStep.start (B := B) (fn := fn) (ordered := true) (progs := P) (s := XS.init m) (k := 0) (p := procMapProg B [x, y]) rfl rfl
    have h2 := (Relation.ReflTransGen.single h1).tail (XStep.started (B := B) (fn := fn) (ordered := true) (progs := P) rfl)
    have e1 : (fun _ => [] : Nat → List O) = z [] := by funext i; unfold z; split <;> rfl
    have e2 : (fun _ => [] : Nat → List (Nat × O)) = u [] := by funext i; unfold u; split <;> rfl
    have e3 : (fun _ => .idle : Nat → XW α O) = w .idle := by funext i; unfold w; split <;> rfl
    have h3 : XReach B fn true P m ⟨.collecting, Function.update (fun _ => .idle) 0 (.running (procMapProg B [x, y])), fun _ => [], fun _ => [], [0], 0, m, [],
      fun _ => [], fun _ => []⟩ := h2
    rw [e3, hwu] at h3
    show XReach B fn true P m ⟨.collecting, w (.running (procMapProg B [x, y])), u [], fun _ => [], [0], 0, m, [], z [], z []⟩
    rw [← e1, ← e2]
    exact h3
  have enter : ∀ (main : PMain O) (a : α) (xs : List α) q mem calls wr tk, XStep B fn true P (S main (.running (procMapProg B (a :: xs))) q mem calls wr tk)
      (S main (.calling (.map a) (k0 xs)) q mem calls wr tk) := by
    intro main a xs q mem calls wr tk
    have := XStep.enter (B := B) (fn := fn) (ordered := true) (progs := P) (s := S main (.running (procMapProg B (a :: xs))) q mem calls wr tk) (k := 0)
      (c := .map a) (next := k0 xs) rfl
    dsimp only [S] at this
    rw [hwu] at this
    exact this
  have effect : ∀ (main : PMain O) (a : α) (xs : List α) q mem calls wr tk, XStep B fn true P (S main (.calling (.map a) (k0 xs)) q mem calls wr tk)
      (S main (.running (k0 xs (fn (.map a) mem).1)) q (fn (.map a) mem).2 (calls ++ [(0, .map a, (fn (.map a) mem).1)]) wr tk) := by
    intro main a xs q mem calls wr tk
    have := XStep.effect (B := B) (fn := fn) (ordered := true) (progs := P) (s := S main (.calling (.map a) (k0 xs)) q mem calls wr tk) (k := 0)
      (c := .map a) (next := k0 xs) rfl
    dsimp only [S] at this
    rw [hwu] at this
    exact this
  have put : ∀ (main : PMain O) (o : O) (p : Prog α O) q mem calls wr tk, XStep B fn true P (S main (.running (.append o p)) q mem calls wr tk)
      (S main (.running p) (q ++ [(0, o)]) mem calls (wr ++ [o]) tk) := by
    intro main o p q mem calls wr tk
    have := XStep.put (B := B) (fn := fn) (ordered := true) (progs := P) (s := S main (.running (.append o p)) q mem calls wr tk) (k := 0)
      (o := o) (p := p) rfl
    have h0 : ofQueue true 0 = 0 := rfl
    dsimp only [S] at this
    rw [h0, hwu, huu, hzu] at this
    exact this
  have get : ∀ (v : XW α O) q mem calls wr, XStep B fn true P (S .collecting v ((0, e) :: q) mem calls wr []) (S (.raised e) v q mem calls wr [e]) := by
    intro v q mem calls wr
    have := XStep.getExcOf (B := B) (fn := fn) (ordered := true) (progs := P) (s := S .collecting v ((0, e) :: q) mem calls wr []) (k := 0) (os := []) (j := 0)
      (o := e) (q := q) rfl rfl rfl rfl hs he
    dsimp only [S] at this
    rw [huu, hzu] at this
    exact this
  have kill : ∀ (p : Prog α O) q mem calls wr tk, XStep B fn true P (S (.raised e) (.running p) q mem calls wr tk) (S (.raised e) .killed q mem calls wr tk) := by
    intro p q mem calls wr tk
    have := XStep.kill (B := B) (fn := fn) (ordered := true) (progs := P) (s := S (.raised e) (.running p) q mem calls wr tk) (k := 0) (e := e) rfl (.inl ⟨p, rfl⟩)
    dsimp only [S] at this
    rw [hwu] at this
    exact this
  have r1 : XReach B fn true P m (S .collecting (.running (procMapProg B [y])) [(0, e)] m1 c1 [e] []) := by
    have h2 := effect .collecting x [y] [] m [] [] []
    rw [hx1, hx2] at h2
    exact ((r0.tail (enter _ _ _ _ _ _ _ _)).tail h2).tail (put _ _ _ _ _ _ _ _)
  have ended : ∀ q mem calls wr tk, AllEnded 1 (S (.raised e) .killed q mem calls wr tk) := fun q mem calls wr tk k hk => by
    have : k = 0 := by omega
    subst this; exact .inr rfl
  refine ⟨parts_pair x y, ⟨_, (r1.tail (get _ _ _ _ _)).tail (kill _ _ _ _ _ _), rfl, ended _ _ _ _ _, rfl, rfl⟩,
    ⟨_, (((r1.tail (enter _ _ _ _ _ _ _ _)).tail (effect _ _ _ _ _ _ _ _)).tail (get _ _ _ _ _)).tail (kill _ _ _ _ _ _), rfl, ended _ _ _ _ _, rfl, rfl⟩⟩

/-- a python object is a number; 1000 is StopIteration, larger numbers are other exceptions -/
def counterBuiltins : Builtins Nat :=
  ⟨fun o => 1000 ≤ o, fun o => o == 1000, 1000, 1001, 1002, rfl, fun o h => by simp at h; subst h; rfl⟩

/-- a counter in a file: the function adds its argument to the counter and returns its argument -/
def fileCounter : Call Nat Nat → Nat → Except Nat Nat × Nat
  | .map x, c => (.ok (min x 999), c + x)
  | .filter _, c => (.ok 1, c)
  | .reduce _ _, c => (.ok 0, c)

/-- the hypotheses of the theorems are met: with two processes, the counter is 1 + 2 + 3 at the end whatever the schedule, and the result is that of the
single-threaded map -/
example : (∃ s out, ProcMapReturns counterBuiltins 2 fileCounter true [1, 2, 3] 0 s out) ∧
    ∀ s out, ProcMapReturns counterBuiltins 2 fileCounter true [1, 2, 3] 0 s out → s.mem = 6 ∧ out = [1, 2, 3] := by
  refine ⟨(C198_returns (by decide) (by decide) counterBuiltins (fun o => o != 0) (fun c m => ?_) 0).1 true, fun s out h => ⟨?_, ?_⟩⟩
  · cases c with
    | map x => exact ⟨min x 999, rfl, by show decide (1000 ≤ min x 999) = false; simp⟩
    | filter o => exact ⟨1, rfl, rfl⟩
    | reduce a b => exact ⟨0, rfl, rfl⟩
  · rw [C198_commuting_effects (fun x _ y _ m => Nat.add_right_comm m x y) h]
    rfl
  · exact (C198_values (fun x => min x 999) (fun x _ m => rfl) (fun x _ => by show decide (1000 ≤ min x 999) = false; simp) h).1 rfl

end Prolothar.Parallel
