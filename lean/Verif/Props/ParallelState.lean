import Verif.Lemmas.ParallelState
import Verif.Lemmas.ParallelMap
import Mathlib.Algebra.Order.BigOperators.Group.Finset
/-
C196: the thread engine and functions with side effects.
-/
namespace Prolothar.Parallel
open Prolothar.ListUtils Prolothar.Spec.ParallelState
variable {α O σ : Type}

/-! ### helpers -/

theorem foldl_flatten (ls : List (List O)) (x : List O) : ls.foldl (· ++ ·) x = x ++ ls.flatten := by
  induction ls generalizing x with
  | nil => simp
  | cons y ls ih => rw [List.foldl_cons, ih, List.flatten_cons, List.append_assoc]

theorem reduce_flatten : ∀ ls : List (List O), ls.tail.foldl (· ++ ·) (ls.headD []) = ls.flatten
  | [] => rfl
  | x :: ls => by rw [List.tail_cons, List.headD_cons, foldl_flatten, List.flatten_cons]

theorem flatMap_cons_perm {β : Type} {w w' : Nat → List β} {k : Nat} {c : β} (hk : w' k = c :: w k) (ho : ∀ i, i ≠ k → w' i = w i) : ∀ {ks : List Nat},
    ks.Nodup → k ∈ ks → (ks.flatMap w').Perm (c :: ks.flatMap w)
  | j :: ks, hn, hm => by
    rw [List.nodup_cons] at hn
    rw [List.flatMap_cons, List.flatMap_cons]
    by_cases h : j = k
    · subst h
      have : ks.flatMap w' = ks.flatMap w := by
        rw [List.flatMap_def, List.flatMap_def]
        congr 1
        exact List.map_congr_left fun i hi => ho i fun hh => hn.1 (hh ▸ hi)
      rw [this, hk]; rfl
    · rw [ho j h]
      have hm' : k ∈ ks := by
        rcases List.mem_cons.1 hm with hm | hm
        · exact absurd hm.symm h
        · exact hm
      exact ((flatMap_cons_perm hk ho hn.2 hm').append_left _).trans List.perm_middle

/-- the calls of all workers together -/
theorem calls_perm (n : Nat) : ∀ calls : List (Nat × Call α O × Except O O), (∀ c ∈ calls, c.1 < n) →
    ((List.range n).flatMap fun k => of k calls).Perm (calls.map Prod.snd)
  | [], _ => by
    have : (List.range n).flatMap (fun k => of k ([] : List (Nat × Call α O × Except O O))) = [] := by
      rw [List.flatMap_eq_nil_iff]; exact fun _ _ => rfl
    rw [this]; exact .nil
  | (k, c) :: calls, h => by
    have ih := calls_perm n calls fun d hd => h d (List.mem_cons_of_mem _ hd)
    have hk : k < n := h (k, c) List.mem_cons_self
    refine (flatMap_cons_perm (w := fun k => of k calls) (k := k) (c := c) ?_ ?_ List.nodup_range (List.mem_range.2 hk)).trans (ih.cons _)
    · unfold of; rw [List.filter_cons_of_pos (by simp)]; rfl
    · intro i hi; unfold of; rw [List.filter_cons_of_neg (by simpa using Ne.symm hi)]

theorem maps_calls {xs : List α} {h : List (Call α O × Except O O)} {vs : List O} (hm : Maps xs h vs) : h.map Prod.fst = xs.map .map := by
  induction hm with
  | nil => rfl
  | cons _ ih => rw [List.map_cons, List.map_cons, ih]

theorem serial_answer {fn : Call α O → σ → Except O O × σ} : ∀ {calls : List (Call α O × Except O O)} {m m' : σ}, Serial fn m calls m' →
    ∀ c ∈ calls, ∃ m'', (fn c.1 m'').1 = c.2
  | [], _, _, _, _, hc => absurd hc List.not_mem_nil
  | (d, r) :: calls, m, m', h, c, hc => by
    rcases List.mem_cons.1 hc with rfl | hc
    · exact ⟨m, h.1⟩
    · exact serial_answer h.2 c hc

theorem serial_fold {fn : Call α O → σ → Except O O × σ} : ∀ {calls : List (Call α O × Except O O)} {m m' : σ}, Serial fn m calls m' →
    m' = (calls.map Prod.fst).foldl (fun m c => (fn c m).2) m
  | [], _, _, h => h
  | (d, _) :: calls, m, _, h => serial_fold (calls := calls) (m := (fn d m).2) h.2

/-- all workers have run their programs to the end -/
theorem returned_blocks {fn : Call α O → σ → Except O O × σ} {progs : List (Prog α O)} {dest : Nat → Nat} {m : σ} {s : SS σ α O}
    (h : SReach fn progs dest m s) (hm : s.main = .returned) : ∀ k p, progs[k]? = some p → Follows p (of k s.calls) .done (s.written k) := by
  intro k p hp
  have hi := st_sinv_reach h
  have h1 := hi.main
  rw [hm] at h1
  have h2 := hi.worker k
  rw [h1.2 k (st_lt_of_some hp), hp] at h2
  obtain ⟨p0, hp0, hf⟩ := h2
  cases hp0; exact hf

theorem flatMap_eq_range {β : Type} (g : α → List β) : ∀ (l : List α) (w : Nat → List β), (∀ k x, l[k]? = some x → w k = g x) →
    (List.range l.length).flatMap w = l.flatMap g
  | [], _, _ => rfl
  | x :: l, w, h => by
    rw [List.length_cons, List.range_succ_eq_map, List.flatMap_cons, List.flatMap_map, List.flatMap_cons, h 0 x rfl,
      flatMap_eq_range g l (fun k => w (k + 1)) fun k y hk => h (k + 1) y hk]

/-! ### the properties -/

/-- C196: if `map` returns, then the map function was called for the elements of every block in their order and has returned the values that make up the
result, in the order of the list if the order is kept. The calls of the different workers took effect one after the other in some order, and the memory is what
this order gives. -/
theorem C196_map {n : Int} {fn : Call α O → σ → Except O O × σ} {keepOrder : Bool} {l : List α} {m : σ} {s : SS σ α O} {out : List O}
    (h : MapReturns n fn keepOrder l m s out) :
    ∃ (parts : List (List α)) (vss : List (List O)), viewOfNPartitions l n = .ok parts ∧ vss.length = parts.length ∧
      Serial fn m (s.calls.map Prod.snd) s.mem ∧
      (∀ k part vs, parts[k]? = some part → vss[k]? = some vs → Maps part (of k s.calls) vs) ∧
      (keepOrder = true → out = vss.flatten) ∧ out.Perm vss.flatten := by
  obtain ⟨parts, hp, hm, h⟩ := h
  have key : ∀ dest, SReach fn (parts.map mapProg) dest m s → ∀ k part vs, parts[k]? = some part →
      ((List.range parts.length).map s.written)[k]? = some vs → Maps part (of k s.calls) vs := by
    intro dest hr k part vs h1 h2
    have hk : k < parts.length := by rw [List.getElem?_eq_some_iff] at h1; exact h1.1
    rw [List.getElem?_map, List.getElem?_range hk, Option.map_some] at h2
    cases h2
    exact follows_map_done (returned_blocks hr hm k (mapProg part) (by rw [List.getElem?_map, h1]; rfl))
  refine ⟨parts, (List.range parts.length).map s.written, hp, by rw [List.length_map, List.length_range], ?_⟩
  cases keepOrder with
  | true =>
    rw [if_pos rfl] at h
    obtain ⟨hr, ho⟩ := h
    have hi := st_sinv_reach hr
    rw [reduce_flatten, hi.own rfl] at ho
    exact ⟨hi.serial, key _ hr, fun _ => ho, by rw [ho]⟩
  | false =>
    rw [if_neg (by decide)] at h
    obtain ⟨hr, ho⟩ := h
    have hi := st_sinv_reach hr
    refine ⟨hi.serial, key _ hr, fun hh => Bool.noConfusion hh, ?_⟩
    have := hi.shared fun _ => rfl
    rw [List.length_map, List.flatMap_def] at this
    rw [ho]; exact this

/-- C196: if `map` returns, then the map function was called exactly once for every element of the list, and no other call was made. -/
theorem C196_exactly_once {n : Int} {fn : Call α O → σ → Except O O × σ} {keepOrder : Bool} {l : List α} {m : σ} {s : SS σ α O} {out : List O}
    (h : MapReturns n fn keepOrder l m s out) : (s.calls.map fun c => c.2.1).Perm (l.map .map) := by
  obtain ⟨parts, hp, hm, h⟩ := h
  have hr : ∃ dest, SReach fn (parts.map mapProg) dest m s := by
    cases keepOrder with
    | true => rw [if_pos rfl] at h; exact ⟨_, h.1⟩
    | false => rw [if_neg (by decide)] at h; exact ⟨_, h.1⟩
  obtain ⟨dest, hr⟩ := hr
  have hi := st_sinv_reach hr
  have h1 := (calls_perm _ s.calls hi.known).map Prod.fst
  rw [List.length_map, List.map_map, List.map_flatMap, flatMap_eq_range (fun part : List α => part.map Call.map) parts] at h1
  · have h2 : parts.flatMap (fun part : List α => part.map (Call.map (O := O))) = l.map .map := by
      rw [← (parts_ok hp).2.2.1, List.flatMap_def, List.map_flatten]
    rw [h2] at h1
    exact h1.symm
  · intro k part hk
    exact maps_calls (follows_map_done (returned_blocks hr hm k (mapProg part) (by rw [List.getElem?_map, hk]; rfl)))

/-- C196: when the call has returned, every worker has ended: no function is being called any more, and none will be. -/
theorem C196_nothing_runs_after_return {fn : Call α O → σ → Except O O × σ} {progs : List (Prog α O)} {dest : Nat → Nat} {m : σ} {s : SS σ α O}
    (h : SReach fn progs dest m s) (hm : s.main = .returned) : Quiet progs.length s ∧ ∀ t, ¬ SStep fn progs dest s t := by
  have h1 := (st_sinv_reach h).main
  rw [hm] at h1
  have hw : ∀ k, s.ws k = .idle ∨ s.ws k = .finished := fun k => by
    by_cases hk : k < progs.length
    · exact .inr (h1.2 k hk)
    · exact .inl (h1.1 k (by omega))
  refine ⟨fun k hk => .inl (h1.2 k hk), fun t ht => ?_⟩
  cases ht with
  | start h _ => rw [hm] at h; cases h
  | started h => rw [hm] at h; cases h
  | join h => rw [hm] at h; cases h
  | joinRaise h => rw [hm] at h; cases h
  | joined h => rw [hm] at h; cases h
  | @enter k _ _ h => rcases hw k with h2 | h2 <;> rw [h2] at h <;> cases h
  | @effect k _ _ h => rcases hw k with h2 | h2 <;> rw [h2] at h <;> cases h
  | @append k _ _ h => rcases hw k with h2 | h2 <;> rw [h2] at h <;> cases h
  | @finish k h => rcases hw k with h2 | h2 <;> rw [h2] at h <;> cases h
  | @fail k _ h => rcases hw k with h2 | h2 <;> rw [h2] at h <;> cases h

/-- C196: at every moment, whatever has been raised, the map function has been called at most once for every element: the calls of a worker are those for
the first elements of its block, in their order, and they took effect one after the other. -/
theorem C196_at_most_once {fn : Call α O → σ → Except O O × σ} {parts : List (List α)} {dest : Nat → Nat} {m : σ} {s : SS σ α O}
    (h : SReach fn (parts.map mapProg) dest m s) : Serial fn m (s.calls.map Prod.snd) s.mem ∧ (∀ c ∈ s.calls, c.1 < parts.length) ∧
    ∀ k part, parts[k]? = some part → (of k s.calls).map Prod.fst <+: part.map .map := by
  have hi := st_sinv_reach h
  refine ⟨hi.serial, fun c hc => by have := hi.known c hc; rwa [List.length_map] at this, fun k part hk => ?_⟩
  have h1 := hi.worker k
  have hp : (parts.map (mapProg (O := O)))[k]? = some (mapProg part) := by rw [List.getElem?_map, hk]; rfl
  rw [hp] at h1
  cases hw : s.ws k with
  | idle =>
    rw [hw] at h1
    rw [h1.1]; exact List.nil_prefix
  | running q =>
    rw [hw] at h1
    obtain ⟨p0, hp0, hf⟩ := h1
    cases hp0; exact follows_map_prefix hf
  | calling c next =>
    rw [hw] at h1
    obtain ⟨p0, hp0, hf⟩ := h1
    cases hp0; exact follows_map_prefix hf
  | finished =>
    rw [hw] at h1
    obtain ⟨p0, hp0, hf⟩ := h1
    cases hp0; exact follows_map_prefix hf
  | failed e =>
    rw [hw] at h1
    obtain ⟨p0, hp0, hf⟩ := h1
    cases hp0; exact follows_map_prefix hf

/-- C196: if `map` raises an exception, then it was raised by the last call of some worker, which has worked through the elements before it; the blocks before
this one have been worked through completely. -/
theorem C196_raised {fn : Call α O → σ → Except O O × σ} {parts : List (List α)} {dest : Nat → Nat} {m : σ} {s : SS σ α O} {e : O}
    (h : SReach fn (parts.map mapProg) dest m s) (hm : s.main = .raised e) :
    ∃ k pre x post vs calls, parts[k]? = some (pre ++ x :: post) ∧ of k s.calls = calls ++ [(.map x, .error e)] ∧ Maps pre calls vs ∧
      ∀ i < k, ∀ part, parts[i]? = some part → ∃ vs, Maps part (of i s.calls) vs := by
  have hi := st_sinv_reach h
  have h1 := hi.main
  rw [hm] at h1
  obtain ⟨_, _, k, hk, hw, hlt⟩ := h1
  have h2 := hi.worker k
  rw [hw] at h2
  obtain ⟨p0, hp0, hf⟩ := h2
  rw [List.getElem?_map, Option.map_eq_some_iff] at hp0
  obtain ⟨part, hpart, rfl⟩ := hp0
  obtain ⟨pre, x, post, h', h3, h4, h5⟩ := follows_map_fail hf
  refine ⟨k, pre, x, post, s.written k, h', h3 ▸ hpart, h5, h4, fun i hik part hp => ⟨s.written i, ?_⟩⟩
  have h6 := hi.worker i
  rw [hlt i hik, List.getElem?_map, hp] at h6
  obtain ⟨p0, hp0, hf⟩ := h6
  cases hp0
  exact follows_map_done hf

/-- C196: an exception does not stop the other workers. When they all have ended, each of them has called the map function for all elements of its block or
up to the first one for which it raised an exception. -/
theorem C196_other_blocks {fn : Call α O → σ → Except O O × σ} {parts : List (List α)} {dest : Nat → Nat} {m : σ} {s : SS σ α O}
    (h : SReach fn (parts.map mapProg) dest m s) (hq : Quiet parts.length s) : ∀ k part, parts[k]? = some part →
    (∃ vs, Maps part (of k s.calls) vs) ∨
    ∃ pre x post vs calls e, part = pre ++ x :: post ∧ of k s.calls = calls ++ [(.map x, .error e)] ∧ Maps pre calls vs := by
  intro k part hp
  have hk : k < parts.length := by rw [List.getElem?_eq_some_iff] at hp; exact hp.1
  have h1 := (st_sinv_reach h).worker k
  rw [List.getElem?_map, hp] at h1
  rcases hq k hk with hw | ⟨e, hw⟩
  · rw [hw] at h1
    obtain ⟨p0, hp0, hf⟩ := h1
    cases hp0
    exact .inl ⟨_, follows_map_done hf⟩
  · rw [hw] at h1
    obtain ⟨p0, hp0, hf⟩ := h1
    cases hp0
    obtain ⟨pre, x, post, h', h3, h4, h5⟩ := follows_map_fail hf
    exact .inr ⟨pre, x, post, _, h', e, h3, h5, h4⟩

/-- C196, deviation: `map` can raise an exception while another worker has not yet begun, and calls are made after that. Here the first of two elements fails:
nothing was done with the second one when the exception is raised, and it is worked through later. -/
theorem C196_calls_after_exception (fn : Call α O → σ → Except O O × σ) (x y : α) (m : σ) (e : O) (m1 : σ) (hx : fn (.map x) m = (.error e, m1)) :
    viewOfNPartitions [x, y] 2 = .ok [[x], [y]] ∧
    ∃ s t, SReach fn ([[x], [y]].map mapProg) id m s ∧ s.main = .raised e ∧ s.mem = m1 ∧ s.calls = [(0, .map x, .error e)] ∧
      Relation.ReflTransGen (SStep fn ([[x], [y]].map mapProg) id) s t ∧ t.mem = (fn (.map y) m1).2 ∧
      t.calls = [(0, .map x, .error e), (1, .map y, (fn (.map y) m1).1)] := by
  refine ⟨parts_two x y, ?_⟩
  have hx1 : (fn (.map x) m).1 = .error e := by rw [hx]
  have hx2 : (fn (.map x) m).2 = m1 := by rw [hx]
  let k1 : Except O O → Prog α O := fun r => match r with
    | .error e => .fail e
    | .ok o => .append o (mapProg [])
  let w1 : Nat → SW α O := Function.update (Function.update (fun _ => .idle) 0 (.running (mapProg [x]))) 1 (.running (mapProg [y]))
  let s1 : SS σ α O := ⟨.joining 0, w1, fun _ => [], m, [], fun _ => []⟩
  have r1 : SReach fn ([[x], [y]].map mapProg) id m s1 := by
    refine ((Relation.ReflTransGen.single (.start (k := 0) (p := mapProg [x]) rfl rfl)).tail (.start (k := 1) (p := mapProg [y]) rfl rfl)).tail ?_
    exact .started (s := ⟨.starting 2, w1, fun _ => [], m, [], fun _ => []⟩) rfl
  let w2 := Function.update w1 0 (.calling (.map x) k1)
  have r2 : SStep fn ([[x], [y]].map mapProg) id s1 ⟨.joining 0, w2, fun _ => [], m, [], fun _ => []⟩ :=
    .enter (s := s1) (k := 0) (c := .map x) (next := k1) rfl
  let w3 := Function.update w2 0 (.running (.fail e))
  have r3 : SStep fn ([[x], [y]].map mapProg) id ⟨.joining 0, w2, fun _ => [], m, [], fun _ => []⟩
      ⟨.joining 0, w3, fun _ => [], m1, [(0, .map x, .error e)], fun _ => []⟩ := by
    have := SStep.effect (fn := fn) (progs := [[x], [y]].map mapProg) (dest := id) (s := ⟨.joining 0, w2, fun _ => [], m, [], fun _ => []⟩)
      (k := 0) (c := .map x) (next := k1) rfl
    dsimp only at this
    rw [hx1, hx2] at this
    exact this
  let w4 := Function.update w3 0 (.failed e)
  have r4 : SStep fn ([[x], [y]].map mapProg) id ⟨.joining 0, w3, fun _ => [], m1, [(0, .map x, .error e)], fun _ => []⟩
      ⟨.joining 0, w4, fun _ => [], m1, [(0, .map x, .error e)], fun _ => []⟩ :=
    .fail (s := ⟨.joining 0, w3, fun _ => [], m1, [(0, .map x, .error e)], fun _ => []⟩) (k := 0) (e := e) rfl
  let s5 : SS σ α O := ⟨.raised e, w4, fun _ => [], m1, [(0, .map x, .error e)], fun _ => []⟩
  have r5 : SStep fn ([[x], [y]].map mapProg) id ⟨.joining 0, w4, fun _ => [], m1, [(0, .map x, .error e)], fun _ => []⟩ s5 :=
    .joinRaise (s := ⟨.joining 0, w4, fun _ => [], m1, [(0, .map x, .error e)], fun _ => []⟩) (k := 0) rfl (Nat.zero_lt_succ _) rfl
  have r6 : SStep fn ([[x], [y]].map mapProg) id s5 { s5 with ws := Function.update w4 1 (.calling (.map y) k1) } :=
    .enter (s := s5) (k := 1) (c := .map y) (next := k1) rfl
  have r7 := SStep.effect (fn := fn) (progs := [[x], [y]].map mapProg) (dest := id) (s := { s5 with ws := Function.update w4 1 (.calling (.map y) k1) })
      (k := 1) (c := .map y) (next := k1) rfl
  exact ⟨s5, _, (((r1.tail r2).tail r3).tail r4).tail r5, rfl, rfl, rfl, (Relation.ReflTransGen.single r6).tail r7, rfl, rfl⟩

/-- C196: if the values of the map function do not depend on the memory, then `map` returns the same list as without threads, whatever is written. -/
theorem C196_values {n : Int} {fn : Call α O → σ → Except O O × σ} {keepOrder : Bool} {l : List α} {m : σ} {s : SS σ α O} {out : List O} (g : α → O)
    (hg : ∀ x ∈ l, ∀ m, (fn (.map x) m).1 = .ok (g x)) (h : MapReturns n fn keepOrder l m s out) :
    (keepOrder = true → out = l.map g) ∧ out.Perm (l.map g) := by
  obtain ⟨parts, vss, hp, hlen, hs, hk, ho, hperm⟩ := C196_map h
  have hl := (parts_ok hp).2.2.1
  have key : vss.flatten = l.map g := by
    have : vss = parts.map (List.map g) := by
      refine List.ext_getElem? fun k => ?_
      rw [List.getElem?_map]
      cases hpk : parts[k]? with
      | none =>
        rw [List.getElem?_eq_none_iff] at hpk
        exact List.getElem?_eq_none (by omega)
      | some part =>
        have hlt : k < vss.length := by
          have := (List.getElem?_eq_some_iff.1 hpk).1; omega
        have hv := List.getElem?_eq_getElem hlt
        have hmaps := hk k part _ hpk hv
        rw [hv, Option.map_some]
        congr 1
        have hsub : ∀ c ∈ of k s.calls, c ∈ s.calls.map Prod.snd := fun c hc => by
          unfold of at hc
          obtain ⟨d, hd, rfl⟩ := List.mem_map.1 hc
          exact List.mem_map.2 ⟨d, (List.mem_filter.1 hd).1, rfl⟩
        have hmem : ∀ x ∈ part, x ∈ l := fun x hx => by
          rw [← hl]; exact List.mem_flatten.2 ⟨part, List.mem_of_getElem? hpk, hx⟩
        generalize vss[k] = vs at hmaps
        generalize of k s.calls = H at hmaps hsub
        clear hk hv hpk
        induction hmaps with
        | nil => rfl
        | @cons x xs v h vs _ ih =>
          rw [List.map_cons, ih (fun y hy => hmem y (List.mem_cons_of_mem _ hy)) fun c hc => hsub c (List.mem_cons_of_mem _ hc)]
          obtain ⟨m2, h2⟩ := serial_answer hs _ (hsub _ List.mem_cons_self)
          dsimp only at h2
          rw [hg x (hmem x List.mem_cons_self)] at h2
          cases h2; rfl
    rw [this, ← hl, List.map_flatten]
  exact ⟨fun h => (ho h).trans key, key ▸ hperm⟩

/-- C196: if the effects of the map function on the memory commute, then `map` leaves the memory as the single-threaded loop does. -/
theorem C196_commuting_effects {n : Int} {fn : Call α O → σ → Except O O × σ} {keepOrder : Bool} {l : List α} {m : σ} {s : SS σ α O} {out : List O}
    (hc : ∀ x ∈ l, ∀ y ∈ l, ∀ m, (fn (.map y) (fn (.map x) m).2).2 = (fn (.map x) (fn (.map y) m).2).2) (h : MapReturns n fn keepOrder l m s out) :
    s.mem = l.foldl (fun m x => (fn (.map x) m).2) m := by
  obtain ⟨_, _, _, _, hs, _⟩ := C196_map h
  have hperm := C196_exactly_once h
  have h1 := serial_fold hs
  rw [List.map_map] at h1
  have h2 : (s.calls.map (Prod.fst ∘ Prod.snd)) = s.calls.map fun c => c.2.1 := rfl
  rw [h2] at h1
  rw [h1, hperm.foldl_eq' (f := fun m c => (fn c m).2), List.foldl_map]
  intro x hx y hy z
  obtain ⟨a, ha, rfl⟩ := List.mem_map.1 (hperm.mem_iff.1 hx)
  obtain ⟨b, hb, rfl⟩ := List.mem_map.1 (hperm.mem_iff.1 hy)
  exact hc a ha b hb z

/-- C196: the same for `map_filter`: every worker has called the map function and then the filter function for every element of its block, in the order of the
block; the result consists of the values the filter function has accepted. -/
theorem C196_map_filter {n : Int} {truthy : O → Bool} {fn : Call α O → σ → Except O O × σ} {l : List α} {m : σ} {s : SS σ α O} {out : List O}
    (h : MapFilterReturns n truthy fn l m s out) :
    ∃ (parts : List (List α)) (vss : List (List O)), viewOfNPartitions l n = .ok parts ∧ vss.length = parts.length ∧ (∀ c ∈ s.calls, c.1 < parts.length) ∧
      Serial fn m (s.calls.map Prod.snd) s.mem ∧
      (∀ k part vs, parts[k]? = some part → vss[k]? = some vs → Filters truthy part (of k s.calls) vs) ∧ out.Perm vss.flatten := by
  obtain ⟨parts, hp, hm, hr, ho⟩ := h
  have hi := st_sinv_reach hr
  refine ⟨parts, (List.range parts.length).map s.written, hp, by rw [List.length_map, List.length_range],
    fun c hc => by have := hi.known c hc; rwa [List.length_map] at this, hi.serial, ?_, ?_⟩
  · intro k part vs h1 h2
    have hk : k < parts.length := by rw [List.getElem?_eq_some_iff] at h1; exact h1.1
    rw [List.getElem?_map, List.getElem?_range hk, Option.map_some] at h2
    cases h2
    exact follows_filter_done (returned_blocks hr hm k (mapFilterProg truthy part) (by rw [List.getElem?_map, h1]; rfl))
  · have := hi.shared fun _ => rfl
    rw [List.length_map, List.flatMap_def] at this
    rw [ho]; exact this

theorem serial_append {fn : Call α O → σ → Except O O × σ} : ∀ {c1 c2 : List (Call α O × Except O O)} {m m' m'' : σ},
    Serial fn m c1 m' → Serial fn m' c2 m'' → Serial fn m (c1 ++ c2) m''
  | [], _, m, m', _, h, h' => by
    have h : m' = m := h
    subst h; exact h'
  | (c, r) :: c1, _, _, _, _, h, h' => ⟨h.1, serial_append h.2 h'⟩

theorem reduceMain_serial {fn : Call α O → σ → Except O O × σ} : ∀ {os : List O} {acc : O} {m : σ} {last r m'}, reduceMain fn acc os m = (last, r, m') →
    Serial fn m last m'
  | [], _, _, _, _, _, h => by unfold reduceMain at h; cases h; rfl
  | o :: os, acc, m, last, r, m', h => by
    unfold reduceMain at h
    cases hq : fn (.reduce acc o) m with
    | mk q m1 =>
      rw [hq] at h
      cases q with
      | error e =>
        cases h
        exact ⟨by rw [hq], by rw [hq]; rfl⟩
      | ok acc' =>
        dsimp only at h
        obtain ⟨rfl, h2⟩ := Prod.mk.inj h
        refine ⟨by rw [hq], ?_⟩
        rw [hq]
        exact reduceMain_serial (os := os) (acc := acc') (m := m1) (r := r) (Prod.ext rfl h2)

/-- C196: the same for `map_reduce`: every worker has reduced its block, and the calling thread has reduced the values of the blocks, in the order in which the
workers have delivered them. -/
theorem C196_map_reduce {B : Builtins O} {n : Int} {fn : Call α O → σ → Except O O × σ} {l : List α} {m : σ} {s : SS σ α O}
    {last : List (Call α O × Except O O)} {m' : σ} {out : O} (h : MapReduceReturns B n fn l m s last m' out) :
    ∃ parts vs o os, viewOfNPartitions l n = .ok parts ∧ vs.length = parts.length ∧ (∀ c ∈ s.calls, c.1 < parts.length) ∧
      Serial fn m (s.calls.map Prod.snd ++ last) m' ∧
      (∀ k part v, parts[k]? = some part → vs[k]? = some v → Reduces part (of k s.calls) v) ∧
      (o :: os).Perm vs ∧ reduceMain fn o os s.mem = (last, .ok out, m') := by
  obtain ⟨parts, hp, hm, hr, o, os, ho, hmain⟩ := h
  have hi := st_sinv_reach hr
  have hred : ∀ k part, parts[k]? = some part → ∃ v, s.written k = [v] ∧ Reduces part (of k s.calls) v := fun k part h1 =>
    follows_reduce_done (returned_blocks hr hm k (reduceProg B part) (by rw [List.getElem?_map, h1]; rfl))
  have hex : ∃ vs : List O, vs.length = parts.length ∧ (List.range parts.length).flatMap s.written = vs ∧
      ∀ k part v, parts[k]? = some part → vs[k]? = some v → s.written k = [v] := by
    have : ∀ (j : Nat), j ≤ parts.length → ∃ vs : List O, vs.length = j ∧ (List.range j).flatMap s.written = vs ∧
        ∀ k v, vs[k]? = some v → s.written k = [v] := by
      intro j
      induction j with
      | zero => exact fun _ => ⟨[], rfl, rfl, fun k v h => by cases h⟩
      | succ j ih =>
        intro hj
        obtain ⟨vs, h1, h2, h3⟩ := ih (by omega)
        obtain ⟨v, hv, _⟩ := hred j parts[j] (List.getElem?_eq_getElem _)
        refine ⟨vs ++ [v], by rw [List.length_append, h1]; rfl, by rw [List.range_succ, List.flatMap_append, h2]; simp [hv], fun k w hw => ?_⟩
        by_cases hk : k < vs.length
        · rw [List.getElem?_append_left hk] at hw; exact h3 k w hw
        · have hlt := (List.getElem?_eq_some_iff.1 hw).1
          rw [List.length_append] at hlt
          have hkj : k = j := by simp at hlt; omega
          subst hkj
          rw [List.getElem?_append_right (by omega), h1, Nat.sub_self] at hw
          cases hw; exact hv
    obtain ⟨vs, h1, h2, h3⟩ := this parts.length (Nat.le_refl _)
    exact ⟨vs, h1, h2, fun k _ v _ hv => h3 k v hv⟩
  obtain ⟨vs, h1, h2, h3⟩ := hex
  refine ⟨parts, vs, o, os, hp, h1, fun c hc => by have := hi.known c hc; rwa [List.length_map] at this, serial_append hi.serial (reduceMain_serial hmain),
    fun k part v hk hv => ?_, ?_, hmain⟩
  · obtain ⟨v', hv', hr'⟩ := hred k part hk
    rw [h3 k part v hk hv] at hv'
    cases hv'; exact hr'
  · have := hi.shared fun _ => rfl
    rw [List.length_map, h2, ho] at this
    exact this

/-! ### the end of the call -/

/-- the program ends within so many steps, whatever the answers are -/
inductive Within : Nat → Prog α O → Prop
  | done {n} : Within (n + 1) .done
  | fail {n e} : Within (n + 1) (.fail e)
  | append {n o p} : Within n p → Within (n + 1) (.append o p)
  | call {n c next} : (∀ r, Within n (next r)) → Within (n + 2) (.call c next)

theorem within_map : ∀ xs : List α, Within (3 * xs.length + 1) (mapProg xs : Prog α O)
  | [] => .done
  | x :: xs => by
    unfold mapProg
    refine .call (n := 3 * xs.length + 2) fun r => ?_
    cases r with
    | error e => exact .fail
    | ok o => exact .append (within_map xs)

theorem within_mono {n : Nat} {p : Prog α O} (h : Within n p) : ∀ {n'}, n ≤ n' → Within n' p := by
  induction h with
  | @done n => intro n' hn; obtain ⟨k, rfl⟩ := Nat.exists_eq_add_of_le' hn; exact .done (n := k + n)
  | @fail n e => intro n' hn; obtain ⟨k, rfl⟩ := Nat.exists_eq_add_of_le' hn; exact .fail (n := k + n)
  | @append n o p _ ih => intro n' hn; obtain ⟨k, rfl⟩ := Nat.exists_eq_add_of_le' hn; exact .append (n := k + n) (ih (by omega))
  | @call n c next _ ih => intro n' hn; obtain ⟨k, rfl⟩ := Nat.exists_eq_add_of_le' hn; exact .call (n := k + n) fun r => ih r (by omega)

theorem within_filter (truthy : O → Bool) : ∀ xs : List α, Within (5 * xs.length + 1) (mapFilterProg truthy xs : Prog α O)
  | [] => .done
  | x :: xs => by
    unfold mapFilterProg
    refine .call (n := 5 * xs.length + 4) fun r => ?_
    cases r with
    | error e => exact .fail
    | ok o =>
      refine .call (n := 5 * xs.length + 2) fun r => ?_
      cases r with
      | error e => exact .fail
      | ok b =>
        dsimp only
        split
        · exact .append (within_filter truthy xs)
        · exact within_mono (within_filter truthy xs) (by omega)

theorem within_reduceLoop : ∀ (xs : List α) (acc : O), Within (4 * xs.length + 2) (reduceLoop acc xs : Prog α O)
  | [], acc => .append .done
  | x :: xs, acc => by
    unfold reduceLoop
    refine .call (n := 4 * xs.length + 4) fun r => ?_
    cases r with
    | error e => exact .fail
    | ok o =>
      refine .call (n := 4 * xs.length + 2) fun r => ?_
      cases r with
      | error e => exact .fail
      | ok b => exact within_reduceLoop xs b

theorem within_reduce (B : Builtins O) (xs : List α) : Within (4 * xs.length + 2) (reduceProg B xs : Prog α O) := by
  cases xs with
  | nil => exact .fail
  | cons x xs =>
    unfold reduceProg
    refine .call (n := 4 * xs.length + 4) fun r => ?_
    cases r with
    | error e => exact .fail
    | ok o => exact within_mono (within_reduceLoop xs o) (by omega)

/-- the steps a worker can still make -/
def Left (p : Option (Prog α O)) (d : Nat) : SW α O → Prop
  | .idle => ∀ p0, p = some p0 → Within d p0
  | .running q => Within d q
  | .calling _ next => ∃ d', d = d' + 1 ∧ ∀ r, Within d' (next r)
  | .finished => True
  | .failed _ => True

def mainLeft (n : Nat) : TMain O → Nat
  | .starting j => (n - j) + n + 3
  | .joining j => (n - j) + 1
  | .returned => 0
  | .raised _ => 0

/-- at most `N` further steps -/
def AtMost (progs : List (Prog α O)) (s : SS σ α O) (N : Nat) : Prop :=
  ∃ d : Nat → Nat, (∀ k, Left progs[k]? (d k) (s.ws k)) ∧ (∀ k, s.ws k ≠ .idle → k < progs.length) ∧
    N = (∑ k ∈ Finset.range progs.length, d k) + mainLeft progs.length s.main

theorem atMost_step {fn : Call α O → σ → Except O O × σ} {progs : List (Prog α O)} {dest : Nat → Nat} {m : σ} {s t : SS σ α O} {N : Nat}
    (hi : SInv fn progs dest m s) (h : AtMost progs s N) (hs : SStep fn progs dest s t) : ∃ N' < N, AtMost progs t N' := by
  obtain ⟨d, hd, hlen, rfl⟩ := h
  -- a step of worker `k` that leaves it `v` further steps
  have worker : ∀ (k v : Nat) (w : SW α O) (t : SS σ α O), t.ws = Function.update s.ws k w → t.main = s.main → s.ws k ≠ .idle → v < d k →
      Left progs[k]? v w → ∃ N' < (∑ k ∈ Finset.range progs.length, d k) + mainLeft progs.length s.main, AtMost progs t N' := by
    intro k v w t ht hm hk hv hw
    have hk' := hlen k hk
    refine ⟨_, ?_, Function.update d k v, fun i => ?_, fun i hi => ?_, rfl⟩
    · rw [hm, Nat.add_lt_add_iff_right]
      refine Finset.sum_lt_sum (fun i _ => ?_) ⟨k, Finset.mem_range.2 hk', by rw [Function.update_self]; exact hv⟩
      by_cases h : i = k
      · subst h; rw [Function.update_self]; omega
      · rw [Function.update_of_ne h]
    · rw [ht]
      by_cases h : i = k
      · subst h; rw [Function.update_self, Function.update_self]; exact hw
      · rw [Function.update_of_ne h, Function.update_of_ne h]; exact hd i
    · rw [ht] at hi
      by_cases h : i = k
      · subst h; exact hk'
      · rw [Function.update_of_ne h] at hi; exact hlen i hi
  cases hs with
  | @start k p hm hp =>
    have hk := st_lt_of_some hp
    refine ⟨_, ?_, d, fun i => ?_, fun i hi' => ?_, rfl⟩
    · dsimp only; rw [hm]; unfold mainLeft; dsimp only; omega
    · dsimp only
      by_cases h : i = k
      · subst h
        rw [Function.update_self]
        have h1 := hd i
        have h2 := hi.main
        rw [hm] at h2
        rw [h2.2.2 i (Nat.le_refl i)] at h1
        exact h1 p hp
      · rw [Function.update_of_ne h]; exact hd i
    · dsimp only at hi'
      by_cases h : i = k
      · subst h; exact hk
      · rw [Function.update_of_ne h] at hi'; exact hlen i hi'
  | started hm => exact ⟨_, by dsimp only; rw [hm]; unfold mainLeft; dsimp only; omega, d, hd, hlen, rfl⟩
  | @join k hm hk hw => exact ⟨_, by dsimp only; rw [hm]; unfold mainLeft; dsimp only; omega, d, hd, hlen, rfl⟩
  | @joinRaise k e hm hk hw => exact ⟨_, by dsimp only; rw [hm]; unfold mainLeft; dsimp only; omega, d, hd, hlen, rfl⟩
  | joined hm => exact ⟨_, by dsimp only; rw [hm]; unfold mainLeft; dsimp only; omega, d, hd, hlen, rfl⟩
  | @enter k c next hw =>
    have h1 := hd k
    rw [hw] at h1
    have h1 : Within (d k) (.call c next) := h1
    cases hdk : d k with
    | zero => rw [hdk] at h1; cases h1
    | succ j =>
      rw [hdk] at h1
      cases h1 with
      | @call n _ _ h1 => exact worker k (n + 1) _ _ rfl rfl (by rw [hw]; exact fun h => by cases h) (by omega) ⟨n, rfl, h1⟩
  | @effect k c next hw =>
    have h1 := hd k
    rw [hw] at h1
    obtain ⟨d', h1, h2⟩ := h1
    exact worker k d' _ _ rfl rfl (by rw [hw]; exact fun h => by cases h) (by omega) (h2 _)
  | @append k o p hw =>
    have h1 := hd k
    rw [hw] at h1
    have h1 : Within (d k) (.append o p) := h1
    generalize hdk : d k = D at h1
    cases h1 with
    | @append n _ _ h1 => exact worker k n _ _ rfl rfl (by rw [hw]; exact fun h => by cases h) (by omega) h1
  | @finish k hw =>
    have h1 := hd k
    rw [hw] at h1
    have h1 : Within (d k) .done := h1
    generalize hdk : d k = D at h1
    cases h1 with
    | @done n => exact worker k n _ _ rfl rfl (by rw [hw]; exact fun h => by cases h) (by omega) trivial
  | @fail k e hw =>
    have h1 := hd k
    rw [hw] at h1
    have h1 : Within (d k) (.fail e) := h1
    generalize hdk : d k = D at h1
    cases h1 with
    | @fail n => exact worker k n _ _ rfl rfl (by rw [hw]; exact fun h => by cases h) (by omega) trivial

theorem bounded_progs {B : Builtins O} {truthy : O → Bool} {parts : List (List α)} {progs : List (Prog α O)}
    (hp : progs = parts.map mapProg ∨ progs = parts.map (mapFilterProg truthy) ∨ progs = parts.map (reduceProg B)) : ∀ p ∈ progs, ∃ n, Within n p := by
  rcases hp with rfl | rfl | rfl
  · intro p hp; obtain ⟨part, _, rfl⟩ := List.mem_map.1 hp; exact ⟨_, within_map part⟩
  · intro p hp; obtain ⟨part, _, rfl⟩ := List.mem_map.1 hp; exact ⟨_, within_filter truthy part⟩
  · intro p hp; obtain ⟨part, _, rfl⟩ := List.mem_map.1 hp; exact ⟨_, within_reduce B part⟩

theorem atMost_reach {fn : Call α O → σ → Except O O × σ} {progs : List (Prog α O)} (hbound : ∀ p ∈ progs, ∃ n, Within n p) {dest : Nat → Nat} {m : σ}
    {s : SS σ α O} (h : SReach fn progs dest m s) : ∃ N, AtMost progs s N := by
  unfold SReach at h
  induction h with
  | refl =>
    have : ∀ k : Nat, ∃ d, Left progs[k]? d (.idle : SW α O) := fun k => by
      cases hk : progs[k]? with
      | none => exact ⟨0, fun p0 h => by cases h⟩
      | some p =>
        obtain ⟨n, hn⟩ := hbound p (List.mem_of_getElem? hk)
        exact ⟨n, fun p0 h => by cases h; exact hn⟩
    choose d hd using this
    exact ⟨_, d, hd, fun k h => absurd rfl h, rfl⟩
  | tail hr hs ih =>
    obtain ⟨N, hN⟩ := ih
    obtain ⟨N', _, hN'⟩ := atMost_step (st_sinv_reach hr) hN hs
    exact ⟨N', hN'⟩

/-- C196: under every schedule the call ends, also if the functions have side effects and raise exceptions: no schedule runs forever, and a state in which nothing
can run is one in which the call has returned or raised an exception and all workers have ended. -/
theorem C196_ends {B : Builtins O} {truthy : O → Bool} (fn : Call α O → σ → Except O O × σ) (parts : List (List α)) (progs : List (Prog α O))
    (hp : progs = parts.map mapProg ∨ progs = parts.map (mapFilterProg truthy) ∨ progs = parts.map (reduceProg B)) (dest : Nat → Nat) (m : σ) :
    (¬ ∃ run : Nat → SS σ α O, run 0 = SS.init m ∧ ∀ i, SStep fn progs dest (run i) (run (i + 1))) ∧
    ∀ s, SReach fn progs dest m s → (∀ t, ¬ SStep fn progs dest s t) →
      (s.main = .returned ∨ ∃ e, s.main = .raised e) ∧ Quiet progs.length s := by
  constructor
  · have none_from : ∀ (N : Nat) (s : SS σ α O), SInv fn progs dest m s → AtMost progs s N →
        ¬ ∃ run : Nat → SS σ α O, run 0 = s ∧ ∀ i, SStep fn progs dest (run i) (run (i + 1)) := by
      intro N
      induction N using Nat.strong_induction_on with
      | _ N ih =>
        rintro s hi hN ⟨run, h0, hrun⟩
        have h1 := hrun 0
        rw [h0] at h1
        obtain ⟨N', hlt, hN'⟩ := atMost_step hi hN h1
        exact ih N' hlt (run (0 + 1)) (st_sinv_step hi h1) hN' ⟨fun i => run (i + 1), rfl, fun i => hrun (i + 1)⟩
    obtain ⟨N, hN⟩ := atMost_reach (fn := fn) (dest := dest) (m := m) (bounded_progs hp) .refl
    exact none_from N _ (st_sinv_init fn progs dest m) hN
  · intro s hr hstop
    have hi := (st_sinv_reach hr).main
    have hw : ∀ k, s.ws k = .idle ∨ s.ws k = .finished ∨ ∃ e, s.ws k = .failed e := fun k => by
      cases hk : s.ws k with
      | idle => exact .inl rfl
      | finished => exact .inr (.inl rfl)
      | failed e => exact .inr (.inr ⟨e, rfl⟩)
      | calling c next => exact absurd (SStep.effect hk) (hstop _)
      | running p =>
        cases p with
        | done => exact absurd (SStep.finish hk) (hstop _)
        | fail e => exact absurd (SStep.fail hk) (hstop _)
        | append o p => exact absurd (SStep.append hk) (hstop _)
        | call c next => exact absurd (SStep.enter hk) (hstop _)
    cases hm : s.main with
    | starting j =>
      rw [hm] at hi
      by_cases hj : j < progs.length
      · exact absurd (SStep.start hm (List.getElem?_eq_getElem hj)) (hstop _)
      · have : j = progs.length := by have := hi.1; omega
        subst this
        exact absurd (SStep.started hm) (hstop _)
    | joining j =>
      rw [hm] at hi
      by_cases hj : j < progs.length
      · rcases hw j with h | h | ⟨e, h⟩
        · exact absurd h (hi.2.1 j hj)
        · exact absurd (SStep.join hm hj h) (hstop _)
        · exact absurd (SStep.joinRaise hm hj h) (hstop _)
      · have : j = progs.length := by have := hi.1; omega
        subst this
        exact absurd (SStep.joined hm) (hstop _)
    | returned =>
      rw [hm] at hi
      exact ⟨.inl rfl, fun k hk => .inl (hi.2 k hk)⟩
    | raised e =>
      rw [hm] at hi
      refine ⟨.inr ⟨e, rfl⟩, fun k hk => ?_⟩
      rcases hw k with h | h
      · exact absurd h (hi.1 k hk)
      · exact h

/-- C196: from every state that can be reached, the call can go on to its end. -/
theorem C196_can_end {fn : Call α O → σ → Except O O × σ} {B : Builtins O} {truthy : O → Bool} {parts : List (List α)} {progs : List (Prog α O)}
    (hp : progs = parts.map mapProg ∨ progs = parts.map (mapFilterProg truthy) ∨ progs = parts.map (reduceProg B)) {dest : Nat → Nat} {m : σ} {s : SS σ α O}
    (h : SReach fn progs dest m s) : ∃ t, Relation.ReflTransGen (SStep fn progs dest) s t ∧
      (t.main = .returned ∨ ∃ e, t.main = .raised e) ∧ Quiet progs.length t := by
  have key : ∀ (N : Nat) (s : SS σ α O), SReach fn progs dest m s → AtMost progs s N → ∃ t, Relation.ReflTransGen (SStep fn progs dest) s t ∧
      (t.main = .returned ∨ ∃ e, t.main = .raised e) ∧ Quiet progs.length t := by
    intro N
    induction N using Nat.strong_induction_on with
    | _ N ih =>
      intro s hr hN
      by_cases hn : ∃ t, SStep fn progs dest s t
      · obtain ⟨t, ht⟩ := hn
        obtain ⟨N', hlt, hN'⟩ := atMost_step (st_sinv_reach hr) hN ht
        obtain ⟨u, hu, h2⟩ := ih N' hlt t (hr.tail ht) hN'
        exact ⟨u, .head ht hu, h2⟩
      · push Not at hn
        exact ⟨s, .refl, (C196_ends fn parts progs hp dest m).2 s hr hn⟩
  obtain ⟨N, hN⟩ := atMost_reach (bounded_progs hp) h
  exact key N s h hN

/-- C196: if the map function never raises an exception, then every call of `map` that has ended has returned, and there is such a call: the hypotheses of the
theorems above are met for every list and every such function. -/
theorem C196_returns {n : Int} (hn : 1 ≤ n) {fn : Call α O → σ → Except O O × σ} {l : List α} (hl : l ≠ []) (hf : ∀ x ∈ l, ∀ m e, (fn (.map x) m).1 ≠ .error e)
    (keepOrder : Bool) (m : σ) : ∃ s out, MapReturns n fn keepOrder l m s out := by
  obtain ⟨parts, hp, hflat, _⟩ := C04_partitions l n hl hn
  have key : ∀ dest, ∃ s, SReach fn (parts.map mapProg) dest m s ∧ s.main = .returned := by
    intro dest
    have h0 : SReach fn (parts.map mapProg) dest m (SS.init m) := .refl
    obtain ⟨anyO⟩ : Nonempty O := by
      obtain ⟨x, hx⟩ := List.exists_mem_of_ne_nil l hl
      cases h : (fn (.map x) m).1 with
      | error e => exact absurd h (hf x hx m e)
      | ok o => exact ⟨o⟩
    obtain ⟨t, h1, h2, _⟩ := C196_can_end (B := ⟨fun _ => true, fun _ => true, anyO, anyO, anyO, rfl, fun _ _ => rfl⟩) (truthy := fun _ => true) (.inl rfl) h0
    have hr : SReach fn (parts.map mapProg) dest m t := h1
    rcases h2 with h2 | ⟨e, h2⟩
    · exact ⟨t, hr, h2⟩
    · obtain ⟨k, pre, x, post, vs, calls, h3, h4, _⟩ := C196_raised hr h2
      have hx : x ∈ l := by
        rw [← hflat]
        exact List.mem_flatten.2 ⟨_, List.mem_of_getElem? h3, List.mem_append_right _ List.mem_cons_self⟩
      have hc : (Call.map x, Except.error e) ∈ t.calls.map Prod.snd := by
        have : (Call.map x, Except.error e) ∈ of k t.calls := by rw [h4]; exact List.mem_append_right _ List.mem_cons_self
        unfold of at this
        obtain ⟨d, hd, hd2⟩ := List.mem_map.1 this
        exact List.mem_map.2 ⟨d, (List.mem_filter.1 hd).1, hd2⟩
      obtain ⟨m2, h5⟩ := serial_answer (st_sinv_reach hr).serial _ hc
      exact absurd h5 (hf x hx m2 e)
  cases keepOrder with
  | true =>
    obtain ⟨s, h1, h2⟩ := key id
    exact ⟨s, _, parts, hp, h2, by rw [if_pos rfl]; exact ⟨h1, rfl⟩⟩
  | false =>
    obtain ⟨s, h1, h2⟩ := key fun _ => 0
    exact ⟨s, _, parts, hp, h2, by rw [if_neg (by decide)]; exact ⟨h1, rfl⟩⟩

theorem follows_filter_fail {truthy : O → Bool} : ∀ {xs : List α} {h} {outs : List O} {e : O}, Follows (mapFilterProg truthy xs) h (.fail e) outs →
    ∃ c, (c, .error e) ∈ h
  | [], h, outs, e, hf => by
    unfold mapFilterProg at hf; cases hf
  | x :: xs, h, outs, e, hf => by
    unfold mapFilterProg at hf
    cases hf with
    | @call _ _ r _ _ _ hf =>
      cases r with
      | error e => dsimp only at hf; cases hf; exact ⟨_, List.mem_cons_self⟩
      | ok v =>
        dsimp only at hf
        cases hf with
        | @call _ _ r _ _ _ hf =>
          cases r with
          | error e => dsimp only at hf; cases hf; exact ⟨_, List.mem_cons_of_mem _ List.mem_cons_self⟩
          | ok b =>
            dsimp only at hf
            split at hf
            · cases hf with
              | append hf =>
                obtain ⟨c, hc⟩ := follows_filter_fail hf
                exact ⟨c, List.mem_cons_of_mem _ (List.mem_cons_of_mem _ hc)⟩
            · obtain ⟨c, hc⟩ := follows_filter_fail hf
              exact ⟨c, List.mem_cons_of_mem _ (List.mem_cons_of_mem _ hc)⟩

theorem follows_reduceLoop_fail : ∀ {xs : List α} {acc : O} {h} {outs : List O} {e : O}, Follows (reduceLoop acc xs) h (.fail e) outs → ∃ c, (c, .error e) ∈ h
  | [], acc, h, outs, e, hf => by
    unfold reduceLoop at hf
    cases hf with
    | append hf => cases hf
  | x :: xs, acc, h, outs, e, hf => by
    unfold reduceLoop at hf
    cases hf with
    | @call _ _ r _ _ _ hf =>
      cases r with
      | error e => dsimp only at hf; cases hf; exact ⟨_, List.mem_cons_self⟩
      | ok v =>
        dsimp only at hf
        cases hf with
        | @call _ _ r _ _ _ hf =>
          cases r with
          | error e => dsimp only at hf; cases hf; exact ⟨_, List.mem_cons_of_mem _ List.mem_cons_self⟩
          | ok b =>
            dsimp only at hf
            obtain ⟨c, hc⟩ := follows_reduceLoop_fail hf
            exact ⟨c, List.mem_cons_of_mem _ (List.mem_cons_of_mem _ hc)⟩

theorem follows_reduce_fail {B : Builtins O} {xs : List α} (hne : xs ≠ []) {h} {outs : List O} {e : O} (hf : Follows (reduceProg B xs) h (.fail e) outs) :
    ∃ c, (c, .error e) ∈ h := by
  cases xs with
  | nil => exact absurd rfl hne
  | cons x xs =>
    unfold reduceProg at hf
    cases hf with
    | @call _ _ r _ _ _ hf =>
      cases r with
      | error e => dsimp only at hf; cases hf; exact ⟨_, List.mem_cons_self⟩
      | ok v =>
        dsimp only at hf
        obtain ⟨c, hc⟩ := follows_reduceLoop_fail hf
        exact ⟨c, List.mem_cons_of_mem _ hc⟩

theorem reduceMain_ok {fn : Call α O → σ → Except O O × σ} (hf : ∀ c m e, (fn c m).1 ≠ .error e) : ∀ (os : List O) (acc : O) (m : σ),
    ∃ last out m', reduceMain fn acc os m = (last, .ok out, m')
  | [], acc, m => ⟨[], acc, m, rfl⟩
  | o :: os, acc, m => by
    unfold reduceMain
    cases hq : fn (.reduce acc o) m with
    | mk q m1 =>
      cases q with
      | error e => exact absurd (show (fn (.reduce acc o) m).1 = .error e by rw [hq]) (hf _ _ _)
      | ok acc' =>
        obtain ⟨last, out, m', h⟩ := reduceMain_ok hf os acc' m1
        exact ⟨_, out, m', by dsimp only; rw [h]⟩

/-- C196: the same for `map_filter` and `map_reduce`. -/
theorem C196_returns_all {n : Int} (hn : 1 ≤ n) {fn : Call α O → σ → Except O O × σ} {l : List α} (hl : l ≠ []) (hf : ∀ c m e, (fn c m).1 ≠ .error e)
    (B : Builtins O) (truthy : O → Bool) (m : σ) :
    (∃ s out, MapFilterReturns n truthy fn l m s out) ∧ ∃ s last m' out, MapReduceReturns B n fn l m s last m' out := by
  obtain ⟨parts, hp, hflat, _, hne, _⟩ := C04_partitions l n hl hn
  have key : ∀ progs : List (Prog α O), (progs = parts.map mapProg ∨ progs = parts.map (mapFilterProg truthy) ∨ progs = parts.map (reduceProg B)) →
      (∀ p ∈ progs, ∀ h outs e, Follows p h (.fail e) outs → ∃ c, (c, .error e) ∈ h) → ∃ s, SReach fn progs (fun _ => 0) m s ∧ s.main = .returned := by
    intro progs hprogs hfail
    have h0 : SReach fn progs (fun _ => 0) m (SS.init m) := .refl
    obtain ⟨t, h1, h2, _⟩ := C196_can_end hprogs h0
    have hr : SReach fn progs (fun _ => 0) m t := h1
    rcases h2 with h2 | ⟨e, h2⟩
    · exact ⟨t, hr, h2⟩
    · have hi := st_sinv_reach hr
      have h3 := hi.main
      rw [h2] at h3
      obtain ⟨_, _, k, hk, hw, _⟩ := h3
      have h4 := hi.worker k
      rw [hw] at h4
      obtain ⟨p0, hp0, hfol⟩ := h4
      obtain ⟨c, hc⟩ := hfail p0 (List.mem_of_getElem? hp0) _ _ _ hfol
      unfold of at hc
      obtain ⟨d, hd, hd2⟩ := List.mem_map.1 hc
      obtain ⟨m2, h5⟩ := serial_answer hi.serial _ (List.mem_map.2 ⟨d, (List.mem_filter.1 hd).1, hd2⟩)
      exact absurd h5 (hf _ m2 e)
  constructor
  · obtain ⟨s, h1, h2⟩ := key _ (.inr (.inl rfl)) fun p hp h outs e hfol => by
      obtain ⟨part, _, rfl⟩ := List.mem_map.1 hp
      exact follows_filter_fail hfol
    exact ⟨s, _, parts, hp, h2, h1, rfl⟩
  · obtain ⟨s, h1, h2⟩ := key _ (.inr (.inr rfl)) fun p hp h outs e hfol => by
      obtain ⟨part, hpart, rfl⟩ := List.mem_map.1 hp
      exact follows_reduce_fail (hne part hpart) hfol
    have hi := st_sinv_reach h1
    have hperm := hi.shared fun _ => rfl
    have hlists : s.lists 0 ≠ [] := by
      intro hh
      rw [hh] at hperm
      have h3 := hperm.nil_eq
      have hlt : 0 < parts.length := by
        rcases Nat.eq_zero_or_pos parts.length with h | h
        · rw [List.length_eq_zero_iff] at h
          rw [h] at hflat
          exact absurd hflat.symm hl
        · exact h
      have h4 : s.written 0 = [] := List.flatMap_eq_nil_iff.1 h3.symm 0 (List.mem_range.2 (by rw [List.length_map]; exact hlt))
      obtain ⟨v, hv, _⟩ := follows_reduce_done (returned_blocks h1 h2 0 (reduceProg B parts[0]) (by rw [List.getElem?_map, List.getElem?_eq_getElem hlt]; rfl))
      rw [h4] at hv; cases hv
    cases hs : s.lists 0 with
    | nil => exact absurd hs hlists
    | cons o os =>
      obtain ⟨last, out, m', hmain⟩ := reduceMain_ok hf os o s.mem
      exact ⟨s, last, m', out, parts, hp, h2, h1, o, os, hs, hmain⟩

/-- a shared counter: the function adds its argument to the counter and returns the old value -/
def counter : Call Nat Nat → Nat → Except Nat Nat × Nat
  | .map x, c => (.ok c, c + x)
  | .filter o, c => (.ok o, c)
  | .reduce a b, c => (.ok (a + b), c)

/-- the hypotheses of the theorems are met: with two workers, the counter is 1 + 2 + 3 at the end whatever the schedule, although the results depend on it -/
example : (∃ s out, MapReturns 2 counter true [1, 2, 3] 0 s out) ∧ ∀ s out, MapReturns 2 counter true [1, 2, 3] 0 s out → s.mem = 6 := by
  refine ⟨C196_returns (by decide) (by decide) (fun x _ m e h => by cases h) true 0, fun s out h => ?_⟩
  rw [C196_commuting_effects (fun x _ y _ m => Nat.add_right_comm m x y) h]
  rfl

end Prolothar.Parallel
