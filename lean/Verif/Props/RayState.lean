import Verif.Model.RayState
import Verif.Spec.RayState
import Verif.Props.ParallelState
import Verif.Props.Ray
import Mathlib.Data.List.Perm.Basic
import Mathlib.Data.List.Nodup
/-
C206: functions with side effects and the ray engine.
-/
namespace Prolothar.RayState
open Prolothar.Parallel Prolothar.Spec.ParallelState
variable {α O σ : Type}

/-- the filter task has kept the element -/
def kept (truthy : O → Bool) (fres : Nat → Option (Except O O)) (i : Nat) : Bool :=
  match fres i with
  | some (.ok b) => truthy b
  | _ => false

/-- the first `k` elements have been filtered and `ids` are kept -/
def Filtered (truthy : O → Bool) (fres : Nat → Option (Except O O)) (k : Nat) (ids : List Nat) : Prop :=
  (∀ i < k, ∃ b, fres i = some (.ok b)) ∧ ids = (List.range k).filter (kept truthy fres)

/-- `ids` are the tasks the caller waits for at the end -/
def Final (truthy : O → Bool) (flt : Bool) (n : Nat) (fres : Nat → Option (Except O O)) (ids : List Nat) : Prop :=
  (flt = false ∧ ids = List.range n ∧ ∀ i, fres i = none) ∨ (flt = true ∧ Filtered truthy fres n ids)

def MainInv (truthy : O → Bool) (flt : Bool) (n : Nat) (s : RS σ α O) : RMain O → Prop
  | .submitting k => k ≤ n ∧ ∀ i, s.fres i = none
  | .filtering k ids => flt = true ∧ k ≤ n ∧ Filtered truthy s.fres k ids ∧ ∀ i, k ≤ i → s.fres i = none
  | .awaiting k ids => flt = true ∧ k < n ∧ Filtered truthy s.fres k ids ∧ ∀ i, k < i → s.fres i = none
  | .getting ids => Final truthy flt n s.fres ids
  | .returned out => ∃ ids, Final truthy flt n s.fres ids ∧ ids.map s.mres = out.map fun o => some (.ok o)
  | .raised e => ∃ c ∈ s.calls, c.2.2 = .error e

structure Inv (fn : Call α O → σ → Except O O × σ) (truthy : O → Bool) (flt : Bool) (l : List α) (m : σ) (s : RS σ α O) : Prop where
  serial : Serial fn m (s.calls.map Prod.snd) s.mem
  mapped : ∀ i r, s.mres i = some r → ∃ x, l[i]? = some x ∧ (i, .map x, r) ∈ s.calls
  filtered : ∀ i b, s.fres i = some (.ok b) → ∃ o, s.mres i = some (.ok o) ∧ (i, .filter o, .ok b) ∈ s.calls
  failed : ∀ i e, s.fres i = some (.error e) → ∃ c ∈ s.calls, c.2.2 = .error e
  calls : ∀ c ∈ s.calls, (∃ x, c.2.1 = .map x ∧ l[c.1]? = some x ∧ s.mres c.1 = some c.2.2) ∨
    ∃ o, c.2.1 = .filter o ∧ s.mres c.1 = some (.ok o) ∧ s.fres c.1 = some c.2.2
  mapOnce : (s.calls.filterMap mapIdx).Nodup
  filterOrder : (s.calls.filterMap filterIdx).Pairwise (· < ·)
  main : MainInv truthy flt l.length s s.main

theorem inv_init (fn : Call α O → σ → Except O O × σ) (truthy : O → Bool) (flt : Bool) (l : List α) (m : σ) :
    Inv fn truthy flt l m (RS.init m) :=
  ⟨rfl, fun _ _ h => (by cases h), fun _ _ h => (by cases h), fun _ _ h => (by cases h), fun _ h => (by cases h), List.nodup_nil, List.Pairwise.nil,
    ⟨Nat.zero_le _, fun _ => rfl⟩⟩

/-- only the caller moves -/
theorem inv_main {fn : Call α O → σ → Except O O × σ} {truthy : O → Bool} {flt : Bool} {l : List α} {m : σ} {s : RS σ α O} {main : RMain O}
    (h : Inv fn truthy flt l m s) (hm : MainInv truthy flt l.length s main) : Inv fn truthy flt l m { s with main := main } := by
  refine ⟨h.serial, h.mapped, h.filtered, h.failed, h.calls, h.mapOnce, h.filterOrder, ?_⟩
  dsimp only
  cases main <;> exact hm

theorem mainInv_mono {truthy : O → Bool} {flt : Bool} {n : Nat} {s t : RS σ α O} {main : RMain O} (hf : t.fres = s.fres)
    (hr : ∀ i r, s.mres i = some r → t.mres i = some r) (hc : ∀ c ∈ s.calls, c ∈ t.calls) (h : MainInv truthy flt n s main) : MainInv truthy flt n t main := by
  cases main with
  | submitting k => unfold MainInv at h ⊢; rw [hf]; exact h
  | filtering k ids => unfold MainInv at h ⊢; rw [hf]; exact h
  | awaiting k ids => unfold MainInv at h ⊢; rw [hf]; exact h
  | getting ids => unfold MainInv at h ⊢; rw [hf]; exact h
  | returned out =>
    obtain ⟨ids, h1, h2⟩ := h
    refine ⟨ids, by rw [hf]; exact h1, ?_⟩
    rw [← h2]
    refine List.map_congr_left fun i hi => ?_
    have : s.mres i ∈ out.map fun o => some (Except.ok o : Except O O) := by rw [← h2]; exact List.mem_map_of_mem hi
    obtain ⟨o, _, ho⟩ := List.mem_map.1 this
    rw [← ho, hr i _ ho.symm]
  | raised e =>
    obtain ⟨c, h1, h2⟩ := h
    exact ⟨c, hc c h1, h2⟩

theorem filtered_upd {truthy : O → Bool} {fres : Nat → Option (Except O O)} {k : Nat} {ids : List Nat} {r : Option (Except O O)}
    (h : Filtered truthy fres k ids) : Filtered truthy (upd fres k r) k ids := by
  obtain ⟨h1, h2⟩ := h
  refine ⟨fun i hi => ?_, ?_⟩
  · rw [upd_ne _ _ (by omega)]; exact h1 i hi
  · rw [h2]
    refine List.filter_congr fun i hi => ?_
    unfold kept
    rw [upd_ne _ _ (by have := List.mem_range.1 hi; omega)]

theorem filtered_succ {truthy : O → Bool} {fres : Nat → Option (Except O O)} {k : Nat} {ids : List Nat} {b : O}
    (h : Filtered truthy fres k ids) (hb : fres k = some (.ok b)) :
    Filtered truthy fres (k + 1) (if truthy b = true then ids ++ [k] else ids) := by
  obtain ⟨h1, h2⟩ := h
  refine ⟨fun i hi => ?_, ?_⟩
  · rcases Nat.lt_succ_iff_lt_or_eq.1 hi with hi | rfl
    · exact h1 i hi
    · exact ⟨b, hb⟩
  · rw [List.range_succ, List.filter_append, ← h2]
    have hk : kept truthy fres k = truthy b := by unfold kept; rw [hb]
    by_cases ht : truthy b = true
    · rw [if_pos ht, List.filter_cons_of_pos (by rw [hk]; exact ht)]; rfl
    · rw [if_neg ht, List.filter_cons_of_neg (by rw [hk]; exact ht)]; simp

theorem inv_step {fn : Call α O → σ → Except O O × σ} {truthy : O → Bool} {flt : Bool} {l : List α} {m : σ} {s t : RS σ α O}
    (h : Inv fn truthy flt l m s) (hs : RStep fn truthy flt l s t) : Inv fn truthy flt l m t := by
  have hmain := h.main
  cases hs with
  | submit hm hk => rw [hm] at hmain; exact inv_main h ⟨hk, hmain.2⟩
  | get hm hf => rw [hm] at hmain; exact inv_main h (.inl ⟨hf, rfl, hmain.2⟩)
  | filters hm hf => rw [hm] at hmain; exact inv_main h ⟨hf, Nat.zero_le _, ⟨fun i hi => absurd hi (Nat.not_lt_zero i), rfl⟩, fun i _ => hmain.2 i⟩
  | @work i x hsub hx hn =>
    have hold : ∀ j r, s.mres j = some r → upd s.mres i (some (fn (.map x) s.mem).1) j = some r := by
      intro j r hj
      rw [upd_ne _ _ (fun hc => by rw [hc, hn] at hj; cases hj), hj]
    have hin : ∀ c ∈ s.calls, c ∈ s.calls ++ [(i, Call.map x, (fn (.map x) s.mem).1)] := fun c hc => List.mem_append_left _ hc
    refine ⟨?_, ?_, ?_, ?_, ?_, ?_, ?_, mainInv_mono (s := s) rfl hold hin hmain⟩
    · dsimp only
      rw [List.map_append]
      exact serial_snoc _ h.serial
    · intro j r hj
      dsimp only at hj ⊢
      by_cases hji : j = i
      · subst hji
        rw [upd_self] at hj
        cases hj
        exact ⟨x, hx, List.mem_append_right _ (List.mem_singleton.2 rfl)⟩
      · rw [upd_ne _ _ hji] at hj
        obtain ⟨y, h1, h2⟩ := h.mapped j r hj
        exact ⟨y, h1, hin _ h2⟩
    · intro j b hj
      obtain ⟨o, h1, h2⟩ := h.filtered j b hj
      exact ⟨o, hold _ _ h1, hin _ h2⟩
    · intro j e hj
      obtain ⟨c, h1, h2⟩ := h.failed j e hj
      exact ⟨c, hin _ h1, h2⟩
    · intro c hc
      rcases List.mem_append.1 hc with hc | hc
      · rcases h.calls c hc with ⟨y, h1, h2, h3⟩ | ⟨o, h1, h2, h3⟩
        · exact .inl ⟨y, h1, h2, hold _ _ h3⟩
        · exact .inr ⟨o, h1, hold _ _ h2, h3⟩
      · rw [List.mem_singleton] at hc
        subst hc
        exact .inl ⟨x, rfl, hx, by dsimp only; rw [upd_self]⟩
    · dsimp only
      rw [List.filterMap_append, List.nodup_append]
      refine ⟨h.mapOnce, by simp [mapIdx], ?_⟩
      intro a ha b hb hab
      simp only [List.filterMap_cons, List.filterMap_nil, mapIdx, List.mem_singleton] at hb
      subst hb; subst hab
      obtain ⟨c, hc, hca⟩ := List.mem_filterMap.1 ha
      obtain ⟨j, d, r⟩ := c
      rcases h.calls _ hc with ⟨y, h1, h2, h3⟩ | ⟨o, h1, h2, h3⟩
      · dsimp only at h1 h3
        subst h1
        simp only [mapIdx, Option.some.injEq] at hca
        rw [hca, hn] at h3
        cases h3
      · dsimp only at h1
        subst h1
        simp [mapIdx] at hca
    · dsimp only
      rw [List.filterMap_append]
      rw [show List.filterMap filterIdx [(i, Call.map x, (fn (Call.map x) s.mem).1)] = [] from rfl, List.append_nil]
      exact h.filterOrder
  | submitFilter hm hk => rw [hm] at hmain; exact inv_main h ⟨hmain.1, hk, hmain.2.2.1, fun i hi => hmain.2.2.2 i (by omega)⟩
  | @filterWork k ids o hm hf ho =>
    rw [hm] at hmain
    have hold : ∀ j r, s.fres j = some r → upd s.fres k (some (fn (.filter o) s.mem).1) j = some r := by
      intro j r hj
      rw [upd_ne _ _ (fun hc => by rw [hc, hf] at hj; cases hj), hj]
    have hin : ∀ c ∈ s.calls, c ∈ s.calls ++ [(k, Call.filter o, (fn (.filter o) s.mem).1)] := fun c hc => List.mem_append_left _ hc
    refine ⟨?_, ?_, ?_, ?_, ?_, ?_, ?_, ?_⟩
    · dsimp only
      rw [List.map_append]
      exact serial_snoc _ h.serial
    · intro j r hj
      obtain ⟨y, h1, h2⟩ := h.mapped j r hj
      exact ⟨y, h1, hin _ h2⟩
    · intro j b hj
      dsimp only at hj ⊢
      by_cases hjk : j = k
      · subst hjk
        rw [upd_self] at hj
        exact ⟨o, ho, List.mem_append_right _ (by rw [Option.some.inj hj]; exact List.mem_singleton.2 rfl)⟩
      · rw [upd_ne _ _ hjk] at hj
        obtain ⟨o, h1, h2⟩ := h.filtered j b hj
        exact ⟨o, h1, hin _ h2⟩
    · intro j e hj
      dsimp only at hj ⊢
      by_cases hjk : j = k
      · subst hjk
        rw [upd_self] at hj
        exact ⟨_, List.mem_append_right _ (List.mem_singleton.2 rfl), Option.some.inj hj⟩
      · rw [upd_ne _ _ hjk] at hj
        obtain ⟨c, h1, h2⟩ := h.failed j e hj
        exact ⟨c, hin _ h1, h2⟩
    · intro c hc
      rcases List.mem_append.1 hc with hc | hc
      · rcases h.calls c hc with ⟨y, h1, h2, h3⟩ | ⟨o, h1, h2, h3⟩
        · exact .inl ⟨y, h1, h2, h3⟩
        · exact .inr ⟨o, h1, h2, hold _ _ h3⟩
      · rw [List.mem_singleton] at hc
        subst hc
        exact .inr ⟨o, rfl, ho, by dsimp only; rw [upd_self]⟩
    · dsimp only
      rw [List.filterMap_append]
      rw [show List.filterMap mapIdx [(k, Call.filter o, (fn (Call.filter o) s.mem).1)] = [] from rfl, List.append_nil]
      exact h.mapOnce
    · dsimp only
      rw [List.filterMap_append, List.pairwise_append]
      refine ⟨h.filterOrder, by simp [filterIdx], ?_⟩
      intro a ha b hb
      simp only [List.filterMap_cons, List.filterMap_nil, filterIdx, List.mem_singleton] at hb
      subst hb
      obtain ⟨c, hc, hca⟩ := List.mem_filterMap.1 ha
      obtain ⟨j, d, r⟩ := c
      rcases h.calls _ hc with ⟨y, h1, h2, h3⟩ | ⟨o', h1, h2, h3⟩
      · dsimp only at h1
        subst h1
        simp [filterIdx] at hca
      · dsimp only at h1 h3
        subst h1
        simp only [filterIdx, Option.some.injEq] at hca
        subst hca
        by_contra hlt
        rcases Nat.lt_or_eq_of_le (Nat.le_of_not_lt hlt) with hlt | heq
        · rw [hmain.2.2.2 j hlt] at h3; cases h3
        · rw [← heq, hf] at h3; cases h3
    · dsimp only
      rw [hm]
      refine ⟨hmain.1, hmain.2.1, filtered_upd hmain.2.2.1, fun i hi => ?_⟩
      dsimp only
      rw [upd_ne _ _ (by omega)]
      exact hmain.2.2.2 i hi
  | @filterFail k ids e hm hf he =>
    rw [hm] at hmain
    obtain ⟨x, _, hxc⟩ := h.mapped _ _ he
    refine ⟨h.serial, h.mapped, ?_, ?_, ?_, h.mapOnce, h.filterOrder, ?_⟩
    · intro j b hj
      dsimp only at hj ⊢
      by_cases hjk : j = k
      · subst hjk
        rw [upd_self] at hj
        cases hj
      · rw [upd_ne _ _ hjk] at hj
        exact h.filtered j b hj
    · intro j e' hj
      dsimp only at hj ⊢
      by_cases hjk : j = k
      · subst hjk
        rw [upd_self] at hj
        exact ⟨_, hxc, Option.some.inj hj⟩
      · rw [upd_ne _ _ hjk] at hj
        exact h.failed j e' hj
    · intro c hc
      rcases h.calls c hc with h1 | ⟨o, h1, h2, h3⟩
      · exact .inl h1
      · refine .inr ⟨o, h1, h2, ?_⟩
        dsimp only
        rw [upd_ne _ _ (fun hc => by rw [hc, hf] at h3; cases h3), h3]
    · dsimp only
      rw [hm]
      refine ⟨hmain.1, hmain.2.1, filtered_upd hmain.2.2.1, fun i hi => ?_⟩
      dsimp only
      rw [upd_ne _ _ (by omega)]
      exact hmain.2.2.2 i hi
  | keep hm hb ht =>
    rw [hm] at hmain
    have := filtered_succ hmain.2.2.1 hb
    rw [if_pos ht] at this
    exact inv_main h ⟨hmain.1, hmain.2.1, this, fun i hi => hmain.2.2.2 i hi⟩
  | skip hm hb ht =>
    rw [hm] at hmain
    have := filtered_succ hmain.2.2.1 hb
    rw [if_neg (by rw [ht]; decide)] at this
    exact inv_main h ⟨hmain.1, hmain.2.1, this, fun i hi => hmain.2.2.2 i hi⟩
  | filterRaise hm he => exact inv_main h (h.failed _ _ he)
  | getKept hm => rw [hm] at hmain; exact inv_main h (.inr ⟨hmain.1, hmain.2.2.1⟩)
  | finish hm ho => rw [hm] at hmain; exact inv_main h ⟨_, hmain, ho⟩
  | raise hm hi he =>
    obtain ⟨x, _, hc⟩ := h.mapped _ _ he
    exact inv_main h ⟨_, hc, rfl⟩

theorem inv_reach {fn : Call α O → σ → Except O O × σ} {truthy : O → Bool} {flt : Bool} {l : List α} {m : σ} {s : RS σ α O}
    (h : RReach fn truthy flt l m s) : Inv fn truthy flt l m s := by
  induction h with
  | refl => exact inv_init ..
  | tail _ hs ih => exact inv_step ih hs

theorem mem_numbered {β : Type} {l : List β} {i : Nat} {c : β} : (i, c) ∈ numbered l ↔ l[i]? = some c := by
  unfold numbered
  rw [List.mem_map]
  constructor
  · rintro ⟨⟨a, b⟩, h1, h2⟩
    cases h2
    exact List.mk_mem_zipIdx_iff_getElem?.1 h1
  · intro h
    exact ⟨(c, i), List.mk_mem_zipIdx_iff_getElem?.2 h, rfl⟩

theorem numbered_snd {β : Type} (l : List β) : (numbered l).map Prod.snd = l := by
  unfold numbered
  rw [List.map_map, show (Prod.snd ∘ Prod.swap : β × Nat → β) = Prod.fst from rfl, List.zipIdx_map_fst]

theorem numbered_nodup {β : Type} (l : List β) : (numbered l).Nodup := by
  apply List.Nodup.of_map Prod.fst
  have : (numbered l).map Prod.fst = List.range l.length := by
    unfold numbered
    rw [List.map_map, show (Prod.fst ∘ Prod.swap : β × Nat → Nat) = Prod.snd from rfl, List.zipIdx_map_snd, List.range_eq_range']
  rw [this]
  exact List.nodup_range

theorem calls_nodup {fn : Call α O → σ → Except O O × σ} {truthy : O → Bool} {flt : Bool} {l : List α} {m : σ} {s : RS σ α O}
    (h : Inv fn truthy flt l m s) : s.calls.Nodup := by
  have h1 := List.pairwise_filterMap.1 h.mapOnce
  have h2 := List.pairwise_filterMap.1 h.filterOrder
  refine (h1.and h2).imp_of_mem ?_
  rintro a b ha _ ⟨p1, p2⟩ rfl
  obtain ⟨i, d, r⟩ := a
  rcases h.calls _ ha with ⟨x, hx, _⟩ | ⟨o, ho, _⟩
  · dsimp only at hx; subst hx
    exact p1 i rfl i rfl rfl
  · dsimp only at ho; subst ho
    exact absurd (p2 i rfl i rfl) (Nat.lt_irrefl i)

theorem pick {P : Nat → O → Prop} : ∀ n, (∀ i < n, ∃ o, P i o) → ∃ vs : List O, vs.length = n ∧ ∀ i o, vs[i]? = some o → P i o
  | 0, _ => ⟨[], rfl, fun i o h => by simp at h⟩
  | n + 1, h => by
    obtain ⟨vs, h1, h2⟩ := pick n fun i hi => h i (by omega)
    obtain ⟨o, ho⟩ := h n (by omega)
    refine ⟨vs ++ [o], by simp [h1], fun i o' hi => ?_⟩
    rw [List.getElem?_append] at hi
    split at hi
    · exact h2 i o' hi
    · rw [List.getElem?_singleton] at hi
      split at hi
      · cases hi
        have : i = n := by omega
        subst this; exact ho
      · cases hi

theorem zipWith_some {β γ δ : Type} {f : β → γ → δ} {as : List β} {bs : List γ} {i : Nat} {c : δ} :
    (List.zipWith f as bs)[i]? = some c ↔ ∃ a b, as[i]? = some a ∧ bs[i]? = some b ∧ c = f a b := by
  rw [List.getElem?_zipWith]
  cases as[i]? <;> cases bs[i]? <;> simp [eq_comm]

theorem zipWith_left {β γ δ : Type} {f : β → δ} : ∀ {as : List β} {bs : List γ}, bs.length = as.length →
    List.zipWith (fun a _ => f a) as bs = as.map f
  | [], [], _ => rfl
  | a :: as, b :: bs, h => by
    rw [List.zipWith_cons_cons, List.map_cons, zipWith_left (Nat.succ.inj h)]

/-- C206: if `map` returns, then the map function has been called exactly once for every element of the list and no other call was made; no call has
raised, the result consists of the values that the calls have returned, in the order of the list. The calls took effect one after the other in
some order, and the outside state is what this order gives. -/
theorem C206_map {fn : Call α O → σ → Except O O × σ} {truthy : O → Bool} {l : List α} {m : σ} {s : RS σ α O} {out : List O}
    (h : RReach fn truthy false l m s) (hm : s.main = .returned out) :
    out.length = l.length ∧ s.calls.Perm (numbered (List.zipWith (fun x o => (Call.map x, Except.ok o)) l out)) ∧
      Serial fn m (s.calls.map Prod.snd) s.mem := by
  have hi := inv_reach h
  have hmain := hi.main
  rw [hm] at hmain
  obtain ⟨ids, hfin, hout⟩ := hmain
  rcases hfin with ⟨_, hids, hfres⟩ | ⟨hc, _⟩
  swap
  · cases hc
  subst hids
  have hlen : out.length = l.length := by
    have := congrArg List.length hout
    simpa using this.symm
  have hres : ∀ i < l.length, s.mres i = (out[i]?).map Except.ok := by
    intro i hil
    have := congrArg (fun x => x[i]?) hout
    simp only [List.getElem?_map, List.getElem?_range hil, Option.map_some] at this
    rw [List.getElem?_eq_getElem (by omega)] at this ⊢
    simpa using this
  refine ⟨hlen, ?_, hi.serial⟩
  rw [List.perm_ext_iff_of_nodup (calls_nodup hi) (numbered_nodup _)]
  rintro ⟨i, c, r⟩
  rw [mem_numbered, zipWith_some]
  constructor
  · intro hc
    rcases hi.calls _ hc with ⟨x, h1, h2, h3⟩ | ⟨o, _, _, h3⟩
    · dsimp only at h1 h2 h3
      rw [hres i (List.getElem?_eq_some_iff.1 h2).1] at h3
      obtain ⟨o, ho, hr⟩ := Option.map_eq_some_iff.1 h3
      exact ⟨x, o, h2, ho, by rw [h1, ← hr]⟩
    · rw [hfres] at h3; cases h3
  · rintro ⟨x, o, h1, h2, h3⟩
    cases h3
    have h4 := hres i (List.getElem?_eq_some_iff.1 h1).1
    rw [h2] at h4
    obtain ⟨y, hy, hc⟩ := hi.mapped _ _ h4
    rw [h1] at hy
    cases hy
    exact hc

/-- C206: if `map_filter` returns, then the map function has been called exactly once for every element, and the filter function exactly once for
every value the map function has returned, in the order of the list; no call has raised, and the result consists of the values that the filter
function has accepted, in the order of the list. -/
theorem C206_map_filter {fn : Call α O → σ → Except O O × σ} {truthy : O → Bool} {l : List α} {m : σ} {s : RS σ α O} {out : List O}
    (h : RReach fn truthy true l m s) (hm : s.main = .returned out) :
    ∃ vs bs : List O, vs.length = l.length ∧ bs.length = l.length ∧
      s.calls.Perm (numbered (List.zipWith (fun x v => (Call.map x, Except.ok v)) l vs) ++
        numbered (List.zipWith (fun v b => (Call.filter v, Except.ok b)) vs bs)) ∧
      s.calls.filterMap filterIdx = List.range l.length ∧
      out = ((vs.zip bs).filter fun p => truthy p.2).map Prod.fst ∧ Serial fn m (s.calls.map Prod.snd) s.mem := by
  have hi := inv_reach h
  have hmain := hi.main
  rw [hm] at hmain
  obtain ⟨ids, hfin, hout⟩ := hmain
  rcases hfin with ⟨hc, _⟩ | ⟨_, hall, hids⟩
  · cases hc
  obtain ⟨bs, hbl, hbs⟩ := pick l.length hall
  obtain ⟨vs, hvl, hvs⟩ := pick l.length (P := fun i o => s.mres i = some (.ok o)) fun i hil => by
    obtain ⟨b, hb⟩ := hall i hil
    obtain ⟨o, ho, _⟩ := hi.filtered i b hb
    exact ⟨o, ho⟩
  have hv : ∀ i o, s.mres i = some (.ok o) → i < l.length → vs[i]? = some o := by
    intro i o ho hil
    have := hvs i _ (List.getElem?_eq_getElem (by omega))
    rw [ho] at this
    rw [List.getElem?_eq_getElem (by omega)]
    cases this
    rfl
  have hb : ∀ i o, s.fres i = some (.ok o) → i < l.length → bs[i]? = some o := by
    intro i o ho hil
    have := hbs i _ (List.getElem?_eq_getElem (by omega))
    rw [ho] at this
    rw [List.getElem?_eq_getElem (by omega)]
    cases this
    rfl
  have hin : ∀ i r, s.mres i = some r → i < l.length := by
    intro i r hr
    obtain ⟨x, hx, _⟩ := hi.mapped i r hr
    exact (List.getElem?_eq_some_iff.1 hx).1
  have hfc : ∀ i v b, vs[i]? = some v → bs[i]? = some b → (i, Call.filter v, Except.ok b) ∈ s.calls := by
    intro i v b h1 h2
    obtain ⟨o, ho, hc⟩ := hi.filtered i b (hbs i b h2)
    have := hvs i v h1
    rw [ho] at this
    cases this
    exact hc
  refine ⟨vs, bs, hvl, hbl, ?_, ?_, ?_, hi.serial⟩
  · rw [List.perm_ext_iff_of_nodup (calls_nodup hi)]
    · rintro ⟨i, c, r⟩
      rw [List.mem_append, mem_numbered, mem_numbered, zipWith_some, zipWith_some]
      constructor
      · intro hc
        rcases hi.calls _ hc with ⟨x, h1, h2, h3⟩ | ⟨o, h1, h2, h3⟩
        · dsimp only at h1 h2 h3
          have hil := hin i _ h3
          have h4 := hvs i _ (List.getElem?_eq_getElem (by omega))
          refine .inl ⟨x, vs[i], h2, List.getElem?_eq_getElem (by omega), ?_⟩
          rw [h1]
          rw [h3] at h4
          rw [Option.some.inj h4]
        · dsimp only at h1 h2 h3
          have hil := hin i _ h2
          have h4 := hbs i _ (List.getElem?_eq_getElem (by omega))
          refine .inr ⟨o, bs[i], hv i o h2 hil, List.getElem?_eq_getElem (by omega), ?_⟩
          rw [h1]
          rw [h3] at h4
          rw [Option.some.inj h4]
      · rintro (⟨x, v, h1, h2, h3⟩ | ⟨v, b, h1, h2, h3⟩)
        · cases h3
          obtain ⟨y, hy, hc⟩ := hi.mapped _ _ (hvs i v h2)
          rw [h1] at hy
          cases hy
          exact hc
        · cases h3
          exact hfc i v b h1 h2
    · rw [List.nodup_append]
      refine ⟨numbered_nodup _, numbered_nodup _, ?_⟩
      rintro ⟨i, a⟩ ha _ hb rfl
      rw [mem_numbered, zipWith_some] at ha hb
      obtain ⟨_, _, _, _, rfl⟩ := ha
      obtain ⟨_, _, _, _, hc⟩ := hb
      cases hc
  · refine List.Perm.eq_of_pairwise (le := (· < ·)) (fun a b _ _ h1 h2 => absurd h1 (Nat.lt_asymm h2)) hi.filterOrder List.pairwise_lt_range ?_
    rw [List.perm_ext_iff_of_nodup (hi.filterOrder.imp Nat.ne_of_lt) List.nodup_range]
    intro i
    rw [List.mem_range, List.mem_filterMap]
    constructor
    · rintro ⟨⟨j, c, r⟩, hc, hj⟩
      rcases hi.calls _ hc with ⟨x, h1, _, _⟩ | ⟨o, h1, h2, _⟩
      · dsimp only at h1; subst h1; cases hj
      · dsimp only at h1 h2; subst h1
        cases hj
        exact hin _ _ h2
    · intro hil
      exact ⟨_, hfc i vs[i] bs[i] (List.getElem?_eq_getElem (by omega)) (List.getElem?_eq_getElem (by omega)), rfl⟩
  · have hinj : Function.Injective (fun o : O => some (Except.ok o : Except O O)) := fun a b hab => by
      simpa using hab
    apply List.map_injective_iff.2 hinj
    rw [← hout, hids]
    have hrange : (List.range l.length).map (fun i => (vs.zip bs)[i]?) = (vs.zip bs).map some := by
      apply List.ext_getElem?
      intro i
      rw [List.getElem?_map, List.getElem?_map]
      by_cases hil : i < l.length
      · rw [List.getElem?_range hil, Option.map_some, List.getElem?_eq_getElem (by rw [List.length_zip]; omega)]
        rfl
      · rw [List.getElem?_eq_none (by rw [List.length_range]; omega), List.getElem?_eq_none (by rw [List.length_zip]; omega)]
        rfl
    have hz : ∀ i < l.length, ∃ v b, s.mres i = some (.ok v) ∧ s.fres i = some (.ok b) ∧ (vs.zip bs)[i]? = some (v, b) := by
      intro i hil
      refine ⟨vs[i], bs[i], hvs i _ (List.getElem?_eq_getElem (by omega)), hbs i _ (List.getElem?_eq_getElem (by omega)), ?_⟩
      rw [List.getElem?_eq_getElem (by rw [List.length_zip]; omega), List.getElem_zip]
    have h1 : ((List.range l.length).filter (kept truthy s.fres)).map s.mres =
        (((List.range l.length).map fun i => (vs.zip bs)[i]?).filter fun p => p.any fun p => truthy p.2).map
          (Option.map fun p => Except.ok p.1) := by
      rw [List.filter_map, List.map_map]
      have hf : (List.range l.length).filter (kept truthy s.fres) =
          (List.range l.length).filter ((fun p => p.any fun p => truthy p.2) ∘ fun i => (vs.zip bs)[i]?) := by
        refine List.filter_congr fun i hi => ?_
        obtain ⟨v, b, _, hb, hzi⟩ := hz i (List.mem_range.1 hi)
        rw [Function.comp_apply, hzi]
        unfold kept
        rw [hb]
        rfl
      rw [hf]
      refine List.map_congr_left fun i hi => ?_
      obtain ⟨v, b, hv, _, hzi⟩ := hz i (List.mem_range.1 (List.mem_filter.1 hi).1)
      rw [Function.comp_apply, hzi, hv]
      rfl
    rw [h1, hrange, List.filter_map, List.map_map, List.map_map]
    rfl

/-- C206: at every moment, also after an exception, the map function has been called at most once for every element, the filter function at most
once for every element and in the order of the list, and only for the value that the map function has returned for this element. -/
theorem C206_at_most_once {fn : Call α O → σ → Except O O × σ} {truthy : O → Bool} {flt : Bool} {l : List α} {m : σ} {s : RS σ α O}
    (h : RReach fn truthy flt l m s) :
    (s.calls.filterMap mapIdx).Nodup ∧ (s.calls.filterMap filterIdx).Pairwise (· < ·) ∧ Serial fn m (s.calls.map Prod.snd) s.mem ∧
    ∀ c ∈ s.calls, (∃ x, c.2.1 = .map x ∧ l[c.1]? = some x) ∨
      ∃ x o, c.2.1 = .filter o ∧ l[c.1]? = some x ∧ (c.1, .map x, .ok o) ∈ s.calls := by
  have hi := inv_reach h
  refine ⟨hi.mapOnce, hi.filterOrder, hi.serial, fun c hc => ?_⟩
  rcases hi.calls c hc with ⟨x, h1, h2, _⟩ | ⟨o, h1, h2, _⟩
  · exact .inl ⟨x, h1, h2⟩
  · obtain ⟨x, h3, h4⟩ := hi.mapped _ _ h2
    exact .inr ⟨x, o, h1, h3, h4⟩

/-- C206: an exception that `map` or `map_filter` raises is one that some call has raised. -/
theorem C206_raised {fn : Call α O → σ → Except O O × σ} {truthy : O → Bool} {flt : Bool} {l : List α} {m : σ} {s : RS σ α O} {e : O}
    (h : RReach fn truthy flt l m s) (hm : s.main = .raised e) : ∃ c ∈ s.calls, c.2.2 = .error e := by
  have := (inv_reach h).main
  rw [hm] at this
  exact this

/-- C206: if the values of the map function do not depend on the outside state, `map` returns what the single thread engine returns. -/
theorem C206_values {fn : Call α O → σ → Except O O × σ} {truthy : O → Bool} {l : List α} {m : σ} {s : RS σ α O} {out : List O} (g : α → O)
    (hg : ∀ x ∈ l, ∀ m, (fn (.map x) m).1 = .ok (g x)) (h : RReach fn truthy false l m s) (hm : s.main = .returned out) : out = l.map g := by
  obtain ⟨h1, h2, h3⟩ := C206_map h hm
  apply List.ext_getElem?
  intro i
  by_cases hil : i < l.length
  · have hmem : (i, Call.map l[i], Except.ok (out[i]'(by omega))) ∈ s.calls := by
      rw [h2.mem_iff, mem_numbered, zipWith_some]
      exact ⟨_, _, List.getElem?_eq_getElem hil, List.getElem?_eq_getElem (by omega), rfl⟩
    obtain ⟨m', hm'⟩ := serial_answer h3 _ (List.mem_map_of_mem (f := Prod.snd) hmem)
    dsimp only at hm'
    rw [hg _ (List.getElem_mem hil)] at hm'
    rw [List.getElem?_eq_getElem (by omega), List.getElem?_map, List.getElem?_eq_getElem hil, Option.map_some]
    rw [Except.ok.inj hm']
  · rw [List.getElem?_eq_none (by omega), List.getElem?_eq_none (by simpa using hil)]

/-- C206: if the effects of the map function commute, `map` leaves the outside state as the single thread engine does. -/
theorem C206_commuting_effects {fn : Call α O → σ → Except O O × σ} {truthy : O → Bool} {l : List α} {m : σ} {s : RS σ α O} {out : List O}
    (hc : ∀ x ∈ l, ∀ y ∈ l, ∀ m, (fn (.map y) (fn (.map x) m).2).2 = (fn (.map x) (fn (.map y) m).2).2)
    (h : RReach fn truthy false l m s) (hm : s.main = .returned out) : s.mem = l.foldl (fun m x => (fn (.map x) m).2) m := by
  obtain ⟨h1, h2, h3⟩ := C206_map h hm
  have h4 := serial_fold h3
  have hperm : ((s.calls.map Prod.snd).map Prod.fst).Perm (l.map Call.map) := by
    refine ((h2.map Prod.snd).map Prod.fst).trans (List.Perm.of_eq ?_)
    rw [numbered_snd, List.map_zipWith]
    exact zipWith_left h1
  rw [h4, hperm.foldl_eq' (f := fun m c => (fn c m).2), List.foldl_map]
  intro x hx y hy z
  obtain ⟨a, ha, rfl⟩ := List.mem_map.1 (hperm.mem_iff.1 hx)
  obtain ⟨b, hb, rfl⟩ := List.mem_map.1 (hperm.mem_iff.1 hy)
  exact hc a ha b hb z

/-- C206: `map_reduce` makes the calls of `map`, and after that the caller combines the values of the list from left to right. -/
theorem C206_map_reduce {fn : Call α O → σ → Except O O × σ} {truthy : O → Bool} {l : List α} {m : σ} {s : RS σ α O}
    {last : List (Call α O × Except O O)} {m' : σ} {out : O} (h : RayMapReduceReturns fn truthy l m s last m' out) :
    ∃ vs, vs.length = l.length ∧ s.calls.Perm (numbered (List.zipWith (fun x o => (Call.map x, Except.ok o)) l vs)) ∧
      Serial fn m (s.calls.map Prod.snd ++ last) m' ∧
      ∃ o os, vs = o :: os ∧ reduceMain fn o os s.mem = (last, .ok out, m') := by
  obtain ⟨o, os, h1, h2, h3⟩ := h
  obtain ⟨p1, p2, p3⟩ := C206_map h1 h2
  exact ⟨o :: os, p1, p2, serial_append p3 (reduceMain_serial h3), o, os, rfl, h3⟩

/-- what is left to do for the caller -/
def mainRank (n : Nat) : RMain O → Nat
  | .submitting k => (n - k) + 2 * n + 4
  | .filtering k _ => 2 * (n - k) + 2
  | .awaiting k _ => 2 * (n - k) + 1
  | .getting _ => 1
  | .returned _ => 0
  | .raised _ => 0

def rank (n : Nat) (s : RS σ α O) : Nat := Ray.undone n s.mres + Ray.undone n s.fres + mainRank n s.main

theorem rank_step {fn : Call α O → σ → Except O O × σ} {truthy : O → Bool} {flt : Bool} {l : List α} {m : σ} {s t : RS σ α O}
    (h : Inv fn truthy flt l m s) (hs : RStep fn truthy flt l s t) : rank l.length t < rank l.length s := by
  have hmain := h.main
  unfold rank
  cases hs with
  | submit hm hk => rw [hm]; simp only [mainRank]; omega
  | get hm _ => rw [hm]; simp only [mainRank]; omega
  | filters hm _ => rw [hm]; simp only [mainRank]; omega
  | @work i x _ hx hn =>
    have := Ray.undone_upd l.length s.mres i (fn (.map x) s.mem).1 (List.getElem?_eq_some_iff.1 hx).1 hn
    dsimp only
    omega
  | submitFilter hm hk => rw [hm]; simp only [mainRank]; omega
  | @filterWork k ids o hm hf ho =>
    rw [hm] at hmain
    have := Ray.undone_upd l.length s.fres k (fn (.filter o) s.mem).1 hmain.2.1 hf
    dsimp only
    omega
  | @filterFail k ids e hm hf ho =>
    rw [hm] at hmain
    have := Ray.undone_upd l.length s.fres k (.error e) hmain.2.1 hf
    dsimp only
    omega
  | keep hm => rw [hm] at hmain ⊢; have := hmain.2.1; simp only [mainRank]; omega
  | skip hm => rw [hm] at hmain ⊢; have := hmain.2.1; simp only [mainRank]; omega
  | filterRaise hm => rw [hm]; simp only [mainRank]; omega
  | getKept hm => rw [hm]; simp only [mainRank]; omega
  | finish hm => rw [hm]; simp only [mainRank]; omega
  | raise hm => rw [hm]; simp only [mainRank]; omega

theorem final_ids {truthy : O → Bool} {flt : Bool} {n : Nat} {fres : Nat → Option (Except O O)} {ids : List Nat} (h : Final truthy flt n fres ids) :
    ∀ i ∈ ids, i < n := by
  intro i hi
  rcases h with ⟨_, rfl, _⟩ | ⟨_, _, rfl⟩
  · exact List.mem_range.1 hi
  · exact List.mem_range.1 (List.mem_filter.1 hi).1

theorem all_ok {mres : Nat → Option (Except O O)} : ∀ ids : List Nat, (∀ i ∈ ids, ∃ o, mres i = some (.ok o)) →
    ∃ out : List O, ids.map mres = out.map fun o => some (.ok o)
  | [], _ => ⟨[], rfl⟩
  | i :: ids, h => by
    obtain ⟨out, ho⟩ := all_ok ids fun j hj => h j (List.mem_cons_of_mem _ hj)
    obtain ⟨o, hi⟩ := h i List.mem_cons_self
    exact ⟨o :: out, by rw [List.map_cons, List.map_cons, ho, hi]⟩

theorem progress {fn : Call α O → σ → Except O O × σ} {truthy : O → Bool} {flt : Bool} {l : List α} {m : σ} {s : RS σ α O}
    (h : Inv fn truthy flt l m s) (hs : ∀ t, ¬ RStep fn truthy flt l s t) :
    ((∃ out, s.main = .returned out) ∨ ∃ e, s.main = .raised e) ∧ ∀ i x, l[i]? = some x → ∃ r, s.mres i = some r := by
  have hmain := h.main
  have hwork : (∀ k, s.main ≠ .submitting k) → ∀ i x, l[i]? = some x → ∃ r, s.mres i = some r := by
    intro hk i x hx
    cases hr : s.mres i with
    | some r => exact ⟨r, rfl⟩
    | none =>
      refine absurd (RStep.work ?_ hx hr) (hs _)
      have hil := (List.getElem?_eq_some_iff.1 hx).1
      cases hm : s.main with
      | submitting k => exact absurd hm (hk k)
      | filtering | awaiting | getting | returned | raised => exact hil
  cases hm : s.main with
  | submitting k =>
    rw [hm] at hmain
    rcases Nat.lt_or_eq_of_le hmain.1 with hk | rfl
    · exact absurd (RStep.submit hm hk) (hs _)
    · cases flt with
      | false => exact absurd (RStep.get hm rfl) (hs _)
      | true => exact absurd (RStep.filters hm rfl) (hs _)
  | filtering k ids =>
    rw [hm] at hmain
    rcases Nat.lt_or_eq_of_le hmain.2.1 with hk | rfl
    · exact absurd (RStep.submitFilter hm hk) (hs _)
    · exact absurd (RStep.getKept hm) (hs _)
  | awaiting k ids =>
    rw [hm] at hmain
    obtain ⟨r, hr⟩ := hwork (fun j hj => by rw [hm] at hj; cases hj) k _ (List.getElem?_eq_getElem hmain.2.1)
    cases hf : s.fres k with
    | none =>
      cases r with
      | ok o => exact absurd (RStep.filterWork hm hf hr) (hs _)
      | error e => exact absurd (RStep.filterFail hm hf hr) (hs _)
    | some b =>
      cases b with
      | error e => exact absurd (RStep.filterRaise hm hf) (hs _)
      | ok b =>
        cases ht : truthy b with
        | true => exact absurd (RStep.keep hm hf ht) (hs _)
        | false => exact absurd (RStep.skip hm hf ht) (hs _)
  | getting ids =>
    rw [hm] at hmain
    have hall := hwork (fun j hj => by rw [hm] at hj; cases hj)
    have hok : ∀ i ∈ ids, ∃ o, s.mres i = some (.ok o) := by
      intro i hi
      obtain ⟨r, hr⟩ := hall i _ (List.getElem?_eq_getElem (final_ids hmain i hi))
      cases r with
      | ok o => exact ⟨o, hr⟩
      | error e => exact absurd (RStep.raise hm hi hr) (hs _)
    obtain ⟨out, hout⟩ := all_ok ids hok
    exact absurd (RStep.finish hm hout) (hs _)
  | returned out => exact ⟨.inl ⟨out, rfl⟩, hwork fun j hj => by rw [hm] at hj; cases hj⟩
  | raised e => exact ⟨.inr ⟨e, rfl⟩, hwork fun j hj => by rw [hm] at hj; cases hj⟩

/-- C206: when `map` or `map_filter` has returned, no function is being called any more, and none will be. -/
theorem C206_nothing_runs_after_return {fn : Call α O → σ → Except O O × σ} {truthy : O → Bool} {flt : Bool} {l : List α} {m : σ} {s : RS σ α O}
    {out : List O} (h : RReach fn truthy flt l m s) (hm : s.main = .returned out) : ∀ t, ¬ RStep fn truthy flt l s t := by
  have hi := inv_reach h
  have hmain := hi.main
  rw [hm] at hmain
  obtain ⟨ids, hfin, hout⟩ := hmain
  have hdone : ∀ i < l.length, s.mres i ≠ none := by
    intro i hil hn
    rcases hfin with ⟨_, rfl, _⟩ | ⟨_, hall, _⟩
    · have : s.mres i ∈ out.map fun o => some (Except.ok o : Except O O) := by rw [← hout]; exact List.mem_map_of_mem (List.mem_range.2 hil)
      obtain ⟨o, _, ho⟩ := List.mem_map.1 this
      rw [hn] at ho; cases ho
    · obtain ⟨b, hb⟩ := hall i hil
      obtain ⟨o, ho, _⟩ := hi.filtered i b hb
      rw [hn] at ho; cases ho
  intro t hs
  cases hs with
  | work _ hx hn => exact hdone _ (List.getElem?_eq_some_iff.1 hx).1 hn
  | submit h1 | get h1 | filters h1 | submitFilter h1 | filterWork h1 | filterFail h1 | keep h1 | skip h1 | filterRaise h1 | getKept h1 | finish h1
  | raise h1 => rw [hm] at h1; cases h1

/-- C206: under every schedule the call ends. A state in which nothing can run is one in which the call has returned or raised an exception, and the map
function has been called for every element of the list, also for those after an element whose call has raised: an exception stops no task. -/
theorem C206_ends (fn : Call α O → σ → Except O O × σ) (truthy : O → Bool) (flt : Bool) (l : List α) (m : σ) :
    (¬ ∃ run : Nat → RS σ α O, run 0 = RS.init m ∧ ∀ i, RStep fn truthy flt l (run i) (run (i + 1))) ∧
    (∀ s, RReach fn truthy flt l m s → ∃ t, Relation.ReflTransGen (RStep fn truthy flt l) s t ∧ ∀ u, ¬ RStep fn truthy flt l t u) ∧
    ∀ s, RReach fn truthy flt l m s → (∀ t, ¬ RStep fn truthy flt l s t) →
      ((∃ out, s.main = .returned out) ∨ ∃ e, s.main = .raised e) ∧
      ∀ i x, l[i]? = some x → ∃ r, (i, .map x, r) ∈ s.calls := by
  refine ⟨Ray.no_infinite (rank l.length) fun _ _ h hs => rank_step (inv_reach h) hs, fun s h => ?_, fun s h hs => ?_⟩
  · exact Ray.exists_run (R := RStep fn truthy flt l) (s0 := s) (rank l.length) fun _ _ h' hs => rank_step (inv_reach (h.trans h')) hs
  · obtain ⟨h1, h2⟩ := progress (inv_reach h) hs
    refine ⟨h1, fun i x hx => ?_⟩
    obtain ⟨r, hr⟩ := h2 i x hx
    obtain ⟨y, hy, hc⟩ := (inv_reach h).mapped i r hr
    rw [hx] at hy
    cases hy
    exact ⟨r, hc⟩

/-- C206: if no function raises, `map`, `map_filter` and (for a list with at least one element) `map_reduce` return, for every list and every
outside state: the hypotheses of the theorems above are met. -/
theorem C206_returns {fn : Call α O → σ → Except O O × σ} (hf : ∀ c m e, (fn c m).1 ≠ .error e) (truthy : O → Bool) (l : List α) (m : σ) :
    (∀ flt, ∃ s out, RReach fn truthy flt l m s ∧ s.main = .returned out) ∧
    (l ≠ [] → ∃ s last m' out, RayMapReduceReturns fn truthy l m s last m' out) := by
  have h1 : ∀ flt, ∃ s out, RReach fn truthy flt l m s ∧ s.main = .returned out := by
    intro flt
    obtain ⟨s, h, hs⟩ := (C206_ends fn truthy flt l m).2.1 _ .refl
    rcases (progress (inv_reach h) hs).1 with ⟨out, ho⟩ | ⟨e, he⟩
    · exact ⟨s, out, h, ho⟩
    · obtain ⟨c, hc, hce⟩ := C206_raised h he
      obtain ⟨m', hm'⟩ := serial_answer (inv_reach h).serial _ (List.mem_map_of_mem (f := Prod.snd) hc)
      exact absurd (hm'.trans hce) (hf _ _ _)
  refine ⟨h1, fun hl => ?_⟩
  obtain ⟨s, out, h, ho⟩ := h1 false
  have hlen := (C206_map h ho).1
  cases out with
  | nil => exact absurd (List.length_eq_zero_iff.1 hlen.symm) hl
  | cons o os =>
    obtain ⟨last, r, m', hr⟩ := reduceMain_ok hf os o s.mem
    exact ⟨s, last, m', r, o, os, h, ho, hr⟩

/-- C206, deviation: `map` can raise an exception while tasks have not yet begun, and their calls are made after that. Here the first of two elements
fails: nothing was done with the second one when the exception is raised, and it is worked through later. -/
theorem C206_calls_after_exception (fn : Call α O → σ → Except O O × σ) (truthy : O → Bool) (x y : α) (m : σ) (e : O) (m1 : σ)
    (hx : fn (.map x) m = (.error e, m1)) :
    ∃ s t, RReach fn truthy false [x, y] m s ∧ s.main = .raised e ∧ s.mem = m1 ∧ s.calls = [(0, .map x, .error e)] ∧
      RStep fn truthy false [x, y] s t ∧ t.main = .raised e ∧ t.mem = (fn (.map y) m1).2 ∧
      t.calls = [(0, .map x, .error e), (1, .map y, (fn (.map y) m1).1)] := by
  have s1 : RStep fn truthy false [x, y] (RS.init m) { RS.init m with main := .submitting 1 } := .submit (k := 0) rfl (by simp)
  have s2 : RStep fn truthy false [x, y] { RS.init m with main := .submitting 1 } { RS.init m with main := .submitting 2 } :=
    .submit (k := 1) rfl (by simp)
  have s3 : RStep fn truthy false [x, y] { RS.init m with main := .submitting 2 } { RS.init m with main := .getting (List.range 2) } := .get rfl rfl
  have s4 : RStep fn truthy false [x, y] { RS.init m with main := .getting (List.range 2) } ⟨.getting (List.range 2),
      upd (fun _ => none) 0 (some (fn (.map x) m).1), fun _ => none, (fn (.map x) m).2, [(0, .map x, (fn (.map x) m).1)]⟩ :=
    .work (i := 0) (x := x) (show 0 < 2 by omega) rfl rfl
  rw [hx] at s4
  dsimp only at s4
  have s5 : RStep fn truthy false [x, y] ⟨.getting (List.range 2), upd (fun _ => none) 0 (some (.error e)), fun _ => none, m1, [(0, .map x, .error e)]⟩
      ⟨.raised e, upd (fun _ => none) 0 (some (.error e)), fun _ => none, m1, [(0, .map x, .error e)]⟩ := .raise (i := 0) rfl (by simp) rfl
  have s6 := RStep.work (fn := fn) (truthy := truthy) (flt := false) (l := [x, y]) (i := 1) (x := y)
    (s := ⟨.raised e, upd (fun _ => none) 0 (some (.error e)), fun _ => none, m1, [(0, .map x, .error e)]⟩) (show 1 < 2 by omega) rfl
    rfl
  exact ⟨_, _, ((((Relation.ReflTransGen.single s1).tail s2).tail s3).tail s4).tail s5, rfl, rfl, rfl, s6, rfl, rfl, rfl⟩

/-- a function that appends its element to a file and returns the length of the file -/
def appendFile : Call Nat Nat → List Nat → Except Nat Nat × List Nat
  | .map x, file => (.ok file.length, file ++ [x])
  | .filter o, file => (.ok (o % 2), file)
  | .reduce a b, file => (.ok (a + b), file)

/-- the hypotheses are met, with a function whose values depend on the schedule -/
example : ∃ s out, RReach appendFile (· ≠ 0) true [5, 6, 7] [] s ∧ s.main = .returned out :=
  (C206_returns (by rintro (x | o | ⟨a, b⟩) m e h <;> cases h) _ _ _).1 true

end Prolothar.RayState
