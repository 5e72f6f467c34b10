import Verif.Model.Lru
import Mathlib.Data.List.Nodup
import Mathlib.Logic.Relation
/- Property C19 of /repo/prolothar_common/mdl_utils.pyx. -/
namespace Prolothar.Lru
variable {κ ν : Type} [DecidableEq κ]

/-- what every reachable cache satisfies -/
structure Good (f : κ → ν) (cap : Nat) (cache : List (κ × ν)) : Prop where
  sound : ∀ p ∈ cache, p.2 = f p.1
  nodup : (cache.map Prod.fst).Nodup
  bound : cache.length ≤ cap

theorem length_remove (cache : List (κ × ν)) (p : κ × ν) (hp : p ∈ cache) :
    (cache.filter (fun q => decide (q.1 ≠ p.1))).length + 1 ≤ cache.length := by
  have := List.length_filter_lt_length_iff_exists (p := fun q : κ × ν => decide (q.1 ≠ p.1)) (l := cache)
  have h2 := this.2 ⟨p, hp, by simp⟩
  omega

theorem nodup_front (cache : List (κ × ν)) (hn : (cache.map Prod.fst).Nodup) (p : κ × ν) :
    ((p :: cache.filter (fun q => decide (q.1 ≠ p.1))).map Prod.fst).Nodup := by
  rw [List.map_cons, List.nodup_cons]
  refine ⟨?_, ?_⟩
  · simp only [List.mem_map, List.mem_filter, decide_eq_true_eq]
    rintro ⟨q, ⟨_, h⟩, h2⟩; exact h h2
  · exact hn.sublist (List.filter_sublist.map _)

theorem cachedCall_good (f : κ → ν) (cap : Nat) (cache : List (κ × ν)) (x : κ)
    (h : Good f cap cache) :
    (cachedCall f cap cache x).1 = f x ∧ Good f cap (cachedCall f cap cache x).2 := by
  unfold cachedCall get
  cases hf : cache.find? (fun p => decide (p.1 = x)) with
  | some p =>
    have hpx : p.1 = x := by simpa using List.find?_some hf
    have hmem : p ∈ cache := List.mem_of_find?_eq_some hf
    subst hpx
    refine ⟨h.sound p hmem, ?_, nodup_front cache h.nodup p, ?_⟩
    · intro q hq
      rcases List.mem_cons.1 hq with rfl | hq
      · exact h.sound _ hmem
      · exact h.sound q (List.mem_filter.1 hq).1
    · have := length_remove cache p hmem
      have := h.bound
      simp only [List.length_cons]; omega
  | none =>
    refine ⟨rfl, ?_, ?_, ?_⟩
    · intro q hq
      rcases List.mem_cons.1 (List.mem_of_mem_take hq) with rfl | hq
      · rfl
      · exact h.sound q (List.mem_filter.1 hq).1
    · have := nodup_front cache h.nodup (x, f x)
      exact this.sublist ((List.take_sublist _ _).map _)
    · simp only [set, List.length_take]; omega

theorem runCalls_good (f : κ → ν) (cap : Nat) (calls : List κ) : ∀ cache, Good f cap cache →
    (runCalls f cap calls cache).1 = calls.map f ∧ Good f cap (runCalls f cap calls cache).2 := by
  induction calls with
  | nil => intro cache h; exact ⟨rfl, h⟩
  | cons x xs ih =>
    intro cache h
    obtain ⟨h1, h2⟩ := cachedCall_good f cap cache x h
    obtain ⟨h3, h4⟩ := ih _ h2
    exact ⟨by simp only [runCalls, List.map_cons, h1, h3], h4⟩

/-- C19: for every history of calls and every capacity, the memoised function returns exactly what
the function returns, and the cache never exceeds its capacity and never holds a key twice. -/
theorem C19_cache_transparent (f : κ → ν) (cap : Nat) (calls : List κ) :
    (runCalls f cap calls []).1 = calls.map f ∧
    (runCalls f cap calls []).2.length ≤ cap ∧
    ((runCalls f cap calls []).2.map Prod.fst).Nodup := by
  obtain ⟨h1, h2⟩ := runCalls_good f cap calls [] ⟨by simp, by simp, by simp⟩
  exact ⟨h1, h2.bound, h2.nodup⟩

/-- C19: the argument of the most recent call is in the cache (so that the next call with it does
not evaluate the function), with the right value, provided the capacity is positive. -/
theorem C19_recent_hit (f : κ → ν) (cap : Nat) (hcap : 0 < cap) (calls : List κ) (x : κ) :
    (x, f x) ∈ (runCalls f cap (calls ++ [x]) []).2 := by
  have split : ∀ cache, (runCalls f cap (calls ++ [x]) cache).2 =
      (cachedCall f cap (runCalls f cap calls cache).2 x).2 := by
    induction calls with
    | nil => intro cache; rfl
    | cons y ys ih => intro cache; simp only [List.cons_append, runCalls, ih]
  rw [split]
  have hgood := (runCalls_good f cap calls [] ⟨by simp, by simp, by simp⟩).2
  generalize (runCalls f cap calls []).2 = cache at hgood
  unfold cachedCall get
  cases hf : cache.find? (fun p => decide (p.1 = x)) with
  | some p =>
    have hpx : p.1 = x := by simpa using List.find?_some hf
    have h := hgood.sound p (List.mem_of_find?_eq_some hf)
    have : p = (x, f x) := by rw [← hpx, ← h]
    simp [this]
  | none =>
    obtain ⟨c, rfl⟩ := Nat.exists_eq_succ_of_ne_zero (by omega : cap ≠ 0)
    simp [set]

example : (runCalls (fun n : Nat => n * n) 2 [1, 2, 3, 1, 3] []) =
    ([1, 4, 9, 1, 9], [(3, 9), (1, 1)]) := by decide

/-- what holds between any two steps of the threads -/
structure TInv (f : κ → ν) (cap : Nat) (arg : Nat → κ) (s : List (κ × ν) × (Nat → TPc ν)) : Prop where
  good : Good f cap s.1
  comp : ∀ i y, s.2 i = .computed y → y = f (arg i)
  ret : ∀ i y, s.2 i = .returned y → y = f (arg i)

theorem get_good {f : κ → ν} {cap : Nat} {cache cache' : List (κ × ν)} {x : κ} {y : ν} (h : Good f cap cache)
    (hg : get cache x = some (y, cache')) : y = f x ∧ Good f cap cache' := by
  have := cachedCall_good f cap cache x h
  unfold cachedCall at this
  rw [hg] at this
  exact this

theorem set_good {f : κ → ν} {cap : Nat} {cache : List (κ × ν)} (x : κ) (h : Good f cap cache) : Good f cap (set cap cache x (f x)) := by
  refine ⟨?_, ?_, ?_⟩
  · intro q hq
    rcases List.mem_cons.1 (List.mem_of_mem_take hq) with rfl | hq
    · rfl
    · exact h.sound q (List.mem_filter.1 hq).1
  · have := nodup_front cache h.nodup (x, f x)
    exact this.sublist ((List.take_sublist _ _).map _)
  · simp only [set, List.length_take]; omega

theorem TInv.step {f : κ → ν} {cap : Nat} {arg : Nat → κ} {s t : List (κ × ν) × (Nat → TPc ν)} (hs : TInv f cap arg s)
    (h : TStep f cap arg s t) : TInv f cap arg t := by
  have move : ∀ (cache : List (κ × ν)) (pc : Nat → TPc ν) (cache' : List (κ × ν)) (i : Nat) (p : TPc ν), TInv f cap arg (cache, pc) →
      Good f cap cache' → (∀ y, p = .computed y → y = f (arg i)) → (∀ y, p = .returned y → y = f (arg i)) →
      TInv f cap arg (cache', upd pc i p) := by
    intro cache pc cache' i p hs hg h1 h2
    refine ⟨hg, ?_, ?_⟩ <;> intro j <;> by_cases e : j = i
    · subst e; simpa using h1
    · simp only [upd_ne _ _ e]; exact hs.comp j
    · subst e; simpa using h2
    · simp only [upd_ne _ _ e]; exact hs.ret j
  cases h with
  | hit cache cache' pc i y h hg =>
    obtain ⟨h1, h2⟩ := get_good hs.good hg
    exact move cache pc _ i _ hs h2 (by simp) (by simp [h1])
  | miss cache pc i h hg => exact move cache pc _ i _ hs hs.good (by simp) (by simp)
  | compute cache pc i h => exact move cache pc _ i _ hs hs.good (by simp) (by simp)
  | store cache pc i y h =>
    have := hs.comp i y h
    subst this
    exact move cache pc _ i _ hs (set_good _ hs.good) (by simp) (by simp)

/-- C19: calls in any number of threads under any schedule, starting with any history of calls: every call returns what the function
returns, and the cache never exceeds its capacity and never holds a key twice. -/
theorem C19_threads (f : κ → ν) (cap : Nat) (calls : List κ) (arg : Nat → κ) (s : List (κ × ν) × (Nat → TPc ν))
    (h : Relation.ReflTransGen (TStep f cap arg) ((runCalls f cap calls []).2, fun _ => .lookup) s) :
    (∀ i y, s.2 i = .returned y → y = f (arg i)) ∧ s.1.length ≤ cap ∧ (s.1.map Prod.fst).Nodup := by
  have : TInv f cap arg s := by
    induction h with
    | refl => exact ⟨(runCalls_good f cap calls [] ⟨by simp, by simp, by simp⟩).2, by simp, by simp⟩
    | tail _ h ih => exact ih.step h
  exact ⟨this.ret, this.good.bound, this.good.nodup⟩

/-- C19: a call that has not returned can always go on, and returns after at most three steps of its own. -/
theorem C19_threads_end (f : κ → ν) (cap : Nat) (arg : Nat → κ) (s : List (κ × ν) × (Nat → TPc ν)) (i : Nat)
    (hi : ∀ y, s.2 i ≠ .returned y) : ∃ t, TStep f cap arg s t ∧ (∀ j, j ≠ i → t.2 j = s.2 j) ∧
      (s.2 i = .lookup ∧ t.2 i = .missed ∨ s.2 i = .missed ∧ (∃ y, t.2 i = .computed y) ∨ ∃ y, t.2 i = .returned y) := by
  obtain ⟨cache, pc⟩ := s
  cases hp : pc i with
  | lookup =>
    cases hg : get cache (arg i) with
    | none => exact ⟨_, .miss cache pc i hp hg, fun j hj => upd_ne _ _ hj, Or.inl ⟨hp, upd_self _ _ _⟩⟩
    | some r => exact ⟨_, .hit cache r.2 pc i r.1 hp hg, fun j hj => upd_ne _ _ hj, Or.inr (Or.inr ⟨_, upd_self _ _ _⟩)⟩
  | missed => exact ⟨_, .compute cache pc i hp, fun j hj => upd_ne _ _ hj, Or.inr (Or.inl ⟨hp, _, upd_self _ _ _⟩)⟩
  | computed y => exact ⟨_, .store cache pc i y hp, fun j hj => upd_ne _ _ hj, Or.inr (Or.inr ⟨_, upd_self _ _ _⟩)⟩
  | returned y => exact absurd hp (hi y)

/-- two threads miss the same key before either stores it, in a cache of capacity one -/
example : Relation.ReflTransGen (TStep (fun n : Nat => n * n) 1 (fun _ => 3)) ([], fun _ => .lookup)
    ([(3, 9)], upd (upd (upd (upd (upd (upd (fun _ => .lookup) 0 .missed) 1 .missed) 0 (.computed 9)) 1 (.computed 9)) 0 (.returned 9)) 1
      (.returned 9)) :=
  .tail (.tail (.tail (.tail (.tail (.tail .refl (.miss _ _ 0 rfl rfl)) (.miss _ _ 1 rfl rfl)) (.compute _ _ 0 rfl)) (.compute _ _ 1 rfl))
    (.store _ _ 0 9 rfl)) (.store _ _ 1 9 rfl)

end Prolothar.Lru
