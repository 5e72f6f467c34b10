import Verif.Model.ResultCache
import Std.Data.String.ToNat
/-
C72: the result cache of the test utilities.
-/
namespace Prolothar.ResultCache

variable {Args V : Type}

/-- existing files are never changed -/
theorem call_keeps (c : Cached Args) (args : Args) (ev : Eval V) (kill : Kill) (s : State Args V) {p : String} {x : Content V}
    (h : s.files p = some x) : (call c args ev kill s).1.files p = some x := by
  unfold call
  split
  · exact h
  · exact h
  · next hn =>
    have hne : p ≠ c.file args := by rintro rfl; rw [h] at hn; cases hn
    simp only
    split
    · exact h
    · split
      · exact h
      · split
        · exact h
        · show upd s.files _ _ p = _
          rw [upd_ne _ _ hne]; exact h
    · split
      · exact h
      all_goals
        split
        · exact h
        · show upd s.files _ _ p = _
          rw [upd_ne _ _ hne]; exact h

theorem run_keeps (cs : List (Call Args V)) : ∀ (s : State Args V) {p : String} {x : Content V},
    s.files p = some x → (run cs s).1.files p = some x := by
  induction cs with
  | nil => intro s p x h; exact h
  | cons c cs ih => intro s p x h; exact ih _ (call_keeps c.fn c.args c.ev c.kill s h)

/-- a call that returns leaves its result in its file -/
theorem call_returned {c : Cached Args} {args : Args} {ev : Eval V} {kill : Kill} {s : State Args V} {v : V}
    (h : (call c args ev kill s).2 = .returned v) : (call c args ev kill s).1.files (c.file args) = some (.full v) := by
  unfold call at h ⊢
  split at h
  · next hf => cases h; exact hf
  · cases h
  · next hf =>
    simp only [hf]
    simp only at h
    split at h
    · cases h
    · split at h
      · cases h
      · split at h
        · cases h
        · simp only at h; split at h <;> cases h
    · split at h
      · cases h
      · split at h <;> cases h
      · split at h <;> cases h
      · split at h
        · cases h
        · next ho => cases h; simp [ho]

theorem call_full {c : Cached Args} {args : Args} {s : State Args V} {v : V} (h : s.files (c.file args) = some (.full v))
    (ev : Eval V) (kill : Kill) : call c args ev kill s = (s, .returned v) := by
  unfold call; rw [h]

theorem call_trunc {c : Cached Args} {args : Args} {s : State Args V} (h : s.files (c.file args) = some .truncated)
    (ev : Eval V) (kill : Kill) : call c args ev kill s = (s, .raised (.user 0)) := by
  unfold call; rw [h]

/-- C72: once a call has returned a value, every later call for the same file returns it without evaluating the
function, whatever happens in between, in this process or later ones, and wherever they are killed -/
theorem C72_stable {c : Cached Args} {args : Args} {ev : Eval V} {kill : Kill} {s : State Args V} {v : V}
    (h : (call c args ev kill s).2 = .returned v) (between : List (Call Args V))
    {c' : Cached Args} {args' : Args} (hf : c'.file args' = c.file args) (ev' : Eval V) (kill' : Kill) :
    call c' args' ev' kill' (run between (call c args ev kill s).1).1 = ((run between (call c args ev kill s).1).1, .returned v) := by
  have := run_keeps between _ (call_returned h)
  exact call_full (by rw [hf]; exact this) _ _

/-- C72: if the processes are not killed between the evaluation and the end of the write, the functions do not raise and
their results can be pickled, then in the whole history at most one evaluation happens for each file, and none if the
file existed at the start -/
theorem C72_once (cs : List (Call Args V))
    (hok : ∀ c ∈ cs, (∃ v, c.ev = .value v) ∧ (c.kill = .never ∨ c.kill = .afterWrite) ∧ openable (c.fn.file c.args) = true) (file : String) :
    ∀ s : State Args V, (run cs s).1.evals.countP (fun e => e.2.2 = file) ≤ s.evals.countP (fun e => e.2.2 = file) + 1 ∧
      ((s.files file).isSome → (run cs s).1.evals.countP (fun e => e.2.2 = file) = s.evals.countP (fun e => e.2.2 = file)) := by
  induction cs with
  | nil => intro s; simp [run]
  | cons c cs ih =>
    intro s
    obtain ⟨⟨v, hv⟩, hk, ho⟩ := hok c (by simp)
    have ih' := ih (fun c hc => hok c (List.mem_cons_of_mem _ hc)) (call c.fn c.args c.ev c.kill s).1
    show (run cs (call c.fn c.args c.ev c.kill s).1).1.evals.countP _ ≤ _ ∧
      (_ → (run cs (call c.fn c.args c.ev c.kill s).1).1.evals.countP _ = _)
    cases hf : s.files (c.fn.file c.args) with
    | some x =>
      have : (call c.fn c.args c.ev c.kill s).1 = s := by
        unfold call; rw [hf]; cases x <;> rfl
      rw [this] at ih' ⊢
      exact ih'
    | none =>
      have hcall : (call c.fn c.args c.ev c.kill s).1 =
          { s with evals := s.evals ++ [(c.fn.name, c.args, c.fn.file c.args)], files := upd s.files (c.fn.file c.args) (some (.full v)) } := by
        unfold call
        rw [hf, hv]
        rcases hk with hk | hk <;> simp [hk, ho]
      rw [hcall] at ih' ⊢
      by_cases heq : c.fn.file c.args = file
      · have hcnt := ih'.2 (by rw [← heq]; simp)
        rw [hcnt]
        simp only [List.countP_append, List.countP_singleton, heq, decide_true, if_true]
        refine ⟨Nat.le_refl _, fun hs => ?_⟩
        rw [← heq, hf] at hs; cases hs
      · have hcnt : (s.evals ++ [(c.fn.name, c.args, c.fn.file c.args)]).countP (fun e => e.2.2 = file) = s.evals.countP (fun e => e.2.2 = file) := by
          rw [List.countP_append, List.countP_singleton, if_neg (by simpa using heq)]; rfl
        simp only [hcnt] at ih'
        refine ⟨ih'.1, fun hs => ih'.2 ?_⟩
        rw [upd_ne _ _ (Ne.symm heq)]; exact hs

/-- the value `v` is a possible result for the file `p`: some function whose name and key give this file name
evaluates to it -/
def Justified (f : String → Args → V) (fns : List (Cached Args)) (p : String) (v : V) : Prop :=
  ∃ c ∈ fns, ∃ args, c.file args = p ∧ v = f c.name args

/-- C72: for deterministic functions `f`, if calls that share a file have the same result, then every call that
returns, returns the result of the function for its arguments - after any history of calls with any kills, on a
directory that started empty -/
theorem C72_correct (f : String → Args → V) (fns : List (Cached Args))
    (hkey : ∀ c ∈ fns, ∀ c' ∈ fns, ∀ a a', c.file a = c'.file a' → f c.name a = f c'.name a')
    (cs : List (Call Args V)) (hfn : ∀ c ∈ cs, c.fn ∈ fns) (hdet : ∀ c ∈ cs, ∀ v, c.ev = .value v → v = f c.fn.name c.args)
    (i : Nat) (c : Call Args V) (hi : cs[i]? = some c) (v : V) (hr : (run cs empty).2[i]? = some (.returned v)) :
    v = f c.fn.name c.args := by
  have step : ∀ (c : Call Args V), c.fn ∈ fns → (∀ v, c.ev = .value v → v = f c.fn.name c.args) → ∀ s : State Args V,
      (∀ p v, s.files p = some (.full v) → Justified f fns p v) →
      ∀ p v, (call c.fn c.args c.ev c.kill s).1.files p = some (.full v) → Justified f fns p v := by
    intro c hc hd s hs p v
    unfold call
    split
    · exact hs p v
    · exact hs p v
    · have hput : ∀ x : Content V, (∀ w, x = .full w → w = f c.fn.name c.args) →
          upd s.files (c.fn.file c.args) (some x) p = some (.full v) → Justified f fns p v := by
        intro x hx h
        by_cases hp : p = c.fn.file c.args
        · subst hp
          rw [upd_self] at h
          injection h with h
          exact ⟨c.fn, hc, c.args, rfl, hx _ h⟩
        · rw [upd_ne _ _ hp] at h; exact hs p v h
      simp only
      split
      · exact hs p v
      · split
        · exact hs p v
        · split
          · exact hs p v
          · exact hput _ (by intro w h; cases h)
      · next w hw =>
        split
        · exact hs p v
        all_goals
          split
          · exact hs p v
          · refine hput _ ?_
            intro w h
            cases h <;> exact hd _ hw
  have all : ∀ (cs : List (Call Args V)), (∀ c ∈ cs, c.fn ∈ fns) → (∀ c ∈ cs, ∀ v, c.ev = .value v → v = f c.fn.name c.args) →
      ∀ s : State Args V, (∀ p v, s.files p = some (.full v) → Justified f fns p v) →
      ∀ (i : Nat) c v, cs[i]? = some c → (run cs s).2[i]? = some (.returned v) → v = f c.fn.name c.args := by
    intro cs
    induction cs with
    | nil => intro _ _ s _ i c v hi; simp at hi
    | cons d cs ih =>
      intro hfn hdet s hs i c v hi hr
      have hs' := step d (hfn d (by simp)) (hdet d (by simp)) s hs
      cases i with
      | succ i =>
        exact ih (fun c hc => hfn c (List.mem_cons_of_mem _ hc)) (fun c hc => hdet c (List.mem_cons_of_mem _ hc)) _ hs' i c v (by simpa using hi) (by simpa [run] using hr)
      | zero =>
        simp only [List.getElem?_cons_zero, Option.some.injEq] at hi
        subst hi
        have hr' : (call d.fn d.args d.ev d.kill s).2 = .returned v := by simpa [run] using hr
        obtain ⟨c', hc', a', hfile, hv⟩ := hs' _ _ (call_returned hr')
        rw [hv]
        exact hkey _ hc' _ (hfn d (by simp)) _ _ hfile
  exact all cs hfn hdet empty (by intro p v h; simp [empty] at h) i c v hi hr

/-- C72: a call for which nothing is stored evaluates the function once; its value is returned and stored, and an exception is passed on and
nothing is stored -/
theorem C72_first_call {c : Cached Args} {args : Args} {s : State Args V} (hnone : s.files (c.file args) = none)
    (ho : openable (c.file args) = true) :
    (∀ v : V, (call c args (.value v) .never s).2 = .returned v ∧ (call c args (.value v) .never s).1.files (c.file args) = some (.full v)) ∧
    (∀ (e : PyErr) (kill : Kill), (call c args (.raises e) kill s).2 = .raised e ∧ (call c args (.raises e : Eval V) kill s).1.files = s.files) ∧
    (∀ (ev : Eval V) (kill : Kill), (call c args ev kill s).1.evals = s.evals ++ [(c.name, args, c.file args)]) ∧
    ∀ (ev : Eval V) (kill : Kill) (file : String), file ≠ c.file args → (call c args ev kill s).1.files file = s.files file := by
  refine ⟨fun v => ?_, fun e kill => ?_, fun ev kill => ?_, fun ev kill file hf => ?_⟩
  · unfold call; simp [hnone, ho, upd_self]
  · unfold call; simp [hnone]
  · unfold call
    rw [hnone]
    cases ev <;> cases kill <;> simp [ho]
  · unfold call
    rw [hnone]
    cases ev <;> cases kill <;> simp [ho, upd_ne _ _ hf]

/-- C72 fails after a kill during the write, or if the result cannot be pickled: the truncated file stays, and every later
call for it raises without evaluating the function, in all later processes -/
theorem C72_truncated {c : Cached Args} {args : Args} {s : State Args V} (hnone : s.files (c.file args) = none)
    (ho : openable (c.file args) = true) (v : V) (ev : Eval V) (kill : Kill)
    (h : ev = .value v ∧ kill = .duringWrite ∨ ev = .unpicklable v ∧ kill = .never) (between : List (Call Args V)) (ev' : Eval V) (kill' : Kill) :
    (ev = .unpicklable v → (call c args ev kill s).2 = .raised .type) ∧
    ∃ e, call c args ev' kill' (run between (call c args ev kill s).1).1 = ((run between (call c args ev kill s).1).1, .raised e) := by
  refine ⟨?_, ?_⟩
  · rintro rfl
    have hk : kill = .never := by rcases h with h | h; exact absurd h.1 (by simp); exact h.2
    subst hk
    unfold call
    simp [hnone, ho]
  have h1 : (call c args ev kill s).1.files (c.file args) = some .truncated := by
    unfold call
    rw [hnone]
    rcases h with ⟨rfl, rfl⟩ | ⟨rfl, rfl⟩ <;> simp [ho]
  have := run_keeps between _ h1
  exact ⟨.user 0, call_trunc this _ _⟩

/-- C72 fails if name and key of two functions run together to the same file name: `f(…)` with key "oo1" and `foo(…)`
with key "1" -/
theorem C72_collision_witness :
    let f : Cached Nat := ⟨"f", some fun n => "oo" ++ toString n⟩
    let foo : Cached Nat := ⟨"foo", some fun n => toString n⟩
    (run [⟨f, 1, .value "result of f", .never⟩, ⟨foo, 1, .value "result of foo", .never⟩] empty).2.map
      (fun o => match o with | .returned v => some v | _ => none) = [some "result of f", some "result of f"] := by
  decide +kernel

/-- C72: without a key function the arguments are ignored -/
theorem C72_no_key {c : Cached Args} (hk : c.key = none) {a : Args} {ev : Eval V} {kill : Kill} {s : State Args V} {v : V}
    (h : (call c a ev kill s).2 = .returned v) (a' : Args) (ev' : Eval V) : (call c a' ev' .never (call c a ev kill s).1).2 = .returned v := by
  have := C72_stable h [] (c' := c) (args' := a') (by simp [Cached.file, hk]) ev' .never
  simp only [run] at this
  rw [this]

/-- C72 fails for keys with a slash: nothing can be stored, so every call evaluates the function and then raises -/
theorem C72_slash {c : Cached Args} {args : Args} {s : State Args V} (hnone : s.files (c.file args) = none)
    (ho : openable (c.file args) = false) (v : V) :
    ∃ e, (call c args (.value v) .never s).2 = .raised e ∧ (call c args (.value v) .never s).1.files = s.files ∧
      (call c args (.value v) .never s).1.evals = s.evals ++ [(c.name, args, c.file args)] := by
  refine ⟨.user 1, ?_⟩
  unfold call
  simp [hnone, ho]

example : openable "f1" = true ∧ openable "fa/b" = false := by decide +kernel

example :
    let f : Cached Nat := ⟨"f", some fun n => toString n⟩
    ((run [⟨f, 1, .value 10, .never⟩, ⟨f, 2, .value 20, .beforeOpen⟩, ⟨f, 1, .value 11, .never⟩, ⟨f, 2, .value 21, .never⟩, ⟨f, 2, .value 22, .never⟩] empty).2.map
      (fun o => match o with | .returned v => some v | _ => none)) = [some 10, none, some 10, some 21, some 21] := by
  decide +kernel

/-- the hypothesis about keys is met by a function with an injective key -/
example : let f : Cached Nat := ⟨"f", some fun n => toString n⟩
    ∀ c ∈ [f], ∀ c' ∈ [f], ∀ a a', c.file a = c'.file a' → (fun (_ : String) (n : Nat) => n + 1) c.name a = (fun (_ : String) (n : Nat) => n + 1) c'.name a' := by
  intro f c hc c' hc' a a' h
  rw [List.mem_singleton] at hc hc'
  subst hc hc'
  simp only [f, Cached.file] at h
  have h2 : toString a = toString a' := by
    simpa using h
  have : a = a' := Nat.repr_injective h2
  simp only [this]

end Prolothar.ResultCache
