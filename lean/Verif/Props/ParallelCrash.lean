import Verif.Lemmas.ParallelCrash
import Verif.Spec.ParallelCrash
import Verif.Props.Parallel
set_option linter.unusedSimpArgs false
set_option linter.unusedVariables false
/-
Property C155 of /repo/prolothar_common/parallel (threading, multiprocess): worker crashes.

`exits x` says that the work on `x` leaves the worker by something that is no `Exception` (`SystemExit`,
`KeyboardInterrupt`, the end of the process); `lost o` that `o` cannot be pickled. Worker processes can be killed at any
time: the crash points are steps of `CWStep`, so the theorems speak about every schedule and every set of crash points.
-/
namespace Prolothar.Parallel
open Prolothar.ListUtils
variable {α O : Type}

/-! ### threads -/

/-- C155, threads, ordered map: exactly the elements before the first exiting one of each partition are mapped; the others
are missing without any exception. -/
theorem C155_thread_map_ordered (B : Builtins O) (n : Int) (f : α → Except O O) (exits : α → Bool) (l : List α)
    (parts : List (List α)) (hp : viewOfNPartitions l n = .ok parts) (out : Except O (List O))
    (h : ThreadMapC B n f exits true l out) :
    out = ((parts.map fun part => part.takeWhile fun x => !exits x).flatten).mapM f := by
  obtain ⟨_, _, h1, h2, _⟩ := parts_ok hp
  unfold ThreadMapC at h
  rw [hp] at h
  simp only [if_true] at h
  obtain ⟨r, hr, rfl⟩ := h
  have hlen : parts.length = (parts.map (before exits)).length := by simp
  show _ = ((parts.map (before exits)).flatten).mapM f
  rw [hlen]
  have h2' : parts.map (before exits) ≠ [] := by simpa using h2
  have hr := hr.cut
  clear hlen h1 h2 hp
  generalize parts.map (before exits) = parts at *
  rcases hr.spec with ⟨lists, rfl, h3, h4, _⟩ | ⟨e, rfl, h3⟩
  · have h5 : (List.range parts.length).map lists
        = (List.range parts.length).map fun k => outs (mapAct f) (parts.getD k []) :=
      List.map_congr_left fun k hk => h4 rfl k (List.mem_range.1 hk)
    have h6 := foldl_append_flatten ((List.range parts.length).map lists)
    rw [h5, ← outs_flatten] at h6
    have h7 : combineLists B ((List.range parts.length).map lists) = .ok (outs (mapAct f) parts.flatten) := by
      rw [h5]
      cases hc : (List.range parts.length).map fun k => outs (mapAct f) (parts.getD k []) with
      | nil => simp at hc; exact absurd hc h2'
      | cons a as => rw [hc] at h6; simp only [combineLists]; rw [← h6]; rfl
    show combineLists B _ = _
    rw [h7, ← mapM_of_allOk h3]
  · exact (mapM_of_firstErr h3).symm

/-- C155, threads, unordered map: the same elements in any order. -/
theorem C155_thread_map_unordered (B : Builtins O) (n : Int) (f : α → Except O O) (exits : α → Bool) (l : List α)
    (parts : List (List α)) (hp : viewOfNPartitions l n = .ok parts) (out : Except O (List O))
    (h : ThreadMapC B n f exits false l out) :
    (∃ r r', out = .ok r ∧ ((parts.map fun part => part.takeWhile fun x => !exits x).flatten).mapM f = .ok r' ∧
      r.Perm r') ∨
    (∃ e, out = .error e ∧ ((parts.map fun part => part.takeWhile fun x => !exits x).flatten).mapM f = .error e) := by
  unfold ThreadMapC at h
  rw [hp] at h
  simp only [Bool.false_eq_true, if_false] at h
  obtain ⟨r, hr, rfl⟩ := h
  show (∃ r r', _ ∧ ((parts.map (before exits)).flatten).mapM f = .ok r' ∧ _) ∨
    ∃ e, _ ∧ ((parts.map (before exits)).flatten).mapM f = .error e
  rcases hr.cut.spec with ⟨lists, rfl, h3, _, h4⟩ | ⟨e, rfl, h3⟩
  · exact .inl ⟨_, _, rfl, mapM_of_allOk h3, h4 rfl⟩
  · exact .inr ⟨e, rfl, mapM_of_firstErr h3⟩

/-- C155, threads, `map_filter`: exactly the elements before the first exiting one of each partition are mapped and
filtered; the others are missing without any exception. -/
theorem C155_thread_map_filter (B : Builtins O) (n : Int) (g : α → O) (q : O → Bool) (exits : α → Bool) (l : List α)
    (parts : List (List α)) (hp : viewOfNPartitions l n = .ok parts) (out : Except O (List O))
    (h : ThreadMapFilterC B n (fun x => .ok (g x)) (fun o => .ok (q o)) exits l out) :
    ∃ r, out = .ok r ∧
      r.Perm ((((parts.map fun part => part.takeWhile fun x => !exits x).flatten).map g).filter q) := by
  unfold ThreadMapFilterC at h
  rw [hp] at h
  obtain ⟨r, hr, rfl⟩ := h
  show ∃ r : List O, _ ∧ r.Perm ((((parts.map (before exits)).flatten).map g).filter q)
  rcases hr.cut.spec with ⟨lists, rfl, h3, _, h4⟩ | ⟨e, rfl, h3⟩
  · rw [outs_mapFilter] at h4
    exact ⟨_, rfl, h4 rfl⟩
  · obtain ⟨x, _, hx⟩ := h3.not_allOk
    rcases mapFilterAct_error hx with h | ⟨y, _, h⟩ <;> cases h

theorem reduceExits_total (g : α → O) (op : O → O → O) (exits : α → Bool) : ∀ (part : List α) (acc : Option O),
    reduceExits (fun x => Except.ok (ε := O) (g x)) (fun a b => .ok (op a b)) exits acc part = part.any exits
  | [], _ => rfl
  | x :: xs, acc => by
    unfold reduceExits
    cases hx : exits x with
    | true => simp [hx]
    | false => cases acc <;> simp [hx, reduceExits_total g op exits xs]

theorem singletons_before {β : Type} (e : β → Bool) (parts : List β) :
    ((parts.map fun part => [part]).map (before e)).flatten = parts.filter fun p => !e p := by
  induction parts with
  | nil => rfl
  | cons p ps ih =>
    simp only [List.map_cons, List.flatten_cons, ih]
    cases h : e p <;> simp [before, h]

/-- C155, threads, `map_reduce`: the result is the reduction over the partitions in which no element exits; every other
partition is missing as a whole, without any exception. If there is no such partition, `reduce` of an empty list raises a
TypeError. -/
theorem C155_thread_map_reduce (B : Builtins O) (n : Int) (g : α → O) (op : O → O → O)
    (hassoc : ∀ a b c, op (op a b) c = op a (op b c)) (hcomm : ∀ a b, op a b = op b a) (exits : α → Bool) (l : List α)
    (parts : List (List α)) (hp : viewOfNPartitions l n = .ok parts) (out : Except O O)
    (h : ThreadMapReduceC B n (fun x => .ok (g x)) (fun a b => .ok (op a b)) exits l out) :
    (∀ x xs, (parts.filter fun part => part.all fun x => !exits x).flatten = x :: xs →
      out = .ok ((xs.map g).foldl op (g x))) ∧
    ((parts.filter fun part => part.all fun x => !exits x).flatten = [] → out = .error B.typeError) := by
  have : Std.Associative op := ⟨hassoc⟩
  have : Std.Commutative op := ⟨hcomm⟩
  obtain ⟨_, _, h1, h2, h3⟩ := parts_ok hp
  unfold ThreadMapReduceC at h
  rw [hp] at h
  obtain ⟨r, hr, rfl⟩ := h
  have hspec := hr.cut.spec
  have hf : (parts.filter fun p => !reduceExits (fun x => Except.ok (ε := O) (g x)) (fun a b => .ok (op a b)) exits none p)
      = parts.filter fun part => part.all fun x => !exits x := by
    refine List.filter_congr fun p _ => ?_
    rw [reduceExits_total, List.not_any_eq_all_not]
  rw [singletons_before, hf] at hspec
  have hne : ∀ b ∈ parts.filter (fun part => part.all fun x => !exits x), b ≠ [] := fun b hb =>
    h3 b (List.mem_of_mem_filter hb)
  clear hf hr h1 h2 h3 hp
  generalize parts.filter (fun part => part.all fun x => !exits x) = ps at *
  rcases hspec with ⟨lists, rfl, h4, _, h5⟩ | ⟨e, rfl, h4⟩
  · have h5 := h5 rfl
    refine ⟨fun x xs hx => reduce_results hne hx h5, fun h0 => ?_⟩
    have hps : ps = [] := by
      cases ps with
      | nil => rfl
      | cons p ps =>
        have := hne p (by simp)
        simp at h0
        exact absurd h0.1 this
    subst hps
    have h6 : lists 0 = [] := List.perm_nil.1 h5
    show reduceGen B _ _ (lists 0) = _
    rw [h6]; rfl
  · obtain ⟨p, hp, he⟩ := h4.not_allOk
    rcases reduceGen_error (hne p hp) (reduceAct_error he) with ⟨y, _, h⟩ | ⟨a, b, h⟩ <;> cases h

/-- C155, threads: an exit never makes the call hang. There is no infinite run, and a state without a next step is an end
of the call. -/
theorem C155_thread_ends (act : α → Except O (Option O)) (exits : α → Bool) (parts : List (List α)) (dest : Nat → Nat) :
    (¬ ∃ run : Nat → TS α O, run 0 = TS.init ∧ ∀ i, TCStep act exits parts dest (run i) (run (i + 1))) ∧
    ∀ s, Relation.ReflTransGen (TCStep act exits parts dest) TS.init s → (∀ t, ¬ TCStep act exits parts dest s t) →
      s.main = .returned ∨ ∃ e, s.main = .raised e := by
  constructor
  · rintro ⟨run, h0, h1⟩
    refine no_infinite_run (TStep act (parts.map (before exits)) dest) (TInv act (parts.map (before exits)) dest)
      (TS.measure (parts.map (before exits))) (fun s t hi hs => ⟨hi.step hs, hs.decreases hi⟩)
      (fun i => (run i).cut exits) ?_ fun i => (h1 i).cut
    show TInv _ _ _ ((run 0).cut exits)
    rw [h0]; exact TInv.init ..
  · intro s hr hstuck
    have hi : TInv act (parts.map (before exits)) dest (s.cut exits) := TInv.reach (TCStep.reach hr)
    exact hi.progress fun u hu => by
      obtain ⟨t, ht⟩ := TCStep.of_cut hu
      exact hstuck t ht

/-- C155, threads: whatever the list and the function, if the first element exits, one worker maps nothing and the call
returns normally. -/
theorem C155_thread_silent (B : Builtins O) (f : α → Except O O) (exits : α → Bool) (x : α) (hx : exits x = true) :
    ThreadMapC B 1 f exits true [x] (.ok []) := by
  unfold ThreadMapC
  rw [parts_one]
  simp only [if_true]
  have k1 : TXStep (mapAct f) exits (.running [x]) none .finished := .exit hx
  refine ⟨_, ⟨_, .head (.start (k := 0) rfl rfl) (.head (.started rfl) (.head (.worker (k := 0) k1)
    (.head (.join (k := 0) rfl (by simp) rfl) (.head (.joined rfl) .refl)))), .inl ⟨rfl, rfl⟩⟩, ?_⟩
  rfl

/-- C155, threads: when an exception is raised, the other threads are not stopped; a thread can still be about to work on
its elements. -/
theorem C155_thread_not_stopped (f : α → Except O O) (exits : α → Bool) (x y : α) (e : O) (hx : exits x = false)
    (he : f x = .error e) :
    ∃ s, Relation.ReflTransGen (TCStep (mapAct f) exits [[x], [y]] id) TS.init s ∧ s.main = .raised e ∧
      s.ws 1 = .running [y] := by
  have k1 : TXStep (mapAct f) exits (.running [x]) none (.failed e) := .raise hx (by simp [mapAct, he, bind, Except.bind])
  exact ⟨_, .head (.start (k := 0) rfl rfl) (.head (.start (k := 1) rfl rfl) (.head (.started rfl)
    (.head (.worker (k := 0) k1) (.head (.joinRaise (k := 0) rfl (by simp) rfl) .refl)))), rfl, rfl⟩

/-! ### processes -/

/-- the worker was never started or is not running any more -/
def CW.Over (w : CW α O) : Prop := w = .idle ∨ w = .finished ∨ w = .dead

theorem CW.terminate_over (w : CW α O) : w.terminate.Over := by cases w <;> simp [CW.terminate, CW.Over]

theorem CWStep.not_over {B : Builtins O} {act : α → Except O (Option O)} {exits : α → Bool} {lost : O → Bool} {w w' : CW α O}
    {eo : Option O} (h : CWStep B act exits lost w eo w') : ¬ w.Over := by
  cases h <;> simp [CW.Over]

/-- invariant: who is running when, without any assumption about the results -/
structure CS.Left (parts : List (List α)) (s : CS α O) : Prop where
  out : ∀ k, parts.length ≤ k → s.ws k = .idle
  joining : ∀ n, s.main = .joining n → ∀ k, k < n → (s.ws k).Over
  over : (s.main = .returned ∨ ∃ e, s.main = .raised e) → ∀ k, (s.ws k).Over

theorem CS.Left.step {B : Builtins O} {act : α → Except O (Option O)} {exits : α → Bool} {lost : O → Bool} {parts : List (List α)}
    {s t : CS α O} (hs : CS.Left parts s) (h : CStep B act exits lost parts s t) : CS.Left parts t := by
  cases h with
  | @start k part h1 h2 =>
    refine ⟨fun j hj => ?_, by simp, by simp⟩
    have : j ≠ k := by
      rintro rfl
      rw [List.getElem?_eq_none hj] at h2; cases h2
    simp only [Function.update_of_ne this]
    exact hs.out j hj
  | started h1 => exact ⟨hs.out, by simp, by simp⟩
  | getStop h1 => exact ⟨hs.out, by simp [h1], by simp [h1]⟩
  | getExc h1 =>
    refine ⟨fun k hk => ?_, by simp, fun _ k => CW.terminate_over _⟩
    show (s.ws k).terminate = .idle
    rw [hs.out k hk]; rfl
  | getItem h1 => exact ⟨hs.out, by simp [h1], by simp [h1]⟩
  | collected h1 =>
    refine ⟨hs.out, ?_, by simp⟩
    intro n hn k hk
    simp only [PMain.joining.injEq] at hn
    omega
  | @join k h1 h2 h3 =>
    refine ⟨hs.out, ?_, by simp⟩
    intro n hn j hj
    simp only [PMain.joining.injEq] at hn
    by_cases e : j = k
    · subst e; exact Or.inr h3
    · exact hs.joining k h1 j (by omega)
  | joined h1 =>
    refine ⟨hs.out, by simp, fun _ k => ?_⟩
    by_cases hk : k < parts.length
    · exact hs.joining _ h1 k hk
    · exact Or.inl (hs.out k (by omega))
  | @worker k eo w h1 =>
    have hk : ¬ (s.ws k).Over := h1.not_over
    have hne : ∀ j, (s.ws j).Over → Function.update s.ws k w j = s.ws j := by
      intro j hj
      exact Function.update_of_ne (by rintro rfl; exact hk hj) _ _
    refine ⟨fun j hj => ?_, fun n hn j hj => ?_, fun h j => ?_⟩
    · show Function.update s.ws k w j = _
      rw [hne j (Or.inl (hs.out j hj))]; exact hs.out j hj
    · show (Function.update s.ws k w j).Over
      have := hs.joining n hn j hj
      rw [hne j this]; exact this
    · show (Function.update s.ws k w j).Over
      have := hs.over h j
      rw [hne j this]; exact this

/-- invariant: who is running when, without any assumption about the results -/
structure DS.Left (parts : List (List α)) (s : DS α O) : Prop where
  out : ∀ k, parts.length ≤ k → s.ws k = .idle
  joining : ∀ n, s.main = .joining n → ∀ k, k < n → (s.ws k).Over
  over : (s.main = .returned ∨ ∃ e, s.main = .raised e) → ∀ k, (s.ws k).Over

theorem DS.Left.step {B : Builtins O} {act : α → Except O (Option O)} {exits : α → Bool} {lost : O → Bool} {parts : List (List α)}
    {s t : DS α O} (hs : DS.Left parts s) (h : DStep B act exits lost parts s t) : DS.Left parts t := by
  cases h with
  | @start k part h1 h2 =>
    refine ⟨fun j hj => ?_, by simp, by simp⟩
    have : j ≠ k := by
      rintro rfl
      rw [List.getElem?_eq_none hj] at h2; cases h2
    simp only [Function.update_of_ne this]
    exact hs.out j hj
  | started h1 => exact ⟨hs.out, by simp, by simp⟩
  | getStop h1 => exact ⟨hs.out, by simp [h1], by simp [h1]⟩
  | getExc h1 =>
    refine ⟨fun k hk => ?_, by simp, fun _ k => CW.terminate_over _⟩
    show (s.ws k).terminate = .idle
    rw [hs.out k hk]; rfl
  | getItem h1 => exact ⟨hs.out, by simp [h1], by simp [h1]⟩
  | collected h1 =>
    refine ⟨hs.out, ?_, by simp⟩
    intro n hn k hk
    simp only [PMain.joining.injEq] at hn
    omega
  | @join k h1 h2 h3 =>
    refine ⟨hs.out, ?_, by simp⟩
    intro n hn j hj
    simp only [PMain.joining.injEq] at hn
    by_cases e : j = k
    · subst e; exact Or.inr h3
    · exact hs.joining k h1 j (by omega)
  | joined h1 =>
    refine ⟨hs.out, by simp, fun _ k => ?_⟩
    by_cases hk : k < parts.length
    · exact hs.joining _ h1 k hk
    · exact Or.inl (hs.out k (by omega))
  | @worker k eo w h1 =>
    have hk : ¬ (s.ws k).Over := h1.not_over
    have hne : ∀ j, (s.ws j).Over → Function.update s.ws k w j = s.ws j := by
      intro j hj
      exact Function.update_of_ne (by rintro rfl; exact hk hj) _ _
    refine ⟨fun j hj => ?_, fun n hn j hj => ?_, fun h j => ?_⟩
    · show Function.update s.ws k w j = _
      rw [hne j (Or.inl (hs.out j hj))]; exact hs.out j hj
    · show (Function.update s.ws k w j).Over
      have := hs.joining n hn j hj
      rw [hne j this]; exact this
    · show (Function.update s.ws k w j).Over
      have := hs.over h j
      rw [hne j this]; exact this

/-- Processes: whatever the mapped function does, even if it returns an object that is the end marker or if workers are killed: when the
call has returned or raised, no worker process is running. -/
theorem C155_no_worker_left (B : Builtins O) (act : α → Except O (Option O)) (exits : α → Bool) (lost : O → Bool)
    (parts : List (List α)) :
    (∀ s : CS α O, Relation.ReflTransGen (CStep B act exits lost parts) CS.init s → (s.main = .returned ∨ ∃ e, s.main = .raised e) →
      ∀ k, s.ws k = .idle ∨ s.ws k = .finished ∨ s.ws k = .dead) ∧
    (∀ s : DS α O, Relation.ReflTransGen (DStep B act exits lost parts) DS.init s → (s.main = .returned ∨ ∃ e, s.main = .raised e) →
      ∀ k, s.ws k = .idle ∨ s.ws k = .finished ∨ s.ws k = .dead) := by
  constructor
  · intro s h
    suffices CS.Left parts s from this.over
    induction h with
    | refl => exact ⟨fun _ _ => rfl, by simp [CS.init], by simp [CS.init]⟩
    | tail _ h ih => exact ih.step h
  · intro s h
    suffices DS.Left parts s from this.over
    induction h with
    | refl => exact ⟨fun _ _ => rfl, by simp [DS.init], by simp [DS.init]⟩
    | tail _ h ih => exact ih.step h

theorem CrashClean.sane {B : Builtins O} {f : α → Except O O} {exits : α → Bool} {lost : O → Bool} {l : List α}
    (h : CrashClean B f exits lost l) : Sane B (arriving (mapAct f) exits lost) l where
  err x hx e he := by
    unfold arriving at he
    split at he
    · cases he
    · next hex =>
      cases hf : f x with
      | ok y => simp only [mapAct, hf, bind, Except.bind, pure, Except.pure] at he; split at he <;> cases he
      | error e' =>
        simp only [mapAct, hf, bind, Except.bind] at he
        split at he
        · cases he
        · next hl => cases he; exact (h x hx (by simpa using hex)).1 _ hf (by simpa using hl)
  val x hx y hy := by
    unfold arriving at hy
    split at hy
    · cases hy
    · next hex =>
      cases hf : f x with
      | error e' => simp only [mapAct, hf, bind, Except.bind] at hy; split at hy <;> cases hy
      | ok y' =>
        simp only [mapAct, hf, bind, Except.bind, pure, Except.pure] at hy
        split at hy
        · cases hy
        · next hl => cases hy; exact (h x hx (by simpa using hex)).2 _ hf (by simpa using hl)

theorem arriving_error {f : α → Except O O} {exits : α → Bool} {lost : O → Bool} {x : α} {e : O}
    (he : arriving (mapAct f) exits lost x = .error e) : exits x = false ∧ f x = .error e ∧ lost e = false := by
  unfold arriving at he
  split at he
  · cases he
  · next hex =>
    cases hf : f x with
    | ok y => simp only [mapAct, hf, bind, Except.bind, pure, Except.pure] at he; split at he <;> cases he
    | error e' =>
      simp only [mapAct, hf, bind, Except.bind] at he
      split at he
      · cases he
      · next hl => cases he; exact ⟨by simpa using hex, rfl, by simpa using hl⟩

theorem arriving_outs {f : α → Except O O} {exits : α → Bool} {lost : O → Bool} {l : List α}
    (hex : ∀ x ∈ l, exits x = false) : outs (arriving (mapAct f) exits lost) l = arrivedResults f lost l := by
  unfold outs arrivedResults
  apply List.filterMap_congr
  intro x hx
  unfold emit arriving
  rw [hex x hx]
  cases hf : f x with
  | ok y =>
    simp only [mapAct, hf, bind, Except.bind, pure, Except.pure, Bool.false_eq_true, if_false]
    by_cases hl : lost y = true <;> simp [hl]
  | error e =>
    simp only [mapAct, hf, bind, Except.bind, pure, Except.pure, Bool.false_eq_true, if_false]
    by_cases hl : lost e = true <;> simp [hl]

theorem arriving_allOk {f : α → Except O O} {exits : α → Bool} {lost : O → Bool} {l : List α}
    (hex : ∀ x ∈ l, exits x = false) (h : AllOk (arriving (mapAct f) exits lost) l) :
    ∀ x ∈ l, ∀ e, f x = .error e → lost e = true := by
  intro x hx e he
  obtain ⟨o, ho⟩ := h x hx
  unfold arriving at ho
  by_contra hl
  simp [hex x hx, mapAct, he, bind, Except.bind, hl] at ho

/-- C155, processes, ordered map, under any schedule and any kills: a returned list holds the result of every element, in
order, apart from results that cannot be pickled, and no element left its worker; a raised exception is that of some
element. -/
theorem C155_proc_map_ordered (B : Builtins O) (n : Int) (hn : 1 ≤ n) (f : α → Except O O) (exits : α → Bool)
    (lost : O → Bool) (l : List α) (hl : l ≠ []) (hc : CrashClean B f exits lost l) (out : Except O (List O))
    (h : ProcMapC B n f exits lost true l out) :
    (∃ r, out = .ok r ∧ r = arrivedResults f lost l ∧ (∀ x ∈ l, exits x = false) ∧
      ∀ x ∈ l, ∀ e, f x = .error e → lost e = true) ∨
    (∃ e, out = .error e ∧ ∃ x ∈ l, exits x = false ∧ f x = .error e ∧ lost e = false) := by
  obtain ⟨parts, hp, _⟩ := C04_partitions l n hl hn
  obtain ⟨_, _, h1, h2, _⟩ := parts_ok hp
  unfold ProcMapC at h
  rw [hp] at h
  simp only [if_true] at h
  have hs : Sane B (arriving (mapAct f) exits lost) parts.flatten := by rw [h1]; exact hc.sane
  obtain ⟨h3, h4⟩ := h.arriving hs.noStop
  rw [h1] at h4
  rcases h3.spec hs with ⟨r, rfl, h5, h6⟩ | ⟨e, rfl, x, hx, h5⟩
  · rw [h1] at h5 h6
    have hex := h4 r rfl
    exact .inl ⟨r, rfl, by rw [h6, arriving_outs hex], hex, arriving_allOk hex h5⟩
  · rw [h1] at hx
    exact .inr ⟨e, rfl, x, hx, arriving_error h5⟩

/-- C155, processes, unordered map. -/
theorem C155_proc_map_unordered (B : Builtins O) (n : Int) (hn : 1 ≤ n) (f : α → Except O O) (exits : α → Bool)
    (lost : O → Bool) (l : List α) (hl : l ≠ []) (hc : CrashClean B f exits lost l) (out : Except O (List O))
    (h : ProcMapC B n f exits lost false l out) :
    (∃ r, out = .ok r ∧ r.Perm (arrivedResults f lost l) ∧ (∀ x ∈ l, exits x = false) ∧
      ∀ x ∈ l, ∀ e, f x = .error e → lost e = true) ∨
    (∃ e, out = .error e ∧ ∃ x ∈ l, exits x = false ∧ f x = .error e ∧ lost e = false) := by
  obtain ⟨parts, hp, _⟩ := C04_partitions l n hl hn
  obtain ⟨_, _, h1, h2, _⟩ := parts_ok hp
  unfold ProcMapC at h
  rw [hp] at h
  simp only [Bool.false_eq_true, if_false] at h
  have hs : Sane B (arriving (mapAct f) exits lost) parts.flatten := by rw [h1]; exact hc.sane
  obtain ⟨h3, h4⟩ := h.arriving hs.noStop
  rw [h1] at h4
  rcases h3.spec hs with ⟨r, rfl, h5, h6⟩ | ⟨e, rfl, x, hx, h5⟩
  · rw [h1] at h5 h6
    have hex := h4 r rfl
    exact .inl ⟨r, rfl, by rw [← arriving_outs hex]; exact h6, hex, arriving_allOk hex h5⟩
  · rw [h1] at hx
    exact .inr ⟨e, rfl, x, hx, arriving_error h5⟩

/-- C155, processes: for a function without exceptions and picklable results, no crash can make `map` return anything but
the sequential result, and it never raises. -/
theorem C155_proc_map_total (B : Builtins O) (n : Int) (hn : 1 ≤ n) (g : α → O) (exits : α → Bool) (l : List α)
    (hl : l ≠ []) (hg : ∀ x ∈ l, B.isExc (g x) = false) (out : Except O (List O))
    (h : ProcMapC B n (fun x => .ok (g x)) exits (fun _ => false) true l out) :
    out = .ok (l.map g) ∧ ∀ x ∈ l, exits x = false := by
  have hc : CrashClean B (fun x => Except.ok (ε := O) (g x)) exits (fun _ => false) l :=
    fun x hx _ => ⟨fun e he => (by cases he), fun y hy _ => by cases hy; exact hg x hx⟩
  rcases C155_proc_map_ordered B n hn _ exits _ l hl hc out h with ⟨r, rfl, h1, h2, _⟩ | ⟨e, _, x, _, _, h1, _⟩
  · refine ⟨?_, h2⟩
    rw [h1]
    congr 1
    unfold arrivedResults
    simp only [Bool.false_eq_true, if_false]
    exact congrFun (List.filterMap_eq_map' ..) l
  · cases h1

/-- C155, processes: if the work on some element leaves its worker and nothing raises, the call neither returns nor
raises, in both modes. -/
theorem C155_proc_exit_hangs (B : Builtins O) (n : Int) (hn : 1 ≤ n) (g : α → O) (exits : α → Bool) (lost : O → Bool)
    (ko : Bool) (l : List α) (hg : ∀ x ∈ l, B.isExc (g x) = false) (x : α) (hx : x ∈ l) (hex : exits x = true) :
    ¬ ∃ out, ProcMapC B n (fun x => .ok (g x)) exits lost ko l out := by
  rintro ⟨out, h⟩
  have hl : l ≠ [] := List.ne_nil_of_mem hx
  have hc : CrashClean B (fun x => Except.ok (ε := O) (g x)) exits lost l :=
    fun x hx _ => ⟨fun e he => (by cases he), fun y hy _ => by cases hy; exact hg x hx⟩
  cases ko with
  | true =>
    rcases C155_proc_map_ordered B n hn _ exits _ l hl hc out h with ⟨r, _, _, h2, _⟩ | ⟨e, _, x, _, _, h1, _⟩
    · rw [h2 x hx] at hex; cases hex
    · cases h1
  | false =>
    rcases C155_proc_map_unordered B n hn _ exits _ l hl hc out h with ⟨r, _, _, h2, _⟩ | ⟨e, _, x, _, _, h1, _⟩
    · rw [h2 x hx] at hex; cases hex
    · cases h1

/-- C155, processes, `map_filter`: a returned list is a rearrangement of the kept results that can be pickled. -/
theorem C155_proc_map_filter (B : Builtins O) (n : Int) (hn : 1 ≤ n) (g : α → O) (q : O → Bool) (exits : α → Bool)
    (lost : O → Bool) (l : List α) (hl : l ≠ []) (hg : ∀ x ∈ l, B.isExc (g x) = false) (out : Except O (List O))
    (h : ProcMapFilterC B n (fun x => .ok (g x)) (fun o => .ok (q o)) exits lost l out) :
    (∃ r, out = .ok r ∧ r.Perm (((l.map g).filter q).filter fun o => !lost o)) ∧ ∀ x ∈ l, exits x = false := by
  obtain ⟨parts, hp, _⟩ := C04_partitions l n hl hn
  obtain ⟨_, _, h1, h2, _⟩ := parts_ok hp
  unfold ProcMapFilterC at h
  rw [hp] at h
  have hval : ∀ x, arriving (mapFilterAct (fun x => Except.ok (ε := O) (g x)) (fun o => .ok (q o))) exits lost x
      = .ok (if exits x = false ∧ q (g x) = true ∧ lost (g x) = false then some (g x) else none) := by
    intro x
    unfold arriving mapFilterAct
    cases hex : exits x <;> cases hq : q (g x) <;> cases hlo : lost (g x) <;>
      simp [bind, Except.bind, pure, Except.pure, hq, hlo]
  generalize hact : arriving (mapFilterAct (fun x => Except.ok (ε := O) (g x)) (fun o => .ok (q o))) exits lost = act
    at hval
  have hs : Sane B act parts.flatten := by
    rw [h1]
    refine ⟨fun x hx e he => ?_, fun x hx y hy => ?_⟩
    · rw [hval] at he; cases he
    · rw [hval] at hy
      split at hy
      · cases hy; exact hg x hx
      · cases hy
  obtain ⟨h3, h4⟩ := h.arriving (by rw [hact]; exact hs.noStop)
  rw [hact] at h3
  rw [h1] at h4
  rcases h3.spec hs with ⟨r, rfl, h5, h6⟩ | ⟨e, rfl, x, hx, h5⟩
  · have hex := h4 r rfl
    refine ⟨⟨r, rfl, ?_⟩, hex⟩
    rw [h1] at h6
    refine h6.trans (List.Perm.of_eq ?_)
    have key : ∀ l : List α, (∀ x ∈ l, exits x = false) →
        outs act l = ((l.map g).filter q).filter fun o => !lost o := by
      intro l hex
      induction l with
      | nil => rfl
      | cons x xs ih =>
        have ih := ih fun y hy => hex y (by simp [hy])
        have e1 : outs act (x :: xs) = outs act [x] ++ outs act xs := outs_append _ [x] xs
        rw [e1, ih, outs_single (hval x), hex x (by simp), List.map_cons]
        cases hq : q (g x) <;> cases hlo : lost (g x) <;> simp [hq, hlo]
    exact key l hex
  · rw [hval] at h5; cases h5

/-- C155, processes, `map_reduce`, for an associative and commutative operation and picklable results: no crash can make
it return anything but the sequential result. -/
theorem C155_proc_map_reduce (B : Builtins O) (n : Int) (hn : 1 ≤ n) (g : α → O) (op : O → O → O)
    (hassoc : ∀ a b c, op (op a b) c = op a (op b c)) (hcomm : ∀ a b, op a b = op b a)
    (exits : α → Bool) (x : α) (xs : List α) (hg : ∀ y, B.isExc (g y) = false)
    (hop : ∀ a b, B.isExc a = false → B.isExc b = false → B.isExc (op a b) = false)
    (out : Except O O)
    (h : ProcMapReduceC B n (fun x => .ok (g x)) (fun a b => .ok (op a b)) exits (fun _ => false) (x :: xs) out) :
    out = .ok ((xs.map g).foldl op (g x)) ∧ ∀ y ∈ x :: xs, exits y = false := by
  have : Std.Associative op := ⟨hassoc⟩
  have : Std.Commutative op := ⟨hcomm⟩
  obtain ⟨parts, hp, _⟩ := C04_partitions (x :: xs) n (by simp) hn
  obtain ⟨_, _, h1, h2, h3⟩ := parts_ok hp
  unfold ProcMapReduceC at h
  rw [hp] at h
  obtain ⟨r, hr, rfl⟩ := h
  have hval : ∀ p ∈ parts, ∃ y, B.isExc y = false ∧
      reduceAct B (fun x => .ok (g x)) (fun a b => .ok (op a b)) p = .ok (some y) := by
    intro p hp
    cases p with
    | nil => exact absurd rfl (h3 [] hp)
    | cons z zs =>
      refine ⟨(zs.map g).foldl op (g z), ?_, by unfold reduceAct; rw [reduceGen_total]; rfl⟩
      have key : ∀ (zs : List α) (a : O), B.isExc a = false → B.isExc ((zs.map g).foldl op a) = false := by
        intro zs
        induction zs with
        | nil => exact fun a ha => ha
        | cons y ys ih => exact fun a ha => ih _ (hop _ _ ha (hg y))
      exact key zs _ (hg z)
  have hexp : ∀ (acc : Option O) (p : List α),
      reduceExits (fun x => Except.ok (ε := O) (g x)) (fun a b => .ok (op a b)) exits acc p = p.any exits := by
    intro acc p
    induction p generalizing acc with
    | nil => rfl
    | cons z zs ih =>
      unfold reduceExits
      cases hz : exits z with
      | true => simp [hz]
      | false => cases acc <;> simp [hz, ih]
  generalize hex : reduceExits (fun x => Except.ok (ε := O) (g x)) (fun a b => .ok (op a b)) exits none = ex at hr
  generalize hact0 : reduceAct B (fun x => Except.ok (ε := O) (g x)) (fun a b => .ok (op a b)) = act0 at hr
  have hs : Sane B (arriving act0 ex fun _ => false) parts := by
    refine ⟨fun p hp e he => ?_, fun p hp y hy => ?_⟩
    · obtain ⟨z, _, h4⟩ := hval p hp
      rw [hact0] at h4
      unfold arriving at he
      rw [h4] at he
      split at he
      · cases he
      · simp at he
    · obtain ⟨z, h5, h4⟩ := hval p hp
      rw [hact0] at h4
      unfold arriving at hy
      rw [h4] at hy
      split at hy
      · cases hy
      · simp at hy; rw [← hy]; exact h5
  obtain ⟨h4, h5⟩ := hr.arriving (by rw [singletons_flatten]; exact hs.noStop)
  rw [singletons_flatten] at h5
  have hspec := h4.spec (by rw [singletons_flatten]; exact hs)
  rw [singletons_flatten] at hspec
  rcases hspec with ⟨r', rfl, h6, h7⟩ | ⟨e, rfl, p, hp, he⟩
  · have h8 := h5 r' rfl
    have h9 : outs (arriving act0 ex fun _ => false) parts = outs act0 parts := by
      unfold outs
      apply List.filterMap_congr
      intro p hp
      obtain ⟨z, _, h10⟩ := hval p hp
      rw [hact0] at h10
      unfold emit arriving
      simp [h8 p hp, h10]
    rw [h9, ← hact0] at h7
    refine ⟨reduce_results h3 h1 h7, ?_⟩
    rw [← h1]
    intro y hy
    obtain ⟨p, hp, hy⟩ := List.mem_flatten.1 hy
    have := h8 p hp
    rw [← hex, hexp] at this
    have := List.any_eq_false.1 this y hy
    simpa using this
  · obtain ⟨z, _, h4⟩ := hval p hp
    rw [hact0] at h4
    unfold arriving at he
    rw [h4] at he
    split at he
    · cases he
    · simp at he

/-- C155, processes, ordered map: no infinite run, and in a state without a next step the call has returned or raised, or
it still waits for results while some worker process is dead. After the end of the call no worker process is left. -/
theorem C155_proc_ordered_ends_or_waits (B : Builtins O) (act : α → Except O (Option O)) (exits : α → Bool)
    (lost : O → Bool) (parts : List (List α))
    (hns : ∀ x ∈ parts.flatten, ∀ o, act x = .error o ∨ act x = .ok (some o) → B.isStop o = false) :
    (¬ ∃ run : Nat → DS α O, run 0 = DS.init ∧ ∀ i, DStep B act exits lost parts (run i) (run (i + 1))) ∧
    ∀ s, Relation.ReflTransGen (DStep B act exits lost parts) DS.init s →
      ((∀ t, ¬ DStep B act exits lost parts s t) → s.main = .returned ∨ (∃ e, s.main = .raised e) ∨
        (s.main = .collecting ∧ ∃ k < parts.length, s.ws k = .dead)) ∧
      ((s.main = .returned ∨ ∃ e, s.main = .raised e) →
        ∀ k, s.ws k = .idle ∨ s.ws k = .finished ∨ s.ws k = .dead) := by
  have hns' : ∀ o ∈ msgs (arriving act exits lost) parts.flatten, B.isStop o = false := by
    intro o ho
    obtain ⟨x, hx, hm⟩ := mem_msgs.1 ho
    refine hns x hx o ?_
    unfold arriving at hm
    split at hm
    · simp at hm
    · cases ha : act x with
      | error e =>
        simp only [ha] at hm
        by_cases hl : lost e = true <;> simp [hl] at hm
        exact .inl (by rw [hm])
      | ok eo =>
        cases eo with
        | none => simp [ha] at hm
        | some y =>
          simp only [ha] at hm
          by_cases hl : lost y = true <;> simp [hl] at hm
          exact .inr (by rw [hm])
  constructor
  · rintro ⟨run, h0, h1⟩
    exact no_infinite_run (DStep B act exits lost parts) (DInv B act exits lost parts) (DS.measure parts)
      (fun s t hi hs => ⟨hi.step hns' hs, hs.decreases hi⟩) run (by rw [h0]; exact DInv.init ..) h1
  · intro s hr
    have hi := DInv.reach hns' hr
    exact ⟨hi.progress, hi.ended⟩

/-- C155, processes, the other methods: the same with the shared queue. -/
theorem C155_proc_ends_or_waits (B : Builtins O) (act : α → Except O (Option O)) (exits : α → Bool)
    (lost : O → Bool) (parts : List (List α))
    (hns : ∀ x ∈ parts.flatten, ∀ o, act x = .error o ∨ act x = .ok (some o) → B.isStop o = false) :
    (¬ ∃ run : Nat → CS α O, run 0 = CS.init ∧ ∀ i, CStep B act exits lost parts (run i) (run (i + 1))) ∧
    ∀ s, Relation.ReflTransGen (CStep B act exits lost parts) CS.init s →
      ((∀ t, ¬ CStep B act exits lost parts s t) → s.main = .returned ∨ (∃ e, s.main = .raised e) ∨
        (s.main = .collecting ∧ ∃ k < parts.length, s.ws k = .dead)) ∧
      ((s.main = .returned ∨ ∃ e, s.main = .raised e) →
        ∀ k, s.ws k = .idle ∨ s.ws k = .finished ∨ s.ws k = .dead) := by
  have hns' : ∀ o ∈ msgs (arriving act exits lost) parts.flatten, B.isStop o = false := by
    intro o ho
    obtain ⟨x, hx, hm⟩ := mem_msgs.1 ho
    refine hns x hx o ?_
    unfold arriving at hm
    split at hm
    · simp at hm
    · cases ha : act x with
      | error e =>
        simp only [ha] at hm
        by_cases hl : lost e = true <;> simp [hl] at hm
        exact .inl (by rw [hm])
      | ok eo =>
        cases eo with
        | none => simp [ha] at hm
        | some y =>
          simp only [ha] at hm
          by_cases hl : lost y = true <;> simp [hl] at hm
          exact .inr (by rw [hm])
  constructor
  · rintro ⟨run, h0, h1⟩
    exact no_infinite_run (CStep B act exits lost parts) (CInv B act exits lost parts) (CS.measure parts)
      (fun s t hi hs => ⟨hi.step hns' hs, hs.decreases hi⟩) run (by rw [h0]; exact CInv.init ..) h1
  · intro s hr
    have hi := CInv.reach hns' hr
    exact ⟨hi.progress, hi.ended⟩

/-- C155, processes: a killed worker really makes the call wait for ever, for any function and any element: a reachable
state of the ordered map without a next step in which the caller still collects. -/
theorem C155_proc_kill_waits (B : Builtins O) (f : α → Except O O) (exits : α → Bool) (lost : O → Bool) (x : α) :
    ∃ s, Relation.ReflTransGen (DStep B (mapAct f) exits lost [[x]]) DS.init s ∧ s.main = .collecting ∧
      ∀ t, ¬ DStep B (mapAct f) exits lost [[x]] s t := by
  refine ⟨_, .head (.start (k := 0) rfl rfl) (.head (.started rfl) (.head (.worker (k := 0) .kill) .refl)), rfl, ?_⟩
  intro t ht
  cases ht with
  | start h1 => cases h1
  | started h1 => cases h1
  | @getStop os k o q h1 h2 h3 =>
    by_cases hk : k = 0
    · subst hk; simp [DS.init] at h3
    · simp [DS.init, Function.update_of_ne hk] at h3
  | @getExc os k o q h1 h2 h3 =>
    by_cases hk : k = 0
    · subst hk; simp [DS.init] at h3
    · simp [DS.init, Function.update_of_ne hk] at h3
  | @getItem os k o q h1 h2 h3 =>
    by_cases hk : k = 0
    · subst hk; simp [DS.init] at h3
    · simp [DS.init, Function.update_of_ne hk] at h3
  | collected h1 h2 => simp [List.range_succ] at h2
  | join h1 => cases h1
  | joined h1 => cases h1
  | @worker k eo w h1 =>
    by_cases hk : k = 0
    · subst hk; simp only [Function.update_self] at h1; cases h1
    · simp only [Function.update_of_ne hk] at h1; cases h1

/-- C155, processes: a result that cannot be pickled is missing without any exception. -/
theorem C155_proc_lost_silent (B : Builtins O) (g : α → O) (lost : O → Bool) (x : α) (hx : lost (g x) = true) :
    ProcMapC B 1 (fun x => .ok (g x)) (fun _ => false) lost true [x] (.ok []) := by
  unfold ProcMapC
  rw [parts_one]
  simp only [if_true]
  have k1 : CWStep B (mapAct fun x => .ok (g x)) (fun _ => false) lost (.running [x]) none (.holding (g x) []) :=
    .keep rfl rfl
  have k2 : CWStep B (mapAct fun x => .ok (g x)) (fun _ => false) lost (.holding (g x) ([] : List α)) none (.running []) :=
    .drop hx
  have k3 : CWStep B (mapAct fun x => .ok (g x)) (fun _ => false) lost (.running ([] : List α)) (some B.stop) .finished :=
    .stop
  exact ⟨_, .head (.start (k := 0) rfl rfl) (.head (.started rfl) (.head (.worker (k := 0) k1)
    (.head (.worker (k := 0) k2) (.head (.worker (k := 0) k3)
    (.head (.getStop (os := []) (k := 0) (o := B.stop) (q := []) rfl rfl rfl B.stop_isStop)
    (.head (.collected rfl rfl) (.head (.join (k := 0) rfl (by simp) (.inl rfl))
    (.head (.joined rfl) .refl)))))))), .inl ⟨rfl, rfl⟩⟩

/-! ### without crashes -/

def PW.toCW : PW α O → CW α O
  | .idle => .idle
  | .running t => .running t
  | .holding o t => .holding o t
  | .finished => .finished

theorem toCW_update (ws : Nat → PW α O) (k : Nat) (w : PW α O) :
    (fun j => (Function.update ws k w j).toCW) = Function.update (fun j => (ws j).toCW) k w.toCW := by
  funext j
  by_cases h : j = k
  · subst h; simp
  · simp [Function.update_of_ne h]

theorem PWStep.toCW {B : Builtins O} {act : α → Except O (Option O)} {w w' : PW α O} {eo : Option O}
    (h : PWStep B act w eo w') : CWStep B act (fun _ => false) (fun _ => false) w.toCW eo w'.toCW := by
  cases h with
  | keep h => exact .keep rfl h
  | skip h => exact .skip rfl h
  | caught h => exact .caught rfl h
  | put => exact .put rfl
  | stop => exact .stop

/-- C155: the engine with crashes extends the engine without: whatever the ordered map can do without crashes it can still
do. -/
theorem C155_proc_ordered_extends (B : Builtins O) (act : α → Except O (Option O)) (parts : List (List α))
    (out : Except O (List O)) (h : ProcRunOrdered B act parts out) :
    ProcRunOrderedC B act (fun _ => false) (fun _ => false) parts out := by
  obtain ⟨s, hr, h⟩ := h
  have key : ∀ s : QS α O, Relation.ReflTransGen (QStep B act parts) QS.init s →
      (∃ c, Relation.ReflTransGen (DStep B act (fun _ => false) (fun _ => false) parts) DS.init c ∧ c.main = s.main ∧
        ((∀ e, s.main ≠ .raised e) → c.queues = s.queues ∧ c.mapped = s.mapped ∧ c.openWorkers = s.openWorkers ∧
          c.ws = fun k => (s.ws k).toCW)) := by
    intro s hr
    induction hr with
    | refl => exact ⟨_, .refl, rfl, fun _ => ⟨rfl, rfl, rfl, rfl⟩⟩
    | @tail s t _ hs ih =>
      obtain ⟨c, h1, h2, h3⟩ := ih
      by_cases hra : ∃ e, s.main = .raised e
      · obtain ⟨e, he⟩ := hra
        have : t.main = .raised e := by
          cases hs with
          | worker => exact he
          | start e1 => rw [he] at e1; cases e1
          | started e1 => rw [he] at e1; cases e1
          | getStop e1 => rw [he] at e1; cases e1
          | getExc e1 => rw [he] at e1; cases e1
          | getItem e1 => rw [he] at e1; cases e1
          | collected e1 => rw [he] at e1; cases e1
          | join e1 => rw [he] at e1; cases e1
          | joined e1 => rw [he] at e1; cases e1
        exact ⟨c, h1, by rw [h2, he, this], fun hc => absurd this (hc e)⟩
      · push Not at hra
        obtain ⟨g1, g2, g3, g4⟩ := h3 hra
        cases hs with
        | start e1 e2 =>
          refine ⟨_, h1.tail (.start (h2.trans e1) e2), rfl, fun _ => ⟨g1, g2, g3, ?_⟩⟩
          simp only [toCW_update, g4]; rfl
        | started e1 => exact ⟨_, h1.tail (.started (h2.trans e1)), rfl, fun _ => ⟨g1, g2, rfl, g4⟩⟩
        | getStop e1 e2 e3 e4 =>
          exact ⟨_, h1.tail (.getStop (h2.trans e1) (g3.trans e2) (by rw [g1]; exact e3) e4), h2,
            fun _ => ⟨by simp [g1], g2, rfl, g4⟩⟩
        | getExc e1 e2 e3 e4 e5 =>
          exact ⟨_, h1.tail (.getExc (h2.trans e1) (g3.trans e2) (by rw [g1]; exact e3) e4 e5), rfl,
            fun hc => absurd rfl (hc _)⟩
        | getItem e1 e2 e3 e4 e5 =>
          exact ⟨_, h1.tail (.getItem (h2.trans e1) (g3.trans e2) (by rw [g1]; exact e3) e4 e5), h2,
            fun _ => ⟨by simp [g1], by simp [g2], rfl, g4⟩⟩
        | collected e1 e2 =>
          exact ⟨_, h1.tail (.collected (h2.trans e1) (g3.trans e2)), rfl, fun _ => ⟨g1, g2, g3, g4⟩⟩
        | join e1 e2 e3 =>
          exact ⟨_, h1.tail (.join (h2.trans e1) e2 (.inl (by rw [g4]; simp [e3, PW.toCW]))), rfl,
            fun _ => ⟨g1, g2, g3, g4⟩⟩
        | joined e1 => exact ⟨_, h1.tail (.joined (h2.trans e1)), rfl, fun _ => ⟨g1, g2, g3, g4⟩⟩
        | @worker k eo w e1 =>
          have e2 := e1.toCW
          rw [show (s.ws k).toCW = c.ws k by rw [g4]] at e2
          refine ⟨_, h1.tail (.worker e2), h2, fun _ => ⟨by simp [g1], g2, g3, ?_⟩⟩
          simp only [toCW_update, g4]
  obtain ⟨c, h1, h2, h3⟩ := key s hr
  refine ⟨c, h1, ?_⟩
  rw [h2]
  rcases h with ⟨h4, h5⟩ | h
  · obtain ⟨_, g2, _⟩ := h3 (by simp [h4])
    rw [g2]
    exact .inl ⟨h4, h5⟩
  · exact .inr h

/-! ### the hypotheses are met -/

/-- threads: two workers, the second of two elements exits: only the first is mapped, whatever the schedule -/
example (out : Except Nat (List Nat))
    (h : ThreadMapC natBuiltins 2 (fun x : Nat => .ok (x + 1)) (fun x => x == 2) true [1, 2] out) :
    out = .ok [2] := by
  have := C155_thread_map_ordered natBuiltins 2 _ _ [1, 2] [[1], [2]] (parts_two 1 2) out h
  rw [this]; rfl

/-- threads, `map_filter` and `map_reduce`: the second of two elements exits -/
example (out : Except Nat (List Nat))
    (h : ThreadMapFilterC natBuiltins 2 (fun x : Nat => .ok (x + 1)) (fun o => .ok (o != 5)) (fun x => x == 2) [1, 2] out) :
    out = .ok [2] := by
  obtain ⟨r, rfl, hr⟩ := C155_thread_map_filter natBuiltins 2 (· + 1) (· != 5) _ [1, 2] [[1], [2]] (parts_two 1 2) out h
  rw [List.perm_singleton.1 (show r.Perm [2] from hr)]

example (out : Except Nat Nat)
    (h : ThreadMapReduceC natBuiltins 2 (fun x : Nat => .ok (x + 1)) (fun a b => .ok (a + b)) (fun x => x == 2) [1, 2] out) :
    out = .ok 2 :=
  (C155_thread_map_reduce natBuiltins 2 (· + 1) (· + ·) Nat.add_assoc Nat.add_comm _ [1, 2] [[1], [2]] (parts_two 1 2)
    out h).1 1 [] rfl

/-- `C155_thread_silent`: the thread exits on 2 -/
example : ThreadMapC natBuiltins 1 (fun x : Nat => .ok (x + 1)) (fun x => x == 2) true [2] (.ok []) :=
  C155_thread_silent _ _ _ 2 rfl

/-- processes: a function with results, an exception and a result that cannot be pickled is clean -/
example : CrashClean natBuiltins (fun x : Nat => if x = 3 then .error 200 else .ok (x + 1)) (fun x => x == 7)
    (fun o => o == 6) [1, 3, 5, 7] := by
  intro x hx _
  simp at hx
  rcases hx with rfl | rfl | rfl | rfl <;> simp [natBuiltins]

/-- the results that arrive: 5 + 1 is lost -/
example : arrivedResults (fun x : Nat => (.ok (x + 1) : Except Nat Nat)) (fun o => o == 6) [1, 5, 8] = [2, 9] := by decide

/-- `C155_proc_exit_hangs`: exiting on 2 with two workers -/
example : ¬ ∃ out, ProcMapC natBuiltins 2 (fun x : Nat => .ok (x + 1)) (fun x => x == 2) (fun _ => false) true [1, 2, 3] out :=
  C155_proc_exit_hangs natBuiltins 2 (by decide) (fun x => x + 1) _ _ true [1, 2, 3]
    (by intro x hx; simp at hx; rcases hx with rfl | rfl | rfl <;> rfl) 2 (by simp) rfl

/-- an outcome of the ordered map with crashes: the one without crashes -/
example : ∃ out, ProcMapC natBuiltins 1 (fun x : Nat => .ok (x + 1)) (fun _ => false) (fun _ => false) true [4] out := by
  obtain ⟨out, h⟩ := ProcRunOrdered.exists natBuiltins (mapAct fun x : Nat => .ok (x + 1)) [[4]]
  refine ⟨out, ?_⟩
  unfold ProcMapC
  rw [parts_one]
  exact C155_proc_ordered_extends _ _ _ _ h

end Prolothar.Parallel
