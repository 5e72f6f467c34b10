import Verif.Lemmas.ParallelMap
set_option linter.unusedSimpArgs false
set_option linter.unusedVariables false
/-
Properties C24-C28, C79 of /repo/prolothar_common/parallel (single_thread, threading, multiprocess).

`ThreadMap B n f keepOrder l out` (and so on) says that `out` is the outcome of some schedule of the
calling thread and the `n` workers: `.ok r` is the returned list, `.error e` the raised exception.
So `ThreadMap ... out → P out` speaks about every schedule. `C79` shows that every schedule ends.
-/
namespace Prolothar.Parallel
open Prolothar.ListUtils
variable {α O : Type}

/-- builtins used in the examples: an object is a number, 100 is StopIteration, and numbers from
100 are exceptions -/
def natBuiltins : Builtins Nat where
  isExc o := decide (100 ≤ o)
  isStop o := o == 100
  stop := 100
  zeroDivision := 101
  typeError := 102
  stop_isStop := rfl
  stop_isExc o h := by simp at h; simp [h]

/-! ### C24: ordered map -/

/-- C24/C27, threads: under every schedule the ordered map does exactly what the sequential map
does, including the exception (that of the first failing element of the list). -/
theorem C24_thread_map_ordered (B : Builtins O) (n : Int) (hn : 1 ≤ n) (f : α → Except O O)
    (l : List α) (hl : l ≠ []) (out : Except O (List O)) (h : ThreadMap B n f true l out) :
    out = l.mapM f := by
  obtain ⟨parts, hp, _⟩ := C04_partitions l n hl hn
  obtain ⟨_, _, h1, h2, _⟩ := parts_ok hp
  unfold ThreadMap at h
  rw [hp] at h
  simp only [if_true] at h
  obtain ⟨r, hr, rfl⟩ := h
  rcases hr.spec with ⟨lists, rfl, h3, h4, _⟩ | ⟨e, rfl, h3⟩
  · have h5 : (List.range parts.length).map lists
        = (List.range parts.length).map fun k => outs (mapAct f) (parts.getD k []) :=
      List.map_congr_left fun k hk => h4 rfl k (List.mem_range.1 hk)
    have h6 := foldl_append_flatten ((List.range parts.length).map lists)
    rw [h5, ← outs_flatten] at h6
    have h7 : combineLists B ((List.range parts.length).map lists) = .ok (outs (mapAct f) parts.flatten) := by
      rw [h5]
      cases hc : (List.range parts.length).map fun k => outs (mapAct f) (parts.getD k []) with
      | nil => simp at hc; exact absurd hc h2
      | cons a as => rw [hc] at h6; simp only [combineLists]; rw [← h6]; rfl
    show combineLists B _ = _
    rw [h7, ← mapM_of_allOk h3, h1]
  · rw [h1] at h3
    exact (mapM_of_firstErr h3).symm

/-- C24, threads, for functions that do not raise. -/
theorem C24_thread_map_total (B : Builtins O) (n : Int) (hn : 1 ≤ n) (g : α → O)
    (l : List α) (hl : l ≠ []) (out : Except O (List O))
    (h : ThreadMap B n (fun x => .ok (g x)) true l out) : out = .ok (l.map g) := by
  rw [C24_thread_map_ordered B n hn _ l hl out h, mapM_ok_total]

/-- processes: raised objects are exceptions other than StopIteration, and results are no
exceptions -/
def CleanFn (B : Builtins O) (f : α → Except O O) (l : List α) : Prop :=
  ∀ x ∈ l, (∀ e, f x = .error e → B.isExc e = true ∧ B.isStop e = false) ∧
    ∀ y, f x = .ok y → B.isExc y = false

theorem CleanFn.sane {B : Builtins O} {f : α → Except O O} {l : List α} (h : CleanFn B f l) :
    Sane B (mapAct f) l where
  err x hx e he := (h x hx).1 e (mapAct_error he)
  val x hx y hy := by
    obtain ⟨z, h1, h2⟩ := mapAct_ok hy
    cases h2; exact (h x hx).2 y h1

/-- C24, processes: under every schedule the ordered map of a function that does not raise is the
sequential map. Results that are themselves exception objects are excluded, see
`C27_proc_result_exception_raised`. -/
theorem C24_proc_map_total (B : Builtins O) (n : Int) (hn : 1 ≤ n) (g : α → O)
    (l : List α) (hl : l ≠ []) (hg : ∀ x ∈ l, B.isExc (g x) = false) (out : Except O (List O))
    (h : ProcMap B n (fun x => .ok (g x)) true l out) : out = .ok (l.map g) := by
  obtain ⟨parts, hp, _⟩ := C04_partitions l n hl hn
  obtain ⟨_, _, h1, h2, _⟩ := parts_ok hp
  have hs : CleanFn B (fun x => Except.ok (ε := O) (g x)) l := fun x hx =>
    ⟨fun e he => (by cases he), fun y hy => by cases hy; exact hg x hx⟩
  unfold ProcMap at h
  rw [hp] at h
  simp only [if_true] at h
  rcases h.spec (by rw [h1]; exact hs.sane) with ⟨r, rfl, h3, h4⟩ | ⟨e, rfl, x, hx, h3⟩
  · rw [h4, ← mapM_of_allOk h3, h1, mapM_ok_total]
  · have := mapAct_error h3; cases this

/-! ### C25: unordered map, map_filter -/

/-- C25/C27, threads: the unordered map returns a rearrangement of the sequential result, or
raises the same exception as the sequential map. -/
theorem C25_thread_map_unordered (B : Builtins O) (n : Int) (hn : 1 ≤ n) (f : α → Except O O)
    (l : List α) (hl : l ≠ []) (out : Except O (List O)) (h : ThreadMap B n f false l out) :
    (∃ r r', out = .ok r ∧ l.mapM f = .ok r' ∧ r.Perm r') ∨
    (∃ e, out = .error e ∧ l.mapM f = .error e) := by
  obtain ⟨parts, hp, _⟩ := C04_partitions l n hl hn
  obtain ⟨_, _, h1, h2, _⟩ := parts_ok hp
  unfold ThreadMap at h
  rw [hp] at h
  simp only [Bool.false_eq_true, if_false] at h
  obtain ⟨r, hr, rfl⟩ := h
  rcases hr.spec with ⟨lists, rfl, h3, _, h4⟩ | ⟨e, rfl, h3⟩
  · rw [h1] at h3 h4
    exact .inl ⟨_, _, rfl, mapM_of_allOk h3, h4 rfl⟩
  · rw [h1] at h3
    exact .inr ⟨e, rfl, mapM_of_firstErr h3⟩

/-- C25, threads: `map_filter`. -/
theorem C25_thread_map_filter (B : Builtins O) (n : Int) (hn : 1 ≤ n) (g : α → O) (q : O → Bool)
    (l : List α) (hl : l ≠ []) (out : Except O (List O))
    (h : ThreadMapFilter B n (fun x => .ok (g x)) (fun o => .ok (q o)) l out) :
    ∃ r, out = .ok r ∧ r.Perm ((l.map g).filter q) := by
  obtain ⟨parts, hp, _⟩ := C04_partitions l n hl hn
  obtain ⟨_, _, h1, h2, _⟩ := parts_ok hp
  unfold ThreadMapFilter at h
  rw [hp] at h
  obtain ⟨r, hr, rfl⟩ := h
  rcases hr.spec with ⟨lists, rfl, h3, _, h4⟩ | ⟨e, rfl, h3⟩
  · rw [h1, outs_mapFilter] at h4
    exact ⟨_, rfl, h4 rfl⟩
  · obtain ⟨x, _, hx⟩ := h3.not_allOk
    rcases mapFilterAct_error hx with h | ⟨y, _, h⟩ <;> cases h

/-- C25, processes: unordered map. -/
theorem C25_proc_map_unordered (B : Builtins O) (n : Int) (hn : 1 ≤ n) (g : α → O)
    (l : List α) (hl : l ≠ []) (hg : ∀ x ∈ l, B.isExc (g x) = false) (out : Except O (List O))
    (h : ProcMap B n (fun x => .ok (g x)) false l out) : ∃ r, out = .ok r ∧ r.Perm (l.map g) := by
  obtain ⟨parts, hp, _⟩ := C04_partitions l n hl hn
  obtain ⟨_, _, h1, h2, _⟩ := parts_ok hp
  have hs : CleanFn B (fun x => Except.ok (ε := O) (g x)) l := fun x hx =>
    ⟨fun e he => (by cases he), fun y hy => by cases hy; exact hg x hx⟩
  unfold ProcMap at h
  rw [hp] at h
  simp only [Bool.false_eq_true, if_false] at h
  rcases h.spec (by rw [h1]; exact hs.sane) with ⟨r, rfl, h3, h4⟩ | ⟨e, rfl, x, hx, h3⟩
  · have h5 := mapM_of_allOk h3
    rw [h1, mapM_ok_total] at h5
    rw [h1, ← Except.ok.inj h5] at h4
    exact ⟨r, rfl, h4⟩
  · have := mapAct_error h3; cases this

/-- C25, processes: `map_filter`. -/
theorem C25_proc_map_filter (B : Builtins O) (n : Int) (hn : 1 ≤ n) (g : α → O) (q : O → Bool)
    (l : List α) (hl : l ≠ []) (hg : ∀ x ∈ l, B.isExc (g x) = false) (out : Except O (List O))
    (h : ProcMapFilter B n (fun x => .ok (g x)) (fun o => .ok (q o)) l out) :
    ∃ r, out = .ok r ∧ r.Perm ((l.map g).filter q) := by
  obtain ⟨parts, hp, _⟩ := C04_partitions l n hl hn
  obtain ⟨_, _, h1, h2, _⟩ := parts_ok hp
  unfold ProcMapFilter at h
  rw [hp] at h
  have hs : Sane B (mapFilterAct (fun x => .ok (g x)) (fun o => .ok (q o))) parts.flatten := by
    rw [h1]
    refine ⟨fun x hx e he => ?_, fun x hx y hy => ?_⟩
    · rcases mapFilterAct_error he with h | ⟨y, _, h⟩ <;> cases h
    · obtain ⟨z, b, e1, _, e2⟩ := mapFilterAct_ok hy
      cases e1
      have : y = g x := by cases b <;> simp at e2; exact e2
      rw [this]; exact hg x hx
  rcases h.spec hs with ⟨r, rfl, h3, h4⟩ | ⟨e, rfl, x, hx, h3⟩
  · rw [h1, outs_mapFilter] at h4
    exact ⟨r, rfl, h4⟩
  · rcases mapFilterAct_error h3 with h | ⟨y, _, h⟩ <;> cases h

/-! ### C26: map_reduce -/

/-- C26, single thread: `map_reduce` is the left fold. -/
theorem C26_local_map_reduce (B : Builtins O) (g : α → O) (op : O → O → O) (x : α) (xs : List α) :
    localMapReduce B (fun x => .ok (g x)) (fun a b => .ok (op a b)) (x :: xs)
      = .ok ((xs.map g).foldl op (g x)) := reduceGen_total x xs

/-- C26, threads: for an associative and commutative operation every schedule gives the
sequential result. -/
theorem C26_thread_map_reduce (B : Builtins O) (n : Int) (hn : 1 ≤ n) (g : α → O) (op : O → O → O)
    (hassoc : ∀ a b c, op (op a b) c = op a (op b c)) (hcomm : ∀ a b, op a b = op b a)
    (x : α) (xs : List α) (out : Except O O)
    (h : ThreadMapReduce B n (fun x => .ok (g x)) (fun a b => .ok (op a b)) (x :: xs) out) :
    out = .ok ((xs.map g).foldl op (g x)) := by
  have : Std.Associative op := ⟨hassoc⟩
  have : Std.Commutative op := ⟨hcomm⟩
  obtain ⟨parts, hp, _⟩ := C04_partitions (x :: xs) n (by simp) hn
  obtain ⟨_, _, h1, h2, h3⟩ := parts_ok hp
  unfold ThreadMapReduce at h
  rw [hp] at h
  obtain ⟨r, hr, rfl⟩ := h
  have hspec := hr.spec
  rw [singletons_flatten] at hspec
  rcases hspec with ⟨lists, rfl, h4, _, h5⟩ | ⟨e, rfl, h4⟩
  · exact reduce_results h3 h1 (h5 rfl)
  · obtain ⟨p, hp, he⟩ := h4.not_allOk
    rcases reduceGen_error (h3 p hp) (reduceAct_error he) with ⟨y, _, h⟩ | ⟨a, b, h⟩ <;> cases h

/-- C26, processes. -/
theorem C26_proc_map_reduce (B : Builtins O) (n : Int) (hn : 1 ≤ n) (g : α → O) (op : O → O → O)
    (hassoc : ∀ a b c, op (op a b) c = op a (op b c)) (hcomm : ∀ a b, op a b = op b a)
    (x : α) (xs : List α) (hg : ∀ y, B.isExc (g y) = false)
    (hop : ∀ a b, B.isExc a = false → B.isExc b = false → B.isExc (op a b) = false)
    (out : Except O O)
    (h : ProcMapReduce B n (fun x => .ok (g x)) (fun a b => .ok (op a b)) (x :: xs) out) :
    out = .ok ((xs.map g).foldl op (g x)) := by
  have : Std.Associative op := ⟨hassoc⟩
  have : Std.Commutative op := ⟨hcomm⟩
  obtain ⟨parts, hp, _⟩ := C04_partitions (x :: xs) n (by simp) hn
  obtain ⟨_, _, h1, h2, h3⟩ := parts_ok hp
  unfold ProcMapReduce at h
  rw [hp] at h
  obtain ⟨r, hr, rfl⟩ := h
  have hs : Sane B (reduceAct B (fun x => .ok (g x)) (fun a b => .ok (op a b))) parts := by
    refine ⟨fun p hp e he => ?_, fun p hp y hy => ?_⟩
    · rcases reduceGen_error (h3 p hp) (reduceAct_error he) with ⟨y, _, h⟩ | ⟨a, b, h⟩ <;> cases h
    · obtain ⟨z, h4, h5⟩ := reduceAct_ok hy
      cases h5
      cases p with
      | nil => exact absurd rfl (h3 [] hp)
      | cons z zs =>
        rw [reduceGen_total] at h4
        have h4 := Except.ok.inj h4
        subst h4
        have key : ∀ (zs : List α) (a : O), B.isExc a = false → B.isExc ((zs.map g).foldl op a) = false := by
          intro zs
          induction zs with
          | nil => exact fun a ha => ha
          | cons y ys ih => exact fun a ha => ih _ (hop _ _ ha (hg y))
        exact key zs _ (hg z)
  have hspec := hr.spec (by rw [singletons_flatten]; exact hs)
  rw [singletons_flatten] at hspec
  rcases hspec with ⟨lists, rfl, h4, h5⟩ | ⟨e, rfl, p, hp, he⟩
  · exact reduce_results h3 h1 h5
  · rcases reduceGen_error (h3 p hp) (reduceAct_error he) with ⟨y, _, h⟩ | ⟨a, b, h⟩ <;> cases h

/-- the outcomes of two threads with one unit of work each: both orders are possible -/
theorem two_threads {act : α → Except O (Option O)} {x y : α} {ox oy : O}
    (hx : act x = .ok (some ox)) (hy : act y = .ok (some oy)) :
    (∃ lists, ThreadRun act [[x], [y]] (fun _ => 0) (.ok lists) ∧ lists 0 = [ox, oy]) ∧
    (∃ lists, ThreadRun act [[x], [y]] (fun _ => 0) (.ok lists) ∧ lists 0 = [oy, ox]) := by
  have k1 : TWStep act (.running [x]) none (.holding ox []) := .keep hx
  have k2 : TWStep act (.holding ox []) (some ox) (.running []) := .append
  have k3 : TWStep act (.running ([] : List α)) none .finished := .done
  have m1 : TWStep act (.running [y]) none (.holding oy []) := .keep hy
  have m2 : TWStep act (.holding oy []) (some oy) (.running []) := .append
  constructor
  · refine ⟨_, ⟨_, .head (.start (k := 0) rfl rfl) (.head (.start (k := 1) rfl rfl) (.head (.started rfl)
      (.head (.worker (k := 0) k1) (.head (.worker (k := 0) k2) (.head (.worker (k := 0) k3)
      (.head (.worker (k := 1) m1) (.head (.worker (k := 1) m2) (.head (.worker (k := 1) k3)
      (.head (.join (k := 0) rfl (by simp) rfl) (.head (.join (k := 1) rfl (by simp) rfl)
      (.head (.joined rfl) .refl))))))))))), .inl ⟨rfl, rfl⟩⟩, rfl⟩
  · refine ⟨_, ⟨_, .head (.start (k := 0) rfl rfl) (.head (.start (k := 1) rfl rfl) (.head (.started rfl)
      (.head (.worker (k := 1) m1) (.head (.worker (k := 1) m2) (.head (.worker (k := 1) k3)
      (.head (.worker (k := 0) k1) (.head (.worker (k := 0) k2) (.head (.worker (k := 0) k3)
      (.head (.join (k := 0) rfl (by simp) rfl) (.head (.join (k := 1) rfl (by simp) rfl)
      (.head (.joined rfl) .refl))))))))))), .inl ⟨rfl, rfl⟩⟩, rfl⟩

/-- C26: without commutativity two schedules can give different results. For any two results that
the operation combines differently in the two orders, both values are possible outcomes. -/
theorem C26_commutativity_needed (B : Builtins O) (g : α → O) (op : O → O → O) (x y : α) :
    ThreadMapReduce B 2 (fun x => .ok (g x)) (fun a b => .ok (op a b)) [x, y] (.ok (op (g x) (g y))) ∧
    ThreadMapReduce B 2 (fun x => .ok (g x)) (fun a b => .ok (op a b)) [x, y] (.ok (op (g y) (g x))) := by
  have hp : viewOfNPartitions [x, y] 2 = .ok [[x], [y]] := parts_two x y
  have hx : ∀ z : α, reduceAct B (fun x => Except.ok (ε := O) (g x)) (fun a b => .ok (op a b)) [z]
      = .ok (some (g z)) := fun z => rfl
  obtain ⟨⟨r1, h1, e1⟩, r2, h2, e2⟩ := two_threads (hx x) (hx y)
  unfold ThreadMapReduce
  rw [hp]
  refine ⟨⟨_, h1, ?_⟩, ⟨_, h2, ?_⟩⟩
  · show _ = reduceGen B _ _ (r1 0)
    rw [e1]; rfl
  · show _ = reduceGen B _ _ (r2 0)
    rw [e2]; rfl

/-! ### C27: exceptions -/

/-- C27, threads, map (both modes): the call raises iff some element raises, and then with the
exception of the first such element; otherwise it returns. -/
theorem C27_thread_map (B : Builtins O) (n : Int) (hn : 1 ≤ n) (f : α → Except O O) (ko : Bool)
    (l : List α) (hl : l ≠ []) (out : Except O (List O)) (h : ThreadMap B n f ko l out) :
    ((∃ r, out = .ok r) ↔ ∀ x ∈ l, ∃ y, f x = .ok y) ∧
    ∀ e, out = .error e ↔ ∃ pre x post, l = pre ++ x :: post ∧ (∀ z ∈ pre, ∃ y, f z = .ok y) ∧
      f x = .error e := by
  have hall : ∀ l : List α, AllOk (mapAct f) l ↔ ∀ x ∈ l, ∃ y, f x = .ok y := by
    intro l
    constructor
    · intro h x hx
      obtain ⟨o, h1⟩ := h x hx
      obtain ⟨y, h2, _⟩ := mapAct_ok h1
      exact ⟨y, h2⟩
    · intro h x hx
      obtain ⟨y, h1⟩ := h x hx
      exact ⟨some y, by unfold mapAct; rw [h1]; rfl⟩
  have hout : (∃ r, out = .ok r ∧ ∃ r', l.mapM f = .ok r') ∨ (∃ e, out = .error e ∧ l.mapM f = .error e) := by
    cases ko with
    | true =>
      have := C24_thread_map_ordered B n hn f l hl out h
      cases ho : out with
      | ok r => left; exact ⟨r, rfl, r, by rw [← this, ho]⟩
      | error e => right; exact ⟨e, rfl, by rw [← this, ho]⟩
    | false =>
      rcases C25_thread_map_unordered B n hn f l hl out h with ⟨r, r', h1, h2, _⟩ | h
      · exact .inl ⟨r, h1, r', h2⟩
      · exact .inr h
  have hdich : (∀ x ∈ l, ∃ y, f x = .ok y) ∨ ∃ e pre x post, l = pre ++ x :: post ∧
      (∀ z ∈ pre, ∃ y, f z = .ok y) ∧ f x = .error e := by
    clear hl h hout
    induction l with
    | nil => left; simp
    | cons x xs ih =>
      cases hx : f x with
      | error e => right; exact ⟨e, [], x, xs, rfl, by simp, hx⟩
      | ok y =>
        rcases ih with h | ⟨e, pre, z, post, rfl, h2, h3⟩
        · left
          intro z hz
          rcases List.mem_cons.1 hz with rfl | hz
          · exact ⟨y, hx⟩
          · exact h z hz
        · right
          refine ⟨e, x :: pre, z, post, rfl, fun w hw => ?_, h3⟩
          rcases List.mem_cons.1 hw with rfl | hw
          · exact ⟨y, hx⟩
          · exact h2 w hw
  have herr : ∀ e, (∃ pre x post, l = pre ++ x :: post ∧ (∀ z ∈ pre, ∃ y, f z = .ok y) ∧
      f x = .error e) → l.mapM f = .error e := by
    rintro e ⟨pre, x, post, h1, h2, h3⟩
    exact mapM_of_firstErr ⟨pre, x, post, h1, (hall pre).2 h2, by unfold mapAct; rw [h3]; rfl⟩
  refine ⟨⟨?_, fun hok => ?_⟩, fun e => ⟨?_, fun he => ?_⟩⟩
  · rintro ⟨r, rfl⟩
    rcases hdich with h | ⟨e, he⟩
    · exact h
    · rcases hout with ⟨_, _, r', h2⟩ | ⟨e', h2, _⟩
      · rw [herr e he] at h2; cases h2
      · cases h2
  · rcases hout with ⟨r, h1, _⟩ | ⟨e, _, h2⟩
    · exact ⟨r, h1⟩
    · rw [mapM_of_allOk ((hall l).2 hok)] at h2; cases h2
  · rintro rfl
    rcases hdich with h | ⟨e', he'⟩
    · rcases hout with ⟨_, h2, _⟩ | ⟨_, _, h2⟩
      · cases h2
      · rw [mapM_of_allOk ((hall l).2 h)] at h2; cases h2
    · rcases hout with ⟨_, h2, _⟩ | ⟨e2, h2, h3⟩
      · cases h2
      · cases h2
        rw [herr e' he'] at h3
        cases h3
        exact he'
  · rcases hout with ⟨_, _, r', h2⟩ | ⟨e', h1, h2⟩
    · rw [herr e he] at h2; cases h2
    · rw [herr e he] at h2; cases h2; exact h1

/-- C27, threads, `map_filter`: a returned list means that no call of `f` or `p` raised; a raised
exception was raised by such a call. -/
theorem C27_thread_map_filter (B : Builtins O) (n : Int) (hn : 1 ≤ n) (f : α → Except O O)
    (p : O → Except O Bool) (l : List α) (hl : l ≠ []) (out : Except O (List O))
    (h : ThreadMapFilter B n f p l out) :
    (∀ r, out = .ok r → ∀ x ∈ l, ∃ y b, f x = .ok y ∧ p y = .ok b) ∧
    ∀ e, out = .error e → ∃ x ∈ l, f x = .error e ∨ ∃ y, f x = .ok y ∧ p y = .error e := by
  obtain ⟨parts, hp, _⟩ := C04_partitions l n hl hn
  obtain ⟨_, _, h1, h2, _⟩ := parts_ok hp
  unfold ThreadMapFilter at h
  rw [hp] at h
  obtain ⟨r, hr, rfl⟩ := h
  have hspec := hr.spec
  rw [h1] at hspec
  rcases hspec with ⟨lists, rfl, h3, _, h4⟩ | ⟨e, rfl, h3⟩
  · refine ⟨fun r _ x hx => ?_, fun e he => by cases he⟩
    obtain ⟨eo, h5⟩ := h3 x hx
    obtain ⟨y, b, h6, h7, _⟩ := mapFilterAct_ok h5
    exact ⟨y, b, h6, h7⟩
  · refine ⟨fun r hr => (by cases hr), fun e' he => ?_⟩
    cases he
    obtain ⟨x, hx, h4⟩ := h3.not_allOk
    exact ⟨x, hx, mapFilterAct_error h4⟩

/-- C27, threads, `map_reduce`. -/
theorem C27_thread_map_reduce (B : Builtins O) (n : Int) (hn : 1 ≤ n) (f : α → Except O O)
    (op : O → O → Except O O) (l : List α) (hl : l ≠ []) (out : Except O O)
    (h : ThreadMapReduce B n f op l out) :
    (∀ r, out = .ok r → ∀ x ∈ l, ∃ y, f x = .ok y) ∧
    ∀ e, out = .error e → (∃ x ∈ l, f x = .error e) ∨ ∃ a b, op a b = .error e := by
  obtain ⟨parts, hp, _⟩ := C04_partitions l n hl hn
  obtain ⟨_, _, h1, h2, h3⟩ := parts_ok hp
  unfold ThreadMapReduce at h
  rw [hp] at h
  obtain ⟨r, hr, rfl⟩ := h
  have hspec := hr.spec
  rw [singletons_flatten] at hspec
  rcases hspec with ⟨lists, rfl, h4, _, h5⟩ | ⟨e, rfl, h4⟩
  · refine ⟨fun r _ x hx => ?_, fun e he => ?_⟩
    · rw [← h1] at hx
      obtain ⟨part, hp, hx⟩ := List.mem_flatten.1 hx
      obtain ⟨eo, h6⟩ := h4 part hp
      obtain ⟨y, h7, _⟩ := reduceAct_ok h6
      exact reduceGen_ok h7 x hx
    · have hne : lists 0 ≠ [] := by
        intro hc
        have h6 := (h5 rfl).length_eq
        rw [outs_length_reduce h4, hc] at h6
        exact h2 (List.length_eq_zero_iff.1 h6.symm)
      rcases reduceGen_error hne he with ⟨x, _, h⟩ | h
      · cases h
      · exact .inr h
  · refine ⟨fun r hr => (by cases hr), fun e' he => ?_⟩
    cases he
    obtain ⟨p, hp, he⟩ := h4.not_allOk
    rcases reduceGen_error (h3 p hp) (reduceAct_error he) with ⟨y, hy, h⟩ | h
    · exact .inl ⟨y, by rw [← h1]; exact List.mem_flatten.2 ⟨p, hp, hy⟩, h⟩
    · exact .inr h

/-- C27, processes, map (both modes), for functions that raise no StopIteration and return no exceptions (`CleanFn`). Both restrictions are
necessary, see `C27_proc_swallows_stop_iteration` and `C27_proc_result_exception_raised`. -/
theorem C27_proc_map (B : Builtins O) (n : Int) (hn : 1 ≤ n) (f : α → Except O O) (ko : Bool)
    (l : List α) (hl : l ≠ []) (hf : CleanFn B f l) (out : Except O (List O))
    (h : ProcMap B n f ko l out) :
    (∀ r, out = .ok r → ∃ r', l.mapM f = .ok r' ∧ r.Perm r' ∧ (ko = true → r = r')) ∧
    ∀ e, out = .error e → ∃ x ∈ l, f x = .error e := by
  obtain ⟨parts, hp, _⟩ := C04_partitions l n hl hn
  obtain ⟨_, _, h1, h2, _⟩ := parts_ok hp
  unfold ProcMap at h
  rw [hp] at h
  cases ko with
  | true =>
    simp only [if_true] at h
    have hspec := h.spec (by rw [h1]; exact hf.sane)
    rw [h1] at hspec
    rcases hspec with ⟨r, rfl, h3, rfl⟩ | ⟨e, rfl, x, hx, h3⟩
    · refine ⟨fun r hr => ?_, fun e he => by cases he⟩
      cases hr
      exact ⟨_, mapM_of_allOk h3, List.Perm.refl _, fun _ => rfl⟩
    · refine ⟨fun r hr => (by cases hr), fun e' he => ?_⟩
      cases he
      exact ⟨x, hx, mapAct_error h3⟩
  | false =>
    simp only [Bool.false_eq_true, if_false] at h
    have hspec := h.spec (by rw [h1]; exact hf.sane)
    rw [h1] at hspec
    rcases hspec with ⟨r, rfl, h3, h4⟩ | ⟨e, rfl, x, hx, h3⟩
    · refine ⟨fun r hr => ?_, fun e he => by cases he⟩
      cases hr
      exact ⟨_, mapM_of_allOk h3, h4, fun h => by cases h⟩
    · refine ⟨fun r hr => (by cases hr), fun e' he => ?_⟩
      cases he
      exact ⟨x, hx, mapAct_error h3⟩

/-- C27, processes, map (both modes), for every function (raised objects are exceptions): if the call returns, then no call raised, unless
some call raised or returned a StopIteration; if the call raises, then it raises an exception that some call raised or returned. -/
theorem C27_proc_map_any (B : Builtins O) (n : Int) (hn : 1 ≤ n) (f : α → Except O O) (ko : Bool)
    (l : List α) (hl : l ≠ []) (hf : ∀ x ∈ l, ∀ e, f x = .error e → B.isExc e = true) (out : Except O (List O))
    (h : ProcMap B n f ko l out) :
    (∀ r, out = .ok r → (∀ x ∈ l, ∃ y, f x = .ok y) ∨ ∃ x ∈ l, ∃ o, B.isStop o = true ∧ (f x = .error o ∨ f x = .ok o)) ∧
    ∀ e, out = .error e → B.isExc e = true ∧ ∃ x ∈ l, f x = .error e ∨ f x = .ok e := by
  obtain ⟨parts, hp, _⟩ := C04_partitions l n hl hn
  obtain ⟨_, _, h1, h2, _⟩ := parts_ok hp
  have hany : AnyOutcome B (mapAct f) l out := by
    unfold ProcMap at h
    rw [hp] at h
    rw [← h1]
    cases ko with
    | true => exact ProcRunOrdered.any h
    | false => exact ProcRun.any h
  have hact : ∀ x o, mapAct f x = .error o ∨ mapAct f x = .ok (some o) → f x = .error o ∨ f x = .ok o := by
    rintro x o (h | h)
    · exact .inl (mapAct_error h)
    · obtain ⟨y, h3, h4⟩ := mapAct_ok h
      cases h4; exact .inr h3
  rcases hany with ⟨r, rfl, h3⟩ | ⟨e, rfl, h3, x, hx, h4⟩
  · refine ⟨fun _ _ => ?_, fun e he => by cases he⟩
    rcases h3 with ⟨x, hx, o, ho, h4⟩ | h3
    · exact .inr ⟨x, hx, o, ho, hact x o h4⟩
    · left
      intro x hx
      cases hfx : f x with
      | ok y => exact ⟨y, rfl⟩
      | error e =>
        have := h3 x hx e (.inl (by unfold mapAct; rw [hfx]; rfl))
        rw [hf x hx e hfx] at this; cases this
  · refine ⟨fun r hr => (by cases hr), fun e' he => ?_⟩
    cases he
    exact ⟨h3, x, hx, hact x e h4⟩

/-- C27, processes, `map_filter`, under the same restrictions. -/
theorem C27_proc_map_filter (B : Builtins O) (n : Int) (hn : 1 ≤ n) (f : α → Except O O)
    (p : O → Except O Bool) (l : List α) (hl : l ≠ []) (hf : CleanFn B f l)
    (hpe : ∀ x ∈ l, ∀ y e, f x = .ok y → p y = .error e → B.isExc e = true ∧ B.isStop e = false)
    (out : Except O (List O)) (h : ProcMapFilter B n f p l out) :
    (∀ r, out = .ok r → ∀ x ∈ l, ∃ y b, f x = .ok y ∧ p y = .ok b) ∧
    ∀ e, out = .error e → ∃ x ∈ l, f x = .error e ∨ ∃ y, f x = .ok y ∧ p y = .error e := by
  obtain ⟨parts, hp, _⟩ := C04_partitions l n hl hn
  obtain ⟨_, _, h1, h2, _⟩ := parts_ok hp
  unfold ProcMapFilter at h
  rw [hp] at h
  have hs : Sane B (mapFilterAct f p) l := by
    refine ⟨fun x hx e he => ?_, fun x hx y hy => ?_⟩
    · rcases mapFilterAct_error he with h | ⟨y, hy, h⟩
      · exact (hf x hx).1 e h
      · exact hpe x hx y e hy h
    · obtain ⟨z, b, e1, _, e2⟩ := mapFilterAct_ok hy
      have : y = z := by cases b <;> simp at e2; exact e2
      rw [this]; exact (hf x hx).2 z e1
  have hspec := h.spec (by rw [h1]; exact hs)
  rw [h1] at hspec
  rcases hspec with ⟨r, rfl, h3, h4⟩ | ⟨e, rfl, x, hx, h3⟩
  · refine ⟨fun r _ x hx => ?_, fun e he => by cases he⟩
    obtain ⟨eo, h5⟩ := h3 x hx
    obtain ⟨y, b, h6, h7, _⟩ := mapFilterAct_ok h5
    exact ⟨y, b, h6, h7⟩
  · refine ⟨fun r hr => (by cases hr), fun e' he => ?_⟩
    cases he
    exact ⟨x, hx, mapFilterAct_error h3⟩

/-- C27, processes, `map_reduce`, under the same restrictions; no value that a worker computes is an
exception. -/
theorem C27_proc_map_reduce (B : Builtins O) (n : Int) (hn : 1 ≤ n) (f : α → Except O O)
    (op : O → O → Except O O) (l : List α) (hl : l ≠ [])
    (hf : ∀ x e, f x = .error e → B.isExc e = true ∧ B.isStop e = false)
    (hop : ∀ a b e, op a b = .error e → B.isExc e = true ∧ B.isStop e = false)
    (hval : ∀ part r, reduceGen B f op part = .ok r → B.isExc r = false)
    (out : Except O O) (h : ProcMapReduce B n f op l out) :
    (∀ r, out = .ok r → ∀ x ∈ l, ∃ y, f x = .ok y) ∧
    ∀ e, out = .error e → (∃ x ∈ l, f x = .error e) ∨ ∃ a b, op a b = .error e := by
  obtain ⟨parts, hp, _⟩ := C04_partitions l n hl hn
  obtain ⟨_, _, h1, h2, h3⟩ := parts_ok hp
  unfold ProcMapReduce at h
  rw [hp] at h
  obtain ⟨r, hr, rfl⟩ := h
  have hs : Sane B (reduceAct B f op) parts := by
    refine ⟨fun p hp e he => ?_, fun p hp y hy => ?_⟩
    · rcases reduceGen_error (h3 p hp) (reduceAct_error he) with ⟨y, _, h⟩ | ⟨a, b, h⟩
      · exact hf y e h
      · exact hop a b e h
    · obtain ⟨z, h4, h5⟩ := reduceAct_ok hy
      cases h5
      exact hval p _ h4
  have hspec := hr.spec (by rw [singletons_flatten]; exact hs)
  rw [singletons_flatten] at hspec
  rcases hspec with ⟨results, rfl, h4, h5⟩ | ⟨e, rfl, p, hp, he⟩
  · refine ⟨fun r _ x hx => ?_, fun e he => ?_⟩
    · rw [← h1] at hx
      obtain ⟨part, hp, hx⟩ := List.mem_flatten.1 hx
      obtain ⟨eo, h6⟩ := h4 part hp
      obtain ⟨y, h7, _⟩ := reduceAct_ok h6
      exact reduceGen_ok h7 x hx
    · have hne : results ≠ [] := by
        intro hc
        have h6 := h5.length_eq
        rw [outs_length_reduce h4, hc] at h6
        exact h2 (List.length_eq_zero_iff.1 h6.symm)
      rcases reduceGen_error hne he with ⟨x, _, h⟩ | h
      · cases h
      · exact .inr h
  · refine ⟨fun r hr => (by cases hr), fun e' he' => ?_⟩
    cases he'
    rcases reduceGen_error (h3 p hp) (reduceAct_error he) with ⟨y, hy, h⟩ | h
    · exact .inl ⟨y, by rw [← h1]; exact List.mem_flatten.2 ⟨p, hp, hy⟩, h⟩
    · exact .inr h

/-- C27 is false for processes: a StopIteration raised by `f` is taken for the end marker of the
worker, and the call returns a list without the element. -/
theorem C27_proc_swallows_stop_iteration (B : Builtins O) (f : α → Except O O) (x : α)
    (hf : f x = .error B.stop) :
    ProcMap B 1 f true [x] (.ok []) ∧ ProcMap B 1 f false [x] (.ok []) := by
  have hp : viewOfNPartitions [x] 1 = .ok [[x]] := parts_one x
  have ha : mapAct f x = .error B.stop := by unfold mapAct; rw [hf]; rfl
  have k1 : PWStep B (mapAct f) (.running [x]) none (.holding B.stop []) := .caught ha
  have k2 : PWStep B (mapAct f) (.holding B.stop []) (some B.stop) (.running []) := .put
  have k3 : PWStep B (mapAct f) (.running ([] : List α)) (some B.stop) .finished := .stop
  unfold ProcMap
  rw [hp]
  constructor
  · refine ⟨_, .head (.start (k := 0) rfl rfl) (.head (.started rfl)
      (.head (.worker (k := 0) k1) (.head (.worker (k := 0) k2)
      (.head (.getStop (os := []) (k := 0) (o := B.stop) (q := []) rfl rfl rfl B.stop_isStop)
      (.head (.collected rfl rfl) (.head (.worker (k := 0) k3)
      (.head (.join (k := 0) rfl (by simp) rfl) (.head (.joined rfl) .refl)))))))), .inl ⟨rfl, rfl⟩⟩
  · refine ⟨_, .head (.start (k := 0) rfl rfl) (.head (.started rfl)
      (.head (.worker (k := 0) k1) (.head (.worker (k := 0) k2)
      (.head (.getStop (o := B.stop) (q := []) rfl (by simp [PS.init]) rfl B.stop_isStop)
      (.head (.collected rfl (by simp [PS.init])) (.head (.worker (k := 0) k3)
      (.head (.join (k := 0) rfl (by simp) rfl) (.head (.joined rfl) .refl)))))))), .inl ⟨rfl, rfl⟩⟩

/-- C24/C27: a result that is an exception object is raised by the process engine although no call
raised; the sequential map returns it. -/
theorem C27_proc_result_exception_raised (B : Builtins O) (g : α → O) (x : α)
    (h1 : B.isExc (g x) = true) (h2 : B.isStop (g x) = false) :
    ProcMap B 1 (fun x => .ok (g x)) true [x] (.error (g x)) ∧
    localMap (fun x => Except.ok (ε := O) (g x)) [x] = .ok [g x] := by
  have hp : viewOfNPartitions [x] 1 = .ok [[x]] := parts_one x
  have ha : mapAct (fun x => Except.ok (ε := O) (g x)) x = .ok (some (g x)) := rfl
  have k1 : PWStep B (mapAct (fun x => Except.ok (ε := O) (g x))) (.running [x]) none
      (.holding (g x) []) := .keep ha
  have k2 : PWStep B (mapAct (fun x => Except.ok (ε := O) (g x))) (.holding (g x) []) (some (g x))
      (.running []) := .put
  unfold ProcMap
  rw [hp]
  refine ⟨⟨_, .head (.start (k := 0) rfl rfl) (.head (.started rfl)
      (.head (.worker (k := 0) k1) (.head (.worker (k := 0) k2)
      (.head (.getExc (os := []) (k := 0) (o := g x) (q := []) rfl rfl rfl h2 h1)
      .refl)))), .inr ⟨_, rfl, rfl⟩⟩, rfl⟩

/-! ### C28: agreement of the engines -/

/-- C28: for a non-empty list, a function that does not raise and results that are no exceptions,
all three engines return the same list. -/
theorem C28_engines_agree (B : Builtins O) (n m : Int) (hn : 1 ≤ n) (hm : 1 ≤ m) (g : α → O)
    (l : List α) (hl : l ≠ []) (hg : ∀ x ∈ l, B.isExc (g x) = false)
    (out1 out2 : Except O (List O)) (h1 : ThreadMap B n (fun x => .ok (g x)) true l out1)
    (h2 : ProcMap B m (fun x => .ok (g x)) true l out2) :
    out1 = localMap (fun x => .ok (g x)) l ∧ out2 = localMap (fun x => .ok (g x)) l := by
  unfold localMap
  rw [mapM_ok_total]
  exact ⟨C24_thread_map_total B n hn g l hl out1 h1, C24_proc_map_total B m hm g l hl hg out2 h2⟩

/-- C28: for a non-empty list, functions that do not raise and results that are no exceptions, `map_filter` of the thread and process engines returns
the elements of the list that the single thread engine returns, in some order. -/
theorem C28_map_filter_agrees (B : Builtins O) (n m : Int) (hn : 1 ≤ n) (hm : 1 ≤ m) (g : α → O) (q : O → Bool)
    (l : List α) (hl : l ≠ []) (hg : ∀ x ∈ l, B.isExc (g x) = false)
    (out1 out2 : Except O (List O)) (h1 : ThreadMapFilter B n (fun x => .ok (g x)) (fun o => .ok (q o)) l out1)
    (h2 : ProcMapFilter B m (fun x => .ok (g x)) (fun o => .ok (q o)) l out2) :
    ∃ r r1 r2, localMapFilter (fun x => .ok (g x)) (fun o => .ok (q o)) l = .ok r ∧ out1 = .ok r1 ∧ out2 = .ok r2 ∧ r1.Perm r ∧ r2.Perm r := by
  obtain ⟨r1, k1, p1⟩ := C25_thread_map_filter B n hn g q l hl out1 h1
  obtain ⟨r2, k2, p2⟩ := C25_proc_map_filter B m hm g q l hl hg out2 h2
  refine ⟨(l.map g).filter q, r1, r2, ?_, k1, k2, p1, p2⟩
  unfold localMapFilter localMap
  rw [mapM_ok_total]
  have : ∀ l : List O, (l.mapM (m := Except O) fun o => do
      let b ← (Except.ok (q o) : Except O Bool)
      return if b then some o else none) = .ok (l.map fun o => if q o then some o else none) := by
    intro l
    induction l with
    | nil => rfl
    | cons a l ih => rw [List.mapM_cons, ih]; rfl
  show (do
    let kept ← (l.map g).mapM (m := Except O) fun o => do
      let b ← (Except.ok (q o) : Except O Bool)
      return if b then some o else none
    return kept.filterMap id) = _
  rw [this]
  show Except.ok _ = Except.ok _
  congr 1
  induction l.map g with
  | nil => rfl
  | cons a l ih =>
    rw [List.map_cons, List.filterMap_cons, List.filter_cons]
    by_cases h : q a = true
    · simp [h, ← ih]
    · simp [h, ← ih]

/-- C28: for a non-empty list, functions that do not raise, results that are no exceptions and an associative and commutative operation, all three
engines return the same value of `map_reduce`. -/
theorem C28_map_reduce_agrees (B : Builtins O) (n m : Int) (hn : 1 ≤ n) (hm : 1 ≤ m) (g : α → O) (op : O → O → O)
    (hassoc : ∀ a b c, op (op a b) c = op a (op b c)) (hcomm : ∀ a b, op a b = op b a)
    (l : List α) (hl : l ≠ []) (hg : ∀ y, B.isExc (g y) = false)
    (hop : ∀ a b, B.isExc a = false → B.isExc b = false → B.isExc (op a b) = false) (out1 out2 : Except O O)
    (h1 : ThreadMapReduce B n (fun x => .ok (g x)) (fun a b => .ok (op a b)) l out1)
    (h2 : ProcMapReduce B m (fun x => .ok (g x)) (fun a b => .ok (op a b)) l out2) :
    out1 = localMapReduce B (fun x => .ok (g x)) (fun a b => .ok (op a b)) l ∧
    out2 = localMapReduce B (fun x => .ok (g x)) (fun a b => .ok (op a b)) l := by
  cases l with
  | nil => exact absurd rfl hl
  | cons x xs =>
    rw [C26_local_map_reduce]
    exact ⟨C26_thread_map_reduce B n hn g op hassoc hcomm x xs out1 h1, C26_proc_map_reduce B m hm g op hassoc hcomm x xs hg hop out2 h2⟩

/-- C28: the empty list. The single thread engine returns an empty list (`map_reduce` raises
TypeError), the other engines always raise ZeroDivisionError. -/
theorem C28_empty_list (B : Builtins O) (n : Int) (f : α → Except O O) (p : O → Except O Bool)
    (op : O → O → Except O O) (ko : Bool) (out : Except O (List O)) (out' : Except O O) :
    localMap f ([] : List α) = .ok [] ∧ localMapFilter f p ([] : List α) = .ok [] ∧
    localMapReduce B f op ([] : List α) = .error B.typeError ∧
    (ThreadMap B n f ko [] out ↔ out = .error B.zeroDivision) ∧
    (ThreadMapFilter B n f p [] out ↔ out = .error B.zeroDivision) ∧
    (ThreadMapReduce B n f op [] out' ↔ out' = .error B.zeroDivision) ∧
    (ProcMap B n f ko [] out ↔ out = .error B.zeroDivision) ∧
    (ProcMapFilter B n f p [] out ↔ out = .error B.zeroDivision) ∧
    (ProcMapReduce B n f op [] out' ↔ out' = .error B.zeroDivision) := by
  have hp : viewOfNPartitions ([] : List α) n = .error .zeroDivision :=
    (C04_partitions_error [] n).2 (.inl rfl)
  refine ⟨rfl, rfl, rfl, ?_, ?_, ?_, ?_, ?_, ?_⟩ <;>
    simp only [ThreadMap, ThreadMapFilter, ThreadMapReduce, ProcMap, ProcMapFilter, ProcMapReduce, hp]

/-! ### C79: every schedule ends -/

/-- C79, threads: no schedule runs forever, and a state in which nothing can run is one in which
the caller has its result or exception (no deadlock). -/
theorem C79_threads_end (act : α → Except O (Option O)) (parts : List (List α)) (dest : Nat → Nat) :
    (¬ ∃ run : Nat → TS α O, run 0 = TS.init ∧ ∀ i, TStep act parts dest (run i) (run (i + 1))) ∧
    ∀ s, Relation.ReflTransGen (TStep act parts dest) TS.init s →
      (∀ t, ¬ TStep act parts dest s t) → s.main = .returned ∨ ∃ e, s.main = .raised e := by
  constructor
  · rintro ⟨run, h0, hrun⟩
    exact no_infinite_run (TStep act parts dest) (TInv act parts dest) (TS.measure parts)
      (fun s t hi hs => ⟨hi.step hs, hs.decreases hi⟩) run (by rw [h0]; exact TInv.init ..) hrun
  · intro s hs hstuck
    exact (TInv.reach hs).progress hstuck

/-- C79, processes with a shared queue: no livelock, no deadlock. -/
theorem C79_processes_end (B : Builtins O) (act : α → Except O (Option O)) (parts : List (List α)) :
    (¬ ∃ run : Nat → PS α O, run 0 = PS.init ∧ ∀ i, PStep B act parts (run i) (run (i + 1))) ∧
    ∀ s, Relation.ReflTransGen (PStep B act parts) PS.init s →
      (∀ t, ¬ PStep B act parts s t) → s.main = .returned ∨ ∃ e, s.main = .raised e := by
  constructor
  · rintro ⟨run, h0, hrun⟩
    exact no_infinite_run (PStep B act parts) (fun s => ∃ R Q, PInv B act parts s R Q)
      (PS.measure parts) (fun s t ⟨R, Q, hi⟩ hs => ⟨hi.step hs, hs.decreases hi⟩) run
      (by rw [h0]; exact ⟨_, _, PInv.init ..⟩) hrun
  · intro s hs hstuck
    obtain ⟨R, Q, hi⟩ := PInv.reach hs
    exact hi.progress hstuck

/-- C79, processes with one queue each: no livelock, no deadlock. -/
theorem C79_ordered_processes_end (B : Builtins O) (act : α → Except O (Option O))
    (parts : List (List α)) :
    (¬ ∃ run : Nat → QS α O, run 0 = QS.init ∧ ∀ i, QStep B act parts (run i) (run (i + 1))) ∧
    ∀ s, Relation.ReflTransGen (QStep B act parts) QS.init s →
      (∀ t, ¬ QStep B act parts s t) → s.main = .returned ∨ ∃ e, s.main = .raised e := by
  constructor
  · rintro ⟨run, h0, hrun⟩
    exact no_infinite_run (QStep B act parts) (fun s => ∃ R, QInv B act parts s R)
      (QS.measure parts) (fun s t ⟨R, hi⟩ hs => ⟨hi.step hs, hs.decreases hi⟩) run
      (by rw [h0]; exact ⟨_, QInv.init ..⟩) hrun
  · intro s hs hstuck
    obtain ⟨R, hi⟩ := QInv.reach hs
    exact hi.progress hstuck

/-- C79: so every operation has an outcome, for every input. -/
theorem C79_outcome_exists (B : Builtins O) (n : Int) (f : α → Except O O) (p : O → Except O Bool)
    (op : O → O → Except O O) (ko : Bool) (l : List α) :
    (∃ out, ThreadMap B n f ko l out) ∧ (∃ out, ThreadMapFilter B n f p l out) ∧
    (∃ out, ThreadMapReduce B n f op l out) ∧ (∃ out, ProcMap B n f ko l out) ∧
    (∃ out, ProcMapFilter B n f p l out) ∧ (∃ out, ProcMapReduce B n f op l out) := by
  unfold ThreadMap ThreadMapFilter ThreadMapReduce ProcMap ProcMapFilter ProcMapReduce
  cases viewOfNPartitions l n with
  | error e => exact ⟨⟨_, rfl⟩, ⟨_, rfl⟩, ⟨_, rfl⟩, ⟨_, rfl⟩, ⟨_, rfl⟩, ⟨_, rfl⟩⟩
  | ok parts =>
    obtain ⟨r1, h1⟩ := ThreadRun.exists (mapAct f) parts id
    obtain ⟨r2, h2⟩ := ThreadRun.exists (mapAct f) parts (fun _ => 0)
    obtain ⟨r3, h3⟩ := ThreadRun.exists (mapFilterAct f p) parts (fun _ => 0)
    obtain ⟨r4, h4⟩ := ThreadRun.exists (reduceAct B f op) (parts.map fun part => [part]) (fun _ => 0)
    obtain ⟨r5, h5⟩ := ProcRun.exists B (mapAct f) parts
    obtain ⟨r6, h6⟩ := ProcRunOrdered.exists B (mapAct f) parts
    obtain ⟨r7, h7⟩ := ProcRun.exists B (mapFilterAct f p) parts
    obtain ⟨r8, h8⟩ := ProcRun.exists B (reduceAct B f op) (parts.map fun part => [part])
    refine ⟨?_, ⟨_, _, h3, rfl⟩, ⟨_, _, h4, rfl⟩, ?_, ⟨_, h7⟩, ⟨_, _, h8, rfl⟩⟩
    · cases ko
      · exact ⟨_, _, h2, rfl⟩
      · exact ⟨_, _, h1, rfl⟩
    · cases ko
      · exact ⟨_, h5⟩
      · exact ⟨_, h6⟩

/-! ### instances -/

/-- an outcome exists, and it is the sequential one -/
example : ∃ out, ThreadMap natBuiltins 3 (fun x => .ok (x * x)) true [1, 2, 3, 4, 5] out ∧
    out = .ok [1, 4, 9, 16, 25] := by
  obtain ⟨out, h⟩ := (C79_outcome_exists natBuiltins 3 (fun x => .ok (x * x)) (fun _ => .ok true)
    (fun a b => .ok (a + b)) true [1, 2, 3, 4, 5]).1
  exact ⟨out, h, C24_thread_map_total natBuiltins 3 (by omega) _ _ (by simp) out h⟩

example : CleanFn natBuiltins (fun x : Nat => if x = 2 then .error 103 else .ok x) [1, 2, 3] := by
  intro x hx
  constructor
  · intro e he
    simp only at he
    split at he
    · cases he; exact ⟨rfl, rfl⟩
    · cases he
  · intro y hy
    simp only at hy
    split at hy
    · cases hy
    · cases hy
      simp at hx
      rcases hx with rfl | rfl | rfl <;> rfl

example : [1, 2, 3].mapM (fun x : Nat => if x = 2 then (.error 103 : Except Nat Nat) else .ok x)
    = .error 103 := rfl

/-- subtraction: both schedules are possible and differ -/
example : ThreadMapReduce natBuiltins 2 (fun x : Nat => .ok x) (fun a b => .ok (a - b)) [5, 3] (.ok 2) ∧
    ThreadMapReduce natBuiltins 2 (fun x : Nat => .ok x) (fun a b => .ok (a - b)) [5, 3] (.ok 0) :=
  C26_commutativity_needed natBuiltins (fun x => x) (fun a b => a - b) 5 3

end Prolothar.Parallel
