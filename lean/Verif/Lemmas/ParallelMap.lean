import Verif.Lemmas.ParallelProc
import Verif.Props.ListUtils
set_option linter.unusedSimpArgs false
set_option linter.unusedVariables false
/- Helper lemmas for `Verif/Props/Parallel.lean`: from runs to map, map_filter and map_reduce. -/
namespace Prolothar.Parallel
open Prolothar.ListUtils
variable {α O : Type}

theorem FirstErr.not_allOk {act : α → Except O (Option O)} {l : List α} {e : O}
    (h : FirstErr act l e) : ∃ x ∈ l, act x = .error e := by
  obtain ⟨done, x, todo, rfl, _, h3⟩ := h
  exact ⟨x, by simp, h3⟩

theorem mapAct_ok {f : α → Except O O} {x : α} {eo : Option O} (h : mapAct f x = .ok eo) :
    ∃ y, f x = .ok y ∧ eo = some y := by
  unfold mapAct at h
  cases hf : f x with
  | error e => rw [hf] at h; cases h
  | ok y =>
    rw [hf] at h
    have : Except.ok (ε := O) (some y) = Except.ok eo := h
    cases this; exact ⟨y, rfl, rfl⟩

theorem mapAct_error {f : α → Except O O} {x : α} {e : O} (h : mapAct f x = .error e) :
    f x = .error e := by
  unfold mapAct at h
  cases hf : f x with
  | error e' =>
    rw [hf] at h
    have h : Except.error (α := Option O) e' = .error e := h
    cases h; rfl
  | ok y => rw [hf] at h; cases h

theorem mapM_of_allOk {f : α → Except O O} {l : List α} (h : AllOk (mapAct f) l) :
    l.mapM f = .ok (outs (mapAct f) l) := by
  induction l with
  | nil => rfl
  | cons x xs ih =>
    obtain ⟨eo, h1⟩ := h x (by simp)
    obtain ⟨y, hy, rfl⟩ := mapAct_ok h1
    have ih := ih fun z hz => h z (by simp [hz])
    rw [List.mapM_cons, hy, ih]
    have : outs (mapAct f) (x :: xs) = y :: outs (mapAct f) xs := by
      simp [outs, emit, h1]
    rw [this]; rfl

theorem mapM_of_firstErr {f : α → Except O O} {l : List α} {e : O}
    (h : FirstErr (mapAct f) l e) : l.mapM f = .error e := by
  obtain ⟨done, x, todo, rfl, h2, h3⟩ := h
  rw [List.mapM_append, mapM_of_allOk h2, List.mapM_cons, mapAct_error h3]
  rfl

theorem mapM_ok_total {g : α → O} (l : List α) :
    l.mapM (fun x => (Except.ok (g x) : Except O O)) = .ok (l.map g) := by
  induction l with
  | nil => rfl
  | cons x xs ih => rw [List.mapM_cons, ih]; rfl

theorem mapFilterAct_ok {f : α → Except O O} {p : O → Except O Bool} {x : α} {eo : Option O}
    (h : mapFilterAct f p x = .ok eo) :
    ∃ y b, f x = .ok y ∧ p y = .ok b ∧ eo = if b then some y else none := by
  unfold mapFilterAct at h
  cases hf : f x with
  | error e => rw [hf] at h; cases h
  | ok y =>
    rw [hf] at h
    cases hp : p y with
    | error e =>
      have : (do let b ← p y; return if b then some y else none : Except O (Option O)) = .ok eo := h
      rw [hp] at this; cases this
    | ok b =>
      have : (do let b ← p y; return if b then some y else none : Except O (Option O)) = .ok eo := h
      rw [hp] at this
      have : Except.ok (ε := O) (if b then some y else none) = .ok eo := this
      cases this
      exact ⟨y, b, rfl, hp, rfl⟩

theorem mapFilterAct_error {f : α → Except O O} {p : O → Except O Bool} {x : α} {e : O}
    (h : mapFilterAct f p x = .error e) :
    f x = .error e ∨ ∃ y, f x = .ok y ∧ p y = .error e := by
  unfold mapFilterAct at h
  cases hf : f x with
  | error e' =>
    rw [hf] at h
    have h : Except.error (α := Option O) e' = .error e := h
    cases h; exact .inl rfl
  | ok y =>
    rw [hf] at h
    have h : (do let b ← p y; return if b then some y else none : Except O (Option O)) = .error e := h
    cases hp : p y with
    | error e' =>
      rw [hp] at h
      have h : Except.error (α := Option O) e' = .error e := h
      cases h; exact .inr ⟨y, rfl, hp⟩
    | ok b => rw [hp] at h; cases h

theorem outs_mapFilter {g : α → O} {q : O → Bool} (l : List α) :
    outs (mapFilterAct (fun x => .ok (g x)) (fun o => .ok (q o))) l = (l.map g).filter q := by
  induction l with
  | nil => rfl
  | cons x xs ih =>
    have : outs (mapFilterAct (fun x => .ok (g x)) (fun o => .ok (q o))) (x :: xs)
        = outs (mapFilterAct (fun x => .ok (g x)) (fun o => .ok (q o))) [x]
          ++ outs (mapFilterAct (fun x => .ok (g x)) (fun o => .ok (q o))) xs := outs_append _ [x] xs
    rw [this, ih, List.map_cons]
    have h1 : mapFilterAct (fun x => Except.ok (ε := O) (g x)) (fun o => .ok (q o)) x
        = .ok (if q (g x) then some (g x) else none) := rfl
    rw [outs_single h1]
    cases hq : q (g x) <;> simp [hq]

/-! ### partitions -/

theorem parts_ok {l : List α} {n : Int} {parts : List (List α)} (h : viewOfNPartitions l n = .ok parts) :
    l ≠ [] ∧ 1 ≤ n ∧ parts.flatten = l ∧ parts ≠ [] ∧ ∀ b ∈ parts, b ≠ [] := by
  have hl : ¬ (l = [] ∨ n ≤ 0) := by
    intro hc
    rw [(C04_partitions_error l n).2 hc] at h; cases h
  rw [not_or] at hl
  obtain ⟨parts', h1, h2, h3, h4, _⟩ := C04_partitions l n hl.1 (by omega)
  rw [h1] at h
  cases h
  refine ⟨hl.1, by omega, h2, ?_, h4⟩
  rintro rfl
  simp at h2
  exact hl.1 h2

theorem parts_one (x : α) : viewOfNPartitions [x] 1 = .ok [[x]] := by
  obtain ⟨parts, h1, h2, h3, h4, _⟩ := C04_partitions [x] 1 (by simp) (by omega)
  rw [h1]
  match parts, h3 with
  | [a], _ => simp at h2; rw [h2]
  | [], h3 => simp at h3
  | _ :: _ :: _, h3 => simp at h3; omega

theorem parts_two (x y : α) : viewOfNPartitions [x, y] 2 = .ok [[x], [y]] := by
  obtain ⟨parts, h1, h2, h3, h4, _⟩ := C04_partitions [x, y] 2 (by simp) (by omega)
  rw [h1]
  match parts, h3 with
  | [[a], [b]], _ => simp at h2; rw [h2.1, h2.2]
  | [[], _], _ => exact absurd rfl (h4 [] (by simp))
  | [_, []], _ => exact absurd rfl (h4 [] (by simp))
  | [a :: a' :: as, b :: bs], _ => simp at h2
  | [a :: as, b :: b' :: bs], _ =>
    have := congrArg List.length h2
    simp at this; omega
  | [], h3 => simp at h3
  | [_], h3 => simp at h3
  | _ :: _ :: _ :: _, h3 => simp at h3; omega

theorem singletons_flatten {β : Type} (parts : List β) :
    (parts.map fun part => [part]).flatten = parts := by
  induction parts with
  | nil => rfl
  | cons p ps ih => simp [ih]

/-! ### the process runs -/

theorem msgs_of_allOk {act : α → Except O (Option O)} {l : List α} (h : AllOk act l) :
    msgs act l = outs act l := by
  induction l with
  | nil => rfl
  | cons x xs ih =>
    obtain ⟨eo, h1⟩ := h x (by simp)
    have ih := ih fun z hz => h z (by simp [hz])
    have e1 : msgs act (x :: xs) = msgs act [x] ++ msgs act xs := msgs_append _ [x] xs
    have e2 : outs act (x :: xs) = outs act [x] ++ outs act xs := outs_append _ [x] xs
    rw [e1, e2, ih, msgs_single, outs_single h1]
    simp [msg, h1]

/-- what the process engine can cope with: raised objects are exceptions other than
StopIteration, results are no exceptions -/
structure Sane (B : Builtins O) (act : α → Except O (Option O)) (l : List α) : Prop where
  err : ∀ x ∈ l, ∀ e, act x = .error e → B.isExc e = true ∧ B.isStop e = false
  val : ∀ x ∈ l, ∀ y, act x = .ok (some y) → B.isExc y = false

theorem Sane.noStop {B : Builtins O} {act : α → Except O (Option O)} {l : List α}
    (h : Sane B act l) : ∀ o ∈ msgs act l, B.isStop o = false := by
  intro o ho
  obtain ⟨x, hx, hm⟩ := List.mem_filterMap.1 ho
  unfold msg at hm
  split at hm
  · next eo he =>
    subst hm
    have := h.val x hx o he
    by_contra hc
    rw [B.stop_isExc o (by simpa using hc)] at this; cases this
  · next e he =>
    cases hm
    exact (h.err x hx _ he).2

theorem Sane.raised {B : Builtins O} {act : α → Except O (Option O)} {l : List α}
    (h : Sane B act l) {e : O} (he : e ∈ msgs act l) (hx : B.isExc e = true) :
    ∃ x ∈ l, act x = .error e := by
  obtain ⟨x, hxl, hm⟩ := List.mem_filterMap.1 he
  unfold msg at hm
  split at hm
  · next eo he =>
    subst hm
    rw [h.val x hxl e he] at hx; cases hx
  · next e' he =>
    cases hm
    exact ⟨x, hxl, he⟩

theorem Sane.allOk {B : Builtins O} {act : α → Except O (Option O)} {l : List α}
    (h : Sane B act l) (hx : ∀ o ∈ msgs act l, B.isExc o = false) : AllOk act l := by
  intro x hxl
  cases ha : act x with
  | ok eo => exact ⟨eo, rfl⟩
  | error e =>
    have : e ∈ msgs act l := List.mem_filterMap.2 ⟨x, hxl, by simp [msg, ha]⟩
    have := hx e this
    rw [(h.err x hxl e ha).1] at this; cases this

theorem ProcRun.spec {B : Builtins O} {act : α → Except O (Option O)} {parts : List (List α)}
    {out : Except O (List O)} (h : ProcRun B act parts out) (hs : Sane B act parts.flatten) :
    (∃ r, out = .ok r ∧ AllOk act parts.flatten ∧ r.Perm (outs act parts.flatten)) ∨
    (∃ e, out = .error e ∧ ∃ x ∈ parts.flatten, act x = .error e) := by
  obtain ⟨s, hr, h⟩ := h
  obtain ⟨R, Q, hi⟩ := PInv.reach hr
  rcases h with ⟨h1, h2⟩ | ⟨e, h1, h2⟩
  · left
    obtain ⟨h3, h4⟩ := hi.returned h1 hs.noStop
    have hok : AllOk act parts.flatten := hs.allOk fun o ho => h4 o (h3.mem_iff.2 ho)
    exact ⟨_, h2, hok, by rw [← msgs_of_allOk hok]; exact h3⟩
  · right
    obtain ⟨h3, h4, h5⟩ := hi.raised h1
    exact ⟨e, h2, hs.raised h3 h5⟩

theorem foldl_append_flatten {β : Type} (l : List (List β)) :
    l.tail.foldl (· ++ ·) (l.headD []) = l.flatten := by
  have h : ∀ (a : List β) (l : List (List β)), l.foldl (· ++ ·) a = a ++ l.flatten := by
    intro a l
    induction l generalizing a with
    | nil => simp
    | cons x xs ih => rw [List.foldl_cons, ih]; simp
  cases l with
  | nil => rfl
  | cons x xs => simp [h]

theorem ProcRunOrdered.spec {B : Builtins O} {act : α → Except O (Option O)}
    {parts : List (List α)} {out : Except O (List O)} (h : ProcRunOrdered B act parts out)
    (hs : Sane B act parts.flatten) :
    (∃ r, out = .ok r ∧ AllOk act parts.flatten ∧ r = outs act parts.flatten) ∨
    (∃ e, out = .error e ∧ ∃ x ∈ parts.flatten, act x = .error e) := by
  obtain ⟨s, hr, h⟩ := h
  obtain ⟨R, hi⟩ := QInv.reach hr
  rcases h with ⟨h1, h2⟩ | ⟨e, h1, h2⟩
  · left
    obtain ⟨h3, h4⟩ := hi.returned h1 hs.noStop
    have h5 : ((List.range parts.length).map s.mapped).flatten = msgs act parts.flatten := by
      rw [msgs_flatten]
      congr 1
      apply List.map_congr_left
      intro k hk
      exact h3 k (List.mem_range.1 hk)
    have hok : AllOk act parts.flatten := by
      refine hs.allOk fun o ho => ?_
      rw [← h5] at ho
      obtain ⟨m, hm, ho⟩ := List.mem_flatten.1 ho
      obtain ⟨k, _, rfl⟩ := List.mem_map.1 hm
      exact h4 k o ho
    refine ⟨_, h2, hok, ?_⟩
    rw [foldl_append_flatten, h5, msgs_of_allOk hok]
  · right
    obtain ⟨h3, h4, h5⟩ := hi.raised h1
    exact ⟨e, h2, hs.raised h3 h5⟩

theorem mem_msgs {act : α → Except O (Option O)} {l : List α} {o : O} :
    o ∈ msgs act l ↔ ∃ x ∈ l, act x = .error o ∨ act x = .ok (some o) := by
  unfold msgs
  rw [List.mem_filterMap]
  refine exists_congr fun x => and_congr_right fun _ => ?_
  unfold msg
  cases h : act x with
  | error e => simp
  | ok eo => simp

/-- what can happen without any assumption on the function -/
def AnyOutcome (B : Builtins O) (act : α → Except O (Option O)) (l : List α) (out : Except O (List O)) : Prop :=
  (∃ r, out = .ok r ∧ ((∃ x ∈ l, ∃ o, B.isStop o = true ∧ (act x = .error o ∨ act x = .ok (some o))) ∨
    ∀ x ∈ l, ∀ o, act x = .error o ∨ act x = .ok (some o) → B.isExc o = false)) ∨
  ∃ e, out = .error e ∧ B.isExc e = true ∧ ∃ x ∈ l, act x = .error e ∨ act x = .ok (some e)

theorem ProcRun.any {B : Builtins O} {act : α → Except O (Option O)} {parts : List (List α)}
    {out : Except O (List O)} (h : ProcRun B act parts out) : AnyOutcome B act parts.flatten out := by
  obtain ⟨s, hr, h⟩ := h
  obtain ⟨R, Q, hi⟩ := PInv.reach hr
  rcases h with ⟨h1, h2⟩ | ⟨e, h1, h2⟩
  · left
    refine ⟨_, h2, ?_⟩
    by_cases hns : ∀ o ∈ msgs act parts.flatten, B.isStop o = false
    · right
      obtain ⟨h3, h4⟩ := hi.returned h1 hns
      intro x hx o ho
      exact h4 o (h3.mem_iff.2 (mem_msgs.2 ⟨x, hx, ho⟩))
    · left
      push Not at hns
      obtain ⟨o, ho, hst⟩ := hns
      obtain ⟨x, hx, hm⟩ := mem_msgs.1 ho
      exact ⟨x, hx, o, by simpa using hst, hm⟩
  · right
    obtain ⟨h3, h4, h5⟩ := hi.raised h1
    exact ⟨e, h2, h5, mem_msgs.1 h3⟩

theorem ProcRunOrdered.any {B : Builtins O} {act : α → Except O (Option O)} {parts : List (List α)}
    {out : Except O (List O)} (h : ProcRunOrdered B act parts out) : AnyOutcome B act parts.flatten out := by
  obtain ⟨s, hr, h⟩ := h
  obtain ⟨R, hi⟩ := QInv.reach hr
  rcases h with ⟨h1, h2⟩ | ⟨e, h1, h2⟩
  · left
    refine ⟨_, h2, ?_⟩
    by_cases hns : ∀ o ∈ msgs act parts.flatten, B.isStop o = false
    · right
      obtain ⟨h3, h4⟩ := hi.returned h1 hns
      intro x hx o ho
      have ho := mem_msgs.2 ⟨x, hx, ho⟩
      rw [msgs_flatten] at ho
      obtain ⟨m, hm, ho⟩ := List.mem_flatten.1 ho
      obtain ⟨k, hk, rfl⟩ := List.mem_map.1 hm
      rw [← h3 k (List.mem_range.1 hk)] at ho
      exact h4 k o ho
    · left
      push Not at hns
      obtain ⟨o, ho, hst⟩ := hns
      obtain ⟨x, hx, hm⟩ := mem_msgs.1 ho
      exact ⟨x, hx, o, by simpa using hst, hm⟩
  · right
    obtain ⟨h3, h4, h5⟩ := hi.raised h1
    exact ⟨e, h2, h5, mem_msgs.1 h3⟩

/-! ### reduce -/

theorem reduceGen_total {B : Builtins O} {g : α → O} {op : O → O → O} (x : α) (xs : List α) :
    reduceGen B (fun x => .ok (g x)) (fun a b => .ok (op a b)) (x :: xs)
      = .ok ((xs.map g).foldl op (g x)) := by
  show List.foldlM (fun r y => Except.ok (op r (g y))) (g x) xs = _
  generalize g x = a
  induction xs generalizing a with
  | nil => rfl
  | cons y ys ih => rw [List.foldlM_cons]; exact ih (op a (g y))

theorem reduceGen_error {B : Builtins O} {f : α → Except O O} {op : O → O → Except O O}
    {l : List α} {e : O} (hl : l ≠ []) (h : reduceGen B f op l = .error e) :
    (∃ x ∈ l, f x = .error e) ∨ ∃ a b, op a b = .error e := by
  cases l with
  | nil => exact absurd rfl hl
  | cons x xs =>
    simp only [reduceGen] at h
    cases hf : f x with
    | error e' => rw [hf] at h; left; exact ⟨x, by simp, by rw [hf]; exact h⟩
    | ok r =>
      rw [hf] at h
      replace h : xs.foldlM (fun r y => do let v ← f y; op r v) r = .error e := h
      clear hf hl
      induction xs generalizing r with
      | nil => cases h
      | cons y ys ih =>
        rw [List.foldlM_cons] at h
        cases hy : f y with
        | error e' =>
          rw [hy] at h
          left; exact ⟨y, by simp, by rw [hy]; exact h⟩
        | ok v =>
          rw [hy] at h
          cases ho : op r v with
          | error e' =>
            right
            refine ⟨r, v, ?_⟩
            have : (do let s ← op r v; ys.foldlM (fun r y => do let v ← f y; op r v) s) = .error e := h
            rw [ho] at this
            rw [ho]; exact this
          | ok s =>
            have : (do let s ← op r v; ys.foldlM (fun r y => do let v ← f y; op r v) s) = .error e := h
            rw [ho] at this
            rcases ih s this with ⟨z, hz, he⟩ | h
            · left
              refine ⟨z, ?_, he⟩
              simp only [List.mem_cons] at hz ⊢
              tauto
            · exact .inr h

theorem reduceGen_ok {B : Builtins O} {f : α → Except O O} {op : O → O → Except O O}
    {l : List α} {r : O} (h : reduceGen B f op l = .ok r) : ∀ x ∈ l, ∃ y, f x = .ok y := by
  cases l with
  | nil => cases h
  | cons x xs =>
    simp only [reduceGen] at h
    cases hf : f x with
    | error e' => rw [hf] at h; cases h
    | ok a =>
      rw [hf] at h
      replace h : xs.foldlM (fun r y => do let v ← f y; op r v) a = .ok r := h
      have key : ∀ z ∈ xs, ∃ y, f z = .ok y := by
        clear hf
        induction xs generalizing a with
        | nil => simp
        | cons y ys ih =>
          rw [List.foldlM_cons] at h
          cases hy : f y with
          | error e' => rw [hy] at h; cases h
          | ok v =>
            rw [hy] at h
            have h : (do let s ← op a v; ys.foldlM (fun r y => do let v ← f y; op r v) s) = .ok r := h
            cases ho : op a v with
            | error e' => rw [ho] at h; cases h
            | ok s =>
              rw [ho] at h
              intro z hz
              rcases List.mem_cons.1 hz with rfl | hz
              · exact ⟨v, hy⟩
              · exact ih s h z hz
      intro z hz
      rcases List.mem_cons.1 hz with rfl | hz
      · exact ⟨a, hf⟩
      · exact key z hz

theorem reduceAct_ok {B : Builtins O} {f : α → Except O O} {op : O → O → Except O O}
    {part : List α} {eo : Option O} (h : reduceAct B f op part = .ok eo) :
    ∃ y, reduceGen B f op part = .ok y ∧ eo = some y := by
  unfold reduceAct at h
  cases hf : reduceGen B f op part with
  | error e => rw [hf] at h; cases h
  | ok y =>
    rw [hf] at h
    have : Except.ok (ε := O) (some y) = Except.ok eo := h
    cases this; exact ⟨y, rfl, rfl⟩

theorem reduceAct_error {B : Builtins O} {f : α → Except O O} {op : O → O → Except O O}
    {part : List α} {e : O} (h : reduceAct B f op part = .error e) :
    reduceGen B f op part = .error e := by
  unfold reduceAct at h
  cases hf : reduceGen B f op part with
  | error e' =>
    rw [hf] at h
    have h : Except.error (α := Option O) e' = .error e := h
    cases h; rfl
  | ok y => rw [hf] at h; cases h

theorem outs_length_reduce {B : Builtins O} {f : α → Except O O} {op : O → O → Except O O}
    {parts : List (List α)} (h : AllOk (reduceAct B f op) parts) :
    (outs (reduceAct B f op) parts).length = parts.length := by
  induction parts with
  | nil => rfl
  | cons p ps ih =>
    obtain ⟨eo, h1⟩ := h p (by simp)
    obtain ⟨y, h2, rfl⟩ := reduceAct_ok h1
    have e1 : outs (reduceAct B f op) (p :: ps)
        = outs (reduceAct B f op) [p] ++ outs (reduceAct B f op) ps := outs_append _ [p] ps
    rw [e1, outs_single h1, List.length_append, ih fun z hz => h z (by simp [hz])]
    simp; omega

/-- the value of a reduction, `none` for no elements -/
def red (op : O → O → O) (l : List O) : Option O :=
  l.foldl (fun a x => Option.merge op a (some x)) none

theorem foldl_merge_some (op : O → O → O) (a : O) (l : List O) :
    l.foldl (fun a x => Option.merge op a (some x)) (some a) = some (l.foldl op a) := by
  induction l generalizing a with
  | nil => rfl
  | cons x xs ih => rw [List.foldl_cons, List.foldl_cons]; exact ih (op a x)

theorem red_cons (op : O → O → O) (x : O) (l : List O) : red op (x :: l) = some (l.foldl op x) := by
  unfold red
  rw [List.foldl_cons, Option.merge_none_left, foldl_merge_some]

theorem red_perm {op : O → O → O} [Std.Associative op] [Std.Commutative op] {l m : List O}
    (h : l.Perm m) : red op l = red op m := by
  refine h.foldl_eq' (fun x _ y _ z => ?_) none
  rw [Std.Associative.assoc (op := Option.merge op), Std.Associative.assoc (op := Option.merge op),
    Std.Commutative.comm (op := Option.merge op) (some x)]

theorem foldl_merge {op : O → O → O} [Std.Associative op] (a : Option O) (l : List O) :
    l.foldl (fun a x => Option.merge op a (some x)) a = Option.merge op a (red op l) := by
  induction l generalizing a with
  | nil => simp [red]
  | cons x xs ih =>
    have h2 : red op (x :: xs) = Option.merge op (some x) (red op xs) := by
      rw [← ih]; simp [red]
    rw [List.foldl_cons, ih, h2, Std.Associative.assoc (op := Option.merge op)]

theorem red_append {op : O → O → O} [Std.Associative op] (l m : List O) :
    red op (l ++ m) = Option.merge op (red op l) (red op m) := by
  rw [red, List.foldl_append, foldl_merge]; rfl

/-- reducing the partitions and then the results is reducing the whole list -/
theorem red_outs {B : Builtins O} {g : α → O} {op : O → O → O} [Std.Associative op]
    (parts : List (List α)) (h : ∀ b ∈ parts, b ≠ []) :
    red op (outs (reduceAct B (fun x => .ok (g x)) (fun a b => .ok (op a b))) parts)
      = red op (parts.flatten.map g) := by
  induction parts with
  | nil => rfl
  | cons p ps ih =>
    have e1 : outs (reduceAct B (fun x => .ok (g x)) (fun a b => .ok (op a b))) (p :: ps)
        = outs (reduceAct B (fun x => .ok (g x)) (fun a b => .ok (op a b))) [p]
          ++ outs (reduceAct B (fun x => .ok (g x)) (fun a b => .ok (op a b))) ps := outs_append _ [p] ps
    rw [e1, red_append, ih fun b hb => h b (by simp [hb]), List.flatten_cons, List.map_append, red_append]
    congr 1
    cases p with
    | nil => exact absurd rfl (h [] (by simp))
    | cons x xs =>
      have : reduceAct B (fun x => .ok (g x)) (fun a b => .ok (op a b)) (x :: xs)
          = .ok (some ((xs.map g).foldl op (g x))) := by
        unfold reduceAct; rw [reduceGen_total]; rfl
      rw [outs_single this, List.map_cons, red_cons]
      rfl

/-- reducing the partition results in any order -/
theorem reduce_results {B : Builtins O} {g : α → O} {op : O → O → O} [Std.Associative op]
    [Std.Commutative op] {parts : List (List α)} (h : ∀ b ∈ parts, b ≠ []) {x : α} {xs : List α}
    (hl : parts.flatten = x :: xs) {r : List O}
    (hr : r.Perm (outs (reduceAct B (fun x => .ok (g x)) (fun a b => .ok (op a b))) parts)) :
    reduceGen B Except.ok (fun a b => .ok (op a b)) r = .ok ((xs.map g).foldl op (g x)) := by
  have h1 := red_outs (B := B) (g := g) (op := op) parts h
  rw [← red_perm hr, hl, List.map_cons, red_cons] at h1
  cases r with
  | nil => cases h1
  | cons y ys =>
    have := reduceGen_total (B := B) (g := fun o : O => o) (op := op) y ys
    rw [List.map_id'] at this
    rw [this]
    rw [red_cons] at h1
    rw [Option.some.inj h1]

/-! ### existence of an outcome -/

theorem exists_stuck {S : Type} (step : S → S → Prop) (Inv : S → Prop) (μ : S → Nat)
    (hstep : ∀ s t, Inv s → step s t → Inv t ∧ μ t < μ s) (s : S) (hs : Inv s) :
    ∃ t, Relation.ReflTransGen step s t ∧ Inv t ∧ ∀ u, ¬ step t u := by
  induction hn : μ s using Nat.strongRecOn generalizing s with
  | ind n ih =>
    by_cases h : ∃ u, step s u
    · obtain ⟨u, hu⟩ := h
      obtain ⟨h1, h2⟩ := hstep s u hs hu
      obtain ⟨t, h3, h4, h5⟩ := ih (μ u) (by omega) u h1 rfl
      exact ⟨t, .head hu h3, h4, h5⟩
    · exact ⟨s, .refl, hs, fun u hu => h ⟨u, hu⟩⟩

theorem ThreadRun.exists (act : α → Except O (Option O)) (parts : List (List α)) (dest : Nat → Nat) :
    ∃ out, ThreadRun act parts dest out := by
  obtain ⟨t, h1, h2, h3⟩ := exists_stuck (TStep act parts dest) (TInv act parts dest)
    (TS.measure parts) (fun s t hi hs => ⟨hi.step hs, hs.decreases hi⟩) TS.init (TInv.init ..)
  rcases h2.progress h3 with h | ⟨e, h⟩
  · exact ⟨_, t, h1, .inl ⟨h, rfl⟩⟩
  · exact ⟨_, t, h1, .inr ⟨e, h, rfl⟩⟩

theorem ProcRun.exists (B : Builtins O) (act : α → Except O (Option O)) (parts : List (List α)) :
    ∃ out, ProcRun B act parts out := by
  obtain ⟨t, h1, ⟨R, Q, h2⟩, h3⟩ := exists_stuck (PStep B act parts)
    (fun s => ∃ R Q, PInv B act parts s R Q) (PS.measure parts)
    (fun s t ⟨R, Q, hi⟩ hs => ⟨hi.step hs, hs.decreases hi⟩) PS.init ⟨_, _, PInv.init ..⟩
  rcases h2.progress h3 with h | ⟨e, h⟩
  · exact ⟨_, t, h1, .inl ⟨h, rfl⟩⟩
  · exact ⟨_, t, h1, .inr ⟨e, h, rfl⟩⟩

theorem ProcRunOrdered.exists (B : Builtins O) (act : α → Except O (Option O))
    (parts : List (List α)) : ∃ out, ProcRunOrdered B act parts out := by
  obtain ⟨t, h1, ⟨R, h2⟩, h3⟩ := exists_stuck (QStep B act parts)
    (fun s => ∃ R, QInv B act parts s R) (QS.measure parts)
    (fun s t ⟨R, hi⟩ hs => ⟨hi.step hs, hs.decreases hi⟩) QS.init ⟨_, QInv.init ..⟩
  rcases h2.progress h3 with h | ⟨e, h⟩
  · exact ⟨_, t, h1, .inl ⟨h, rfl⟩⟩
  · exact ⟨_, t, h1, .inr ⟨e, h, rfl⟩⟩

end Prolothar.Parallel
