import Verif.Props.Queries
/-
C202: laws of log queries whose parts may raise, and queries that were built from an iterator.
-/
namespace Prolothar.Queries
open Prolothar.EventLog Prolothar.Spec.Queries

variable {I A V : Type} [DecidableEq A]

/-- what the user gets from `execute` (query.py 25-34): the traces, or the exception -/
def answer (q : Query I A V) (log : Log I A V) : Py (Log I A V) := (execute q log).map Prod.fst

/-- what the user gets from `matches_trace` (query.py 36-39) -/
def verdict (q : Query I A V) (t : Trace I A V) : Py Bool := (matchesTrace t q).map Prod.fst

theorem verdict_and (a b : Query I A V) (t : Trace I A V) :
    verdict (.and a b) t = match verdict a t with | .error e => .error e | .ok true => verdict b t | .ok false => .ok false := by
  unfold verdict
  rw [matchesTrace]
  rcases matchesTrace t a with e | ⟨x, a'⟩
  · rfl
  · cases x
    · rfl
    · rcases matchesTrace t b with e | ⟨y, b'⟩ <;> rfl

theorem verdict_or (a b : Query I A V) (t : Trace I A V) :
    verdict (.or a b) t = match verdict a t with | .error e => .error e | .ok true => .ok true | .ok false => verdict b t := by
  unfold verdict
  rw [matchesTrace]
  rcases matchesTrace t a with e | ⟨x, a'⟩
  · rfl
  · cases x
    · rcases matchesTrace t b with e | ⟨y, b'⟩ <;> rfl
    · rfl

theorem verdict_invert (a : Query I A V) (t : Trace I A V) :
    verdict (.invert a) t = match verdict a t with | .error e => .error e | .ok b => .ok !b := by
  unfold verdict
  rw [matchesTrace]
  rcases matchesTrace t a with e | ⟨x, a'⟩ <;> rfl

/-- a query without iterators is not changed by its evaluation -/
theorem matches_same (t : Trace I A V) (q : Query I A V) : Reusable q → ∀ {b q'}, matchesTrace t q = .ok (b, q') → q' = q := by
  induction q with
  | containsNone acts =>
    intro hr b q' h
    cases acts with
    | iterator l => exact absurd hr (by simp [Reusable])
    | container l => cases h; rfl
  | containsAll acts =>
    intro hr b q' h
    cases acts with
    | iterator l => exact absurd hr (by simp [Reusable])
    | container l => cases h; rfl
  | contains a => intro _ b q' h; cases h; rfl
  | containsWith a m =>
    intro _ b q' h
    rw [matchesTrace] at h
    rcases hx : anyWith a m t.events with e | x <;> rw [hx] at h <;> cases h
    rfl
  | subsequence l =>
    intro _ b q' h
    rw [matchesTrace] at h
    rcases hx : BoyerMoore.isSublist t.activities l with e | x <;> rw [hx] at h <;> cases h
    rfl
  | custom m =>
    intro _ b q' h
    rw [matchesTrace] at h
    rcases hx : m t with e | x <;> rw [hx] at h <;> cases h
    rfl
  | and l r ihl ihr =>
    intro hr b q' h
    rw [matchesTrace] at h
    rcases hx : matchesTrace t l with e | ⟨x, l'⟩
    · rw [hx] at h; cases h
    · rw [hx] at h
      have hl := ihl hr.1 hx
      subst hl
      cases x
      · cases h; rfl
      · rcases hy : matchesTrace t r with e | ⟨y, r'⟩
        · rw [hy] at h; cases h
        · rw [hy] at h
          have hr' := ihr hr.2 hy
          subst hr'
          cases h; rfl
  | or l r ihl ihr =>
    intro hr b q' h
    rw [matchesTrace] at h
    rcases hx : matchesTrace t l with e | ⟨x, l'⟩
    · rw [hx] at h; cases h
    · rw [hx] at h
      have hl := ihl hr.1 hx
      subst hl
      cases x
      · rcases hy : matchesTrace t r with e | ⟨y, r'⟩
        · rw [hy] at h; cases h
        · rw [hy] at h
          have hr' := ihr hr.2 hy
          subst hr'
          cases h; rfl
      · cases h; rfl
  | invert q ih =>
    intro hr b q' h
    rw [matchesTrace] at h
    rcases hx : matchesTrace t q with e | ⟨x, l'⟩
    · rw [hx] at h; cases h
    · rw [hx] at h
      have hl := ih hr hx
      subst hl
      cases h; rfl

theorem answer_nil (q : Query I A V) : answer q [] = .ok [] := rfl

theorem answer_cons {q : Query I A V} (hr : Reusable q) (t : Trace I A V) (log : Log I A V) :
    answer q (t :: log) = match verdict q t with
      | .error e => .error e
      | .ok b => (answer q log).map fun r => if b then t :: r else r := by
  unfold answer verdict
  rw [execute]
  rcases hx : matchesTrace t q with e | ⟨b, q'⟩
  · rfl
  · have := matches_same t q hr hx
    subst this
    show (do let r ← execute q' log; _ : Py _).map Prod.fst = _
    rcases execute q' log with e | ⟨r, q''⟩
    · rfl
    · cases b <;> rfl

theorem answer_congr {q q' : Query I A V} (hr : Reusable q) (hr' : Reusable q') (h : ∀ t, verdict q t = verdict q' t) :
    ∀ log, answer q log = answer q' log
  | [] => rfl
  | t :: log => by rw [answer_cons hr, answer_cons hr', h t, answer_congr hr hr' h log]

/-- C202: executing a query whose parts may raise: if it returns for every trace, the result is the list of the traces for which it
returned True, in order; otherwise the call raises the exception of the first trace for which the query raises -/
theorem C202_execute {q : Query I A V} (hr : Reusable q) : ∀ log : Log I A V,
    ((∀ t ∈ log, ∃ b, verdict q t = .ok b) ∧ answer q log = .ok (log.filter fun t => verdict q t matches .ok true)) ∨
    ∃ pre t post e, log = pre ++ t :: post ∧ (∀ s ∈ pre, ∃ b, verdict q s = .ok b) ∧ verdict q t = .error e ∧ answer q log = .error e
  | [] => .inl ⟨by simp, rfl⟩
  | t :: log => by
    rw [answer_cons hr]
    rcases ht : verdict q t with e | b
    · exact .inr ⟨[], t, log, e, rfl, by simp, ht, rfl⟩
    · rcases C202_execute hr log with ⟨h1, h2⟩ | ⟨pre, s, post, e, h1, h2, h3, h4⟩
      · refine .inl ⟨fun s hs => ?_, ?_⟩
        · rcases List.mem_cons.1 hs with rfl | hs
          · exact ⟨b, ht⟩
          · exact h1 s hs
        · rw [h2, List.filter_cons, ht]
          cases b <;> rfl
      · refine .inr ⟨t :: pre, s, post, e, by rw [h1]; rfl, fun u hu => ?_, h3, by rw [h4]; rfl⟩
        rcases List.mem_cons.1 hu with rfl | hu
        · exact ⟨b, ht⟩
        · exact h2 u hu

/-- C202: laws that hold exactly, that is for all logs and with the same exceptions: double negation, both laws of De Morgan,
idempotence, associativity, absorption and distributivity from the left -/
theorem C202_laws {a b c : Query I A V} (ha : Reusable a) (hb : Reusable b) (hc : Reusable c) (log : Log I A V) :
    answer (.invert (.invert a)) log = answer a log ∧
    answer (.invert (.and a b)) log = answer (.or (.invert a) (.invert b)) log ∧
    answer (.invert (.or a b)) log = answer (.and (.invert a) (.invert b)) log ∧
    answer (.and a a) log = answer a log ∧ answer (.or a a) log = answer a log ∧
    answer (.and (.and a b) c) log = answer (.and a (.and b c)) log ∧
    answer (.or (.or a b) c) log = answer (.or a (.or b c)) log ∧
    answer (.and a (.or a b)) log = answer a log ∧ answer (.or a (.and a b)) log = answer a log ∧
    answer (.and a (.or b c)) log = answer (.or (.and a b) (.and a c)) log ∧
    answer (.or a (.and b c)) log = answer (.and (.or a b) (.or a c)) log := by
  refine ⟨answer_congr ?_ ?_ ?_ log, answer_congr ?_ ?_ ?_ log, answer_congr ?_ ?_ ?_ log, answer_congr ?_ ?_ ?_ log,
    answer_congr ?_ ?_ ?_ log, answer_congr ?_ ?_ ?_ log, answer_congr ?_ ?_ ?_ log, answer_congr ?_ ?_ ?_ log,
    answer_congr ?_ ?_ ?_ log, answer_congr ?_ ?_ ?_ log, answer_congr ?_ ?_ ?_ log⟩ <;>
  first
  | (simp only [Reusable, ha, hb, hc, and_self]; done)
  | (intro t
     simp only [verdict_and, verdict_or, verdict_invert]
     rcases verdict a t with e | x
     · rfl
     · rcases verdict b t with e | y
       · cases x <;> rfl
       · rcases verdict c t with e | z
         · cases x <;> cases y <;> rfl
         · cases x <;> cases y <;> cases z <;> rfl)

/-- C202: executing `a & b` returns a result exactly if executing `a` and then `b` on the result of `a` does, and then it is the same -/
theorem C202_and_twice {a b : Query I A V} (ha : Reusable a) (hb : Reusable b) : ∀ (log r : Log I A V),
    answer (.and a b) log = .ok r ↔ ∃ m, answer a log = .ok m ∧ answer b m = .ok r
  | [], r => by
    constructor
    · intro h; exact ⟨[], rfl, h⟩
    · rintro ⟨m, hm, h⟩
      cases hm; exact h
  | t :: log, r => by
    have hab : Reusable (.and a b) := ⟨ha, hb⟩
    have ih := C202_and_twice ha hb log
    rw [answer_cons hab, answer_cons ha, verdict_and]
    rcases verdict a t with e | x
    · constructor
      · intro h; cases h
      · rintro ⟨m, hm, _⟩; cases hm
    · cases x with
      | false =>
        show (answer (.and a b) log).map (fun r => r) = _ ↔ ∃ m, (answer a log).map (fun r => r) = _ ∧ _
        have hid : ∀ z : Py (Log I A V), z.map (fun r => r) = z := by intro z; cases z <;> rfl
        rw [hid, hid]
        exact ih r
      | true =>
        constructor
        · intro h
          rcases hv : verdict b t with e | y
          · rw [hv] at h; cases h
          · rw [hv] at h
            rcases hr : answer (.and a b) log with e | r'
            · dsimp only at h
              rw [hr] at h; cases h
            · obtain ⟨m, m1, m2⟩ := (ih r').1 hr
              refine ⟨t :: m, by rw [m1]; rfl, ?_⟩
              rw [answer_cons hb, hv, m2]
              dsimp only at h
              rw [hr] at h
              exact h
        · rintro ⟨m, hm, h⟩
          rcases hr : answer a log with e | m'
          · dsimp only at hm
            rw [hr] at hm; cases hm
          · dsimp only at hm
            rw [hr] at hm
            cases hm
            dsimp only at h
            rw [if_pos rfl, answer_cons hb] at h
            rcases hv : verdict b t with e | y
            · rw [hv] at h; cases h
            · rw [hv] at h
              dsimp only at h ⊢
              rcases hr2 : answer b m' with e | r'
              · rw [hr2] at h; cases h
              · rw [hr2] at h
                rw [(ih r').2 ⟨m', hr, hr2⟩]
                exact h

/-- C202: the order of the operands of `&` and `|` can only decide whether the call raises: if both orders return, they return the same -/
theorem C202_commutative {a b : Query I A V} (ha : Reusable a) (hb : Reusable b) (log : Log I A V) {r r' : Log I A V} :
    (answer (.and a b) log = .ok r → answer (.and b a) log = .ok r' → r = r') ∧
    (answer (.or a b) log = .ok r → answer (.or b a) log = .ok r' → r = r') := by
  have key : ∀ {q q' : Query I A V}, Reusable q → Reusable q' →
      (∀ t x y, verdict q t = .ok x → verdict q' t = .ok y → x = y) →
      ∀ (log : Log I A V) {r r'}, answer q log = .ok r → answer q' log = .ok r' → r = r' := by
    intro q q' hq hq' hv log
    induction log with
    | nil => intro r r' h h'; cases h; cases h'; rfl
    | cons t log ih =>
      intro r r' h h'
      rw [answer_cons hq] at h
      rw [answer_cons hq'] at h'
      rcases h1 : verdict q t with e | x
      · rw [h1] at h; cases h
      rcases h2 : verdict q' t with e | y
      · rw [h2] at h'; cases h'
      have hxy := hv t x y h1 h2
      subst hxy
      rw [h1] at h; rw [h2] at h'
      dsimp only at h h'
      rcases h3 : answer q log with e | s
      · rw [h3] at h; cases h
      rcases h4 : answer q' log with e | s'
      · rw [h4] at h'; cases h'
      rw [h3] at h; rw [h4] at h'
      have := ih h3 h4
      subst this
      cases h; cases h'; rfl
  have hab : Reusable (.and a b) := ⟨ha, hb⟩
  have hba : Reusable (.and b a) := ⟨hb, ha⟩
  have hab' : Reusable (.or a b) := ⟨ha, hb⟩
  have hba' : Reusable (.or b a) := ⟨hb, ha⟩
  constructor
  · refine key hab hba (fun t x y h1 h2 => ?_) log
    rw [verdict_and] at h1 h2
    revert h1 h2
    rcases verdict a t with e | u
    · intro h1; cases h1
    rcases verdict b t with e | v
    · intro _ h2; cases h2
    cases u <;> cases v <;> intro h1 h2 <;> cases h1 <;> cases h2 <;> rfl
  · refine key hab' hba' (fun t x y h1 h2 => ?_) log
    rw [verdict_or] at h1 h2
    revert h1 h2
    rcases verdict a t with e | u
    · intro h1; cases h1
    rcases verdict b t with e | v
    · intro _ h2; cases h2
    cases u <;> cases v <;> intro h1 h2 <;> cases h1 <;> cases h2 <;> rfl

/-- C202: a query and its negation raise on the same logs, with the same exception, and otherwise divide the log into two parts, each in
the order of the log -/
theorem C202_partition {q : Query I A V} (hq : Reusable q) (log : Log I A V) :
    (∃ e, answer q log = .error e ∧ answer (.invert q) log = .error e) ∨
    ∃ r s, answer q log = .ok r ∧ answer (.invert q) log = .ok s ∧ r.Sublist log ∧ s.Sublist log ∧ (r ++ s).Perm log := by
  have hi : Reusable (.invert q) := hq
  induction log with
  | nil => exact .inr ⟨[], [], rfl, rfl, .refl _, .refl _, .refl _⟩
  | cons t log ih =>
    rw [answer_cons hq, answer_cons hi, verdict_invert]
    rcases verdict q t with e | b
    · exact .inl ⟨e, rfl, rfl⟩
    · rcases ih with ⟨e, h1, h2⟩ | ⟨r, s, h1, h2, h3, h4, h5⟩
      · left
        refine ⟨e, ?_, ?_⟩
        · dsimp only; rw [h1]; rfl
        · dsimp only; rw [h2]; rfl
      · right
        dsimp only
        rw [h1, h2]
        cases b with
        | true => exact ⟨t :: r, s, rfl, rfl, h3.cons_cons t, h4.cons t, h5.cons t⟩
        | false => exact ⟨r, t :: s, rfl, rfl, h3.cons t, h4.cons_cons t, List.perm_middle.trans (h5.cons t)⟩

/-- C202: executing a query again on its own result changes nothing -/
theorem C202_again {q : Query I A V} (hq : Reusable q) : ∀ {log r : Log I A V}, answer q log = .ok r → answer q r = .ok r
  | [], r, h => by cases h; rfl
  | t :: log, r, h => by
    rw [answer_cons hq] at h
    rcases hv : verdict q t with e | b
    · rw [hv] at h; cases h
    · rw [hv] at h
      dsimp only at h
      rcases hr : answer q log with e | s
      · rw [hr] at h; cases h
      · rw [hr] at h
        have ih := C202_again hq hr
        cases h
        cases b with
        | false => exact ih
        | true =>
          show answer q (t :: s) = .ok (t :: s)
          rw [answer_cons hq, hv, ih]; rfl

/-! ### queries from an iterator -/

omit [DecidableEq A] in
theorem scan_rest (p : A → Bool) : ∀ l, ((scan p l).1 = false → (scan p l).2 = []) ∧ ((scan p l).1 = true → (scan p l).2.length < l.length)
  | [] => ⟨fun _ => rfl, fun h => by cases h⟩
  | x :: l => by
    have ih := scan_rest p l
    unfold scan
    cases p x with
    | true => exact ⟨fun h => (by cases h), fun _ => by simp⟩
    | false =>
      refine ⟨fun h => ih.1 h, fun h => ?_⟩
      have := ih.2 h
      simp only [Bool.false_eq_true, if_false, List.length_cons]
      omega

/-- C202: a `TraceContainsNoneOfTheseActivities` or `TraceContainsAllOfTheseActivities` query built from an iterator (a generator, say) drops some of the first
traces and returns all the others, whatever they contain: once a trace matched, the iterator is exhausted and everything matches. At
most as many traces are dropped as the iterator had elements. -/
theorem C202_iterator (log : Log I A V) (l : List A) :
    (∃ n, n ≤ l.length ∧ answer (.containsNone (.iterator l)) log = .ok (log.drop n)) ∧
    ∃ n, n ≤ l.length ∧ answer (.containsAll (.iterator l)) log = .ok (log.drop n) := by
  constructor
  · induction log generalizing l with
    | nil => exact ⟨0, Nat.zero_le _, rfl⟩
    | cons t log ih =>
      obtain ⟨s1, s2⟩ := scan_rest t.containsActivity l
      obtain ⟨n, n1, n2⟩ := ih (scan t.containsActivity l).2
      unfold answer at n2
      rcases hx : execute (.containsNone (.iterator (scan t.containsActivity l).2)) log with e | ⟨r, q⟩
      · rw [hx] at n2; cases n2
      rw [hx] at n2
      cases n2
      have hans : answer (.containsNone (.iterator l)) (t :: log) =
          .ok (if !(scan t.containsActivity l).1 then t :: log.drop n else log.drop n) := by
        unfold answer
        rw [execute, matchesTrace]
        show Except.map Prod.fst (do let r ← execute (.containsNone (.iterator (scan t.containsActivity l).2)) log; _ : Py _) = _
        rw [hx]
        rfl
      rw [hans]
      cases hb : (scan t.containsActivity l).1 with
      | true => exact ⟨n + 1, by have := s2 hb; omega, rfl⟩
      | false =>
        rw [s1 hb] at n1
        have : n = 0 := by simpa using n1
        subst this
        exact ⟨0, Nat.zero_le _, rfl⟩
  · induction log generalizing l with
    | nil => exact ⟨0, Nat.zero_le _, rfl⟩
    | cons t log ih =>
      obtain ⟨s1, s2⟩ := scan_rest (fun a => !t.containsActivity a) l
      obtain ⟨n, n1, n2⟩ := ih (scan (fun a => !t.containsActivity a) l).2
      unfold answer at n2
      rcases hx : execute (.containsAll (.iterator (scan (fun a => !t.containsActivity a) l).2)) log with e | ⟨r, q⟩
      · rw [hx] at n2; cases n2
      rw [hx] at n2
      cases n2
      have hans : answer (.containsAll (.iterator l)) (t :: log) =
          .ok (if !(scan (fun a => !t.containsActivity a) l).1 then t :: log.drop n else log.drop n) := by
        unfold answer
        rw [execute, matchesTrace]
        show Except.map Prod.fst (do let r ← execute (.containsAll (.iterator (scan (fun a => !t.containsActivity a) l).2)) log; _ : Py _) = _
        rw [hx]
        rfl
      rw [hans]
      cases hb : (scan (fun a => !t.containsActivity a) l).1 with
      | true => exact ⟨n + 1, by have := s2 hb; omega, rfl⟩
      | false =>
        rw [s1 hb] at n1
        have : n = 0 := by simpa using n1
        subst this
        exact ⟨0, Nat.zero_le _, rfl⟩

/-- C202: the other laws fail if a part raises: here `a` holds exactly for the traces with an activity and `b` reads the first activity
and raises IndexError without one: `a & b` returns, `b & a` raises; distributivity from the right fails in the same way; and `a & b`
and the two executions one after the other can raise different exceptions -/
theorem C202_raising_witness :
    let empty : Trace Nat String Unit := ⟨0, [], []⟩
    let full : Trace Nat String Unit := ⟨1, [⟨"x", [], none⟩], []⟩
    let a : Query Nat String Unit := .contains "x"
    let b : Query Nat String Unit := .custom fun t => if t.events.isEmpty then .error .index else .ok true
    let c : Query Nat String Unit := .custom fun t => if t.events.isEmpty then .error .key else .ok true
    let d : Query Nat String Unit := .custom fun t => if t.events.isEmpty then .ok true else .error .value
    answer (.and a b) [empty, full] = .ok [full] ∧ answer (.and b a) [empty, full] = .error .index ∧
    answer (.and (.or (.invert a) b) a) [empty] = .ok [] ∧ answer (.or (.and (.invert a) a) (.and b a)) [empty] = .error .index ∧
    answer (.and c d) [full, empty] = .error .value ∧ (∃ m, m = answer c [full, empty] ∧ m = .error .key) :=
  ⟨by rfl, by rfl, by rfl, by rfl, by rfl, _, rfl, by rfl⟩

/-- the hypotheses are met: a query with a part that raises, and an iterator of two activities -/
example :
    let t : Nat → String → Trace Nat String Unit := fun i a => ⟨i, [⟨a, [], none⟩], []⟩
    let q : Query Nat String Unit := .and (.contains "x") (.custom fun t => if t.id = 3 then .error .key else .ok true)
    Reusable q ∧ answer q [t 1 "x", t 3 "y", t 2 "x"] = .ok [t 1 "x", t 2 "x"] ∧ answer q [t 1 "x", t 3 "x"] = .error .key ∧
    answer (.containsNone (.iterator ["x", "y"])) [t 1 "x", t 2 "y", t 3 "x", t 4 "y"] = .ok [t 3 "x", t 4 "y"] :=
  ⟨⟨trivial, trivial⟩, by rfl, by rfl, by rfl⟩

end Prolothar.Queries
