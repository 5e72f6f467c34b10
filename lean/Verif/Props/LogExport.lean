import Verif.Props.LogTable
import Verif.Lemmas.PrefixTree
/-
C119: csv export of an event log. C120: durations derived from end dates.
-/
namespace Prolothar.LogTable
open Prolothar.EventLog

/-! ### C119 -/

section
variable {I A V : Type}

/-- the lines of the csv file for the events of the log: the number of the trace, the separator, the name of the activity -/
def csvLines (name : A → List Char) (log : Log I A V) (sep : List Char) (n : Nat) : List (List Char) :=
  (log.zipIdx n).flatMap fun p => p.1.events.map fun e => natStr p.2 ++ sep ++ name e.activity

/-- C119: the csv file consists of the header and one line per event, in the order of the log, each ended by a line break. -/
theorem C119_lines (name : A → List Char) (log : Log I A V) (traceCol activityCol sep : List Char) :
    csv name log traceCol activityCol sep =
      ((traceCol ++ sep ++ activityCol) :: csvLines name log sep 0).flatMap (fun l => l ++ ['\n']) := by
  unfold csv csvLines
  rw [List.flatMap_cons]
  congr 1
  rw [List.flatMap_assoc]
  refine List.flatMap_congr fun p _ => ?_
  rw [List.flatMap_map]

theorem lines_inj {l m : List (List Char)} (hl : ∀ x ∈ l, '\n' ∉ x) (hm : ∀ x ∈ m, '\n' ∉ x)
    (h : l.flatMap (fun x => x ++ ['\n']) = m.flatMap fun x => x ++ ['\n']) : l = m := by
  induction l generalizing m with
  | nil =>
    cases m with
    | nil => rfl
    | cons y m => simp at h
  | cons x l ih =>
    cases m with
    | nil => simp at h
    | cons y m =>
      rw [List.flatMap_cons, List.flatMap_cons, List.append_assoc, List.append_assoc] at h
      have key : ∀ (x y a b : List Char), '\n' ∉ x → '\n' ∉ y → x ++ (['\n'] ++ a) = y ++ (['\n'] ++ b) → x = y ∧ a = b := by
        intro x
        induction x with
        | nil =>
          intro y a b _ hy h
          cases y with
          | nil => exact ⟨rfl, by simpa using h⟩
          | cons c y =>
            rw [List.nil_append, List.cons_append, List.cons_append] at h
            exact absurd (by rw [(List.cons.inj h).1]; exact List.mem_cons_self) hy
        | cons c x ih =>
          intro y a b hx hy h
          cases y with
          | nil =>
            rw [List.nil_append, List.cons_append, List.cons_append] at h
            exact absurd (by rw [← (List.cons.inj h).1]; exact List.mem_cons_self) hx
          | cons d y =>
            rw [List.cons_append, List.cons_append] at h
            obtain ⟨h1, h2⟩ := List.cons.inj h
            obtain ⟨h3, h4⟩ := ih y a b (fun hc => hx (List.mem_cons_of_mem _ hc)) (fun hc => hy (List.mem_cons_of_mem _ hc)) h2
            exact ⟨by rw [h1, h3], h4⟩
      obtain ⟨h1, h2⟩ := key x y _ _ (hl x List.mem_cons_self) (hm y List.mem_cons_self) h
      rw [h1, ih (fun z hz => hl z (List.mem_cons_of_mem _ hz)) (fun z hz => hm z (List.mem_cons_of_mem _ hz)) h2]

theorem number_inj {i j : Nat} {c : Char} (hc : c.isDigit = false) {r s : List Char} (h : natStr i ++ c :: r = natStr j ++ c :: s) : i = j ∧ r = s := by
  have hd : ∀ i, ∀ d ∈ natStr i, d.isDigit = true := fun i d hd => Nat.isDigit_of_mem_toDigits (by omega) (by omega) hd
  have key : ∀ (x y : List Char), (∀ d ∈ x, d.isDigit = true) → (∀ d ∈ y, d.isDigit = true) → x ++ c :: r = y ++ c :: s → x = y ∧ r = s := by
    intro x
    induction x with
    | nil =>
      intro y _ hy h
      cases y with
      | nil => exact ⟨rfl, (List.cons.inj h).2⟩
      | cons d y =>
        have := hy d List.mem_cons_self
        rw [← (List.cons.inj h).1, hc] at this
        cases this
    | cons d x ih =>
      intro y hx hy h
      cases y with
      | nil =>
        have := hx d List.mem_cons_self
        rw [(List.cons.inj h).1, hc] at this
        cases this
      | cons d' y =>
        obtain ⟨h1, h2⟩ := List.cons.inj h
        obtain ⟨h3, h4⟩ := ih y (fun z hz => hx z (List.mem_cons_of_mem _ hz)) (fun z hz => hy z (List.mem_cons_of_mem _ hz)) h2
        exact ⟨by rw [h1, h3], h4⟩
  obtain ⟨h1, h2⟩ := key _ _ (hd i) (hd j) h
  exact ⟨PrefixTree.toDigits_inj h1, h2⟩

/-- numbers and activities of the events -/
def numbered (log : Log I A V) (n : Nat) : List (Nat × A) := (log.zipIdx n).flatMap fun p => p.1.events.map fun e => (p.2, e.activity)

theorem numbered_cons (t : Trace I A V) (log : Log I A V) (n : Nat) :
    numbered (t :: log) n = (t.activities.map fun a => (n, a)) ++ numbered log (n + 1) := by
  unfold numbered Trace.activities
  rw [List.zipIdx_cons, List.flatMap_cons, List.map_map]
  rfl

theorem numbered_ge (log : Log I A V) (n : Nat) : ∀ p ∈ numbered log n, n ≤ p.1 := by
  intro p hp
  obtain ⟨q, hq, hp⟩ := List.mem_flatMap.1 hp
  obtain ⟨e, _, rfl⟩ := List.mem_map.1 hp
  exact List.le_snd_of_mem_zipIdx hq

theorem numbered_inj {J W : Type} {l : Log I A V} {m : Log J A W} (hl : ∀ t ∈ l, t.events ≠ []) (hm : ∀ t ∈ m, t.events ≠ []) {n : Nat}
    (h : numbered l n = numbered m n) : toSimple l = toSimple m := by
  induction l generalizing m n with
  | nil =>
    cases m with
    | nil => rfl
    | cons u m =>
      rw [numbered_cons] at h
      have : u.activities = [] := by
        have := (List.append_eq_nil_iff.1 (show _ ++ _ = [] from h.symm)).1
        simpa using this
      exact absurd (by simpa [Trace.activities] using this) (hm u List.mem_cons_self)
  | cons t l ih =>
    cases m with
    | nil =>
      rw [numbered_cons] at h
      have : t.activities = [] := by
        have := (List.append_eq_nil_iff.1 (show _ ++ _ = [] from h)).1
        simpa using this
      exact absurd (by simpa [Trace.activities] using this) (hl t List.mem_cons_self)
    | cons u m =>
      rw [numbered_cons, numbered_cons] at h
      have hf : ∀ {J W : Type} (x : List A) (k : Log J A W), ((x.map fun a => (n, a)) ++ numbered k (n + 1)).filter (fun p => p.1 = n) = x.map fun a => (n, a) := by
        intro J W x k
        rw [List.filter_append, List.filter_eq_self.2, List.filter_eq_nil_iff.2, List.append_nil]
        · intro p hp
          have := numbered_ge k (n + 1) p hp
          simp only [decide_eq_true_eq]
          omega
        · intro p hp
          obtain ⟨a, _, rfl⟩ := List.mem_map.1 hp
          simp
      have h1 := congrArg (List.filter fun p => p.1 = n) h
      rw [hf, hf] at h1
      have hinj : Function.Injective fun a : A => (n, a) := fun a b h => congrArg Prod.snd h
      have h2 := List.map_injective_iff.2 hinj h1
      rw [h2] at h
      have h3 := List.append_cancel_left h
      have := ih (fun t ht => hl t (List.mem_cons_of_mem _ ht)) (fun t ht => hm t (List.mem_cons_of_mem _ ht)) h3
      unfold toSimple at this ⊢
      rw [List.map_cons, List.map_cons, this]
      exact congrArg (· :: _) h2

theorem csvLines_numbered (name : A → List Char) (log : Log I A V) (sep : List Char) (n : Nat) :
    csvLines name log sep n = (numbered log n).map fun p => natStr p.1 ++ sep ++ name p.2 := by
  unfold csvLines numbered
  rw [List.map_flatMap]
  refine List.flatMap_congr fun p _ => ?_
  rw [List.map_map]
  rfl

theorem numbered_of_csv {J W : Type} (name : A → List Char) (hname : Function.Injective name) (log : Log I A V) (log' : Log J A W)
    (traceCol activityCol : List Char) (c : Char) (sep : List Char) (hc : c.isDigit = false) (hsep : '\n' ∉ c :: sep)
    (hn : ∀ t ∈ log, ∀ e ∈ t.events, '\n' ∉ name e.activity) (hn' : ∀ t ∈ log', ∀ e ∈ t.events, '\n' ∉ name e.activity)
    (h : csv name log traceCol activityCol (c :: sep) = csv name log' traceCol activityCol (c :: sep)) :
    numbered log 0 = numbered log' 0 := by
  have h1 : csv name log traceCol activityCol (c :: sep) = _ := C119_lines ..
  have h2 : csv name log' traceCol activityCol (c :: sep) = _ := C119_lines ..
  rw [h1, h2, List.flatMap_cons, List.flatMap_cons] at h
  have h := List.append_cancel_left h
  have hno : ∀ {J W : Type} (log : Log J A W), (∀ t ∈ log, ∀ e ∈ t.events, '\n' ∉ name e.activity) → ∀ x ∈ csvLines name log (c :: sep) 0, '\n' ∉ x := by
    intro J W log hn x hx
    obtain ⟨q, hq, hx⟩ := List.mem_flatMap.1 hx
    obtain ⟨e, he, rfl⟩ := List.mem_map.1 hx
    have hq1 : q.1 ∈ log := by
      have := List.mem_map_of_mem (f := Prod.fst) hq
      rwa [List.zipIdx_map_fst] at this
    simp only [List.mem_append, not_or]
    refine ⟨⟨fun hd => ?_, hsep⟩, hn q.1 hq1 e he⟩
    have := Nat.isDigit_of_mem_toDigits (by omega) (by omega) hd
    exact absurd this (by decide)
  have h := lines_inj (hno log hn) (hno log' hn') h
  rw [csvLines_numbered, csvLines_numbered] at h
  refine List.map_injective_iff.2 ?_ h
  intro p q hpq
  simp only [List.append_assoc, List.cons_append] at hpq
  obtain ⟨h1, h2⟩ := number_inj hc hpq
  exact Prod.ext h1 (hname (List.append_cancel_left h2))

/-- C119: the csv file determines the activities of all traces, if no activity name contains a line break and the separator neither
starts with a digit nor contains a line break. (The separator may occur in activity names.) -/
theorem C119_csv_determines {J W : Type} (name : A → List Char) (hname : Function.Injective name) (log : Log I A V) (log' : Log J A W)
    (hl : ∀ t ∈ log, t.events ≠ []) (hl' : ∀ t ∈ log', t.events ≠ []) (traceCol activityCol : List Char) (c : Char) (sep : List Char)
    (hc : c.isDigit = false) (hsep : '\n' ∉ c :: sep)
    (hn : ∀ t ∈ log, ∀ e ∈ t.events, '\n' ∉ name e.activity) (hn' : ∀ t ∈ log', ∀ e ∈ t.events, '\n' ∉ name e.activity)
    (h : csv name log traceCol activityCol (c :: sep) = csv name log' traceCol activityCol (c :: sep)) :
    toSimple log = toSimple log' :=
  numbered_inj hl hl' (numbered_of_csv name hname log log' traceCol activityCol c sep hc hsep hn hn' h)

theorem numbered_filter (log : Log I A V) (n i : Nat) :
    (numbered log n).filter (fun p => p.1 = n + i) = (((toSimple log)[i]?).getD []).map fun a => (n + i, a) := by
  induction log generalizing n i with
  | nil => rfl
  | cons t log ih =>
    rw [numbered_cons, List.filter_append]
    cases i with
    | zero =>
      rw [List.filter_eq_self.2 (by intro p hp; obtain ⟨a, _, rfl⟩ := List.mem_map.1 hp; simp), List.filter_eq_nil_iff.2, List.append_nil]
      · rfl
      · intro p hp
        have := numbered_ge log (n + 1) p hp
        simp only [decide_eq_true_eq]
        omega
    | succ i =>
      rw [List.filter_eq_nil_iff.2, List.nil_append]
      · have := ih (n + 1) i
        rw [show n + 1 + i = n + (i + 1) by omega] at this
        exact this
      · intro p hp
        obtain ⟨a, _, rfl⟩ := List.mem_map.1 hp
        simp

theorem numbered_ext {J W : Type} {l : Log I A V} {m : Log J A W} (n : Nat)
    (h : ∀ i : Nat, ((toSimple l)[i]?).getD [] = ((toSimple m)[i]?).getD []) : numbered l n = numbered m n := by
  have nil : ∀ {J W : Type} (m : Log J A W) (n : Nat), (∀ i : Nat, ((toSimple m)[i]?).getD [] = []) → numbered m n = [] := by
    intro J W m
    induction m with
    | nil => intro _ _; rfl
    | cons u m ih =>
      intro n h
      have h0 : u.activities = [] := h 0
      rw [numbered_cons, h0, ih (n + 1) fun i => h (i + 1)]
      rfl
  induction l generalizing m n with
  | nil => exact (nil m n fun i => (h i).symm).symm
  | cons t l ih =>
    cases m with
    | nil => exact nil _ n h
    | cons u m =>
      have h0 : t.activities = u.activities := h 0
      rw [numbered_cons, numbered_cons, h0, ih (n + 1) fun i => h (i + 1)]

/-- C119: two logs have the same csv file exactly if they have the same activities at every position, where a trace without events is the
same as no trace. -/
theorem C119_csv_iff {J W : Type} (name : A → List Char) (hname : Function.Injective name) (log : Log I A V) (log' : Log J A W)
    (traceCol activityCol : List Char) (c : Char) (sep : List Char) (hc : c.isDigit = false) (hsep : '\n' ∉ c :: sep)
    (hn : ∀ t ∈ log, ∀ e ∈ t.events, '\n' ∉ name e.activity) (hn' : ∀ t ∈ log', ∀ e ∈ t.events, '\n' ∉ name e.activity) :
    csv name log traceCol activityCol (c :: sep) = csv name log' traceCol activityCol (c :: sep) ↔
      ∀ i : Nat, ((toSimple log)[i]?).getD [] = ((toSimple log')[i]?).getD [] := by
  constructor
  · intro h i
    have := congrArg (List.filter fun p => p.1 = 0 + i) (numbered_of_csv name hname log log' traceCol activityCol c sep hc hsep hn hn' h)
    rw [numbered_filter, numbered_filter] at this
    exact List.map_injective_iff.2 (fun a b h => congrArg Prod.snd h) this
  · intro h
    have h1 : csv name log traceCol activityCol (c :: sep) = _ := C119_lines ..
    have h2 : csv name log' traceCol activityCol (c :: sep) = _ := C119_lines ..
    rw [h1, h2, csvLines_numbered, csvLines_numbered, numbered_ext 0 h]

/-- the logs `[[], [a]]` and `[[], [a], []]` have the same csv file, `[[a]]` has another one -/
example : csv (I := Nat) (V := Nat) String.toList [⟨0, [], []⟩, ⟨1, [⟨"a", [], none⟩], []⟩] ['c'] ['a'] [';'] =
      csv (I := Nat) (V := Nat) String.toList [⟨0, [], []⟩, ⟨1, [⟨"a", [], none⟩], []⟩, ⟨2, [], []⟩] ['c'] ['a'] [';'] ∧
    csv (I := Nat) (V := Nat) String.toList [⟨0, [], []⟩, ⟨1, [⟨"a", [], none⟩], []⟩] ['c'] ['a'] [';'] ≠
      csv (I := Nat) (V := Nat) String.toList [⟨0, [⟨"a", [], none⟩], []⟩] ['c'] ['a'] [';'] := by
  decide +kernel

/-- C119 fails for activity names with line breaks: different logs with the same file. -/
theorem C119_line_break : csv (I := Nat) (V := Nat) String.toList [⟨0, [⟨"a\n0;b", [], none⟩], []⟩] ['c'] ['a'] [';'] =
      csv (I := Nat) (V := Nat) String.toList [⟨0, [⟨"a", [], none⟩, ⟨"b", [], none⟩], []⟩] ['c'] ['a'] [';'] := by
  decide +kernel

end

/-! ### C120 -/

section
variable {I A : Type} (kS kE kD : String)

/-- the start date of an event: its own, or else the end of the previous event, or else (first event) its own end -/
def startDate (prev : Option Int) (e : Event A Int) (stop : Int) : Int := (e.attributes.get? kS).getD (prev.getD stop)

/-- `e'` is `e` with start date and duration; the end date of the event before is `prev` (`none` for the first event) -/
def EventDerived (prev : Option Int) (e e' : Event A Int) (stop : Int) : Prop :=
  e.attributes.get? kE = some stop ∧ startDate kS prev e stop ≤ stop ∧ e'.activity = e.activity ∧ e'.transition = e.transition ∧
  ∀ k, e'.attributes.get? k =
    if k = kD then some (stop - startDate kS prev e stop) else if k = kS then some (startDate kS prev e stop) else e.attributes.get? k

/-- the events `es'` are the events `es` with start dates and durations -/
inductive Derived : Option Int → List (Event A Int) → List (Event A Int) → Prop
  | nil {prev} : Derived prev [] []
  | cons {prev e e' stop es es'} (h : EventDerived kS kE kD prev e e' stop) (hs : Derived (some stop) es es') :
      Derived prev (e :: es) (e' :: es')

/-- every event has an end date that is not before its start date -/
def Consistent : Option Int → List (Event A Int) → Prop
  | _, [] => True
  | prev, e :: es => ∃ stop, e.attributes.get? kE = some stop ∧ startDate kS prev e stop ≤ stop ∧ Consistent (some stop) es

variable {kS kE kD}

theorem deriveEvent_ok (h1 : kS ≠ kE) (h2 : kS ≠ kD) (h3 : kE ≠ kD) {e : Event A Int} {stop start : Int} {sd : Py Int}
    (he : e.attributes.get? kE = some stop) (hs : (match e.attributes.get? kS with | some v => .ok v | none => sd) = (.ok start : Py Int)) :
    (start ≤ stop → ∃ e', deriveEvent kS kE kD e sd = .ok e' ∧ e'.activity = e.activity ∧ e'.transition = e.transition ∧
      ∀ k, e'.attributes.get? k = if k = kD then some (stop - start) else if k = kS then some start else e.attributes.get? k) ∧
    (stop < start → deriveEvent kS kE kD e sd = .error .value) := by
  have hattrs : ∃ d : Dict String Int, (if e.attributes.has kS then .ok e.attributes
      else sd.map fun d => e.attributes.put kS d : Py (Dict String Int)) = .ok d ∧
      ∀ k, d.get? k = if k = kS then some start else e.attributes.get? k := by
    cases hv : e.attributes.get? kS with
    | some v =>
      rw [hv] at hs
      obtain rfl : v = start := by injection hs
      refine ⟨e.attributes, ?_, fun k => ?_⟩
      · rw [if_pos (by unfold Dict.has; rw [hv]; rfl)]
      · by_cases hk : k = kS
        · subst hk; rw [if_pos rfl, hv]
        · rw [if_neg hk]
    | none =>
      rw [hv] at hs
      have hs : sd = .ok start := hs
      refine ⟨e.attributes.put kS start, ?_, fun k => ?_⟩
      · rw [if_neg (by unfold Dict.has; rw [hv]; simp), hs]; rfl
      · by_cases hk : k = kS
        · subst hk; rw [if_pos rfl]; exact Dict.get?_put_self _ _ _
        · rw [if_neg hk]; exact Dict.get?_put_of_ne _ _ (Ne.symm hk)
  obtain ⟨d, hd, hget⟩ := hattrs
  have hrun : deriveEvent kS kE kD e sd = if stop - start < 0 then .error .value else .ok { e with attributes := d.put kD (stop - start) } := by
    unfold deriveEvent
    rw [hd]
    have g1 : d.getItem kE = .ok stop := by unfold Dict.getItem; rw [hget, if_neg (Ne.symm h1), he]
    have g2 : d.getItem kS = .ok start := by unfold Dict.getItem; rw [hget, if_pos rfl]
    have g3 : (d.put kD (stop - start)).getItem kD = .ok (stop - start) := by unfold Dict.getItem; rw [Dict.get?_put_self]
    simp only [bind, Except.bind, g1, g2, g3]
  rw [hrun]
  constructor
  · intro hle
    rw [if_neg (by omega)]
    refine ⟨_, rfl, rfl, rfl, fun k => ?_⟩
    by_cases hk : k = kD
    · subst hk; rw [if_pos rfl]; exact Dict.get?_put_self _ _ _
    · rw [if_neg hk]
      exact (Dict.get?_put_of_ne _ _ (Ne.symm hk)).trans (hget k)
  · intro hlt
    rw [if_pos (by omega)]

theorem deriveEvent_noEnd (h1 : kS ≠ kE) {e : Event A Int} {sd : Py Int} (he : e.attributes.get? kE = none)
    (hsd : ∀ x, sd = .error x → x = .key) : deriveEvent kS kE kD e sd = .error .key := by
  unfold deriveEvent
  by_cases h : e.attributes.has kS = true
  · rw [if_pos h]
    have : e.attributes.getItem kE = .error .key := by unfold Dict.getItem; rw [he]
    simp only [bind, Except.bind, this]
  · rw [if_neg h]
    cases sd with
    | error x => rw [hsd x rfl]; rfl
    | ok v =>
      have : (e.attributes.put kS v).getItem kE = .error .key := by unfold Dict.getItem; rw [Dict.get?_put_of_ne _ _ h1, he]
      simp only [bind, Except.bind, Except.map, this]

theorem start_of {e : Event A Int} {prev : Option Int} {stop : Int} {sd : Py Int}
    (hsd : sd = .ok (prev.getD stop)) :
    (match e.attributes.get? kS with | some v => .ok v | none => sd) = (.ok (startDate kS prev e stop) : Py Int) := by
  unfold startDate
  cases e.attributes.get? kS with
  | some v => rfl
  | none => exact hsd

theorem deriveLoop_spec (h1 : kS ≠ kE) (h2 : kS ≠ kD) (h3 : kE ≠ kD) (es : List (Event A Int)) (last : Event A Int) (p : Int)
    (hp : last.attributes.get? kE = some p) :
    (∃ es', deriveLoop kS kE kD last es = .ok es' ∧ Derived kS kE kD (some p) es es' ∧ Consistent kS kE (some p) es) ∨
    ((∃ x, deriveLoop kS kE kD last es = .error x ∧ (x = .value ∨ x = .key ∧ ∃ e ∈ es, e.attributes.get? kE = none)) ∧
      ¬ Consistent kS kE (some p) es) := by
  induction es generalizing last p with
  | nil => exact .inl ⟨[], rfl, .nil, trivial⟩
  | cons e es ih =>
    have hlast : last.attributes.getItem kE = .ok p := by unfold Dict.getItem; rw [hp]
    cases he : e.attributes.get? kE with
    | none =>
      right
      refine ⟨⟨.key, ?_, .inr ⟨rfl, e, List.mem_cons_self, he⟩⟩, ?_⟩
      · unfold deriveLoop
        rw [deriveEvent_noEnd h1 he (by rw [hlast]; intro x hx; cases hx)]
        rfl
      · rintro ⟨stop, h4, _⟩
        rw [he] at h4; cases h4
    | some stop =>
      have hs := start_of (kS := kS) (e := e) (prev := some p) (stop := stop) (sd := last.attributes.getItem kE) hlast
      obtain ⟨k1, k2⟩ := deriveEvent_ok h1 h2 h3 he hs
      by_cases hle : startDate kS (some p) e stop ≤ stop
      · obtain ⟨e', r1, r2, r3, r4⟩ := k1 hle
        have he' : e'.attributes.get? kE = some stop := by rw [r4, if_neg h3, if_neg (Ne.symm h1), he]
        rcases ih e' stop he' with ⟨es', q1, q2, q3⟩ | ⟨⟨x, q1, q2⟩, q3⟩
        · left
          refine ⟨e' :: es', ?_, .cons ⟨he, hle, r2, r3, r4⟩ q2, stop, he, hle, q3⟩
          unfold deriveLoop
          rw [r1]
          show (do let rest ← deriveLoop kS kE kD e' es; return e' :: rest) = _
          rw [q1]
          rfl
        · right
          refine ⟨⟨x, ?_, q2.imp id fun ⟨hx, y, hy, hy2⟩ => ⟨hx, y, List.mem_cons_of_mem _ hy, hy2⟩⟩, ?_⟩
          · unfold deriveLoop
            rw [r1]
            show (do let rest ← deriveLoop kS kE kD e' es; return e' :: rest) = _
            rw [q1]
            rfl
          · rintro ⟨stop', h4, _, h5⟩
            rw [he] at h4
            obtain rfl := Option.some.inj h4
            exact q3 h5
      · right
        refine ⟨⟨.value, ?_, .inl rfl⟩, ?_⟩
        · unfold deriveLoop
          rw [k2 (by omega)]
          rfl
        · rintro ⟨stop', h4, h5, _⟩
          rw [he] at h4
          obtain rfl := Option.some.inj h4
          exact hle h5

/-- the treatment of one trace -/
theorem deriveTrace_spec (h1 : kS ≠ kE) (h2 : kS ≠ kD) (h3 : kE ≠ kD) (t : Trace I A Int) :
    (t.events ≠ [] ∧ Consistent kS kE none t.events → ∃ es', deriveTrace kS kE kD t = .ok { t with events := es' } ∧ Derived kS kE kD none t.events es') ∧
    (¬ (t.events ≠ [] ∧ Consistent kS kE none t.events) → ∃ x, deriveTrace kS kE kD t = .error x ∧
      (x = .index ∧ t.events = [] ∨ x = .value ∨ x = .key ∧ ∃ e ∈ t.events, e.attributes.get? kE = none)) := by
  unfold deriveTrace
  cases hev : t.events with
  | nil => exact ⟨fun h => absurd rfl h.1, fun _ => ⟨.index, rfl, .inl ⟨rfl, rfl⟩⟩⟩
  | cons e es =>
    simp only [ne_eq, reduceCtorEq, not_false_eq_true, true_and]
    cases he : e.attributes.get? kE with
    | none =>
      have herr : e.attributes.getItem kE = .error .key := by unfold Dict.getItem; rw [he]
      refine ⟨?_, fun _ => ⟨.key, ?_, .inr (.inr ⟨rfl, e, List.mem_cons_self, he⟩)⟩⟩
      · rintro ⟨stop, h4, _⟩
        rw [he] at h4; cases h4
      · rw [deriveEvent_noEnd h1 he (by rw [herr]; intro x hx; cases hx; rfl)]
        rfl
    | some stop =>
      have hend : e.attributes.getItem kE = .ok stop := by unfold Dict.getItem; rw [he]
      have hs := start_of (kS := kS) (e := e) (prev := none) (stop := stop) (sd := e.attributes.getItem kE) hend
      obtain ⟨k1, k2⟩ := deriveEvent_ok h1 h2 h3 he hs
      by_cases hle : startDate kS none e stop ≤ stop
      · obtain ⟨e', r1, r2, r3, r4⟩ := k1 hle
        have he' : e'.attributes.get? kE = some stop := by rw [r4, if_neg h3, if_neg (Ne.symm h1), he]
        rw [r1]
        rcases deriveLoop_spec h1 h2 h3 es e' stop he' with ⟨es', q1, q2, q3⟩ | ⟨⟨x, q1, q2⟩, q3⟩
        · refine ⟨fun _ => ⟨e' :: es', ?_, .cons ⟨he, hle, r2, r3, r4⟩ q2⟩, fun hc => absurd ⟨stop, he, hle, q3⟩ hc⟩
          show (do let rest ← deriveLoop kS kE kD e' es; return { t with events := e' :: rest }) = _
          rw [q1]
          rfl
        · refine ⟨?_, fun _ => ⟨x, ?_, .inr (q2.imp id fun ⟨hx, y, hy, hy2⟩ => ⟨hx, y, List.mem_cons_of_mem _ hy, hy2⟩)⟩⟩
          · rintro ⟨stop', h4, _, h5⟩
            rw [he] at h4
            obtain rfl := Option.some.inj h4
            exact absurd h5 q3
          · show (do let rest ← deriveLoop kS kE kD e' es; return { t with events := e' :: rest }) = _
            rw [q1]
            rfl
      · rw [k2 (by omega)]
        refine ⟨?_, fun _ => ⟨.value, rfl, .inr (.inl rfl)⟩⟩
        rintro ⟨stop', h4, h5, _⟩
        rw [he] at h4
        obtain rfl := Option.some.inj h4
        exact absurd h5 hle

/-- C120: if no trace is empty and every event has an end date that is not before its start date, all events get their start date
and duration; nothing else changes. -/
theorem C120_durations (h1 : kS ≠ kE) (h2 : kS ≠ kD) (h3 : kE ≠ kD) (log : Log I A Int)
    (h : ∀ t ∈ log, t.events ≠ [] ∧ Consistent kS kE none t.events) :
    ∃ log', deriveDuration kS kE kD log = .ok log' ∧
      List.Forall₂ (fun t t' => t'.id = t.id ∧ t'.attributes = t.attributes ∧ Derived kS kE kD none t.events t'.events) log log' := by
  induction log with
  | nil => exact ⟨[], rfl, .nil⟩
  | cons t log ih =>
    obtain ⟨es', r1, r2⟩ := (deriveTrace_spec h1 h2 h3 t).1 (h t List.mem_cons_self)
    obtain ⟨log', q1, q2⟩ := ih fun u hu => h u (List.mem_cons_of_mem _ hu)
    refine ⟨{ t with events := es' } :: log', ?_, .cons ⟨rfl, rfl, r2⟩ q2⟩
    unfold deriveDuration at q1 ⊢
    rw [List.mapM_cons, r1]
    show (List.mapM (deriveTrace kS kE kD) log >>= fun rest => (pure (_ :: rest) : Py _)) = _
    rw [q1]
    rfl

/-- C120: otherwise an exception is raised: an IndexError only for an empty trace, a KeyError only for a missing end date, else the ValueError. -/
theorem C120_errors (h1 : kS ≠ kE) (h2 : kS ≠ kD) (h3 : kE ≠ kD) (log : Log I A Int)
    (h : ∃ t ∈ log, ¬ (t.events ≠ [] ∧ Consistent kS kE none t.events)) :
    ∃ x, deriveDuration kS kE kD log = .error x ∧
      (x = .index ∧ (∃ t ∈ log, t.events = []) ∨ x = .value ∨ x = .key ∧ ∃ t ∈ log, ∃ e ∈ t.events, e.attributes.get? kE = none) := by
  induction log with
  | nil => obtain ⟨t, ht, _⟩ := h; cases ht
  | cons t log ih =>
    unfold deriveDuration at ih ⊢
    rw [List.mapM_cons]
    by_cases hc : t.events ≠ [] ∧ Consistent kS kE none t.events
    · obtain ⟨es', r1, r2⟩ := (deriveTrace_spec h1 h2 h3 t).1 hc
      obtain ⟨u, hu, hbad⟩ := h
      rcases List.mem_cons.1 hu with rfl | hu
      · exact absurd hc hbad
      obtain ⟨x, q1, q2⟩ := ih ⟨u, hu, hbad⟩
      refine ⟨x, ?_, ?_⟩
      · rw [r1]
        show (List.mapM (deriveTrace kS kE kD) log >>= fun rest => (pure (_ :: rest) : Py _)) = _
        rw [q1]
        rfl
      · rcases q2 with ⟨hx, y, hy, hy2⟩ | hx | ⟨hx, y, hy, hy2⟩
        · exact .inl ⟨hx, y, List.mem_cons_of_mem _ hy, hy2⟩
        · exact .inr (.inl hx)
        · exact .inr (.inr ⟨hx, y, List.mem_cons_of_mem _ hy, hy2⟩)
    · obtain ⟨x, r1, r2⟩ := (deriveTrace_spec h1 h2 h3 t).2 hc
      refine ⟨x, ?_, ?_⟩
      · rw [r1]; rfl
      · rcases r2 with ⟨hx, hy⟩ | hx | ⟨hx, hy⟩
        · exact .inl ⟨hx, t, List.mem_cons_self, hy⟩
        · exact .inr (.inl hx)
        · exact .inr (.inr ⟨hx, t, List.mem_cons_self, hy⟩)

/-- C120: without start dates, the events need only be sorted by end date; the durations are then the times between the ends -/
theorem C120_sorted (prev : Option Int) (es : List (Event A Int)) (ends : List Int)
    (hs : ∀ e ∈ es, e.attributes.get? kS = none) (he : es.map (fun e => e.attributes.get? kE) = ends.map some) :
    Consistent kS kE prev es ↔ (∀ p ∈ prev, ∀ x ∈ ends.head?, p ≤ x) ∧ ends.Pairwise (· ≤ ·) := by
  induction es generalizing prev ends with
  | nil =>
    cases ends with
    | nil => simp [Consistent]
    | cons x ends => simp at he
  | cons e es ih =>
    cases ends with
    | nil => simp at he
    | cons x ends =>
      rw [List.map_cons, List.map_cons] at he
      obtain ⟨he1, he2⟩ := List.cons.inj he
      have hs0 : startDate kS prev e x = prev.getD x := by
        unfold startDate; rw [hs e List.mem_cons_self]; rfl
      have hih := ih (some x) ends (fun e he => hs e (List.mem_cons_of_mem _ he)) he2
      have hcons : Consistent kS kE prev (e :: es) ↔ prev.getD x ≤ x ∧ Consistent kS kE (some x) es := by
        constructor
        · rintro ⟨stop, a, b, c⟩
          rw [he1] at a
          obtain rfl := Option.some.inj a
          exact ⟨hs0 ▸ b, c⟩
        · rintro ⟨b, c⟩
          exact ⟨x, he1, hs0 ▸ b, c⟩
      rw [hcons, hih, List.pairwise_cons]
      have hhead : (prev.getD x ≤ x) ↔ ∀ p ∈ prev, ∀ y ∈ (x :: ends).head?, p ≤ y := by
        cases prev with
        | none => simp
        | some p => simp
      rw [← hhead]
      refine and_congr Iff.rfl ⟨?_, ?_⟩
      · rintro ⟨a, b⟩
        refine ⟨fun y hy => ?_, b⟩
        cases ends with
        | nil => cases hy
        | cons z ends =>
          have hxz : x ≤ z := a x rfl z rfl
          rcases List.mem_cons.1 hy with rfl | hy
          · exact hxz
          · exact hxz.trans ((List.pairwise_cons.1 b).1 y hy)
      · rintro ⟨a, b⟩
        refine ⟨fun p hp y hy => ?_, b⟩
        cases hp
        exact a y (List.mem_of_mem_head? hy)
end

/-! ### the hypotheses are met -/

def sampleLog : Log Nat Nat Nat := [⟨5, [⟨1, [("x", 10), ("w", 11)], none⟩, ⟨2, [("w", 12), ("x", 13)], none⟩], [("q", 7)]⟩, ⟨3, [⟨1, [("w", 1), ("x", 2)], none⟩], [("q", 8)]⟩]

example : sampleLog ≠ [] ∧ Uniform ["q"] ["w", "x"] sampleLog ∧ (["trace", "Activity"] ++ ["q"] ++ ["w", "x"]).Nodup ∧
    (sampleLog.map Trace.id).Nodup ∧
    (toFrame sampleLog true >>= fun f => fromFrame f "trace" "Activity" ["w", "x"] ["q"]) = .ok
      [⟨3, [⟨1, [("w", 1), ("x", 2)], none⟩], [("trace", 3), ("q", 8)]⟩,
       ⟨5, [⟨1, [("w", 11), ("x", 10)], none⟩, ⟨2, [("w", 12), ("x", 13)], none⟩], [("trace", 5), ("q", 7)]⟩] := by
  refine ⟨by decide, ⟨?_, ?_⟩, by decide, by decide, by decide +kernel⟩
  · intro t ht
    simp [sampleLog] at ht
    rcases ht with rfl | rfl <;> refine ⟨by unfold Dict.WF; decide, ?_, by decide⟩ <;> intro k <;> simp [Dict.keys]
  · intro t ht e he
    simp [sampleLog] at ht
    rcases ht with rfl | rfl <;> simp at he
    · rcases he with rfl | rfl <;> refine ⟨by unfold Dict.WF; decide, ?_⟩ <;> intro k <;> simp [Dict.keys, or_comm]
    · subst he; refine ⟨by unfold Dict.WF; decide, ?_⟩; intro k; simp [Dict.keys]

example : ∃ t : Trace Nat Nat Int, t.events.length = 3 ∧ Consistent "s" "e" none t.events ∧
    deriveDuration "s" "e" "d" [t] = .ok [⟨0, [⟨1, [("e", 4), ("s", 4), ("d", 0)], none⟩, ⟨2, [("e", 9), ("s", 4), ("d", 5)], none⟩, ⟨3, [("s", 1), ("e", 6), ("d", 5)], none⟩], []⟩] := by
  refine ⟨⟨0, [⟨1, [("e", 4)], none⟩, ⟨2, [("e", 9)], none⟩, ⟨3, [("s", 1), ("e", 6)], none⟩], []⟩, rfl, ?_, by decide +kernel⟩
  exact ⟨4, rfl, by decide, 9, rfl, by decide, 6, rfl, by decide, trivial⟩

end Prolothar.LogTable
