import Verif.Lemmas.ParallelMap
import Verif.Model.ParallelCrash
set_option linter.unusedSimpArgs false
set_option linter.unusedVariables false
/- Helper lemmas for `Verif/Props/ParallelCrash.lean`: the engines with crashes simulate the engines without crashes on
less work. -/
namespace Prolothar.Parallel
open Prolothar.ListUtils
variable {α O : Type}

/-! ### threads -/

/-- the elements before the first exiting one -/
def before (exits : α → Bool) (l : List α) : List α := l.takeWhile fun x => !exits x

theorem before_cons_false {exits : α → Bool} {x : α} (h : exits x = false) (xs : List α) :
    before exits (x :: xs) = x :: before exits xs := by simp [before, h]

theorem before_cons_true {exits : α → Bool} {x : α} (h : exits x = true) (xs : List α) :
    before exits (x :: xs) = [] := by simp [before, h]

def TW.cut (exits : α → Bool) : TW α O → TW α O
  | .running t => .running (before exits t)
  | .holding o t => .holding o (before exits t)
  | w => w

def TS.cut (exits : α → Bool) (s : TS α O) : TS α O := { s with ws := fun k => (s.ws k).cut exits }

theorem cut_update (exits : α → Bool) (ws : Nat → TW α O) (k : Nat) (w : TW α O) :
    (fun j => (Function.update ws k w j).cut exits)
      = Function.update (fun j => (ws j).cut exits) k (w.cut exits) := by
  funext j
  by_cases h : j = k
  · subst h; simp
  · simp [Function.update_of_ne h]

theorem TXStep.cut {act : α → Except O (Option O)} {exits : α → Bool} {w w' : TW α O} {eo : Option O}
    (h : TXStep act exits w eo w') : TWStep act (w.cut exits) eo (w'.cut exits) := by
  cases h with
  | keep h1 h2 => simp only [TW.cut, before_cons_false h1]; exact .keep h2
  | skip h1 h2 => simp only [TW.cut, before_cons_false h1]; exact .skip h2
  | raise h1 h2 => simp only [TW.cut, before_cons_false h1]; exact .raise h2
  | append => exact .append
  | done => exact .done
  | exit h1 => simp only [TW.cut, before_cons_true h1]; exact .done

theorem TCStep.cut {act : α → Except O (Option O)} {exits : α → Bool} {parts : List (List α)} {dest : Nat → Nat}
    {s t : TS α O} (h : TCStep act exits parts dest s t) :
    TStep act (parts.map (before exits)) dest (s.cut exits) (t.cut exits) := by
  cases h with
  | @start k part h1 h2 =>
    have := TStep.start (act := act) (dest := dest) (s := s.cut exits) (parts := parts.map (before exits)) h1
      (part := before exits part) (by simp [h2])
    simp only [TS.cut, cut_update]
    exact this
  | started h1 => exact .started (s := s.cut exits) (by simpa [TS.cut] using h1)
  | @join k h1 h2 h3 => exact .join (s := s.cut exits) h1 (by simpa using h2) (by simp [TS.cut, h3, TW.cut])
  | joinRaise h1 h2 h3 => exact .joinRaise (s := s.cut exits) h1 (by simpa using h2) (by simp [TS.cut, h3, TW.cut])
  | joined h1 => exact .joined (s := s.cut exits) (by simpa [TS.cut] using h1)
  | @worker k eo w h1 =>
    simp only [TS.cut, cut_update]
    exact .worker (s := s.cut exits) h1.cut

theorem TCStep.reach {act : α → Except O (Option O)} {exits : α → Bool} {parts : List (List α)} {dest : Nat → Nat}
    {s t : TS α O} (h : Relation.ReflTransGen (TCStep act exits parts dest) s t) :
    Relation.ReflTransGen (TStep act (parts.map (before exits)) dest) (s.cut exits) (t.cut exits) := by
  induction h with
  | refl => exact .refl
  | tail _ h ih => exact ih.tail h.cut

theorem ThreadRunC.cut {act : α → Except O (Option O)} {exits : α → Bool} {parts : List (List α)} {dest : Nat → Nat}
    {out : Except O (Nat → List O)} (h : ThreadRunC act exits parts dest out) :
    ThreadRun act (parts.map (before exits)) dest out := by
  obtain ⟨s, h1, h2⟩ := h
  exact ⟨s.cut exits, TCStep.reach h1, h2⟩

theorem TW.cut_finished {exits : α → Bool} {w : TW α O} (h : w.cut exits = .finished) : w = .finished := by
  cases w <;> simp [TW.cut] at h ⊢

theorem TW.cut_failed {exits : α → Bool} {w : TW α O} {e : O} (h : w.cut exits = .failed e) : w = .failed e := by
  cases w <;> simp [TW.cut] at h ⊢; exact h

/-- a thread that could go on with less work can go on -/
theorem TXStep.of_cut {act : α → Except O (Option O)} {exits : α → Bool} {w u : TW α O} {eo : Option O}
    (h : TWStep act (w.cut exits) eo u) : ∃ eo' w', TXStep act exits w eo' w' := by
  cases w with
  | idle => cases h
  | finished => cases h
  | failed e => cases h
  | holding o t => exact ⟨_, _, .append⟩
  | running t =>
    cases t with
    | nil => exact ⟨_, _, .done⟩
    | cons x xs =>
      cases hx : exits x with
      | true => exact ⟨_, _, .exit hx⟩
      | false =>
        cases ha : act x with
        | error e => exact ⟨_, _, .raise hx ha⟩
        | ok eo =>
          cases eo with
          | none => exact ⟨_, _, .skip hx ha⟩
          | some o => exact ⟨_, _, .keep hx ha⟩

theorem TCStep.of_cut {act : α → Except O (Option O)} {exits : α → Bool} {parts : List (List α)} {dest : Nat → Nat}
    {s u : TS α O} (h : TStep act (parts.map (before exits)) dest (s.cut exits) u) :
    ∃ t, TCStep act exits parts dest s t := by
  cases h with
  | @start k part h1 h2 =>
    simp only [List.getElem?_map, Option.map_eq_some_iff] at h2
    obtain ⟨p, h2, _⟩ := h2
    exact ⟨_, .start h1 h2⟩
  | started h1 => exact ⟨_, .started (by simpa [TS.cut] using h1)⟩
  | join h1 h2 h3 => exact ⟨_, .join h1 (by simpa using h2) (TW.cut_finished h3)⟩
  | joinRaise h1 h2 h3 => exact ⟨_, .joinRaise h1 (by simpa using h2) (TW.cut_failed h3)⟩
  | joined h1 => exact ⟨_, .joined (by simpa [TS.cut] using h1)⟩
  | worker h1 =>
    obtain ⟨_, _, h⟩ := TXStep.of_cut h1
    exact ⟨_, .worker h⟩

/-! ### processes -/

/-- the work that arrives: exits and lost objects count as nothing -/
def arriving (act : α → Except O (Option O)) (exits : α → Bool) (lost : O → Bool) (x : α) : Except O (Option O) :=
  if exits x then .ok none
  else match act x with
    | .ok none => .ok none
    | .ok (some o) => if lost o then .ok none else .ok (some o)
    | .error e => if lost e then .ok none else .error e

/-- the states of a worker without crashes that a worker with crashes stands for -/
def CW.Abs (lost : O → Bool) : CW α O → PW α O → Prop
  | .idle, w => w = .idle
  | .running t, w => w = .running t
  | .holding o t, w => w = if lost o then .running t else .holding o t
  | .finished, w => w = .finished
  | .dead, w => w ≠ .idle ∧ w ≠ .finished

theorem CW.Abs.idle_iff {lost : O → Bool} {c : CW α O} {w : PW α O} (h : c.Abs lost w) : w = .idle ↔ c = .idle := by
  cases c with
  | holding o t => simp only [CW.Abs] at h; rw [h]; split <;> simp
  | dead => simp only [CW.Abs] at h; simp [h.1]
  | _ => simp only [CW.Abs] at h; simp [h]

theorem CW.Abs.finished_iff {lost : O → Bool} {c : CW α O} {w : PW α O} (h : c.Abs lost w) :
    w = .finished ↔ c = .finished := by
  cases c with
  | holding o t => simp only [CW.Abs] at h; rw [h]; split <;> simp
  | dead => simp only [CW.Abs] at h; simp [h.2]
  | _ => simp only [CW.Abs] at h; simp [h]

theorem CW.Abs.terminate {lost : O → Bool} {c : CW α O} {w : PW α O} (h : c.Abs lost w) : c.terminate.Abs lost w := by
  cases c with
  | idle => exact h
  | finished => exact h
  | dead => exact h
  | running t => simp only [CW.Abs] at h; simp [CW.terminate, CW.Abs, h]
  | holding o t => simp only [CW.Abs] at h; rw [h]; simp only [CW.terminate, CW.Abs]; split <;> simp

/-- a worker step is matched by a worker step or by nothing -/
theorem CWStep.sim {B : Builtins O} {act : α → Except O (Option O)} {exits : α → Bool} {lost : O → Bool}
    {c c' : CW α O} {eo : Option O} {w : PW α O} (h : CWStep B act exits lost c eo c') (ha : c.Abs lost w) :
    (∃ w', PWStep B (arriving act exits lost) w eo w' ∧ c'.Abs lost w') ∨ (eo = none ∧ c'.Abs lost w) := by
  cases h with
  | @keep x xs o h1 h2 =>
    simp only [CW.Abs] at ha; subst ha
    cases hl : lost o with
    | false => exact .inl ⟨_, .keep (o := o) (by simp [arriving, h1, h2, hl]), by simp [CW.Abs, hl]⟩
    | true => exact .inl ⟨_, .skip (by simp [arriving, h1, h2, hl]), by simp [CW.Abs, hl]⟩
  | skip h1 h2 =>
    simp only [CW.Abs] at ha; subst ha
    exact .inl ⟨_, .skip (by simp [arriving, h1, h2]), by simp [CW.Abs]⟩
  | @caught x xs e h1 h2 =>
    simp only [CW.Abs] at ha; subst ha
    cases hl : lost e with
    | false => exact .inl ⟨_, .caught (e := e) (by simp [arriving, h1, h2, hl]), by simp [CW.Abs, hl]⟩
    | true => exact .inl ⟨_, .skip (by simp [arriving, h1, h2, hl]), by simp [CW.Abs, hl]⟩
  | put hl =>
    simp only [CW.Abs, hl, Bool.false_eq_true, if_false] at ha; subst ha
    exact .inl ⟨_, .put, rfl⟩
  | drop hl =>
    simp only [CW.Abs, hl, if_true] at ha; subst ha
    exact .inr ⟨rfl, rfl⟩
  | stop =>
    simp only [CW.Abs] at ha; subst ha
    exact .inl ⟨_, .stop, rfl⟩
  | exit h1 => simp only [CW.Abs] at ha; subst ha; exact .inr ⟨rfl, by simp [CW.Abs]⟩
  | kill => simp only [CW.Abs] at ha; subst ha; exact .inr ⟨rfl, by simp [CW.Abs]⟩
  | killHolding =>
    simp only [CW.Abs] at ha; subst ha
    refine .inr ⟨rfl, ?_⟩
    simp only [CW.Abs]; split <;> simp

theorem CWStep.not_idle {B : Builtins O} {act : α → Except O (Option O)} {exits : α → Bool} {lost : O → Bool}
    {c c' : CW α O} {eo : Option O} (h : CWStep B act exits lost c eo c') :
    c ≠ .idle ∧ c' ≠ .idle ∧ c ≠ .finished ∧ c ≠ .dead := by
  cases h <;> simp

def CW.measure (len : Nat) : CW α O → Nat
  | .idle => 3 * len + 3
  | .running todo => 3 * todo.length + 2
  | .holding _ todo => 3 * todo.length + 4
  | .finished => 0
  | .dead => 0

theorem CWStep.decreases {B : Builtins O} {act : α → Except O (Option O)} {exits : α → Bool} {lost : O → Bool}
    {c c' : CW α O} {eo : Option O} (h : CWStep B act exits lost c eo c') (len : Nat) :
    c'.measure len + eo.toList.length < c.measure len := by
  cases h <;> simp [CW.measure] <;> omega

theorem CW.terminate_measure (c : CW α O) (len : Nat) : c.terminate.measure len ≤ c.measure len := by
  cases c <;> simp [CW.terminate, CW.measure]

theorem CW.terminate_ended (c : CW α O) : c.terminate = .idle ∨ c.terminate = .finished ∨ c.terminate = .dead := by
  cases c <;> simp [CW.terminate]

/-- what a worker has worked on did not exit -/
def CW.Did (exits : α → Bool) (part : List α) : CW α O → Prop
  | .running t => ∃ done, part = done ++ t ∧ ∀ x ∈ done, exits x = false
  | .holding _ t => ∃ done, part = done ++ t ∧ ∀ x ∈ done, exits x = false
  | .finished => ∀ x ∈ part, exits x = false
  | _ => True

theorem CW.Did.terminate {exits : α → Bool} {part : List α} {c : CW α O} (h : c.Did exits part) :
    c.terminate.Did exits part := by
  cases c with
  | finished => exact h
  | _ => trivial

theorem CWStep.did {B : Builtins O} {act : α → Except O (Option O)} {exits : α → Bool} {lost : O → Bool}
    {c c' : CW α O} {eo : Option O} {part : List α} (h : CWStep B act exits lost c eo c') (hd : c.Did exits part) :
    c'.Did exits part := by
  have key : ∀ {x : α} {xs : List α}, exits x = false →
      (∃ done, part = done ++ x :: xs ∧ ∀ y ∈ done, exits y = false) →
      ∃ done, part = done ++ xs ∧ ∀ y ∈ done, exits y = false := by
    rintro x xs hx ⟨done, rfl, h2⟩
    refine ⟨done ++ [x], by simp, fun y hy => ?_⟩
    rcases List.mem_append.1 hy with h | h
    · exact h2 y h
    · rw [List.mem_singleton.1 h]; exact hx
  cases h with
  | keep h1 h2 => exact key h1 hd
  | skip h1 h2 => exact key h1 hd
  | caught h1 h2 => exact key h1 hd
  | put => exact hd
  | drop => exact hd
  | stop =>
    obtain ⟨done, h1, h2⟩ := hd
    simp only [List.append_nil] at h1
    subst h1; exact h2
  | exit => trivial
  | kill => trivial
  | killHolding => trivial

/-- a worker that cannot step is not started, ended or dead -/
theorem CW.stuck {B : Builtins O} {act : α → Except O (Option O)} {exits : α → Bool} {lost : O → Bool} {c : CW α O}
    (h : ∀ eo c', ¬ CWStep B act exits lost c eo c') : c = .idle ∨ c = .finished ∨ c = .dead := by
  cases c with
  | running t => exact absurd .kill (h _ _)
  | holding o t => exact absurd .killHolding (h _ _)
  | _ => simp

/-! ### one shared queue -/

theorem sum_lt_of_zero (c : Nat → Nat) (n k : Nat) (hk : k < n) (h0 : c k = 0) (h1 : ∀ j, c j ≤ 1) :
    ((List.range n).map c).sum < n := by
  have hle : ∀ m, ((List.range m).map c).sum ≤ m := by
    intro m
    induction m with
    | zero => simp
    | succ m ih => rw [List.range_succ, List.map_append, List.sum_append]; have := h1 m; simp; omega
  induction n with
  | zero => omega
  | succ m ih =>
    rw [List.range_succ, List.map_append, List.sum_append]
    have := h1 m
    by_cases hkm : k = m
    · subst hkm; have := hle k; simp [h0]; omega
    · have := ih (by omega); simp; omega

theorem PWInv.countStop {B : Builtins O} {act : α → Except O (Option O)} {part : List α} {w : PW α O} {sent : List O}
    (h : PWInv B act part w sent) (hns : ∀ o ∈ msgs act part, B.isStop o = false) :
    sent.countP B.isStop ≤ 1 ∧ (w ≠ .finished → sent.countP B.isStop = 0) := by
  have hz : ∀ l : List O, (∀ o ∈ l, o ∈ msgs act part) → l.countP B.isStop = 0 := fun l hl =>
    List.countP_eq_zero.2 fun o ho => by rw [hns o (hl o ho)]; simp
  cases w with
  | idle => rw [show sent = [] from h]; simp
  | running t =>
    obtain ⟨done, h1, h2⟩ := h
    have := hz sent fun o ho => by rw [h1, msgs_append, ← h2]; exact List.mem_append_left _ ho
    simp [this]
  | holding o t =>
    obtain ⟨done, x, h1, _, h2⟩ := h
    have := hz sent fun o ho => by rw [h1, msgs_append, ← h2]; exact List.mem_append_left _ ho
    simp [this]
  | finished =>
    rw [show sent = _ from h, List.countP_append, hz _ fun o ho => ho]
    refine ⟨?_, fun hc => absurd rfl hc⟩
    have := List.countP_le_length (p := B.isStop) (l := [B.stop])
    simpa using this

theorem mem_msgs_part {act : α → Except O (Option O)} {parts : List (List α)} {P : O → Prop}
    (h : ∀ o ∈ msgs act parts.flatten, P o) (k : Nat) : ∀ o ∈ msgs act (parts.getD k []), P o :=
  fun o ho => h o (mem_msgs_flatten ho)

/-- if all end markers are received, all workers have ended -/
theorem PInv.allFinished {B : Builtins O} {act : α → Except O (Option O)} {parts : List (List α)}
    {s : PS α O} {R Q : List (Nat × O)} (h : PInv B act parts s R Q)
    (hns : ∀ o ∈ msgs act parts.flatten, B.isStop o = false) (hn : parts.length ≤ s.nrFinished) :
    ∀ k < parts.length, s.ws k = .finished := by
  intro k hk
  by_contra hc
  have hcount : ∀ j, (ofTag R j).countP B.isStop ≤ (ofTag (R ++ Q) j).countP B.isStop := by
    intro j; rw [ofTag_append, List.countP_append]; omega
  have hone := fun j => (h.sent j).countStop (mem_msgs_part hns j)
  have hperm := perm_tags R parts.length fun p hp => h.tags p (List.mem_append_left _ hp)
  have hc2 := hperm.countP_eq B.isStop
  rw [← h.nr, List.countP_flatten, List.map_map] at hc2
  have := sum_lt_of_zero (List.countP B.isStop ∘ ofTag R) parts.length k hk
    (by have := hcount k; have := (hone k).2 hc; simp only [Function.comp]; omega)
    (fun j => by have := hcount j; have := (hone j).1; simp only [Function.comp]; omega)
  omega

structure CSim (lost : O → Bool) (s : CS α O) (t : PS α O) : Prop where
  main : t.main = s.main
  queue : t.queue = s.queue
  mapped : t.mapped = s.mapped
  nr : t.nrFinished = s.nrFinished
  ws : ∀ k, (s.ws k).Abs lost (t.ws k)

theorem abs_update {lost : O → Bool} {ws : Nat → CW α O} {us : Nat → PW α O} (h : ∀ k, (ws k).Abs lost (us k))
    {k : Nat} {c : CW α O} {w : PW α O} (hk : c.Abs lost w) :
    ∀ j, (Function.update ws k c j).Abs lost (Function.update us k w j) := by
  intro j
  by_cases hj : j = k
  · subst hj; simpa using hk
  · simpa [Function.update_of_ne hj] using h j

theorem abs_update_left {lost : O → Bool} {ws : Nat → CW α O} {us : Nat → PW α O} (h : ∀ k, (ws k).Abs lost (us k))
    {k : Nat} {c : CW α O} (hk : c.Abs lost (us k)) : ∀ j, (Function.update ws k c j).Abs lost (us j) := by
  intro j
  by_cases hj : j = k
  · subst hj; simpa using hk
  · simpa [Function.update_of_ne hj] using h j

theorem CStep.sim {B : Builtins O} {act : α → Except O (Option O)} {exits : α → Bool} {lost : O → Bool}
    {parts : List (List α)} (hns : ∀ o ∈ msgs (arriving act exits lost) parts.flatten, B.isStop o = false)
    {s s' : CS α O} {t : PS α O} {R Q : List (Nat × O)} (hi : PInv B (arriving act exits lost) parts t R Q)
    (hsim : CSim lost s t) (h : CStep B act exits lost parts s s') :
    ∃ t', Relation.ReflTransGen (PStep B (arriving act exits lost) parts) t t' ∧ CSim lost s' t' := by
  obtain ⟨hm, hq, hp, hn, hw⟩ := hsim
  cases h with
  | @start k part h1 h2 =>
    exact ⟨_, .single (.start (hm.trans h1) h2), rfl, hq, hp, hn, abs_update hw rfl⟩
  | started h1 => exact ⟨_, .single (.started (hm.trans h1)), rfl, hq, hp, hn, hw⟩
  | getStop h1 h2 h3 h4 =>
    exact ⟨_, .single (.getStop (hm.trans h1) (by rw [hn]; exact h2) (hq.trans h3) h4), hm, rfl, hp, by simp [hn], hw⟩
  | getExc h1 h2 h3 h4 h5 =>
    exact ⟨_, .single (.getExc (hm.trans h1) (by rw [hn]; exact h2) (hq.trans h3) h4 h5), rfl, rfl, hp, hn,
      fun k => (hw k).terminate⟩
  | getItem h1 h2 h3 h4 h5 =>
    exact ⟨_, .single (.getItem (hm.trans h1) (by rw [hn]; exact h2) (hq.trans h3) h4 h5), hm, rfl, by simp [hp], hn, hw⟩
  | collected h1 h2 => exact ⟨_, .single (.collected (hm.trans h1) (by rw [hn]; exact h2)), rfl, hq, hp, hn, hw⟩
  | @join k h1 h2 h3 =>
    have hmi := hi.main
    rw [hm, h1] at hmi
    exact ⟨_, .single (.join (hm.trans h1) h2 (hi.allFinished hns hmi.2.1 k h2)), rfl, hq, hp, hn, hw⟩
  | joined h1 => exact ⟨_, .single (.joined (hm.trans h1)), rfl, hq, hp, hn, hw⟩
  | @worker k eo w h1 =>
    rcases h1.sim (hw k) with ⟨w', h2, h3⟩ | ⟨rfl, h3⟩
    · exact ⟨_, .single (.worker h2), hm, by simp [hq], hp, hn, abs_update hw h3⟩
    · exact ⟨t, .refl, hm, by simpa using hq, hp, hn, abs_update_left hw h3⟩

/-- the invariant of the engine with crashes -/
structure CInv (B : Builtins O) (act : α → Except O (Option O)) (exits : α → Bool) (lost : O → Bool)
    (parts : List (List α)) (s : CS α O) : Prop where
  sim : ∃ t, Relation.ReflTransGen (PStep B (arriving act exits lost) parts) PS.init t ∧ CSim lost s t
  did : ∀ k, (s.ws k).Did exits (parts.getD k [])
  ended : (s.main = .returned ∨ ∃ e, s.main = .raised e) → ∀ k, s.ws k = .idle ∨ s.ws k = .finished ∨ s.ws k = .dead

theorem CInv.init (B : Builtins O) (act : α → Except O (Option O)) (exits : α → Bool) (lost : O → Bool)
    (parts : List (List α)) : CInv B act exits lost parts CS.init :=
  ⟨⟨_, .refl, rfl, rfl, rfl, rfl, fun _ => rfl⟩, fun _ => trivial, fun _ _ => .inl rfl⟩

theorem did_update {exits : α → Bool} {parts : List (List α)} {ws : Nat → CW α O}
    (h : ∀ k, (ws k).Did exits (parts.getD k [])) {k : Nat} {c : CW α O} (hc : c.Did exits (parts.getD k [])) :
    ∀ j, (Function.update ws k c j).Did exits (parts.getD j []) := by
  intro j
  by_cases hj : j = k
  · subst hj; simpa using hc
  · simpa [Function.update_of_ne hj] using h j

theorem PMain.ended_of_ne {m : PMain O} (h : m = .returned ∨ ∃ e, m = .raised e) : m.measure 0 = 0 := by
  rcases h with h | ⟨e, h⟩ <;> simp [h, PMain.measure]

theorem CInv.step {B : Builtins O} {act : α → Except O (Option O)} {exits : α → Bool} {lost : O → Bool}
    {parts : List (List α)} (hns : ∀ o ∈ msgs (arriving act exits lost) parts.flatten, B.isStop o = false)
    {s s' : CS α O} (hi : CInv B act exits lost parts s) (h : CStep B act exits lost parts s s') :
    CInv B act exits lost parts s' := by
  obtain ⟨⟨t, ht, hsim⟩, hd, he⟩ := hi
  obtain ⟨R, Q, hp⟩ := PInv.reach ht
  obtain ⟨t', h1, h2⟩ := h.sim hns hp hsim
  refine ⟨⟨t', ht.trans h1, h2⟩, ?_, ?_⟩
  · cases h with
    | @start k part e1 e2 => exact did_update hd ⟨[], by simp [List.getD, e2], by simp⟩
    | getExc => exact fun k => (hd k).terminate
    | worker h1 => exact did_update hd (h1.did (hd _))
    | _ => exact hd
  · intro hend
    obtain ⟨R', Q', hp'⟩ := PInv.reach (ht.trans h1)
    cases h with
    | start => simp at hend
    | started => simp at hend
    | getStop e1 => rw [e1] at hend; simp at hend
    | getExc => exact fun k => (s.ws k).terminate_ended
    | getItem e1 => rw [e1] at hend; simp at hend
    | collected => simp at hend
    | join => simp at hend
    | joined e1 =>
      intro k
      rcases Nat.lt_or_ge k parts.length with hk | hk
      · have hm := hp'.main
        rw [h2.main] at hm
        have := hm.2 k hk
        exact .inr (.inl ((h2.ws k).finished_iff.1 this))
      · exact .inl ((h2.ws k).idle_iff.1 (hp'.outside k hk))
    | @worker k eo w hw =>
      rcases he hend k with h | h | h
      · exact absurd h hw.not_idle.1
      · exact absurd h hw.not_idle.2.2.1
      · exact absurd h hw.not_idle.2.2.2

theorem CInv.reach {B : Builtins O} {act : α → Except O (Option O)} {exits : α → Bool} {lost : O → Bool}
    {parts : List (List α)} (hns : ∀ o ∈ msgs (arriving act exits lost) parts.flatten, B.isStop o = false)
    {s : CS α O} (h : Relation.ReflTransGen (CStep B act exits lost parts) CS.init s) :
    CInv B act exits lost parts s := by
  induction h with
  | refl => exact CInv.init ..
  | tail _ h ih => exact ih.step hns h

theorem getD_flatten {parts : List (List α)} {P : α → Prop} (h : ∀ k < parts.length, ∀ x ∈ parts.getD k [], P x) :
    ∀ x ∈ parts.flatten, P x := by
  intro x hx
  obtain ⟨p, hp, hx⟩ := List.mem_flatten.1 hx
  obtain ⟨k, hk, rfl⟩ := List.mem_iff_getElem.1 hp
  exact h k hk x (by simpa [List.getD, hk] using hx)

theorem CInv.returned {B : Builtins O} {act : α → Except O (Option O)} {exits : α → Bool} {lost : O → Bool}
    {parts : List (List α)} {s : CS α O} (hi : CInv B act exits lost parts s) (h : s.main = .returned) :
    ∀ x ∈ parts.flatten, exits x = false := by
  obtain ⟨⟨t, ht, hsim⟩, hd, _⟩ := hi
  obtain ⟨R, Q, hp⟩ := PInv.reach ht
  have hm := hp.main
  rw [hsim.main, h] at hm
  refine getD_flatten fun k hk => ?_
  have := hd k
  rw [(hsim.ws k).finished_iff.1 (hm.2 k hk)] at this
  exact this

/-- a run with crashes has an outcome of the run without crashes on the work that arrives -/
theorem ProcRunC.arriving {B : Builtins O} {act : α → Except O (Option O)} {exits : α → Bool} {lost : O → Bool}
    {parts : List (List α)} (hns : ∀ o ∈ msgs (arriving act exits lost) parts.flatten, B.isStop o = false)
    {out : Except O (List O)} (h : ProcRunC B act exits lost parts out) :
    ProcRun B (Parallel.arriving act exits lost) parts out ∧
    (∀ r, out = .ok r → ∀ x ∈ parts.flatten, exits x = false) := by
  obtain ⟨s, hr, h⟩ := h
  have hi := CInv.reach hns hr
  obtain ⟨t, ht, hsim⟩ := hi.sim
  refine ⟨⟨t, ht, ?_⟩, ?_⟩
  · rw [hsim.main, hsim.mapped]; exact h
  · rintro r rfl
    rcases h with ⟨h, _⟩ | ⟨e, _, h⟩
    · exact hi.returned h
    · cases h

theorem CInv.outside {B : Builtins O} {act : α → Except O (Option O)} {exits : α → Bool} {lost : O → Bool}
    {parts : List (List α)} {s : CS α O} (hi : CInv B act exits lost parts s) :
    (∀ k, parts.length ≤ k → s.ws k = .idle) ∧ ∀ k, s.main = .starting k → s.ws k = .idle := by
  obtain ⟨⟨t, ht, hsim⟩, hd, _⟩ := hi
  obtain ⟨R, Q, hp⟩ := PInv.reach ht
  refine ⟨fun k hk => (hsim.ws k).idle_iff.1 (hp.outside k hk), fun k hk => ?_⟩
  have hm := hp.main
  rw [hsim.main, hk] at hm
  exact (hsim.ws k).idle_iff.1 (hm.2.1 k le_rfl)

def CS.measure (parts : List (List α)) (s : CS α O) : Nat :=
  s.main.measure parts.length + s.queue.length
    + ∑ k ∈ Finset.range parts.length, (s.ws k).measure (parts.getD k []).length

theorem CStep.decreases {B : Builtins O} {act : α → Except O (Option O)} {exits : α → Bool} {lost : O → Bool}
    {parts : List (List α)} {s s' : CS α O} (hi : CInv B act exits lost parts s)
    (h : CStep B act exits lost parts s s') : s'.measure parts < s.measure parts := by
  obtain ⟨ho, hst⟩ := hi.outside
  unfold CS.measure
  cases h with
  | @start k part e1 e2 =>
    have hk : k < parts.length := (List.getElem?_eq_some_iff.1 e2).1
    have := sum_update_le (n := parts.length) (k := k)
      (fun j => (s.ws j).measure (parts.getD j []).length)
      (fun j => (Function.update s.ws k (.running part) j).measure (parts.getD j []).length)
      (by simp [hst k e1, CW.measure, List.getD, e2])
      (fun j hj => by simp [Function.update_of_ne hj])
    simp only [e1, PMain.measure]
    omega
  | started e1 => simp only [e1, PMain.measure]; omega
  | getStop e1 e2 e3 e4 => simp only [e1, e3, PMain.measure, List.length_cons]; omega
  | getExc e1 e2 e3 e4 =>
    have := Finset.sum_le_sum (s := Finset.range parts.length) fun k _ =>
      (s.ws k).terminate_measure (parts.getD k []).length
    simp only [e1, e3, PMain.measure, List.length_cons]; omega
  | getItem e1 e2 e3 e4 => simp only [e1, e3, PMain.measure, List.length_cons]; omega
  | collected e1 e2 => simp only [e1, PMain.measure]; omega
  | join e1 e2 e3 => simp only [e1, PMain.measure]; omega
  | joined e1 => simp only [e1, PMain.measure]; omega
  | @worker k eo w hs =>
    have hk : k < parts.length := by
      by_contra hc
      exact hs.not_idle.1 (ho k (by omega))
    have := sum_update_add hk (c := eo.toList.length)
      (fun j => (s.ws j).measure (parts.getD j []).length)
      (fun j => (Function.update s.ws k w j).measure (parts.getD j []).length)
      (by simpa only [Function.update_self] using hs.decreases _)
      (fun j hj => by simp [Function.update_of_ne hj])
    simp only [List.length_append]
    omega

/-- a state without a next step is an end of the call, or the caller waits for a dead worker -/
theorem CInv.progress {B : Builtins O} {act : α → Except O (Option O)} {exits : α → Bool} {lost : O → Bool}
    {parts : List (List α)} {s : CS α O} (hi : CInv B act exits lost parts s)
    (hstuck : ∀ s', ¬ CStep B act exits lost parts s s') :
    s.main = .returned ∨ (∃ e, s.main = .raised e) ∨ (s.main = .collecting ∧ ∃ k < parts.length, s.ws k = .dead) := by
  have hw : ∀ k, s.ws k = .idle ∨ s.ws k = .finished ∨ s.ws k = .dead := fun k =>
    CW.stuck fun eo c' h => hstuck _ (.worker h)
  obtain ⟨⟨t, ht, hsim⟩, hd, he⟩ := hi
  obtain ⟨R, Q, hp⟩ := PInv.reach ht
  have hm := hp.main
  rw [hsim.main] at hm
  cases hmain : s.main with
  | returned => exact .inl rfl
  | raised e => exact .inr (.inl ⟨e, rfl⟩)
  | starting k =>
    exfalso
    rw [hmain] at hm
    rcases Nat.lt_or_ge k parts.length with h | h
    · exact absurd (.start hmain (List.getElem?_eq_getElem h)) (hstuck _)
    · have : k = parts.length := by have := hm.1; omega
      subst this
      exact absurd (.started hmain) (hstuck _)
  | joining k =>
    exfalso
    rw [hmain] at hm
    rcases Nat.lt_or_ge k parts.length with h | h
    · have hni : s.ws k ≠ .idle := fun hc => hm.2.2.2 k h ((hsim.ws k).idle_iff.2 hc)
      have := hw k
      exact absurd (.join hmain h (by tauto)) (hstuck _)
    · have : k = parts.length := by have := hm.1; omega
      subst this
      exact absurd (.joined hmain) (hstuck _)
  | collecting =>
    refine .inr (.inr ⟨rfl, ?_⟩)
    by_contra hc
    push Not at hc
    rw [hmain] at hm
    have hfin : ∀ k, t.ws k = .idle ∨ t.ws k = .finished := by
      intro k
      rcases Nat.lt_or_ge k parts.length with hk | hk
      · rcases hw k with h | h | h
        · exact .inl ((hsim.ws k).idle_iff.2 h)
        · exact .inr ((hsim.ws k).finished_iff.2 h)
        · exact absurd h (hc k hk)
      · exact .inl (hp.outside k hk)
    have := hp.progress fun u hu => ?_
    · rw [hsim.main, hmain] at this; simp at this
    · have hmt : t.main = .collecting := hsim.main.trans hmain
      cases hu with
      | start h1 => rw [hmt] at h1; cases h1
      | started h1 => rw [hmt] at h1; cases h1
      | getStop h1 h2 h3 h4 =>
        exact hstuck _ (.getStop hmain (by rw [← hsim.nr]; exact h2) (hsim.queue.symm.trans h3) h4)
      | getExc h1 h2 h3 h4 h5 =>
        exact hstuck _ (.getExc hmain (by rw [← hsim.nr]; exact h2) (hsim.queue.symm.trans h3) h4 h5)
      | getItem h1 h2 h3 h4 h5 =>
        exact hstuck _ (.getItem hmain (by rw [← hsim.nr]; exact h2) (hsim.queue.symm.trans h3) h4 h5)
      | collected h1 h2 => exact hstuck _ (.collected hmain (by rw [← hsim.nr]; exact h2))
      | join h1 => rw [hmt] at h1; cases h1
      | joined h1 => rw [hmt] at h1; cases h1
      | @worker k eo w h1 =>
        rcases hfin k with h | h
        · exact absurd h h1.not_idle.1
        · exact absurd h h1.not_idle.2.2

/-! ### one queue per worker -/

theorem QInv.allFinished {B : Builtins O} {act : α → Except O (Option O)} {parts : List (List α)}
    {s : QS α O} {R : Nat → List O} (h : QInv B act parts s R)
    (hns : ∀ o ∈ msgs act parts.flatten, B.isStop o = false) {k : Nat} (hg : Got B False (R k) (s.mapped k)) :
    s.ws k = .finished := by
  by_contra hc
  obtain ⟨o, h1, h2, _⟩ := hg.2 id
  have h3 := ((h.sent k).countStop (mem_msgs_part hns k)).2 hc
  exact List.countP_eq_zero.1 h3 o (by rw [h1]; simp) h2

structure DSim (lost : O → Bool) (s : DS α O) (t : QS α O) : Prop where
  main : t.main = s.main
  queues : t.queues = s.queues
  mapped : t.mapped = s.mapped
  opened : t.openWorkers = s.openWorkers
  ws : ∀ k, (s.ws k).Abs lost (t.ws k)

theorem DStep.sim {B : Builtins O} {act : α → Except O (Option O)} {exits : α → Bool} {lost : O → Bool}
    {parts : List (List α)} (hns : ∀ o ∈ msgs (arriving act exits lost) parts.flatten, B.isStop o = false)
    {s s' : DS α O} {t : QS α O} {R : Nat → List O} (hi : QInv B (arriving act exits lost) parts t R)
    (hsim : DSim lost s t) (h : DStep B act exits lost parts s s') :
    ∃ t', Relation.ReflTransGen (QStep B (arriving act exits lost) parts) t t' ∧ DSim lost s' t' := by
  obtain ⟨hm, hq, hp, hn, hw⟩ := hsim
  cases h with
  | @start k part h1 h2 =>
    exact ⟨_, .single (.start (hm.trans h1) h2), rfl, hq, hp, hn, abs_update hw rfl⟩
  | started h1 => exact ⟨_, .single (.started (hm.trans h1)), rfl, hq, hp, rfl, hw⟩
  | getStop h1 h2 h3 h4 =>
    exact ⟨_, .single (.getStop (hm.trans h1) (hn.trans h2) (by rw [hq]; exact h3) h4), hm, by simp [hq], hp, rfl, hw⟩
  | getExc h1 h2 h3 h4 h5 =>
    exact ⟨_, .single (.getExc (hm.trans h1) (hn.trans h2) (by rw [hq]; exact h3) h4 h5), rfl, by simp [hq], hp, hn,
      fun k => (hw k).terminate⟩
  | getItem h1 h2 h3 h4 h5 =>
    exact ⟨_, .single (.getItem (hm.trans h1) (hn.trans h2) (by rw [hq]; exact h3) h4 h5), hm, by simp [hq],
      by simp [hp], rfl, hw⟩
  | collected h1 h2 => exact ⟨_, .single (.collected (hm.trans h1) (hn.trans h2)), rfl, hq, hp, hn, hw⟩
  | @join k h1 h2 h3 =>
    have hmi := hi.main
    rw [hm, h1] at hmi
    exact ⟨_, .single (.join (hm.trans h1) h2 (hi.allFinished hns (hmi.2.2.2 k h2))), rfl, hq, hp, hn, hw⟩
  | joined h1 => exact ⟨_, .single (.joined (hm.trans h1)), rfl, hq, hp, hn, hw⟩
  | @worker k eo w h1 =>
    rcases h1.sim (hw k) with ⟨w', h2, h3⟩ | ⟨rfl, h3⟩
    · exact ⟨_, .single (.worker h2), hm, by simp [hq], hp, hn, abs_update hw h3⟩
    · exact ⟨t, .refl, hm, by simpa using hq, hp, hn, abs_update_left hw h3⟩

/-- the invariant of the engine with crashes -/
structure DInv (B : Builtins O) (act : α → Except O (Option O)) (exits : α → Bool) (lost : O → Bool)
    (parts : List (List α)) (s : DS α O) : Prop where
  sim : ∃ t, Relation.ReflTransGen (QStep B (arriving act exits lost) parts) QS.init t ∧ DSim lost s t
  did : ∀ k, (s.ws k).Did exits (parts.getD k [])
  ended : (s.main = .returned ∨ ∃ e, s.main = .raised e) → ∀ k, s.ws k = .idle ∨ s.ws k = .finished ∨ s.ws k = .dead

theorem DInv.init (B : Builtins O) (act : α → Except O (Option O)) (exits : α → Bool) (lost : O → Bool)
    (parts : List (List α)) : DInv B act exits lost parts DS.init :=
  ⟨⟨_, .refl, rfl, rfl, rfl, rfl, fun _ => rfl⟩, fun _ => trivial, fun _ _ => .inl rfl⟩

theorem DInv.step {B : Builtins O} {act : α → Except O (Option O)} {exits : α → Bool} {lost : O → Bool}
    {parts : List (List α)} (hns : ∀ o ∈ msgs (arriving act exits lost) parts.flatten, B.isStop o = false)
    {s s' : DS α O} (hi : DInv B act exits lost parts s) (h : DStep B act exits lost parts s s') :
    DInv B act exits lost parts s' := by
  obtain ⟨⟨t, ht, hsim⟩, hd, he⟩ := hi
  obtain ⟨R, hp⟩ := QInv.reach ht
  obtain ⟨t', h1, h2⟩ := h.sim hns hp hsim
  refine ⟨⟨t', ht.trans h1, h2⟩, ?_, ?_⟩
  · cases h with
    | @start k part e1 e2 => exact did_update hd ⟨[], by simp [List.getD, e2], by simp⟩
    | getExc => exact fun k => (hd k).terminate
    | worker h1 => exact did_update hd (h1.did (hd _))
    | _ => exact hd
  · intro hend
    obtain ⟨R', hp'⟩ := QInv.reach (ht.trans h1)
    cases h with
    | start => simp at hend
    | started => simp at hend
    | getStop e1 => rw [e1] at hend; simp at hend
    | getExc => exact fun k => (s.ws k).terminate_ended
    | getItem e1 => rw [e1] at hend; simp at hend
    | collected => simp at hend
    | join => simp at hend
    | joined e1 =>
      intro k
      rcases Nat.lt_or_ge k parts.length with hk | hk
      · have hm := hp'.main
        rw [h2.main] at hm
        have := hm.1 k hk
        exact .inr (.inl ((h2.ws k).finished_iff.1 this))
      · exact .inl ((h2.ws k).idle_iff.1 (hp'.outside k hk))
    | @worker k eo w hw =>
      rcases he hend k with h | h | h
      · exact absurd h hw.not_idle.1
      · exact absurd h hw.not_idle.2.2.1
      · exact absurd h hw.not_idle.2.2.2

theorem DInv.reach {B : Builtins O} {act : α → Except O (Option O)} {exits : α → Bool} {lost : O → Bool}
    {parts : List (List α)} (hns : ∀ o ∈ msgs (arriving act exits lost) parts.flatten, B.isStop o = false)
    {s : DS α O} (h : Relation.ReflTransGen (DStep B act exits lost parts) DS.init s) :
    DInv B act exits lost parts s := by
  induction h with
  | refl => exact DInv.init ..
  | tail _ h ih => exact ih.step hns h

theorem DInv.returned {B : Builtins O} {act : α → Except O (Option O)} {exits : α → Bool} {lost : O → Bool}
    {parts : List (List α)} {s : DS α O} (hi : DInv B act exits lost parts s) (h : s.main = .returned) :
    ∀ x ∈ parts.flatten, exits x = false := by
  obtain ⟨⟨t, ht, hsim⟩, hd, _⟩ := hi
  obtain ⟨R, hp⟩ := QInv.reach ht
  have hm := hp.main
  rw [hsim.main, h] at hm
  refine getD_flatten fun k hk => ?_
  have := hd k
  rw [(hsim.ws k).finished_iff.1 (hm.1 k hk)] at this
  exact this

theorem ProcRunOrderedC.arriving {B : Builtins O} {act : α → Except O (Option O)} {exits : α → Bool} {lost : O → Bool}
    {parts : List (List α)} (hns : ∀ o ∈ msgs (arriving act exits lost) parts.flatten, B.isStop o = false)
    {out : Except O (List O)} (h : ProcRunOrderedC B act exits lost parts out) :
    ProcRunOrdered B (Parallel.arriving act exits lost) parts out ∧
    (∀ r, out = .ok r → ∀ x ∈ parts.flatten, exits x = false) := by
  obtain ⟨s, hr, h⟩ := h
  have hi := DInv.reach hns hr
  obtain ⟨t, ht, hsim⟩ := hi.sim
  refine ⟨⟨t, ht, ?_⟩, ?_⟩
  · rw [hsim.main, hsim.mapped]; exact h
  · rintro r rfl
    rcases h with ⟨h, _⟩ | ⟨e, _, h⟩
    · exact hi.returned h
    · cases h

theorem DInv.outside {B : Builtins O} {act : α → Except O (Option O)} {exits : α → Bool} {lost : O → Bool}
    {parts : List (List α)} {s : DS α O} (hi : DInv B act exits lost parts s) :
    (∀ k, parts.length ≤ k → s.ws k = .idle) ∧ (∀ k, s.main = .starting k → s.ws k = .idle) ∧
    (s.main = .collecting → ∀ k ∈ s.openWorkers, k < parts.length) := by
  obtain ⟨⟨t, ht, hsim⟩, hd, _⟩ := hi
  obtain ⟨R, hp⟩ := QInv.reach ht
  have hm := hp.main
  rw [hsim.main] at hm
  refine ⟨fun k hk => (hsim.ws k).idle_iff.1 (hp.outside k hk), fun k hk => ?_, fun hk => ?_⟩
  · rw [hk] at hm
    exact (hsim.ws k).idle_iff.1 (hm.2.1 k le_rfl)
  · rw [hk, ] at hm
    rw [← hsim.opened]
    exact hm.2.2.1

def DS.measure (parts : List (List α)) (s : DS α O) : Nat :=
  s.main.measure parts.length
    + ∑ k ∈ Finset.range parts.length, ((s.ws k).measure (parts.getD k []).length + (s.queues k).length)

theorem DStep.decreases {B : Builtins O} {act : α → Except O (Option O)} {exits : α → Bool} {lost : O → Bool}
    {parts : List (List α)} {s s' : DS α O} (hi : DInv B act exits lost parts s)
    (h : DStep B act exits lost parts s s') : s'.measure parts < s.measure parts := by
  obtain ⟨ho, hst, hop⟩ := hi.outside
  unfold DS.measure
  have hget : ∀ {k o q}, k < parts.length → s.queues k = o :: q →
      ∑ j ∈ Finset.range parts.length,
        ((s.ws j).measure (parts.getD j []).length + (Function.update s.queues k q j).length)
      < ∑ j ∈ Finset.range parts.length,
        ((s.ws j).measure (parts.getD j []).length + (s.queues j).length) := by
    intro k o q hk hq
    exact sum_update_lt hk _ _ (by simp [hq]) (fun j hj => by simp [Function.update_of_ne hj])
  cases h with
  | @start k part e1 e2 =>
    have hk : k < parts.length := (List.getElem?_eq_some_iff.1 e2).1
    have := sum_update_le (n := parts.length) (k := k)
      (fun j => (s.ws j).measure (parts.getD j []).length + (s.queues j).length)
      (fun j => (Function.update s.ws k (.running part) j).measure (parts.getD j []).length
        + (s.queues j).length)
      (by simp [hst k e1, CW.measure, List.getD, e2])
      (fun j hj => by simp [Function.update_of_ne hj])
    simp only [e1, PMain.measure]
    omega
  | started e1 => simp only [e1, PMain.measure]; omega
  | @getStop os k o q e1 e2 e3 e4 =>
    have := hget (hop e1 k (by simp [e2])) e3
    simp only [e1, PMain.measure]; omega
  | @getExc os k o q e1 e2 e3 e4 e5 =>
    have h1 := hget (hop e1 k (by simp [e2])) e3
    have h2 := Finset.sum_le_sum (s := Finset.range parts.length) fun j _ =>
      Nat.add_le_add_right ((s.ws j).terminate_measure (parts.getD j []).length)
        (Function.update s.queues k q j).length
    simp only [e1, PMain.measure]; omega
  | @getItem os k o q e1 e2 e3 e4 e5 =>
    have := hget (hop e1 k (by simp [e2])) e3
    simp only [e1, PMain.measure]; omega
  | collected e1 e2 => simp only [e1, PMain.measure]; omega
  | join e1 e2 e3 => simp only [e1, PMain.measure]; omega
  | joined e1 => simp only [e1, PMain.measure]; omega
  | @worker k eo w hs =>
    have hk : k < parts.length := by
      by_contra hc
      exact hs.not_idle.1 (ho k (by omega))
    have hd := hs.decreases (parts.getD k []).length
    have := sum_update_lt hk
      (fun j => (s.ws j).measure (parts.getD j []).length + (s.queues j).length)
      (fun j => (Function.update s.ws k w j).measure (parts.getD j []).length
        + (Function.update s.queues k (s.queues k ++ eo.toList) j).length)
      (by simp only [Function.update_self, List.length_append]; omega)
      (fun j hj => by simp [Function.update_of_ne hj])
    simp only
    omega

/-- a state without a next step is an end of the call, or the caller waits for a dead worker -/
theorem DInv.progress {B : Builtins O} {act : α → Except O (Option O)} {exits : α → Bool} {lost : O → Bool}
    {parts : List (List α)} {s : DS α O} (hi : DInv B act exits lost parts s)
    (hstuck : ∀ s', ¬ DStep B act exits lost parts s s') :
    s.main = .returned ∨ (∃ e, s.main = .raised e) ∨ (s.main = .collecting ∧ ∃ k < parts.length, s.ws k = .dead) := by
  have hw : ∀ k, s.ws k = .idle ∨ s.ws k = .finished ∨ s.ws k = .dead := fun k =>
    CW.stuck fun eo c' h => hstuck _ (.worker h)
  obtain ⟨⟨t, ht, hsim⟩, hd, he⟩ := hi
  obtain ⟨R, hp⟩ := QInv.reach ht
  have hm := hp.main
  rw [hsim.main] at hm
  cases hmain : s.main with
  | returned => exact .inl rfl
  | raised e => exact .inr (.inl ⟨e, rfl⟩)
  | starting k =>
    exfalso
    rw [hmain] at hm
    rcases Nat.lt_or_ge k parts.length with h | h
    · exact absurd (.start hmain (List.getElem?_eq_getElem h)) (hstuck _)
    · have : k = parts.length := by have := hm.1; omega
      subst this
      exact absurd (.started hmain) (hstuck _)
  | joining k =>
    exfalso
    rw [hmain] at hm
    rcases Nat.lt_or_ge k parts.length with h | h
    · have hni : s.ws k ≠ .idle := fun hc => hm.2.2.1 k h ((hsim.ws k).idle_iff.2 hc)
      have := hw k
      exact absurd (.join hmain h (by tauto)) (hstuck _)
    · have : k = parts.length := by have := hm.1; omega
      subst this
      exact absurd (.joined hmain) (hstuck _)
  | collecting =>
    refine .inr (.inr ⟨rfl, ?_⟩)
    by_contra hc
    push Not at hc
    have hfin : ∀ k, t.ws k = .idle ∨ t.ws k = .finished := by
      intro k
      rcases Nat.lt_or_ge k parts.length with hk | hk
      · rcases hw k with h | h | h
        · exact .inl ((hsim.ws k).idle_iff.2 h)
        · exact .inr ((hsim.ws k).finished_iff.2 h)
        · exact absurd h (hc k hk)
      · exact .inl (hp.outside k hk)
    have := hp.progress fun u hu => ?_
    · rw [hsim.main, hmain] at this; simp at this
    · have hmt : t.main = .collecting := hsim.main.trans hmain
      cases hu with
      | start h1 => rw [hmt] at h1; cases h1
      | started h1 => rw [hmt] at h1; cases h1
      | getStop h1 h2 h3 h4 =>
        exact hstuck _ (.getStop hmain (hsim.opened.symm.trans h2) (by rw [← hsim.queues]; exact h3) h4)
      | getExc h1 h2 h3 h4 h5 =>
        exact hstuck _ (.getExc hmain (hsim.opened.symm.trans h2) (by rw [← hsim.queues]; exact h3) h4 h5)
      | getItem h1 h2 h3 h4 h5 =>
        exact hstuck _ (.getItem hmain (hsim.opened.symm.trans h2) (by rw [← hsim.queues]; exact h3) h4 h5)
      | collected h1 h2 => exact hstuck _ (.collected hmain (hsim.opened.symm.trans h2))
      | join h1 => rw [hmt] at h1; cases h1
      | joined h1 => rw [hmt] at h1; cases h1
      | @worker k eo w h1 =>
        rcases hfin k with h | h
        · exact absurd h h1.not_idle.1
        · exact absurd h h1.not_idle.2.2

end Prolothar.Parallel
