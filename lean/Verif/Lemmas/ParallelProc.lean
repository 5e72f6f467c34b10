import Verif.Lemmas.Parallel
set_option linter.unusedSimpArgs false
set_option linter.unusedVariables false
/- Helper lemmas for `Verif/Props/Parallel.lean`: the process backed engine. -/
namespace Prolothar.Parallel
open Prolothar.ListUtils
variable {α O : Type}

/-- the object a unit of work puts into the queue -/
def msg (act : α → Except O (Option O)) (x : α) : Option O :=
  match act x with
  | .ok eo => eo
  | .error e => some e

def msgs (act : α → Except O (Option O)) (l : List α) : List O := l.filterMap (msg act)

theorem msgs_append (act : α → Except O (Option O)) (l m : List α) :
    msgs act (l ++ m) = msgs act l ++ msgs act m := by simp [msgs]

theorem msgs_single (act : α → Except O (Option O)) (x : α) : msgs act [x] = (msg act x).toList := by
  cases h : msg act x <;> simp [msgs, h]

def PWInv (B : Builtins O) (act : α → Except O (Option O)) (part : List α) : PW α O → List O → Prop
  | .idle, sent => sent = []
  | .running todo, sent => ∃ done, part = done ++ todo ∧ sent = msgs act done
  | .holding o todo, sent => ∃ done x, part = done ++ x :: todo ∧ msg act x = some o ∧
      sent = msgs act done
  | .finished, sent => sent = msgs act part ++ [B.stop]

theorem PWInv.step {B : Builtins O} {act : α → Except O (Option O)} {part : List α} {w w' : PW α O}
    {sent : List O} {eo : Option O} (h : PWInv B act part w sent) (hs : PWStep B act w eo w') :
    PWInv B act part w' (sent ++ eo.toList) := by
  cases hs with
  | keep ha =>
    obtain ⟨done, h1, h2⟩ := h
    exact ⟨done, _, h1, by simp [msg, ha], by simpa using h2⟩
  | caught ha =>
    obtain ⟨done, h1, h2⟩ := h
    exact ⟨done, _, h1, by simp [msg, ha], by simpa using h2⟩
  | @skip x xs ha =>
    obtain ⟨done, h1, h2⟩ := h
    refine ⟨done ++ [x], by simpa using h1, ?_⟩
    rw [msgs_append, msgs_single, h2]; simp [msg, ha]
  | @put o xs =>
    obtain ⟨done, x, h1, h2, h3⟩ := h
    refine ⟨done ++ [x], by simpa using h1, ?_⟩
    rw [msgs_append, msgs_single, h2, h3]
  | stop =>
    obtain ⟨done, h1, h2⟩ := h
    have : part = done := by simpa using h1
    subst this
    show _ = _
    rw [h2]; rfl

theorem PWStep.not_idle {B : Builtins O} {act : α → Except O (Option O)} {w w' : PW α O}
    {eo : Option O} (h : PWStep B act w eo w') : w ≠ .idle ∧ w' ≠ .idle ∧ w ≠ .finished := by
  cases h <;> simp

/-- a worker that cannot step is not started or ended -/
theorem PW.stuck {B : Builtins O} {act : α → Except O (Option O)} {w : PW α O}
    (h : ∀ eo w', ¬ PWStep B act w eo w') (hi : w ≠ .idle) : w = .finished := by
  cases w with
  | idle => exact absurd rfl hi
  | finished => rfl
  | holding o t => exact absurd .put (h _ _)
  | running t =>
    cases t with
    | nil => exact absurd .stop (h _ _)
    | cons x xs =>
      cases ha : act x with
      | error e => exact absurd (.caught ha) (h _ _)
      | ok eo =>
        cases eo with
        | none => exact absurd (.skip ha) (h _ _)
        | some o => exact absurd (.keep ha) (h _ _)

/-- everything a worker has sent is a message of its partition or the end marker -/
theorem PWInv.mem {B : Builtins O} {act : α → Except O (Option O)} {part : List α} {w : PW α O}
    {sent : List O} (h : PWInv B act part w sent) {o : O} (ho : o ∈ sent) :
    o ∈ msgs act part ∨ o = B.stop := by
  cases w with
  | idle => rw [show sent = [] from h] at ho; cases ho
  | running t =>
    obtain ⟨done, h1, h2⟩ := h
    left; rw [h1, msgs_append]; rw [h2] at ho; exact List.mem_append_left _ ho
  | holding o t =>
    obtain ⟨done, x, h1, h2, h3⟩ := h
    left; rw [h1, msgs_append]; rw [h3] at ho; exact List.mem_append_left _ ho
  | finished =>
    rw [show sent = _ from h] at ho
    simpa using ho

def PW.measure (len : Nat) : PW α O → Nat
  | .idle => 3 * len + 3
  | .running todo => 3 * todo.length + 2
  | .holding _ todo => 3 * todo.length + 4
  | .finished => 0

theorem PWStep.decreases {B : Builtins O} {act : α → Except O (Option O)} {w w' : PW α O}
    {eo : Option O} (h : PWStep B act w eo w') (len : Nat) :
    w'.measure len + eo.toList.length < w.measure len := by
  cases h <;> simp [PW.measure] <;> omega

def PMain.measure (n : Nat) : PMain O → Nat
  | .starting k => (n - k) + n + 4
  | .collecting => n + 2
  | .joining k => (n - k) + 1
  | .returned => 0
  | .raised _ => 0

/-! ### one shared queue -/

def PMainInv (B : Builtins O) (n : Nat) (s : PS α O) (received : List O) : PMain O → Prop
  | .starting k => k ≤ n ∧ (∀ j, k ≤ j → s.ws j = .idle) ∧ ∀ j < k, s.ws j ≠ .idle
  | .collecting => ∀ j < n, s.ws j ≠ .idle
  | .joining k => k ≤ n ∧ n ≤ s.nrFinished ∧ (∀ j < k, s.ws j = .finished) ∧ ∀ j < n, s.ws j ≠ .idle
  | .returned => n ≤ s.nrFinished ∧ ∀ j < n, s.ws j = .finished
  | .raised e => e ∈ received ∧ B.isStop e = false ∧ B.isExc e = true

structure PInv (B : Builtins O) (act : α → Except O (Option O)) (parts : List (List α))
    (s : PS α O) (R Q : List (Nat × O)) : Prop where
  outside : ∀ k, parts.length ≤ k → s.ws k = .idle
  main : PMainInv B parts.length s (R.map Prod.snd) s.main
  queue : s.queue = Q.map Prod.snd
  nr : s.nrFinished = (R.map Prod.snd).countP B.isStop
  mapped : (∀ e, s.main ≠ .raised e) →
    s.mapped = (R.map Prod.snd).filter (fun o => !B.isStop o) ∧ ∀ o ∈ s.mapped, B.isExc o = false
  sent : ∀ k, PWInv B act (parts.getD k []) (s.ws k) (ofTag (R ++ Q) k)

theorem PMainInv.worker {B : Builtins O} {act : α → Except O (Option O)} {n : Nat} {s : PS α O}
    {rec : List O} {m : PMain O} (h : PMainInv B n s rec m) {k : Nat} {eo : Option O} {w : PW α O}
    {q : List O} (hs : PWStep B act (s.ws k) eo w) :
    PMainInv B n { s with ws := Function.update s.ws k w, queue := q } rec m := by
  obtain ⟨h1, h2, h3⟩ := hs.not_idle
  have hni : ∀ {j}, s.ws j ≠ .idle → Function.update s.ws k w j ≠ .idle := by
    intro j hj
    by_cases hjk : j = k
    · subst hjk; simpa using h2
    · rw [Function.update_of_ne hjk]; exact hj
  have hfi : ∀ {j}, s.ws j = .finished → Function.update s.ws k w j = .finished := by
    intro j hj
    have : j ≠ k := by rintro rfl; exact h3 hj
    rw [Function.update_of_ne this]; exact hj
  have hid : ∀ {j}, s.ws j = .idle → Function.update s.ws k w j = .idle := by
    intro j hj
    have : j ≠ k := by rintro rfl; exact h1 hj
    rw [Function.update_of_ne this]; exact hj
  cases m with
  | starting i => exact ⟨h.1, fun j hj => hid (h.2.1 j hj), fun j hj => hni (h.2.2 j hj)⟩
  | collecting => exact fun j hj => hni (h j hj)
  | joining i => exact ⟨h.1, h.2.1, fun j hj => hfi (h.2.2.1 j hj), fun j hj => hni (h.2.2.2 j hj)⟩
  | returned => exact ⟨h.1, fun j hj => hfi (h.2 j hj)⟩
  | raised e => exact h

theorem ofTag_append (l m : List (Nat × O)) (k : Nat) : ofTag (l ++ m) k = ofTag l k ++ ofTag m k := by
  simp [ofTag]

theorem PInv.step {B : Builtins O} {act : α → Except O (Option O)} {parts : List (List α)}
    {s t : PS α O} {R Q : List (Nat × O)} (h : PInv B act parts s R Q) (hs : PStep B act parts s t) :
    ∃ R' Q', PInv B act parts t R' Q' := by
  obtain ⟨ho, hm, hq, hn, hmap, hw⟩ := h
  cases hs with
  | @start k part e1 e2 =>
    rw [e1] at hm
    obtain ⟨g1, g2, g3⟩ := hm
    have hk : k < parts.length := (List.getElem?_eq_some_iff.1 e2).1
    refine ⟨R, Q, fun j hj => ?_, ⟨hk, fun j hj => ?_, fun j hj => ?_⟩, hq, hn,
      fun _ => hmap (by simp [e1]), fun j => ?_⟩
    · have : j ≠ k := by omega
      simp only [Function.update_of_ne this]; exact ho j hj
    · have : j ≠ k := by omega
      simp only [Function.update_of_ne this]; exact g2 j (by omega)
    · by_cases hjk : j = k
      · subst hjk; simp
      · simp only [Function.update_of_ne hjk]; exact g3 j (by omega)
    · by_cases hjk : j = k
      · subst hjk
        have := hw j
        rw [g2 j le_rfl] at this
        simp only [Function.update_self]
        exact ⟨[], by simp [List.getD, e2], this⟩
      · simp only [Function.update_of_ne hjk]; exact hw j
  | started e1 =>
    rw [e1] at hm
    exact ⟨R, Q, ho, hm.2.2, hq, hn, fun _ => hmap (by simp [e1]), hw⟩
  | @getStop o q e1 e2 e3 e4 =>
    rw [e1] at hm
    rw [e3] at hq
    obtain ⟨p, Q', rfl, hp⟩ : ∃ p Q', Q = p :: Q' ∧ o = p.2 ∧ q = Q'.map Prod.snd := by
      cases Q with
      | nil => simp at hq
      | cons p Q' => simp at hq; exact ⟨p, Q', rfl, hq⟩
    obtain ⟨g1, g2⟩ := hmap (by simp [e1])
    refine ⟨R ++ [p], Q', ho, ?_, hp.2, ?_, fun _ => ⟨?_, g2⟩, fun k => ?_⟩
    · simp only [e1]; exact hm
    · simp [hn, ← hp.1, e4]
    · simp [g1, ← hp.1, e4]
    · have := hw k
      simpa using this
  | @getExc o q e1 e2 e3 e4 e5 =>
    rw [e3] at hq
    obtain ⟨p, Q', rfl, hp⟩ : ∃ p Q', Q = p :: Q' ∧ o = p.2 ∧ q = Q'.map Prod.snd := by
      cases Q with
      | nil => simp at hq
      | cons p Q' => simp at hq; exact ⟨p, Q', rfl, hq⟩
    refine ⟨R ++ [p], Q', ho, ⟨by simp [hp.1], e4, e5⟩, hp.2, ?_, fun hc => (hc o rfl).elim, fun k => ?_⟩
    · simp [hn, ← hp.1, e4]
    · simpa using hw k
  | @getItem o q e1 e2 e3 e4 e5 =>
    rw [e1] at hm
    rw [e3] at hq
    obtain ⟨p, Q', rfl, hp⟩ : ∃ p Q', Q = p :: Q' ∧ o = p.2 ∧ q = Q'.map Prod.snd := by
      cases Q with
      | nil => simp at hq
      | cons p Q' => simp at hq; exact ⟨p, Q', rfl, hq⟩
    obtain ⟨g1, g2⟩ := hmap (by simp [e1])
    refine ⟨R ++ [p], Q', ho, ?_, hp.2, ?_, fun _ => ⟨?_, ?_⟩, fun k => ?_⟩
    · simp only [e1]; exact hm
    · simp [hn, ← hp.1, e4]
    · simp [g1, ← hp.1, e4]
    · intro o' ho'
      rcases List.mem_append.1 ho' with h | h
      · exact g2 _ h
      · rw [List.mem_singleton.1 h]; exact e5
    · simpa using hw k
  | collected e1 e2 =>
    rw [e1] at hm
    exact ⟨R, Q, ho, ⟨Nat.zero_le _, by simpa using e2, fun j hj => by omega, hm⟩, hq, hn,
      fun _ => hmap (by simp [e1]), hw⟩
  | @join k e1 e2 e3 =>
    rw [e1] at hm
    obtain ⟨g1, g2, g3, g4⟩ := hm
    refine ⟨R, Q, ho, ⟨e2, g2, fun j hj => ?_, g4⟩, hq, hn, fun _ => hmap (by simp [e1]), hw⟩
    rcases Nat.lt_or_ge j k with h | h
    · exact g3 j h
    · have : j = k := by omega
      subst this; exact e3
  | joined e1 =>
    rw [e1] at hm
    exact ⟨R, Q, ho, ⟨hm.2.1, hm.2.2.1⟩, hq, hn, fun _ => hmap (by simp [e1]), hw⟩
  | @worker k eo w hs =>
    refine ⟨R, Q ++ eo.toList.map (fun o => (k, o)), fun j hj => ?_, hm.worker hs, ?_, hn, hmap, fun j => ?_⟩
    · have : j ≠ k := by rintro rfl; exact hs.not_idle.1 (ho _ hj)
      simp only [Function.update_of_ne this]; exact ho j hj
    · rw [hq]; cases eo <;> simp
    · by_cases hj : j = k
      · subst hj
        simp only [Function.update_self]
        have := (hw j).step hs
        have e : ofTag (R ++ (Q ++ eo.toList.map (fun o => (j, o)))) j = ofTag (R ++ Q) j ++ eo.toList := by
          cases eo <;> simp [ofTag]
        rw [e]; exact this
      · have e : ofTag (R ++ (Q ++ eo.toList.map (fun o => (k, o)))) j = ofTag (R ++ Q) j := by
          cases eo <;> simp [ofTag, Ne.symm hj]
        simp only [Function.update_of_ne hj, e]; exact hw j

theorem PInv.init (B : Builtins O) (act : α → Except O (Option O)) (parts : List (List α)) :
    PInv B act parts PS.init [] [] :=
  ⟨fun _ _ => rfl, ⟨Nat.zero_le _, fun _ _ => rfl, fun j hj => by omega⟩, rfl, rfl,
    fun _ => ⟨rfl, by simp [PS.init]⟩, fun k => rfl⟩

theorem PInv.reach {B : Builtins O} {act : α → Except O (Option O)} {parts : List (List α)}
    {s : PS α O} (h : Relation.ReflTransGen (PStep B act parts) PS.init s) :
    ∃ R Q, PInv B act parts s R Q := by
  induction h with
  | refl => exact ⟨[], [], PInv.init B act parts⟩
  | tail _ hs ih =>
    obtain ⟨R, Q, ih⟩ := ih
    exact ih.step hs

theorem PInv.tags {B : Builtins O} {act : α → Except O (Option O)} {parts : List (List α)}
    {s : PS α O} {R Q : List (Nat × O)} (h : PInv B act parts s R Q) :
    ∀ p ∈ R ++ Q, p.1 < parts.length := by
  intro p hp
  by_contra hc
  have := h.sent p.1
  rw [h.outside p.1 (by omega)] at this
  have h2 : p.2 ∈ ofTag (R ++ Q) p.1 := List.mem_map.2 ⟨p, List.mem_filter.2 ⟨hp, by simp⟩, rfl⟩
  have h3 : ofTag (R ++ Q) p.1 = [] := this
  rw [h3] at h2; cases h2

theorem mem_msgs_flatten {act : α → Except O (Option O)} {parts : List (List α)} {k : Nat} {o : O}
    (h : o ∈ msgs act (parts.getD k [])) : o ∈ msgs act parts.flatten := by
  obtain ⟨x, hx, hm⟩ := List.mem_filterMap.1 h
  refine List.mem_filterMap.2 ⟨x, ?_, hm⟩
  rcases Nat.lt_or_ge k parts.length with hk | hk
  · simp only [List.getD, hk, List.getElem?_eq_getElem, Option.getD_some] at hx
    exact List.mem_flatten.2 ⟨_, List.getElem_mem hk, hx⟩
  · simp [List.getD, List.getElem?_eq_none hk] at hx

theorem PInv.raised {B : Builtins O} {act : α → Except O (Option O)} {parts : List (List α)}
    {s : PS α O} {R Q : List (Nat × O)} (h : PInv B act parts s R Q) {e : O}
    (he : s.main = .raised e) :
    e ∈ msgs act parts.flatten ∧ B.isStop e = false ∧ B.isExc e = true := by
  have hm := h.main
  rw [he] at hm
  obtain ⟨h1, h2, h3⟩ := hm
  refine ⟨?_, h2, h3⟩
  obtain ⟨p, hp, rfl⟩ := List.mem_map.1 h1
  have h4 : p.2 ∈ ofTag (R ++ Q) p.1 :=
    List.mem_map.2 ⟨p, List.mem_filter.2 ⟨List.mem_append_left _ hp, by simp⟩, rfl⟩
  rcases (h.sent p.1).mem h4 with h5 | h5
  · exact mem_msgs_flatten h5
  · rw [h5, B.stop_isStop] at h2; cases h2

theorem msgs_flatten (act : α → Except O (Option O)) (parts : List (List α)) :
    msgs act parts.flatten
      = ((List.range parts.length).map fun k => msgs act (parts.getD k [])).flatten := by
  conv_lhs => rw [flatten_getD parts]
  generalize List.range parts.length = ks
  induction ks with
  | nil => simp [msgs]
  | cons k ks ih =>
    simp only [List.map_cons, List.flatten_cons, msgs_append, ih]

theorem filter_flatten_map {β γ : Type} (p : γ → Bool) (g : β → List γ) (ks : List β) :
    ((ks.map g).flatten).filter p = (ks.map fun k => (g k).filter p).flatten := by
  induction ks with
  | nil => rfl
  | cons k ks ih => simp [List.filter_append, ih]

/-- the result of a completed collection -/
theorem PInv.returned {B : Builtins O} {act : α → Except O (Option O)} {parts : List (List α)}
    {s : PS α O} {R Q : List (Nat × O)} (h : PInv B act parts s R Q) (he : s.main = .returned)
    (hns : ∀ o ∈ msgs act parts.flatten, B.isStop o = false) :
    s.mapped.Perm (msgs act parts.flatten) ∧ ∀ o ∈ s.mapped, B.isExc o = false := by
  obtain ⟨hmap1, hmap2⟩ := h.mapped (by simp [he])
  refine ⟨?_, hmap2⟩
  have hm := h.main
  rw [he] at hm
  obtain ⟨h1, h2⟩ := hm
  have hsent : ∀ k < parts.length, ofTag (R ++ Q) k = msgs act (parts.getD k []) ++ [B.stop] := by
    intro k hk
    have := h.sent k
    rw [h2 k hk] at this
    exact this
  have hns' : ∀ k, ∀ o ∈ msgs act (parts.getD k []), B.isStop o = false :=
    fun k o ho => hns o (mem_msgs_flatten ho)
  have hperm := perm_tags (R ++ Q) parts.length h.tags
  have hmapeq : (List.range parts.length).map (ofTag (R ++ Q))
      = (List.range parts.length).map fun k => msgs act (parts.getD k []) ++ [B.stop] := by
    apply List.map_congr_left
    intro k hk
    exact hsent k (List.mem_range.1 hk)
  rw [hmapeq] at hperm
  have hcount : ((R ++ Q).map Prod.snd).countP B.isStop = parts.length := by
    rw [hperm.countP_eq]
    rw [List.countP_flatten, List.map_map]
    have : (List.range parts.length).map
        (List.countP B.isStop ∘ fun k => msgs act (parts.getD k []) ++ [B.stop])
        = (List.range parts.length).map fun _ => 1 := by
      apply List.map_congr_left
      intro k _
      have : (msgs act (parts.getD k [])).countP B.isStop = 0 :=
        List.countP_eq_zero.2 fun o ho => by rw [hns' k o ho]; simp
      simp only [Function.comp, List.countP_append, this]; simp [B.stop_isStop]
    rw [this]; simp
  have hQ : Q = [] := by
    rw [List.map_append, List.countP_append, ← h.nr] at hcount
    have hq0 : (Q.map Prod.snd).countP B.isStop = 0 := by omega
    by_contra hQ
    obtain ⟨p, hp⟩ := List.exists_mem_of_ne_nil Q hQ
    have hk := h.tags p (List.mem_append_right _ hp)
    have h3 := hsent p.1 hk
    rw [ofTag_append] at h3
    have h4 : ofTag Q p.1 ≠ [] := by
      have : p.2 ∈ ofTag Q p.1 := List.mem_map.2 ⟨p, List.mem_filter.2 ⟨hp, by simp⟩, rfl⟩
      intro hc; rw [hc] at this; cases this
    have h5 : B.stop ∈ ofTag Q p.1 := by
      have := congrArg List.getLast? h3
      rw [List.getLast?_append_of_ne_nil _ h4] at this
      simp at this
      exact List.mem_of_getLast? this
    have h6 : B.stop ∈ Q.map Prod.snd := by
      obtain ⟨p', hp', he'⟩ := List.mem_map.1 h5
      exact List.mem_map.2 ⟨p', (List.mem_filter.1 hp').1, he'⟩
    have := List.countP_eq_zero.1 hq0 _ h6
    exact this B.stop_isStop
  subst hQ
  rw [List.append_nil] at hperm
  rw [hmap1]
  refine (hperm.filter _).trans ?_
  rw [filter_flatten_map, msgs_flatten]
  have : (fun k => (msgs act (parts.getD k []) ++ [B.stop]).filter fun o => !B.isStop o)
      = fun k => msgs act (parts.getD k []) := by
    funext k
    rw [List.filter_append]
    have : (msgs act (parts.getD k [])).filter (fun o => !B.isStop o) = msgs act (parts.getD k []) :=
      List.filter_eq_self.2 fun o ho => by simp [hns' k o ho]
    rw [this]; simp [B.stop_isStop]
  rw [this]

def PS.measure (parts : List (List α)) (s : PS α O) : Nat :=
  s.main.measure parts.length + s.queue.length
    + ∑ k ∈ Finset.range parts.length, (s.ws k).measure (parts.getD k []).length

theorem sum_update_add {n k c : Nat} (hk : k < n) (f g : Nat → Nat) (h1 : g k + c < f k)
    (h2 : ∀ j, j ≠ k → g j = f j) :
    (∑ j ∈ Finset.range n, g j) + c < ∑ j ∈ Finset.range n, f j := by
  have h3 := Finset.sum_erase_add (Finset.range n) f (Finset.mem_range.2 hk)
  have h4 := Finset.sum_erase_add (Finset.range n) g (Finset.mem_range.2 hk)
  have h5 : ∑ j ∈ (Finset.range n).erase k, g j = ∑ j ∈ (Finset.range n).erase k, f j :=
    Finset.sum_congr rfl fun j hj => h2 j (Finset.ne_of_mem_erase hj)
  omega

theorem PStep.decreases {B : Builtins O} {act : α → Except O (Option O)} {parts : List (List α)}
    {s t : PS α O} {R Q : List (Nat × O)} (h : PInv B act parts s R Q) (hs : PStep B act parts s t) :
    t.measure parts < s.measure parts := by
  obtain ⟨ho, hm, _⟩ := h
  unfold PS.measure
  cases hs with
  | @start k part e1 e2 =>
    have hk : k < parts.length := (List.getElem?_eq_some_iff.1 e2).1
    rw [e1] at hm
    have := sum_update_le (n := parts.length) (k := k)
      (fun j => (s.ws j).measure (parts.getD j []).length)
      (fun j => (Function.update s.ws k (.running part) j).measure (parts.getD j []).length)
      (by simp [hm.2.1 k le_rfl, PW.measure, List.getD, e2])
      (fun j hj => by simp [Function.update_of_ne hj])
    simp only [e1, PMain.measure]
    omega
  | started e1 => simp only [e1, PMain.measure]; omega
  | getStop e1 e2 e3 e4 => simp only [e1, e3, PMain.measure, List.length_cons]; omega
  | getExc e1 e2 e3 e4 => simp only [e1, e3, PMain.measure, List.length_cons]; omega
  | getItem e1 e2 e3 e4 => simp only [e1, e3, PMain.measure, List.length_cons]; omega
  | collected e1 e2 => simp only [e1, PMain.measure]; omega
  | join e1 e2 e3 => simp only [e1, PMain.measure]; omega
  | joined e1 => simp only [e1, PMain.measure]; omega
  | @worker k eo w hs =>
    have hk : k < parts.length := by
      by_contra hc
      exact hs.not_idle.1 (ho k (by omega))
    have := sum_update_add hk (c := eo.toList.length)
      (fun j => (s.ws j).measure (parts.getD j []).length)
      (fun j => (Function.update s.ws k w j).measure (parts.getD j []).length)
      (by simpa only [Function.update_self] using hs.decreases _)
      (fun j hj => by simp [Function.update_of_ne hj])
    simp only [List.length_append]
    omega

theorem PInv.progress {B : Builtins O} {act : α → Except O (Option O)} {parts : List (List α)}
    {s : PS α O} {R Q : List (Nat × O)} (h : PInv B act parts s R Q)
    (hstuck : ∀ t, ¬ PStep B act parts s t) : s.main = .returned ∨ ∃ e, s.main = .raised e := by
  have hwork : ∀ k, s.ws k ≠ .idle → s.ws k = .finished := fun k hk =>
    PW.stuck (fun eo w' hw => hstuck _ (.worker hw)) hk
  have hm := h.main
  cases hmain : s.main with
  | returned => exact .inl rfl
  | raised e => exact .inr ⟨e, rfl⟩
  | starting k =>
    rw [hmain] at hm
    rcases Nat.lt_or_ge k parts.length with h | h
    · exact absurd (.start hmain (List.getElem?_eq_getElem h)) (hstuck _)
    · have : k = parts.length := by have := hm.1; omega
      subst this
      exact absurd (.started hmain) (hstuck _)
  | joining k =>
    rw [hmain] at hm
    rcases Nat.lt_or_ge k parts.length with h | h
    · exact absurd (.join hmain h (hwork k (hm.2.2.2 k h))) (hstuck _)
    · have : k = parts.length := by have := hm.1; omega
      subst this
      exact absurd (.joined hmain) (hstuck _)
  | collecting =>
    exfalso
    rw [hmain] at hm
    by_cases hnr : s.nrFinished < parts.length
    · cases hq : s.queue with
      | cons o q =>
        cases hst : B.isStop o with
        | true => exact hstuck _ (.getStop hmain hnr hq hst)
        | false =>
          cases hex : B.isExc o with
          | true => exact hstuck _ (.getExc hmain hnr hq hst hex)
          | false => exact hstuck _ (.getItem hmain hnr hq hst hex)
      | nil =>
        have hQ : Q = [] := by have := h.queue; rw [hq] at this; simpa using this.symm
        subst hQ
        have hperm := perm_tags (R ++ []) parts.length h.tags
        have hc := hperm.countP_eq B.isStop
        rw [List.append_nil, ← h.nr, List.countP_flatten, List.map_map] at hc
        have hge : ((List.range parts.length).map fun _ => 1).sum ≤
            ((List.range parts.length).map (List.countP B.isStop ∘ ofTag R)).sum := by
          apply List.sum_le_sum
          intro k hk
          have hk := List.mem_range.1 hk
          have h1 := h.sent k
          rw [hwork k (hm k hk), List.append_nil] at h1
          have h2 : ofTag R k = msgs act (parts.getD k []) ++ [B.stop] := h1
          simp [h2, B.stop_isStop]
        simp at hge
        omega
    · exact hstuck _ (.collected hmain hnr)

/-! ### one queue per worker -/

/-- what the collector knows about worker `k` -/
def Got (B : Builtins O) (isOpen : Prop) (received mapped : List O) : Prop :=
  (isOpen → mapped = received ∧ ∀ o ∈ received, B.isStop o = false) ∧
  (¬ isOpen → ∃ o, received = mapped ++ [o] ∧ B.isStop o = true ∧ ∀ o ∈ mapped, B.isStop o = false)

def QMainInv (B : Builtins O) (n : Nat) (s : QS α O) (R : Nat → List O) : PMain O → Prop
  | .starting k => k ≤ n ∧ (∀ j, k ≤ j → s.ws j = .idle) ∧ (∀ j < k, s.ws j ≠ .idle) ∧
      ∀ j, R j = [] ∧ s.mapped j = []
  | .collecting => (∀ j < n, s.ws j ≠ .idle) ∧ s.openWorkers.Nodup ∧ (∀ j ∈ s.openWorkers, j < n) ∧
      ∀ j < n, Got B (j ∈ s.openWorkers) (R j) (s.mapped j)
  | .joining k => k ≤ n ∧ (∀ j < k, s.ws j = .finished) ∧ (∀ j < n, s.ws j ≠ .idle) ∧
      ∀ j < n, Got B False (R j) (s.mapped j)
  | .returned => (∀ j < n, s.ws j = .finished) ∧ ∀ j < n, Got B False (R j) (s.mapped j)
  | .raised e => (∃ k < n, e ∈ R k) ∧ B.isStop e = false ∧ B.isExc e = true

structure QInv (B : Builtins O) (act : α → Except O (Option O)) (parts : List (List α))
    (s : QS α O) (R : Nat → List O) : Prop where
  outside : ∀ k, parts.length ≤ k → s.ws k = .idle
  main : QMainInv B parts.length s R s.main
  noExc : ∀ k, ∀ o ∈ s.mapped k, B.isExc o = false
  sent : ∀ k, PWInv B act (parts.getD k []) (s.ws k) (R k ++ s.queues k)

theorem QMainInv.worker {B : Builtins O} {act : α → Except O (Option O)} {n : Nat} {s : QS α O}
    {R : Nat → List O} {m : PMain O} (h : QMainInv B n s R m) {k : Nat} {eo : Option O} {w : PW α O}
    {q : Nat → List O} (hs : PWStep B act (s.ws k) eo w) :
    QMainInv B n { s with ws := Function.update s.ws k w, queues := q } R m := by
  obtain ⟨h1, h2, h3⟩ := hs.not_idle
  have hni : ∀ {j}, s.ws j ≠ .idle → Function.update s.ws k w j ≠ .idle := by
    intro j hj
    by_cases hjk : j = k
    · subst hjk; simpa using h2
    · rw [Function.update_of_ne hjk]; exact hj
  have hfi : ∀ {j}, s.ws j = .finished → Function.update s.ws k w j = .finished := by
    intro j hj
    have : j ≠ k := by rintro rfl; exact h3 hj
    rw [Function.update_of_ne this]; exact hj
  have hid : ∀ {j}, s.ws j = .idle → Function.update s.ws k w j = .idle := by
    intro j hj
    have : j ≠ k := by rintro rfl; exact h1 hj
    rw [Function.update_of_ne this]; exact hj
  cases m with
  | starting i => exact ⟨h.1, fun j hj => hid (h.2.1 j hj), fun j hj => hni (h.2.2.1 j hj), h.2.2.2⟩
  | collecting => exact ⟨fun j hj => hni (h.1 j hj), h.2⟩
  | joining i => exact ⟨h.1, fun j hj => hfi (h.2.1 j hj), fun j hj => hni (h.2.2.1 j hj), h.2.2.2⟩
  | returned => exact ⟨fun j hj => hfi (h.1 j hj), h.2⟩
  | raised e => exact h

theorem QInv.step {B : Builtins O} {act : α → Except O (Option O)} {parts : List (List α)}
    {s t : QS α O} {R : Nat → List O} (h : QInv B act parts s R) (hs : QStep B act parts s t) :
    ∃ R', QInv B act parts t R' := by
  obtain ⟨ho, hm, hx, hw⟩ := h
  have hsent : ∀ {k o q}, s.queues k = o :: q → ∀ j, PWInv B act (parts.getD j []) (s.ws j)
      (Function.update R k (R k ++ [o]) j ++ Function.update s.queues k q j) := by
    intro k o q hq j
    by_cases hj : j = k
    · subst hj
      simp only [Function.update_self]
      have := hw j
      rw [hq] at this
      simpa using this
    · simp only [Function.update_of_ne hj]; exact hw j
  cases hs with
  | @start k part e1 e2 =>
    rw [e1] at hm
    obtain ⟨g1, g2, g3, g4⟩ := hm
    have hk : k < parts.length := (List.getElem?_eq_some_iff.1 e2).1
    refine ⟨R, fun j hj => ?_, ⟨hk, fun j hj => ?_, fun j hj => ?_, g4⟩, hx, fun j => ?_⟩
    · have : j ≠ k := by omega
      simp only [Function.update_of_ne this]; exact ho j hj
    · have : j ≠ k := by omega
      simp only [Function.update_of_ne this]; exact g2 j (by omega)
    · by_cases hjk : j = k
      · subst hjk; simp
      · simp only [Function.update_of_ne hjk]; exact g3 j (by omega)
    · by_cases hjk : j = k
      · subst hjk
        have := hw j
        rw [g2 j le_rfl] at this
        simp only [Function.update_self]
        exact ⟨[], by simp [List.getD, e2], this⟩
      · simp only [Function.update_of_ne hjk]; exact hw j
  | started e1 =>
    rw [e1] at hm
    obtain ⟨g1, g2, g3, g4⟩ := hm
    refine ⟨R, ho, ⟨g3, List.nodup_range, fun j hj => List.mem_range.1 hj, fun j hj => ⟨fun _ => ?_, fun hc => ?_⟩⟩, hx, hw⟩
    · simp [g4 j]
    · exact absurd (List.mem_range.2 hj) hc
  | @getStop os k o q e1 e2 e3 e4 =>
    rw [e1] at hm
    obtain ⟨g1, g2, g3, g4⟩ := hm
    rw [e2] at g2 g3 g4
    have hnd := List.nodup_append.1 g2
    refine ⟨Function.update R k (R k ++ [o]), ho, ?_, hx, hsent e3⟩
    simp only [e1]
    refine ⟨g1, hnd.1, fun j hj => g3 j (List.mem_append_left _ hj), fun j hj => ?_⟩
    by_cases hjk : j = k
    · subst hjk
      have hno : j ∉ os := fun hc => hnd.2.2 j hc j (by simp) rfl
      obtain ⟨m1, m2⟩ := (g4 j hj).1 (by simp)
      refine ⟨fun hc => absurd hc hno, fun _ => ⟨o, ?_, e4, ?_⟩⟩
      · simp [m1]
      · rw [m1]; exact m2
    · simp only [Function.update_of_ne hjk]
      have := g4 j hj
      simpa [hjk] using this
  | @getExc os k o q e1 e2 e3 e4 e5 =>
    rw [e1] at hm
    obtain ⟨g1, g2, g3, g4⟩ := hm
    refine ⟨Function.update R k (R k ++ [o]), ho, ⟨⟨k, g3 k (by simp [e2]), by simp⟩, e4, e5⟩, hx, hsent e3⟩
  | @getItem os k o q e1 e2 e3 e4 e5 =>
    rw [e1] at hm
    obtain ⟨g1, g2, g3, g4⟩ := hm
    rw [e2] at g2 g3 g4
    have hperm : (os ++ [k]).Perm (k :: os) := List.perm_append_singleton _ _
    refine ⟨Function.update R k (R k ++ [o]), ho, ?_, ?_, hsent e3⟩
    · simp only [e1]
      refine ⟨g1, hperm.nodup_iff.1 g2, fun j hj => g3 j (hperm.mem_iff.2 hj), fun j hj => ?_⟩
      by_cases hjk : j = k
      · subst hjk
        obtain ⟨m1, m2⟩ := (g4 j hj).1 (by simp)
        refine ⟨fun _ => ⟨by simp [m1], ?_⟩, fun hc => absurd (List.mem_cons_self ..) hc⟩
        simp only [Function.update_self]
        intro o' ho'
        rcases List.mem_append.1 ho' with h | h
        · exact m2 _ h
        · rw [List.mem_singleton.1 h]; exact e4
      · simp only [Function.update_of_ne hjk]
        have := g4 j hj
        simpa [hjk] using this
    · intro j o' ho'
      by_cases hjk : j = k
      · subst hjk
        simp only [Function.update_self] at ho'
        rcases List.mem_append.1 ho' with h | h
        · exact hx _ _ h
        · rw [List.mem_singleton.1 h]; exact e5
      · simp only [Function.update_of_ne hjk] at ho'; exact hx _ _ ho'
  | collected e1 e2 =>
    rw [e1] at hm
    obtain ⟨g1, g2, g3, g4⟩ := hm
    refine ⟨R, ho, ⟨Nat.zero_le _, fun j hj => by omega, g1, fun j hj => ?_⟩, hx, hw⟩
    have := g4 j hj
    rw [e2] at this
    simpa using this
  | @join k e1 e2 e3 =>
    rw [e1] at hm
    obtain ⟨g1, g2, g3, g4⟩ := hm
    refine ⟨R, ho, ⟨e2, fun j hj => ?_, g3, g4⟩, hx, hw⟩
    rcases Nat.lt_or_ge j k with h | h
    · exact g2 j h
    · have : j = k := by omega
      subst this; exact e3
  | joined e1 =>
    rw [e1] at hm
    exact ⟨R, ho, ⟨hm.2.1, hm.2.2.2⟩, hx, hw⟩
  | @worker k eo w hs =>
    refine ⟨R, fun j hj => ?_, hm.worker hs, hx, fun j => ?_⟩
    · have : j ≠ k := by rintro rfl; exact hs.not_idle.1 (ho _ hj)
      simp only [Function.update_of_ne this]; exact ho j hj
    · by_cases hj : j = k
      · subst hj
        simp only [Function.update_self]
        have := (hw j).step hs
        rwa [List.append_assoc] at this
      · simp only [Function.update_of_ne hj]; exact hw j

theorem QInv.init (B : Builtins O) (act : α → Except O (Option O)) (parts : List (List α)) :
    QInv B act parts QS.init (fun _ => []) :=
  ⟨fun _ _ => rfl, ⟨Nat.zero_le _, fun _ _ => rfl, fun j hj => by omega, fun _ => ⟨rfl, rfl⟩⟩,
    by simp [QS.init], fun k => rfl⟩

theorem QInv.reach {B : Builtins O} {act : α → Except O (Option O)} {parts : List (List α)}
    {s : QS α O} (h : Relation.ReflTransGen (QStep B act parts) QS.init s) :
    ∃ R, QInv B act parts s R := by
  induction h with
  | refl => exact ⟨_, QInv.init B act parts⟩
  | tail _ hs ih =>
    obtain ⟨R, ih⟩ := ih
    exact ih.step hs

theorem QInv.raised {B : Builtins O} {act : α → Except O (Option O)} {parts : List (List α)}
    {s : QS α O} {R : Nat → List O} (h : QInv B act parts s R) {e : O} (he : s.main = .raised e) :
    e ∈ msgs act parts.flatten ∧ B.isStop e = false ∧ B.isExc e = true := by
  have hm := h.main
  rw [he] at hm
  obtain ⟨⟨k, _, h1⟩, h2, h3⟩ := hm
  refine ⟨?_, h2, h3⟩
  rcases (h.sent k).mem (List.mem_append_left _ h1) with h5 | h5
  · exact mem_msgs_flatten h5
  · rw [h5, B.stop_isStop] at h2; cases h2

theorem first_stop {B : Builtins O} {m l q : List O} {o o' : O} (hm : ∀ x ∈ m, B.isStop x = false)
    (hl : ∀ x ∈ l, B.isStop x = false) (ho : B.isStop o = true) (ho' : B.isStop o' = true)
    (h : m ++ [o] ++ q = l ++ [o']) : m = l := by
  induction m generalizing l with
  | nil =>
    cases l with
    | nil => rfl
    | cons y l =>
      simp at h
      have := hl y (by simp)
      rw [← h.1, ho] at this; cases this
  | cons x m ih =>
    cases l with
    | nil =>
      simp at h
    | cons y l =>
      simp at h
      have := ih (l := l) (fun x hx => hm x (by simp [hx])) (fun x hx => hl x (by simp [hx])) (by simpa using h.2)
      rw [h.1, this]

theorem QInv.returned {B : Builtins O} {act : α → Except O (Option O)} {parts : List (List α)}
    {s : QS α O} {R : Nat → List O} (h : QInv B act parts s R) (he : s.main = .returned)
    (hns : ∀ o ∈ msgs act parts.flatten, B.isStop o = false) :
    (∀ k < parts.length, s.mapped k = msgs act (parts.getD k [])) ∧
      ∀ k, ∀ o ∈ s.mapped k, B.isExc o = false := by
  refine ⟨fun k hk => ?_, h.noExc⟩
  have hm := h.main
  rw [he] at hm
  obtain ⟨o, h1, h2, h3⟩ := (hm.2 k hk).2 (by simp)
  have h4 := h.sent k
  rw [hm.1 k hk, h1] at h4
  exact first_stop h3 (fun o ho => hns o (mem_msgs_flatten ho)) h2 B.stop_isStop h4

def QS.measure (parts : List (List α)) (s : QS α O) : Nat :=
  s.main.measure parts.length
    + ∑ k ∈ Finset.range parts.length,
        ((s.ws k).measure (parts.getD k []).length + (s.queues k).length)

theorem QStep.decreases {B : Builtins O} {act : α → Except O (Option O)} {parts : List (List α)}
    {s t : QS α O} {R : Nat → List O} (h : QInv B act parts s R) (hs : QStep B act parts s t) :
    t.measure parts < s.measure parts := by
  obtain ⟨ho, hm, _⟩ := h
  unfold QS.measure
  have hget : ∀ {k o q}, k < parts.length → s.queues k = o :: q →
      ∑ j ∈ Finset.range parts.length,
        ((s.ws j).measure (parts.getD j []).length + (Function.update s.queues k q j).length)
      < ∑ j ∈ Finset.range parts.length,
        ((s.ws j).measure (parts.getD j []).length + (s.queues j).length) := by
    intro k o q hk hq
    exact sum_update_lt hk _ _ (by simp [hq]) (fun j hj => by simp [Function.update_of_ne hj])
  cases hs with
  | @start k part e1 e2 =>
    have hk : k < parts.length := (List.getElem?_eq_some_iff.1 e2).1
    rw [e1] at hm
    have := sum_update_le (n := parts.length) (k := k)
      (fun j => (s.ws j).measure (parts.getD j []).length + (s.queues j).length)
      (fun j => (Function.update s.ws k (.running part) j).measure (parts.getD j []).length
        + (s.queues j).length)
      (by simp [hm.2.1 k le_rfl, PW.measure, List.getD, e2])
      (fun j hj => by simp [Function.update_of_ne hj])
    simp only [e1, PMain.measure]
    omega
  | started e1 => simp only [e1, PMain.measure]; omega
  | @getStop os k o q e1 e2 e3 e4 =>
    rw [e1] at hm
    have := hget (hm.2.2.1 k (by simp [e2])) e3
    simp only [e1, PMain.measure]; omega
  | @getExc os k o q e1 e2 e3 e4 e5 =>
    rw [e1] at hm
    have := hget (hm.2.2.1 k (by simp [e2])) e3
    simp only [e1, PMain.measure]; omega
  | @getItem os k o q e1 e2 e3 e4 e5 =>
    rw [e1] at hm
    have := hget (hm.2.2.1 k (by simp [e2])) e3
    simp only [e1, PMain.measure]; omega
  | collected e1 e2 => simp only [e1, PMain.measure]; omega
  | join e1 e2 e3 => simp only [e1, PMain.measure]; omega
  | joined e1 => simp only [e1, PMain.measure]; omega
  | @worker k eo w hs =>
    have hk : k < parts.length := by
      by_contra hc
      exact hs.not_idle.1 (ho k (by omega))
    have hd := hs.decreases (parts.getD k []).length
    have := sum_update_lt hk
      (fun j => (s.ws j).measure (parts.getD j []).length + (s.queues j).length)
      (fun j => (Function.update s.ws k w j).measure (parts.getD j []).length
        + (Function.update s.queues k (s.queues k ++ eo.toList) j).length)
      (by simp only [Function.update_self, List.length_append]; omega)
      (fun j hj => by simp [Function.update_of_ne hj])
    simp only
    omega

theorem QInv.progress {B : Builtins O} {act : α → Except O (Option O)} {parts : List (List α)}
    {s : QS α O} {R : Nat → List O} (h : QInv B act parts s R)
    (hstuck : ∀ t, ¬ QStep B act parts s t) : s.main = .returned ∨ ∃ e, s.main = .raised e := by
  have hwork : ∀ k, s.ws k ≠ .idle → s.ws k = .finished := fun k hk =>
    PW.stuck (fun eo w' hw => hstuck _ (.worker hw)) hk
  have hm := h.main
  cases hmain : s.main with
  | returned => exact .inl rfl
  | raised e => exact .inr ⟨e, rfl⟩
  | starting k =>
    rw [hmain] at hm
    rcases Nat.lt_or_ge k parts.length with h | h
    · exact absurd (.start hmain (List.getElem?_eq_getElem h)) (hstuck _)
    · have : k = parts.length := by have := hm.1; omega
      subst this
      exact absurd (.started hmain) (hstuck _)
  | joining k =>
    rw [hmain] at hm
    rcases Nat.lt_or_ge k parts.length with h | h
    · exact absurd (.join hmain h (hwork k (hm.2.2.1 k h))) (hstuck _)
    · have : k = parts.length := by have := hm.1; omega
      subst this
      exact absurd (.joined hmain) (hstuck _)
  | collecting =>
    exfalso
    rw [hmain] at hm
    obtain ⟨g1, g2, g3, g4⟩ := hm
    rcases List.eq_nil_or_concat s.openWorkers with ho | ⟨os, k, ho⟩
    · exact hstuck _ (.collected hmain ho)
    · cases hq : s.queues k with
      | cons o q =>
        cases hst : B.isStop o with
        | true => exact hstuck _ (.getStop hmain (by simpa using ho) hq hst)
        | false =>
          cases hex : B.isExc o with
          | true => exact hstuck _ (.getExc hmain (by simpa using ho) hq hst hex)
          | false => exact hstuck _ (.getItem hmain (by simpa using ho) hq hst hex)
      | nil =>
        have hmem : k ∈ s.openWorkers := by simp [ho]
        have hk := g3 k hmem
        have h1 := h.sent k
        rw [hwork k (g1 k hk), hq, List.append_nil] at h1
        have h2 : R k = msgs act (parts.getD k []) ++ [B.stop] := h1
        have h3 := ((g4 k hk).1 hmem).2 B.stop (by simp [h2])
        rw [B.stop_isStop] at h3; cases h3

end Prolothar.Parallel
