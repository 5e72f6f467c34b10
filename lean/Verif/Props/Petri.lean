import Verif.Lemmas.PetriSim
/-
C64-C67, C97, C98, C101: Petri nets: construction, firing, markings, simulation, copy.
-/
namespace Prolothar.Petri
open Prolothar.Spec.Petri

/-- an example: `a` and `b` are synchronised by `t`, which produces a token on `c`; `u` moves a token from `c` to `a` -/
def exNet : Net :=
  { Net.empty with
    places := ["a", "b", "c"], transitions := ["t", "u"]
    tokens := fun p => if p = "a" ∨ p = "b" then 1 else 0
    out := fun p => if p = "a" ∨ p = "b" then ["t"] else if p = "c" then ["u"] else []
    pre := fun t => if t = "t" then ["a", "b"] else if t = "u" then ["c"] else []
    post := fun t => if t = "t" then ["c"] else if t = "u" then ["a"] else [] }

theorem exNet_wf : exNet.WF := by
  refine ⟨by decide, by decide, by decide, by decide, ?_⟩
  intro p hp
  have hp' : p = "a" ∨ p = "b" ∨ p = "c" := by simpa [exNet] using hp
  rcases hp' with rfl | rfl | rfl <;>
  · refine ⟨by decide, fun t => ?_⟩
    constructor
    · intro h
      simp [exNet] at h; subst h; decide
    · rintro ⟨h, h'⟩
      have ht : t = "t" ∨ t = "u" := by simpa [exNet] using h
      rcases ht with rfl | rfl
      · first | decide | exact absurd h' (by decide)
      · first | decide | exact absurd h' (by decide)

/-! ### C101 construction -/

/-- C101: every net made with the methods of the API has consistent cross references: ids are unique, arcs lead
to places of the net, and a place knows exactly the transitions that consume from it. -/
theorem C101_built_consistent {n : Net} (h : Built n) :
    n.places.Nodup ∧ n.transitions.Nodup ∧
    (∀ t ∈ n.transitions, (∀ p ∈ n.pre t, p ∈ n.places) ∧ ∀ p ∈ n.post t, p ∈ n.places) ∧
    ∀ p ∈ n.places, ∀ t, t ∈ n.out p ↔ t ∈ n.transitions ∧ p ∈ n.pre t :=
  ⟨h.wf.places, h.wf.transitions, fun t ht => ⟨(h.wf.pre t ht).2, (h.wf.post t ht).2⟩, fun p hp => (h.wf.out p hp).2⟩

/-- C101: adding a connection adds exactly the two arcs -/
theorem C101_connection {n : Net} {s t e : String} (hs : s ∈ n.places) (ht : t ∈ n.transitions) (he : e ∈ n.places) :
    ∃ n', n.addConnection s t e = .ok n' ∧ n'.places = n.places ∧ n'.transitions = n.transitions ∧ n'.tokens = n.tokens ∧
      ∀ x, (∀ p, p ∈ n'.pre x ↔ p ∈ n.pre x ∨ (x = t ∧ p = s)) ∧ (∀ p, p ∈ n'.post x ↔ p ∈ n.post x ∨ (x = t ∧ p = e)) := by
  have hc := show n.addConnection s t e = _ by
    unfold Net.addConnection; rw [if_neg (by simpa using hs), if_neg (by simpa using he), if_neg (by simpa using ht)]
  refine ⟨_, hc, rfl, rfl, rfl, fun x => ?_⟩
  by_cases hx : x = t
  · subst hx; simp [mem_setAdd]
  · simp [upd_ne _ _ hx, hx]

/-- C101: duplicate ids and unknown places or transitions raise a ValueError -/
theorem C101_rejected (n : Net) (s t e label : String) (l : Option String) (v : Bool) (k : Int) :
    (s ∈ n.places ∨ k < 0 → n.addPlace s label k = .error .value) ∧
    (t ∈ n.transitions → n.addTransition t l v = .error .value) ∧
    (s ∉ n.places ∨ e ∉ n.places ∨ t ∉ n.transitions → n.addConnection s t e = .error .value) := by
  refine ⟨?_, ?_, ?_⟩
  · rintro (h | h) <;> unfold Net.addPlace
    · simp [h]
    · simp [h]
  · intro h; unfold Net.addTransition; rw [if_pos h]
  · intro h
    unfold Net.addConnection
    by_cases h1 : s ∉ n.places
    · rw [if_pos h1]
    rw [if_neg h1]
    by_cases h2 : e ∉ n.places
    · rw [if_pos h2]
    rw [if_neg h2, if_pos (by tauto)]

/-- an example: a net built with the methods of the API, with an invisible transition and a loop -/
def exBuild : Py Net := do
  let n ← Net.empty.addPlace "a" "A" 1
  let n ← n.addPlace "b" "B" 0
  let n ← n.addPlace "c" "C" 0
  let n ← n.addTransition "t" (some "work") true
  let n ← n.addTransition "u" none false
  let n ← n.addTransition "v" (some "again") true
  let n ← n.addConnection "a" "t" "b"
  let n ← n.addConnection "b" "u" "c"
  n.addConnection "b" "v" "b"

theorem built_bind {r : Py Net} {f : Net → Py Net} (h : ∀ n, r = .ok n → Built n) (hf : ∀ n, Built n → ∀ n', f n = .ok n' → Built n') :
    ∀ n', r >>= f = .ok n' → Built n' := by
  intro n' hn
  cases r with
  | error e => cases hn
  | ok n => exact hf n (h n rfl) n' hn

theorem exBuild_built : ∀ n, exBuild = .ok n → Built n := by
  refine built_bind (fun _ => .addPlace .empty) fun n hb => ?_
  refine built_bind (fun _ => .addPlace hb) fun n hb => ?_
  refine built_bind (fun _ => .addPlace hb) fun n hb => ?_
  refine built_bind (fun _ => .addTransition hb) fun n hb => ?_
  refine built_bind (fun _ => .addTransition hb) fun n hb => ?_
  refine built_bind (fun _ => .addTransition hb) fun n hb => ?_
  refine built_bind (fun _ => .addConnection hb) fun n hb => ?_
  refine built_bind (fun _ => .addConnection hb) fun n hb => ?_
  exact fun _ => .addConnection hb

/-- C101: a non-trivial net is built -/
example : ∃ n, Built n ∧ n.places = ["a", "b", "c"] ∧ n.transitions = ["t", "u", "v"] ∧ n.out "b" = ["u", "v"] ∧ n.pre "v" = ["b"] ∧
    n.post "v" = ["b"] := by
  obtain ⟨n, hn, h⟩ : ∃ n, exBuild = .ok n ∧ n.places = ["a", "b", "c"] ∧ n.transitions = ["t", "u", "v"] ∧ n.out "b" = ["u", "v"] ∧
    n.pre "v" = ["b"] ∧ n.post "v" = ["b"] := ⟨_, rfl, by decide +kernel⟩
  exact ⟨n, exBuild_built n hn, h⟩

/-! ### C64 firing -/

/-- C64: `force_transition` of an enabled transition takes one token from each input place, adds one to each
output place and changes nothing else. -/
theorem C64_fire {n : Net} (hw : n.WF) {t : String} (ht : t ∈ n.transitions) (he : Enabled (n.pre t) n.tokens) :
    (n.force t).2 = .ok () ∧
      (∀ p, (n.force t).1.tokens p = n.tokens p - (if p ∈ n.pre t then 1 else 0) + (if p ∈ n.post t then 1 else 0)) ∧
      n.SameArcs (n.force t).1 := by
  have hf : n.force t = n.fire t := by unfold Net.force; rw [if_neg (by simpa using ht)]
  rw [hf]
  rcases fire_spec hw ht with ⟨_, h2, h3⟩ | ⟨h1, _⟩
  · exact ⟨h2, fun p => by rw [h3]; rfl, fire_same n t⟩
  · exact absurd he h1

/-- C64: unknown transitions and transitions without enough tokens raise a ValueError -/
theorem C64_rejected {n : Net} (hw : n.WF) {t : String} (h : t ∉ n.transitions ∨ ¬ Enabled (n.pre t) n.tokens) :
    (n.force t).2 = .error .value := by
  unfold Net.force
  by_cases ht : t ∉ n.transitions
  · rw [if_pos ht]
  · rw [if_neg ht]
    rw [not_not] at ht
    rcases fire_spec hw ht with ⟨h1, _⟩ | ⟨_, h2⟩
    · rcases h with h | h
      · exact absurd ht h
      · exact absurd h1 h
    · exact h2

/-- C64: a rejected firing is not undone: here the token of `a` is lost although the call raises -/
theorem C64_rejected_not_atomic :
    let n := (exNet.setMarking [("b", 0)]).1
    n.tokens "a" = 1 ∧ (n.force "t").2 = .error .value ∧ (n.force "t").1.tokens "a" = 0 ∧ (n.force "t").1.tokens "c" = 0 := by
  decide

/-- C64: firing never makes a token count negative -/
theorem C64_nonneg {n : Net} (hw : n.WF) (t : String) (h0 : ∀ p, 0 ≤ n.tokens p) (p : String) : 0 ≤ (n.force t).1.tokens p := by
  have hdec : ∀ (ps : List String) (n : Net), (∀ p, 0 ≤ n.tokens p) → ∀ p, 0 ≤ (decAll n ps).1.tokens p := by
    intro ps
    induction ps with
    | nil => exact fun n h => h
    | cons q ps ih =>
      intro n h p
      rw [decAll]
      split
      · exact h p
      · next hq =>
        refine ih _ (fun x => ?_) p
        show 0 ≤ upd n.tokens q (n.tokens q - 1) x
        by_cases hx : x = q
        · subst hx; rw [upd_self]; omega
        · rw [upd_ne _ _ hx]; exact h x
  unfold Net.force
  by_cases ht : t ∉ n.transitions
  · rw [if_pos ht]; exact h0 p
  · rw [if_neg ht]
    have hmid := hdec (n.pre t) n h0
    rw [not_not] at ht
    rcases fire_spec hw ht with ⟨h1, _, h3⟩ | ⟨_, h2⟩
    · rw [h3]
      unfold after
      have := h0 p
      by_cases hp : p ∈ n.pre t
      · have := h1 p hp
        rw [if_pos hp]; split <;> omega
      · rw [if_neg hp]; split <;> omega
    · unfold Net.fire at h2 ⊢
      match hd : decAll n (n.pre t), h2, hmid with
      | (n', .error e), _, hmid => exact hmid p

example : Enabled (exNet.pre "t") exNet.tokens ∧ "t" ∈ exNet.transitions := by
  refine ⟨?_, by decide⟩
  intro p hp
  have : p = "a" ∨ p = "b" := by simpa [exNet] using hp
  rcases this with rfl | rfl <;> decide

/-! ### C65 fireable transitions -/

theorem sum_eq_length_iff {f : String → Int} : ∀ (l : List String), (∀ p ∈ l, 0 ≤ f p ∧ f p ≤ 1) →
    (l.map f).sum ≤ l.length ∧ ((l.map f).sum = l.length ↔ ∀ p ∈ l, 1 ≤ f p)
  | [], _ => by simp
  | a :: l, h => by
    obtain ⟨h1, h2⟩ := sum_eq_length_iff l fun p hp => h p (by simp [hp])
    have ha := h a (by simp)
    simp only [List.map_cons, List.sum_cons, List.length_cons, List.mem_cons, forall_eq_or_imp]
    refine ⟨by push_cast; omega, ?_⟩
    rw [← h2]
    push_cast
    omega

/-- C65: if no input place carries more than one token, `get_fireable_transitions` returns exactly the enabled
transitions whose guard accepts, in the order of the net; it raises only if a guard raises. -/
theorem C65_safe (h : Heap) (n : Net) (ignoreGuards : Bool)
    (hsafe : ∀ t ∈ n.transitions, ∀ p ∈ n.pre t, 0 ≤ n.tokens p ∧ n.tokens p ≤ 1)
    (hg : ignoreGuards = true ∨ ∀ t ∈ n.transitions, ∃ b, (n.guard t).accept h = .ok b) :
    ∃ r, n.fireable h ignoreGuards = .ok r ∧ r.Sublist n.transitions ∧
      ∀ t, t ∈ r ↔ t ∈ n.transitions ∧ (ignoreGuards = true ∨ (n.guard t).accept h = .ok true) ∧ Enabled (n.pre t) n.tokens := by
  have hok : ∀ t ∈ n.transitions, ∃ b, isFireable h ignoreGuards n t = .ok b := by
    intro t ht
    unfold isFireable
    rcases hg with rfl | hg
    · exact ⟨_, rfl⟩
    · obtain ⟨b, hb⟩ := hg t ht
      cases ignoreGuards with
      | true => exact ⟨_, rfl⟩
      | false => exact ⟨_, by simp only [Bool.false_eq_true, if_false]; rw [hb]; rfl⟩
  obtain ⟨r, hr⟩ := ok_filterPy _ _ hok
  obtain ⟨h1, _⟩ := filterPy_ok _ _ _ hr
  refine ⟨r, hr, by rw [h1]; exact List.filter_sublist, fun t => ?_⟩
  rw [h1, List.mem_filter, decide_eq_true_eq]
  refine and_congr_right fun ht => ?_
  have hsum := (sum_eq_length_iff (n.pre t) (hsafe t ht)).2
  unfold isFireable Enabled
  rw [← hsum]
  cases ignoreGuards with
  | true => simp [bind, Except.bind, pure, Except.pure]
  | false =>
    simp only [Bool.false_eq_true, if_false, false_or]
    cases hb : (n.guard t).accept h with
    | error e => simp [bind, Except.bind]
    | ok b => cases b <;> simp [bind, Except.bind, pure, Except.pure]

/-- C65: with more tokens the sum is misleading: two tokens on `a` and none on `b` make `t` "fireable" although
firing it raises; and a single input place with two tokens makes `u` "not fireable" although it is enabled. -/
theorem C65_unsafe :
    let n := (exNet.setMarking [("a", 2), ("b", 0), ("c", 2)]).1
    n.fireable (fun _ => none) false = .ok ["t"] ∧ (n.force "t").2 = .error .value ∧ (n.force "u").2 = .ok () := by
  decide

example : exNet.fireable (fun _ => none) false = .ok ["t"] := by decide

/-! ### C66 markings -/

theorem getMarking_get (n : Net) (p : String) : n.getMarking.get? p = if p ∈ n.places then some (n.tokens p) else none := by
  unfold Net.getMarking
  induction n.places with
  | nil => rfl
  | cons q qs ih =>
    rw [List.map_cons, Dict.get?]
    by_cases h : q = p
    · subst h; simp
    · rw [if_neg h, ih]
      simp [Ne.symm h]

/-- C66: `set_marking` sets exactly the given places and leaves the others as they are; `get_marking` reads the
tokens of every place of the net. -/
theorem C66_set_get {n : Net} {m : Dict String Int} (hm : m.WF) (hk : ∀ p ∈ m.keys, p ∈ n.places) :
    (n.setMarking m).2 = .ok () ∧ n.SameArcs (n.setMarking m).1 ∧
      (∀ p, (n.setMarking m).1.tokens p = (m.get? p).getD (n.tokens p)) ∧
      (n.setMarking m).1.getMarking.keys = n.places ∧
      ∀ p ∈ n.places, (n.setMarking m).1.getMarking.get? p = some ((m.get? p).getD (n.tokens p)) := by
  have key : ∀ (m : Dict String Int) (n : Net), m.WF → (∀ p ∈ m.keys, p ∈ n.places) →
      (n.setMarking m).2 = .ok () ∧ ∀ p, (n.setMarking m).1.tokens p = (m.get? p).getD (n.tokens p) := by
    intro m
    induction m with
    | nil => exact fun n _ _ => ⟨rfl, fun p => rfl⟩
    | cons e m ih =>
      obtain ⟨q, k⟩ := e
      intro n hm hk
      have hq : q ∈ n.places := hk q (by simp [Dict.keys])
      rw [Net.setMarking, if_neg (by simpa using hq)]
      unfold Dict.WF at hm
      have hm' : (q :: Dict.keys m).Nodup := hm
      rw [List.nodup_cons] at hm'
      obtain ⟨h1, h2⟩ := ih { n with tokens := upd n.tokens q k } hm'.2 fun p hp => hk p (List.mem_cons_of_mem _ hp)
      refine ⟨h1, fun p => ?_⟩
      rw [h2 p, Dict.get?]
      by_cases hp : q = p
      · subst hp
        rw [if_pos rfl, Dict.get?_eq_none_iff.2 hm'.1]
        simp
      · rw [if_neg hp]
        show (Dict.get? m p).getD (upd n.tokens q k p) = _
        rw [upd_ne _ _ (Ne.symm hp)]
  obtain ⟨h1, h2⟩ := key m n hm hk
  have hs := setMarking_same m n
  refine ⟨h1, hs, h2, ?_, fun p hp => ?_⟩
  · unfold Net.getMarking Dict.keys
    rw [List.map_map, ← hs.places]
    simp [Function.comp_def]
  · rw [getMarking_get, hs.places, if_pos hp, h2]

/-- C66: an unknown place raises a KeyError -/
theorem C66_unknown {n : Net} {m : Dict String Int} {p : String} (hp : p ∈ m.keys) (hn : p ∉ n.places) :
    (n.setMarking m).2 = .error .key := by
  induction m generalizing n with
  | nil => cases hp
  | cons e m ih =>
    obtain ⟨q, k⟩ := e
    rw [Net.setMarking]
    by_cases hq : q ∉ n.places
    · rw [if_pos hq]
    · rw [if_neg hq]
      rcases List.mem_cons.1 hp with h | h
      · have h : p = q := h
        subst h; exact absurd hn hq
      · exact ih h hn

/-- C66: a marking read from a net and set again restores it, whatever happened to the tokens in between -/
theorem C66_round_trip {n n' : Net} (hw : n.WF) (hs : n.SameArcs n') :
    (n'.setMarking n.getMarking).2 = .ok () ∧ ∀ p ∈ n.places, (n'.setMarking n.getMarking).1.tokens p = n.tokens p := by
  have hkeys : n.getMarking.keys = n.places := by
    unfold Net.getMarking Dict.keys
    rw [List.map_map]; simp [Function.comp_def]
  obtain ⟨h1, _, h2, _⟩ := C66_set_get (n := n') (m := n.getMarking) (by unfold Dict.WF; rw [hkeys]; exact hw.places)
    (by rw [hkeys, hs.places]; exact fun p hp => hp)
  refine ⟨h1, fun p hp => ?_⟩
  rw [h2, getMarking_get, if_pos hp]; rfl

/-- C66: `matches_marking` compares exactly the given places -/
theorem C66_matches {n : Net} {m : Dict String Int} (hk : ∀ p ∈ m.keys, p ∈ n.places) :
    ∃ b, n.matchesMarking m = .ok b ∧ (b = true ↔ ∀ e ∈ m, n.tokens e.1 = e.2) := by
  induction m with
  | nil => exact ⟨true, rfl, by simp⟩
  | cons e m ih =>
    obtain ⟨q, k⟩ := e
    have hq : q ∈ n.places := hk q (by simp [Dict.keys])
    rw [Net.matchesMarking, if_neg (by simpa using hq)]
    obtain ⟨b, h1, h2⟩ := ih fun p hp => hk p (List.mem_cons_of_mem _ hp)
    by_cases ht : n.tokens q = k
    · rw [if_neg (by simpa using ht)]
      exact ⟨b, h1, by rw [h2]; simp [ht]⟩
    · rw [if_pos ht]
      exact ⟨false, rfl, by simp [ht]⟩

example : (exNet.setMarking [("c", 3)]).1.getMarking = [("a", 1), ("b", 1), ("c", 3)] := by decide

/-! ### C67 unique ids -/

/-- C67: `make_id_unique` returns the given id with the least number of apostrophes appended such that it is not
in use. -/
theorem C67_unique (existing : List String) (id : String) (fuel : Nat) (hf : existing.length < fuel) :
    ∃ k, makeIdUnique existing fuel id = .ok ((List.replicate k "'").foldl (· ++ ·) id) ∧
      (List.replicate k "'").foldl (· ++ ·) id ∉ existing ∧
      ∀ j < k, (List.replicate j "'").foldl (· ++ ·) id ∈ existing := by
  have key : ∀ fuel id (seen : List String), seen.Nodup → (∀ s ∈ seen, s ∈ existing ∧ s.length < id.length) →
      existing.length < fuel + seen.length →
      ∃ k, makeIdUnique existing fuel id = .ok ((List.replicate k "'").foldl (· ++ ·) id) ∧
        (List.replicate k "'").foldl (· ++ ·) id ∉ existing ∧
        ∀ j < k, (List.replicate j "'").foldl (· ++ ·) id ∈ existing := by
    intro fuel
    induction fuel with
    | zero =>
      intro id seen h1 h2 h3
      have := (List.subperm_of_subset h1 fun s hs => (h2 s hs).1).length_le
      omega
    | succ fuel ih =>
      intro id seen h1 h2 h3
      rw [makeIdUnique]
      by_cases hid : id ∈ existing
      · rw [if_pos hid]
        obtain ⟨k, k1, k2, k3⟩ := ih (id ++ "'") (id :: seen)
          (List.nodup_cons.2 ⟨fun h => by have := (h2 id h).2; omega, h1⟩)
          (by
            intro s hs
            have hl : (id ++ "'").length = id.length + 1 := by rw [String.length_append]; rfl
            rcases List.mem_cons.1 hs with rfl | hs
            · exact ⟨hid, by omega⟩
            · exact ⟨(h2 s hs).1, by have := (h2 s hs).2; omega⟩)
          (by rw [List.length_cons]; omega)
        refine ⟨k + 1, k1, k2, ?_⟩
        intro j hj
        cases j with
        | zero => exact hid
        | succ j => exact k3 j (by omega)
      · rw [if_neg hid]
        exact ⟨0, rfl, hid, by omega⟩
  exact key fuel id [] List.nodup_nil (by simp) (by simpa using hf)

example : makeIdUnique ["a", "a'", "b"] 4 "a" = .ok "a''" := by decide

/-! ### C97 simulation -/

/-- C97: whatever transitions are chosen at random, a time step fires a set `F` of transitions which are all
enabled, whose guards accept and which do not compete for tokens; it does not raise, and the new marking is the
old one with one token less for every transition of `F` that consumes from the place and one more for every
transition of `F` that produces on it. An enabled transition without competitors is fired. -/
theorem C97_step (h : Heap) {n : Net} (hw : n.WF) (hg : ∀ t ∈ n.transitions, ∃ b, (n.guard t).accept h = .ok b)
    (pick : String → Nat) :
    ∃ F : List String, F.Nodup ∧
      (∀ t ∈ F, t ∈ n.transitions ∧ n.pre t ≠ [] ∧ (n.guard t).accept h = .ok true ∧ Enabled (n.pre t) n.tokens) ∧
      (∀ t ∈ F, ∀ u ∈ F, t ≠ u → ∀ p ∈ n.pre t, p ∉ n.pre u) ∧
      (n.simulate h pick).2 = .ok () ∧ n.SameArcs (n.simulate h pick).1 ∧
      (∀ p, (n.simulate h pick).1.tokens p =
        n.tokens p - F.countP (fun t => decide (p ∈ n.pre t)) + F.countP (fun t => decide (p ∈ n.post t))) ∧
      ∀ t ∈ n.transitions, n.pre t ≠ [] → (n.guard t).accept h = .ok true → Enabled (n.pre t) n.tokens →
        (∀ u ∈ n.transitions, u ≠ t → (n.guard u).accept h = .ok true → ∀ p ∈ n.pre t, p ∉ n.pre u) → t ∈ F := by
  have hsel := select_eq (h := h) (n := n) (pick := pick) n.places []
    fun p hp t ht => hg t (((hw.out p hp).2 t).1 ht).1
  generalize hd : n.places.foldl (fun d p => bumpSel d (choice h n pick p)) [] = d at hsel
  have hcount := fun t => sel_count (c := choice h n pick) t n.places [] Dict.WF.nil
  rw [hd] at hcount
  have hwf : d.WF := (hcount "").1
  have hval : ∀ e ∈ d, e.2 = n.places.countP (fun p => choice h n pick p = some e.1) := by
    intro e he
    have h1 := (hcount e.1).2.1
    rw [Dict.get?_of_mem hwf he] at h1
    simpa [Dict.get?] using h1
  have hmem : ∀ e ∈ d, ∃ p ∈ n.places, choice h n pick p = some e.1 := by
    intro e he
    have h1 := (hcount e.1).2.2
    rw [Dict.get?_of_mem hwf he] at h1
    simpa [Dict.get?] using h1
  -- the places at which `t` is selected are input places of `t`
  have hfull : ∀ e ∈ d, (n.pre e.1).length ≤ e.2 → ∀ p ∈ n.pre e.1, choice h n pick p = some e.1 := by
    intro e he hle p hp
    obtain ⟨p0, hp0, hc0⟩ := hmem e he
    have ht := (choice_some hw hp0 hc0).1
    rw [hval e he, List.countP_eq_length_filter] at hle
    have hsub : (n.places.filter fun p => decide (choice h n pick p = some e.1)).Subperm (n.pre e.1) := by
      refine List.subperm_of_subset (hw.places.filter _) fun q hq => ?_
      rw [List.mem_filter, decide_eq_true_eq] at hq
      exact (choice_some hw hq.1 hq.2).2.1
    have hperm := hsub.perm_of_length_le hle
    have := hperm.mem_iff.2 hp
    rw [List.mem_filter, decide_eq_true_eq] at this
    exact this.2
  have htr : ∀ e ∈ d, e.1 ∈ n.transitions := by
    intro e he
    obtain ⟨p0, hp0, hc0⟩ := hmem e he
    exact (choice_some hw hp0 hc0).1
  have hen : ∀ e ∈ d, (n.pre e.1).length ≤ e.2 → Enabled (n.pre e.1) n.tokens := fun e he hle p hp =>
    (choice_some hw ((hw.pre e.1 (htr e he)).2 p hp) (hfull e he hle p hp)).2.2.2
  have hdis : ∀ e ∈ d, ∀ e' ∈ d, (n.pre e.1).length ≤ e.2 → (n.pre e'.1).length ≤ e'.2 → e.1 ≠ e'.1 →
      ∀ p ∈ n.pre e.1, p ∉ n.pre e'.1 := by
    intro e he e' he' h1 h2 hne p hp hp'
    have a := hfull e he h1 p hp
    rw [hfull e' he' h2 p hp'] at a
    exact hne (Option.some.inj a).symm
  obtain ⟨r1, r2, r3⟩ := fireSelected_spec d n hw hwf htr hen hdis
  have hsim : n.simulate h pick = fireSelected n d := by unfold Net.simulate; rw [hsel]
  refine ⟨(d.filter fun e => decide ((n.pre e.1).length ≤ e.2)).map (·.1), ?_, ?_, ?_, ?_, ?_, ?_, ?_⟩
  · exact List.Nodup.sublist (List.Sublist.map _ List.filter_sublist) hwf
  · intro t ht
    obtain ⟨e, he, rfl⟩ := List.mem_map.1 ht
    rw [List.mem_filter, decide_eq_true_eq] at he
    obtain ⟨p0, hp0, hc0⟩ := hmem e he.1
    have hc := choice_some hw hp0 hc0
    exact ⟨hc.1, List.ne_nil_of_mem hc.2.1, hc.2.2.1, hen e he.1 he.2⟩
  · intro t ht u hu hne
    obtain ⟨e, he, rfl⟩ := List.mem_map.1 ht
    obtain ⟨e', he', rfl⟩ := List.mem_map.1 hu
    rw [List.mem_filter, decide_eq_true_eq] at he he'
    exact hdis e he.1 e' he'.1 he.2 he'.2 hne
  · rw [hsim]; exact r1
  · rw [hsim]; exact r2
  · rw [hsim]; exact r3
  · intro t ht hne hacc hent huniq
    have hall : ∀ p ∈ n.pre t, choice h n pick p = some t := fun p hp =>
      choice_unique hw ((hw.pre t ht).2 p hp) (hent p hp) ht hp hacc fun u hu hut hau => huniq u hu hut hau p hp
    obtain ⟨p, hp⟩ := List.exists_mem_of_ne_nil _ hne
    have hsome := (hcount t).2.2.2 (.inr ⟨p, (hw.pre t ht).2 p hp, hall p hp⟩)
    obtain ⟨k, hk⟩ := Option.isSome_iff_exists.1 hsome
    have hke := Dict.mem_of_get? hk
    refine List.mem_map.2 ⟨(t, k), List.mem_filter.2 ⟨hke, ?_⟩, rfl⟩
    rw [decide_eq_true_eq, hval _ hke, List.countP_eq_length_filter]
    refine (List.subperm_of_subset (hw.pre t ht).1 fun q hq => ?_).length_le
    rw [List.mem_filter, decide_eq_true_eq]
    exact ⟨(hw.pre t ht).2 q hq, hall q hq⟩

theorem filterPy_error {β : Type} {f : β → Py Bool} {l : List β} {x : β} {e : PyErr} (hx : x ∈ l) (he : f x = .error e) :
    ∃ y ∈ l, ∃ e', f y = .error e' ∧ filterPy f l = .error e' := by
  induction l with
  | nil => simp at hx
  | cons y l ih =>
    cases hy : f y with
    | error e' => exact ⟨y, by simp, e', hy, by simp only [filterPy, hy]; rfl⟩
    | ok b =>
      have hx' : x ∈ l := by
        rcases List.mem_cons.1 hx with rfl | h
        · rw [hy] at he; cases he
        · exact h
      obtain ⟨z, hz, e', h1, h2⟩ := ih hx'
      exact ⟨z, by simp [hz], e', h1, by simp only [filterPy, hy, h2]; rfl⟩

theorem filterPy_error_mem {β : Type} {f : β → Py Bool} {l : List β} {e : PyErr} (he : filterPy f l = .error e) :
    ∃ x ∈ l, f x = .error e := by
  induction l with
  | nil => simp [filterPy] at he
  | cons y l ih =>
    cases hy : f y with
    | error e' =>
      simp only [filterPy, hy] at he
      cases he
      exact ⟨y, by simp, hy⟩
    | ok b =>
      simp only [filterPy, hy] at he
      cases hr : filterPy f l with
      | error e' =>
        rw [hr] at he
        cases he
        obtain ⟨x, hx, h⟩ := ih hr
        exact ⟨x, by simp [hx], h⟩
      | ok r => rw [hr] at he; cases he

/-- C97: if the guard of a transition raises and one of its input places has a token, then no transition is fired,
and an exception raised by a guard is passed on. -/
theorem C97_guard_error (h : Heap) {n : Net} (hw : n.WF) (pick : String → Nat) {t p : String} {e : PyErr}
    (ht : t ∈ n.transitions) (hp : p ∈ n.pre t) (h0 : 0 < n.tokens p) (he : (n.guard t).accept h = .error e) :
    ∃ u ∈ n.transitions, ∃ e', (n.guard u).accept h = .error e' ∧ n.simulate h pick = (n, .error e') := by
  have key : ∀ ps : List String, (∀ q ∈ ps, q ∈ n.places) → p ∈ ps → ∀ d,
      ∃ u ∈ n.transitions, ∃ e', (n.guard u).accept h = .error e' ∧ select h n pick ps d = .error e' := by
    intro ps
    induction ps with
    | nil => intro _ hm; simp at hm
    | cons q ps ih =>
      intro hps hm d
      by_cases hq : n.tokens q > 0
      · cases hf : filterPy (fun t => (n.guard t).accept h) (n.out q) with
        | error e' =>
          obtain ⟨u, hu, hue⟩ := filterPy_error_mem hf
          refine ⟨u, (((hw.out q (hps q (by simp))).2 u).1 hu).1, e', hue, ?_⟩
          simp only [select, if_pos hq, hf]; rfl
        | ok ts =>
          have hne : p ≠ q := by
            rintro rfl
            obtain ⟨y, _, e', _, h2⟩ := filterPy_error (f := fun t => (n.guard t).accept h)
              (((hw.out p (hps p (by simp))).2 t).2 ⟨ht, hp⟩) he
            rw [hf] at h2; cases h2
          have hm' : p ∈ ps := (List.mem_cons.1 hm).resolve_left hne
          have hps' : ∀ q ∈ ps, q ∈ n.places := fun q hq => hps q (by simp [hq])
          simp only [select, if_pos hq, hf]
          show ∃ u ∈ n.transitions, ∃ e', (n.guard u).accept h = .error e' ∧
            (match ts[pick q % ts.length]? with
              | none => select h n pick ps d
              | some t => select h n pick ps (d.put t ((d.get? t).getD 0 + 1))) = .error e'
          split
          · exact ih hps' hm' _
          · exact ih hps' hm' _
      · have hne : p ≠ q := by rintro rfl; exact hq h0
        simp only [select, if_neg hq]
        exact ih (fun q hq => hps q (by simp [hq])) ((List.mem_cons.1 hm).resolve_left hne) d
  obtain ⟨u, hu, e', h1, h2⟩ := key n.places (fun _ h => h) ((hw.pre t ht).2 p hp) []
  exact ⟨u, hu, e', h1, by unfold Net.simulate; rw [h2]⟩

/-- the hypotheses are met: a variable without a value is compared -/
example : ∃ (n : Net) (h : Heap), n.WF ∧ "t" ∈ n.transitions ∧ "a" ∈ n.pre "t" ∧ 0 < n.tokens "a" ∧
    (n.guard "t").accept h = .error .type ∧ n.hasGuards = true :=
  ⟨{ exNet with guard := fun _ => .smaller 0 (some 3) }, fun _ => none,
    ⟨exNet_wf.places, exNet_wf.transitions, exNet_wf.pre, exNet_wf.post, exNet_wf.out⟩, by decide, by decide, by decide,
    rfl, by decide⟩

/-- C97: `has_guards` is false exactly if every transition has the guard that always accepts; then guards never
restrict what may be fired, whatever values the variables have. -/
theorem C97_has_guards (n : Net) :
    (n.hasGuards = false ↔ ∀ t ∈ n.transitions, n.guard t = .always) ∧
    (n.hasGuards = false → ∀ h, n.fireable h false = n.fireable h true) := by
  have h1 : n.hasGuards = false ↔ ∀ t ∈ n.transitions, n.guard t = .always := by
    unfold Net.hasGuards
    rw [List.any_eq_false]
    refine forall₂_congr fun t _ => ?_
    cases n.guard t <;> simp [Guard.isAlways]
  refine ⟨h1, fun hf h => ?_⟩
  have hall := h1.1 hf
  unfold Net.fireable
  have : ∀ l : List String, (∀ t ∈ l, t ∈ n.transitions) → filterPy (isFireable h false n) l = filterPy (isFireable h true n) l := by
    intro l
    induction l with
    | nil => intro _; rfl
    | cons t l ih =>
      intro hl
      have ht : isFireable h false n t = isFireable h true n t := by
        unfold isFireable; rw [hall t (hl t (by simp))]; rfl
      simp only [filterPy, ht, ih fun t ht => hl t (by simp [ht])]
  exact this _ fun _ h => h

example : ((exNet.simulate (fun _ => none) (fun _ => 0)).1.getMarking) = [("a", 0), ("b", 0), ("c", 1)] := by decide

/-! ### C98 copy -/

/-- C98: copying a net made with the API does not fail. The copy has the same places, transitions, arcs, guards,
labels and tokens; its variables are new objects with the same values, and no existing object changes. -/
theorem C98_copy (h : Heap) (next : Nat) {n : Net} (hw : n.WF) (h0 : ∀ p ∈ n.places, 0 ≤ n.tokens p) :
    ∃ c h' next', n.copy h next = .ok (c, h', next') ∧
      c.places = n.places ∧ c.transitions = n.transitions ∧ c.tokens = n.tokens ∧ c.pre = n.pre ∧ c.post = n.post ∧
      c.out = n.out ∧ c.guard = n.guard ∧ c.visible = n.visible ∧ c.placeLabel = n.placeLabel ∧ c.transLabel = n.transLabel ∧
      c.vars.keys = n.vars.keys ∧ (∀ e ∈ c.vars, next ≤ e.2 ∧ e.2 < next') ∧ (c.vars.map (·.2)).Nodup ∧
      (∀ a < next, h' a = h a) ∧
      ∀ (i : Nat) (e e' : String × Nat), n.vars[i]? = some e → c.vars[i]? = some e' → h' e'.2 = h e.2 := by
  have hc : (∀ p ∈ n.places, ∀ t ∈ n.out p, t ∈ n.transitions) ∧
      (∀ t ∈ n.transitions, (∀ p ∈ n.pre t, p ∈ n.places) ∧ ∀ p ∈ n.post t, p ∈ n.places) :=
    ⟨fun p hp t ht => (((hw.out p hp).2 t).1 ht).1, fun t ht => ⟨(hw.pre t ht).2, (hw.post t ht).2⟩⟩
  have hcopy := show n.copy h next = _ by unfold Net.copy; rw [if_neg (by simpa using h0), if_pos hc]
  refine ⟨_, _, _, hcopy, rfl, rfl, rfl, rfl, rfl, rfl, rfl, rfl, rfl, rfl, ?_, ?_, ?_, ?_, ?_⟩
  · unfold Dict.keys
    rw [List.map_map]
    conv_rhs => rw [← List.zipIdx_map_fst 0 n.vars]
    rw [List.map_map]; rfl
  · intro e he
    obtain ⟨⟨x, i⟩, hi, rfl⟩ := List.mem_map.1 he
    have := List.snd_lt_of_mem_zipIdx hi
    simp only at this ⊢
    omega
  · rw [List.map_map, show ((fun e : String × Nat => e.2) ∘ fun e : (String × Nat) × Nat => (e.1.1, next + e.2)) =
      (fun i => next + i) ∘ Prod.snd from rfl, ← List.map_map, List.zipIdx_map_snd]
    exact List.Nodup.map (fun a b h => by simpa using h) List.nodup_range'
  · intro a ha
    rw [if_pos ha]
  · intro i e e' hi hi'
    rw [List.getElem?_map, List.getElem?_zipIdx, hi] at hi'
    obtain rfl := Option.some.inj hi'
    simp [hi]
    omega

/-- C98: firing and changing the marking in the copy does not change the original, and assigning variables of the
copy does not change the values of the variables of the original: the copy owns its objects. But the guards still
refer to the variable objects of the original: whatever is assigned to a variable of the copy, no guard of the
copy notices. -/
theorem C98_guards_not_copied (h : Heap) (next : Nat) {n c : Net} {h' : Heap} {next' : Nat}
    (hw : n.WF) (h0 : ∀ p ∈ n.places, 0 ≤ n.tokens p) (hv : ∀ e ∈ n.vars, e.2 < next) (hc : n.copy h next = .ok (c, h', next'))
    (hg : ∀ t h1 h2, (∀ a < next, h1 a = h2 a) → (n.guard t).accept h1 = (n.guard t).accept h2)
    {e : String × Nat} (he : e ∈ c.vars) (v : Val) :
    (∀ x ∈ n.vars, upd h' e.2 v x.2 = h x.2) ∧ ∀ t, (c.guard t).accept (upd h' e.2 v) = (c.guard t).accept h := by
  obtain ⟨c', h'', next'', e1, -, -, -, -, -, -, e8, -, -, -, -, e12, -, e13, -⟩ := C98_copy h next hw h0
  rw [hc] at e1
  obtain ⟨rfl, rfl, rfl⟩ : c = c' ∧ h' = h'' ∧ next' = next'' := by
    have := Except.ok.inj e1
    simpa using this
  have hlt := (e12 e he).1
  refine ⟨fun x hx => ?_, fun t => ?_⟩
  · have := hv x hx
    rw [upd_ne _ _ (by omega), e13 _ this]
  · rw [e8]
    refine hg t _ _ fun a ha => ?_
    rw [upd_ne _ _ (by omega), e13 a ha]

/-- the example net with a variable `x` and a guard on it -/
def exGuarded : Net := { exNet with vars := [("x", 0)], guard := fun t => if t = "t" then .isTrue 0 else .always }

/-- C98: a negative number of tokens cannot be copied -/
theorem C98_negative (h : Heap) (next : Nat) {n : Net} {p : String} (hp : p ∈ n.places) (h0 : n.tokens p < 0) :
    n.copy h next = .error .value := by
  unfold Net.copy; rw [if_pos ⟨p, hp, h0⟩]

example : exGuarded.WF ∧ (∀ p ∈ exGuarded.places, 0 ≤ exGuarded.tokens p) ∧ (∀ e ∈ exGuarded.vars, e.2 < 1) ∧
    (∀ t (h1 h2 : Heap), (∀ a < 1, h1 a = h2 a) → (exGuarded.guard t).accept h1 = (exGuarded.guard t).accept h2) := by
  refine ⟨exNet_wf.congr rfl rfl rfl rfl rfl, by decide, by simp [exGuarded], fun t h1 h2 hh => ?_⟩
  show (if t = "t" then Guard.isTrue 0 else .always).accept h1 = (if t = "t" then Guard.isTrue 0 else .always).accept h2
  split
  · simp [Guard.accept, hh 0 (by omega)]
  · simp [Guard.accept]

end Prolothar.Petri
