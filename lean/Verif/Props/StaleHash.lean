import Verif.Model.StaleHash
import Verif.Props.PetriPrune
import Verif.Props.PatternExamples
/-
C153: pruning a composed pattern.
-/
namespace Prolothar.StaleHash
open Prolothar.Petri Prolothar.ActivityPattern

theorem ok_bind {β γ : Type} (a : β) (f : β → Py γ) : ((Except.ok a : Py β) >>= f) = f a := by
  cases h : f a <;> simp [bind, Except.bind, h]

theorem bind_ok {β γ : Type} {x : Py β} {f : β → Py γ} {c : γ} (h : (x >>= f) = .ok c) : ∃ a, x = .ok a ∧ f a = .ok c := by
  cases x with
  | error e => cases h
  | ok a => exact ⟨a, rfl, h⟩

theorem canPrune_pre {n : Net} {so si : List String} {t : String} (h : canPrune n so si t = true) : ∃ s, n.pre t = [s] := by
  unfold canPrune at h
  split at h
  · next s e h1 h2 => exact ⟨s, h1⟩
  · simp at h

theorem pruneTransition_fresh (hash : String → Nat) (stored : String → String) (n : Net) (t : String) (h : hash (stored t) = hash t) :
    pruneTransition hash stored n t = Petri.pruneTransition n t := by
  have : ∀ s, removeHashed hash stored s t = setRemove s t := by
    intro s
    unfold removeHashed setRemove
    by_cases hs : t ∈ s
    · rw [if_pos ⟨hs, h⟩, if_pos hs]
    · rw [if_neg (fun h => hs h.1), if_neg hs]
  unfold pruneTransition Petri.pruneTransition
  simp only [this]

theorem pruneTransition_stale (hash : String → Nat) (stored : String → String) (n : Net) (t : String) (h : hash (stored t) ≠ hash t) {s : String}
    (hp : n.pre t = [s]) : pruneTransition hash stored n t = .error .key := by
  unfold pruneTransition
  rw [hp, List.foldlM_cons, hp]
  have e1 : setRemove [s] s = .ok [] := by simp [setRemove]
  have e2 : removeHashed hash stored (n.out s) t = .error .key := by
    unfold removeHashed
    rw [if_neg (fun hh => h hh.2)]
  rw [e1, ok_bind, e2]
  rfl

/-- the loop with stored hashes: it does the same until it meets a renamed transition that it would remove -/
theorem pruneLoop_cases (hash : String → Nat) (stored : String → String) (so si : List String) : ∀ (ts : List String) (n : Net) (rem : List String)
    (n' : Net) (rem' : List String), ts.Nodup → (∀ t ∈ ts, t ∉ rem) → Petri.pruneLoop so si ts n rem = .ok (n', rem') →
    (∀ t ∈ rem, t ∈ rem') ∧ (∀ t ∈ rem', t ∈ rem ∨ t ∈ ts) ∧
    ((∀ t ∈ ts, t ∉ rem' → hash (stored t) = hash t) → pruneLoop hash stored so si ts n rem = .ok (n', rem')) ∧
    ((∃ t ∈ ts, t ∉ rem' ∧ hash (stored t) ≠ hash t) → pruneLoop hash stored so si ts n rem = .error .key)
  | [], n, rem, n', rem', _, _, h => by
    unfold Petri.pruneLoop at h
    cases h
    exact ⟨fun _ h => h, fun _ h => .inl h, fun _ => rfl, fun ⟨t, ht, _⟩ => absurd ht (by simp)⟩
  | t :: ts, n, rem, n', rem', hnd, hdis, h => by
    unfold Petri.pruneLoop at h
    unfold pruneLoop
    obtain ⟨hnt, hnd'⟩ := List.nodup_cons.1 hnd
    by_cases hc : canPrune n so si t = true
    · rw [if_pos hc] at h ⊢
      obtain ⟨n1, h1, h2⟩ := bind_ok h
      obtain ⟨i1, i2, i3, i4⟩ := pruneLoop_cases hash stored so si ts n1 rem n' rem' hnd' (fun u hu => hdis u (by simp [hu])) h2
      have htr : t ∉ rem' := by
        intro ht
        rcases i2 t ht with h' | h'
        · exact hdis t (by simp) h'
        · exact hnt h'
      refine ⟨i1, fun u hu => ?_, fun hf => ?_, fun hs => ?_⟩
      · rcases i2 u hu with h' | h'
        · exact .inl h'
        · exact .inr (by simp [h'])
      · rw [pruneTransition_fresh hash stored n t (hf t (by simp) htr), h1, ok_bind]
        exact i3 fun u hu => hf u (by simp [hu])
      · by_cases hft : hash (stored t) = hash t
        · rw [pruneTransition_fresh hash stored n t hft, h1, ok_bind]
          obtain ⟨u, hu, hu1, hu2⟩ := hs
          rcases List.mem_cons.1 hu with rfl | hu
          · exact absurd hft hu2
          · exact i4 ⟨u, hu, hu1, hu2⟩
        · obtain ⟨s, hp⟩ := canPrune_pre hc
          rw [pruneTransition_stale hash stored n t hft hp]
          rfl
    · rw [if_neg hc] at h ⊢
      obtain ⟨i1, i2, i3, i4⟩ := pruneLoop_cases hash stored so si ts n (rem ++ [t]) n' rem' hnd'
        (fun u hu => by
          rw [List.mem_append, List.mem_singleton]
          rintro (h' | rfl)
          · exact hdis u (by simp [hu]) h'
          · exact hnt hu) h
      have htr : t ∈ rem' := i1 t (by simp)
      refine ⟨fun u hu => i1 u (by simp [hu]), fun u hu => ?_, fun hf => i3 fun u hu => hf u (by simp [hu]), fun hs => i4 ?_⟩
      · rcases i2 u hu with h' | h'
        · rcases List.mem_append.1 h' with h' | h'
          · exact .inl h'
          · exact .inr (by simp [List.mem_singleton.1 h'])
        · exact .inr (by simp [h'])
      · obtain ⟨u, hu, hu1, hu2⟩ := hs
        rcases List.mem_cons.1 hu with rfl | hu
        · exact absurd htr hu1
        · exact ⟨u, hu, hu1, hu2⟩

/-- C153: `prune` on a net whose transitions have been renamed does what it does on a new net if every transition that has to be removed still has
the hash under which it was added, and raises KeyError otherwise. -/
theorem C153_prune (hash : String → Nat) (stored : String → String) {n : Net} (hw : n.WF) :
    ∃ n', n.prune = .ok n' ∧
      ((∀ t ∈ n.transitions, t ∉ n'.transitions → hash (stored t) = hash t) → prune hash stored n = .ok n') ∧
      ((∃ t ∈ n.transitions, t ∉ n'.transitions ∧ hash (stored t) ≠ hash t) → prune hash stored n = .error .key) := by
  obtain ⟨n', h, _⟩ := C100_prune hw fun _ => none
  refine ⟨n', h, ?_⟩
  unfold Net.prune at h
  obtain ⟨⟨n1, rem⟩, h1, h2⟩ := bind_ok h
  obtain ⟨_, _, i3, i4⟩ := pruneLoop_cases hash stored _ _ n.transitions n [] n1 rem hw.transitions (by simp) h1
  have ht : n'.transitions = rem := by cases h2; rfl
  rw [ht]
  constructor
  · intro hf
    unfold prune
    dsimp only
    rw [i3 hf, ok_bind]
    exact h2
  · intro hs
    unfold prune
    dsimp only
    rw [i4 hs]
    rfl

/-- the composition with stored ids is the composition -/
theorem sequence_eq (a b : Pattern) {r : Pattern} {stored : String → String} (h : sequence a b = .ok (r, stored)) :
    ActivityPattern.sequence a b = .ok r := by
  unfold sequence at h
  obtain ⟨c, h1, h⟩ := bind_ok h
  obtain ⟨st, h2, h⟩ := bind_ok h
  dsimp only at h
  obtain ⟨n1, h3, h⟩ := bind_ok h
  obtain ⟨n2, h4, h⟩ := bind_ok h
  obtain ⟨r', h5, h⟩ := bind_ok h
  cases h
  unfold ActivityPattern.sequence
  rw [h1, ok_bind]
  dsimp only
  rw [h3, ok_bind, h4, ok_bind, h5]

/-- the composition with stored ids is the composition -/
theorem parallel_eq (a b : Pattern) {r : Pattern} {stored : String → String} (h : parallel a b = .ok (r, stored)) :
    ActivityPattern.parallel a b = .ok r := by
  unfold parallel at h
  obtain ⟨c, h1, h⟩ := bind_ok h
  obtain ⟨st, h2, h⟩ := bind_ok h
  dsimp only at h
  obtain ⟨n1, h3, h⟩ := bind_ok h
  obtain ⟨n2, h4, h⟩ := bind_ok h
  obtain ⟨n3, h5, h⟩ := bind_ok h
  obtain ⟨n4, h6, h⟩ := bind_ok h
  obtain ⟨n5, h7, h⟩ := bind_ok h
  obtain ⟨n6, h8, h⟩ := bind_ok h
  obtain ⟨n7, h9, h⟩ := bind_ok h
  obtain ⟨n8, h10, h⟩ := bind_ok h
  obtain ⟨r', h11, h⟩ := bind_ok h
  cases h
  unfold ActivityPattern.parallel
  rw [h1, ok_bind]
  dsimp only
  rw [h3, ok_bind, h4, ok_bind, h5, ok_bind, h6, ok_bind, h7, ok_bind, h8, ok_bind, h9, ok_bind, h10, ok_bind, h11]

/-- the same for patterns -/
theorem prunePattern_cases (hash : String → Nat) (stored : String → String) {a : Pattern} (hw : a.net.WF) :
    ∃ a', a.prune = .ok a' ∧
      ((∀ t ∈ a.net.transitions, t ∉ a'.net.transitions → hash (stored t) = hash t) → prunePattern hash stored a = .ok a') ∧
      ((∃ t ∈ a.net.transitions, t ∉ a'.net.transitions ∧ hash (stored t) ≠ hash t) → prunePattern hash stored a = .error .key) := by
  obtain ⟨n', h, h1, h2⟩ := C153_prune hash stored hw
  refine ⟨⟨n', a.map.filter fun e => decide (e.1 ∈ n'.transitions)⟩, ?_, fun hf => ?_, fun hs => ?_⟩
  · unfold Pattern.prune
    rw [h, ok_bind]
    rfl
  · unfold prunePattern
    rw [h1 hf, ok_bind]
    rfl
  · unfold prunePattern
    rw [h2 hs]
    rfl

theorem renames_disjoint : ∀ (l existing : List String), l.Nodup → (∀ x ∈ l, x ∉ existing) → renames existing l = .ok (l.map fun x => (x, x))
  | [], _, _, _ => rfl
  | x :: xs, existing, hnd, hd => by
    obtain ⟨h1, h2⟩ := List.nodup_cons.1 hnd
    rw [renames]
    have e : makeIdUnique existing (existing.length + 1) x = .ok x := by
      rw [makeIdUnique, if_neg (hd x (by simp))]
    rw [e, ok_bind, renames_disjoint xs (existing ++ [x]) h2 (fun y hy => by
      rw [List.mem_append, List.mem_singleton]
      rintro (h | rfl)
      · exact hd y (by simp [hy]) h
      · exact h1 hy), ok_bind]
    rfl

theorem oldId_same (l : List String) (t : String) : (oldId (l.map fun x => (x, x)) t).getD t = t := by
  unfold oldId
  cases h : (l.map fun x => (x, x)).find? fun e => e.2 = t with
  | none => rfl
  | some e =>
    have h1 := List.find?_some h
    have h2 := List.mem_of_find?_eq_some h
    obtain ⟨x, _, rfl⟩ := List.mem_map.1 h2
    simpa using h1

theorem prepareStored_disjoint {a b : Pattern} (ha : a.Valid) (hb : b.Valid) (hd : ∀ t ∈ b.net.transitions, t ∉ a.net.transitions)
    {st : String → String} (h : prepareStored a b = .ok st) (t : String) : st t = t := by
  obtain ⟨_, _, ha⟩ := ha
  obtain ⟨_, _, hb⟩ := hb
  obtain ⟨v1, h1⟩ := copied_ok ha.wf ha.tokens
  obtain ⟨v2, h2⟩ := copied_ok hb.wf hb.tokens
  unfold prepareStored at h
  rw [h1, ok_bind, h2, ok_bind] at h
  dsimp only at h
  rw [renames_disjoint b.net.transitions a.net.transitions hb.wf.transitions hd, ok_bind] at h
  cases h
  exact oldId_same _ t

theorem initStored_id {n : Net} {st : String → String} (h : ∀ t, st t = t) (t : String) : initStored n st t = t := by
  unfold initStored
  split
  · exact h t
  · rfl

/-- C153: pruning a new or a copied pattern does not depend on the hashes -/
theorem C153_copy (hash : String → Nat) {a : Pattern} (ha : a.Valid) : ∃ a', a.prune = .ok a' ∧ prunePattern hash id a = .ok a' := by
  obtain ⟨_, _, ha⟩ := ha
  obtain ⟨a', h, h1, _⟩ := prunePattern_cases hash id ha.wf
  exact ⟨a', h, h1 fun _ _ _ => rfl⟩

/-- C153: a sequence of two patterns without common transition ids can be pruned -/
theorem C153_sequence (hash : String → Nat) {a b r : Pattern} {stored : String → String} (ha : a.Valid) (hb : b.Valid)
    (hd : ∀ t ∈ b.net.transitions, t ∉ a.net.transitions) (h : sequence a b = .ok (r, stored)) :
    ActivityPattern.sequence a b = .ok r ∧ ∃ r', r.prune = .ok r' ∧ prunePattern hash stored r = .ok r' := by
  have hs := sequence_eq a b h
  obtain ⟨_, _, hr⟩ := (C108_sequence ha hb hs).1
  obtain ⟨r', h1, h2, _⟩ := prunePattern_cases hash stored hr.wf
  refine ⟨hs, r', h1, h2 fun t _ _ => ?_⟩
  unfold sequence at h
  obtain ⟨c, _, h⟩ := bind_ok h
  obtain ⟨st, hst, h⟩ := bind_ok h
  dsimp only at h
  obtain ⟨n1, _, h⟩ := bind_ok h
  obtain ⟨n2, _, h⟩ := bind_ok h
  obtain ⟨r', _, h⟩ := bind_ok h
  cases h
  rw [initStored_id (prepareStored_disjoint ha hb hd hst)]

/-- C153: a parallel composition of two patterns without common transition ids can be pruned -/
theorem C153_parallel (hash : String → Nat) {a b r : Pattern} {stored : String → String} (ha : a.Valid) (hb : b.Valid)
    (hd : ∀ t ∈ b.net.transitions, t ∉ a.net.transitions) (h : parallel a b = .ok (r, stored)) :
    ActivityPattern.parallel a b = .ok r ∧ ∃ r', r.prune = .ok r' ∧ prunePattern hash stored r = .ok r' := by
  have hs := parallel_eq a b h
  obtain ⟨_, _, hr⟩ := (C109_parallel ha hb hs).1
  obtain ⟨r', h1, h2, _⟩ := prunePattern_cases hash stored hr.wf
  refine ⟨hs, r', h1, h2 fun t _ _ => ?_⟩
  unfold parallel at h
  obtain ⟨c, _, h⟩ := bind_ok h
  obtain ⟨st, hst, h⟩ := bind_ok h
  dsimp only at h
  obtain ⟨n1, _, h⟩ := bind_ok h
  obtain ⟨n2, _, h⟩ := bind_ok h
  obtain ⟨n3, _, h⟩ := bind_ok h
  obtain ⟨n4, _, h⟩ := bind_ok h
  obtain ⟨n5, _, h⟩ := bind_ok h
  obtain ⟨n6, _, h⟩ := bind_ok h
  obtain ⟨n7, _, h⟩ := bind_ok h
  obtain ⟨n8, _, h⟩ := bind_ok h
  obtain ⟨r', _, h⟩ := bind_ok h
  cases h
  rw [initStored_id (prepareStored_disjoint ha hb hd hst)]

/-- a KeyError from concrete data -/
theorem stale_of {r : Pattern} (hash : String → Nat) (hi : Function.Injective hash) (stored : String → String) (hr : r.Valid) (t : String)
    (ht : t ∈ r.net.transitions) (h : (r.prune.toOption.map fun r' => decide (t ∈ r'.net.transitions)) = some false) (hs : stored t ≠ t) :
    prunePattern hash stored r = .error .key := by
  obtain ⟨_, _, hr⟩ := hr
  obtain ⟨r', h1, _, h2⟩ := prunePattern_cases hash stored hr.wf
  rw [h1] at h
  have h3 : t ∉ r'.net.transitions := by simpa [Except.toOption] using h
  exact h2 ⟨t, ht, h3, fun h => hs (hi h)⟩

/-- C153: pruning fails for patterns with common ids: there is a pattern `x`, a sequence of two activities, such that `x` can be pruned and `sequence(x, x)` can
be built, but `sequence(x, x).prune()` raises KeyError whenever different ids have different hashes; a copy of the same pattern can be pruned. -/
theorem C153_sequence_wrong : ∃ a b x r : Pattern, ∃ st stored : String → String, a.Valid ∧ b.Valid ∧ sequence a b = .ok (x, st) ∧ x.Valid ∧
    sequence x x = .ok (r, stored) ∧ r.Valid ∧ ∀ hash : String → Nat, Function.Injective hash →
      (∃ x', prunePattern hash st x = .ok x') ∧ prunePattern hash stored r = .error .key ∧ ∃ r', prunePattern hash id r = .ok r' := by
  have va := (exAct_valid "a" "A" (fun _ => none)).1
  have vb := (exAct_valid "b" "B" (fun _ => none)).1
  have h : (((sequence (exAct "a" "A") (exAct "b" "B")).toOption.bind fun x => (sequence x.1 x.1).toOption).map fun r =>
      (decide ("end,start''" ∈ r.1.net.transitions), r.1.prune.toOption.map fun r' => decide ("end,start''" ∈ r'.net.transitions), r.2 "end,start''"))
      = some (true, some false, "end,start'") := by decide +kernel
  cases hx : sequence (exAct "a" "A") (exAct "b" "B") with
  | error e => rw [hx] at h; simp [Except.toOption] at h
  | ok x =>
    obtain ⟨x, st⟩ := x
    rw [hx] at h
    simp only [Except.toOption, Option.bind_some] at h
    have vx := (C108_sequence va vb (sequence_eq _ _ hx)).1
    cases hr : sequence x x with
    | error e => rw [hr] at h; simp at h
    | ok r =>
      obtain ⟨r, stored⟩ := r
      rw [hr] at h
      simp only [Option.map_some, Option.some.injEq, Prod.mk.injEq] at h
      have vr := (C108_sequence vx vx (sequence_eq _ _ hr)).1
      refine ⟨_, _, x, r, st, stored, va, vb, hx, vx, hr, vr, fun hash hi => ⟨?_, ?_, ?_⟩⟩
      · obtain ⟨_, r', _, h'⟩ := C153_sequence hash va vb (by decide) hx
        exact ⟨r', h'⟩
      · exact stale_of hash hi stored vr "end,start''" (of_decide_eq_true h.1) h.2.1 (by rw [h.2.2]; decide)
      · obtain ⟨r', _, h'⟩ := C153_copy hash vr
        exact ⟨r', h'⟩

/-- two activities with an invisible transition between them -/
def exTau : Pattern where
  net := { Net.empty with
    places := ["s", "m", "n", "e"], transitions := ["a", "i", "b"], transLabel := fun x => x, visible := fun x => decide (x ≠ "i")
    out := fun p => if p = "s" then ["a"] else if p = "m" then ["i"] else if p = "n" then ["b"] else []
    pre := fun x => if x = "a" then ["s"] else if x = "i" then ["m"] else if x = "b" then ["n"] else []
    post := fun x => if x = "a" then ["m"] else if x = "i" then ["n"] else if x = "b" then ["e"] else [] }
  map := [("a", "A"), ("b", "B")]

theorem exTau_valid : exTau.Valid := by
  have e1 : ∀ p, InPre exTau.net p ↔ p = "s" ∨ p = "m" ∨ p = "n" := by
    intro p; simp [InPre, exTau]
  have e2 : ∀ p, InPost exTau.net p ↔ p = "m" ∨ p = "n" ∨ p = "e" := by
    intro p; simp [InPost, exTau]
  refine ⟨"s", "e", ⟨by decide, by decide, by decide, by decide, ?_⟩, fun p _ => Int.le_refl 0, ?_, ?_, by decide, ?_⟩
  · intro p hp
    have : p = "s" ∨ p = "m" ∨ p = "n" ∨ p = "e" := by simpa [exTau] using hp
    rcases this with rfl | rfl | rfl | rfl <;> refine ⟨by decide, fun u => ?_⟩ <;> simp [exTau]
    all_goals
      first
      | (constructor
         · rintro rfl; simp
         · rintro ⟨h | h | h, _⟩ <;> simp_all)
      | (rintro (h | h | h) <;> simp_all)
  · intro p; rw [isSource_iff, e1, e2]
    constructor
    · rintro ⟨h | h | h, h'⟩
      · exact h
      · exact absurd (.inl h) h'
      · exact absurd (.inr (.inl h)) h'
    · rintro rfl; decide
  · intro p; rw [isSink_iff, e1, e2]
    constructor
    · rintro ⟨h | h | h, h'⟩
      · exact absurd (.inr (.inl h)) h'
      · exact absurd (.inr (.inr h)) h'
      · exact h
    · rintro rfl; decide
  · intro t ht hv
    have : t = "a" ∨ t = "i" ∨ t = "b" := by simpa [exTau] using ht
    rcases this with rfl | rfl | rfl
    · exact ⟨"A", by decide⟩
    · exact absurd hv (by decide)
    · exact ⟨"B", by decide⟩

/-- C153: the same for `choice_list`: `x` can be pruned, but `choice_list([x, x]).prune()` raises KeyError -/
theorem C153_choice_list_wrong : ∃ x r : Pattern, ∃ stored : String → String, x.Valid ∧
    choiceList [x, x] = .ok r ∧ choiceListStored [x, x] = .ok stored ∧ r.Valid ∧
    ∀ hash : String → Nat, Function.Injective hash → (∃ x', prunePattern hash id x = .ok x') ∧ prunePattern hash stored r = .error .key := by
  have vx := exTau_valid
  have h : ((choiceList [exTau, exTau]).toOption.map fun r =>
      (decide ("i'" ∈ r.net.transitions), r.prune.toOption.map fun r' => decide ("i'" ∈ r'.net.transitions))) = some (true, some false) := by decide +kernel
  have hs : ((choiceListStored [exTau, exTau]).toOption.map fun f => f "i'") = some "i" := by decide +kernel
  have hq : ∀ a ∈ [exTau, exTau], ∀ p ∈ a.net.places, '\'' ∉ p.toList := by decide
  cases hr : choiceList [exTau, exTau] with
  | error e => rw [hr] at h; simp [Except.toOption] at h
  | ok r =>
    rw [hr] at h
    cases hst : choiceListStored [exTau, exTau] with
    | error e => rw [hst] at hs; simp [Except.toOption] at hs
    | ok stored =>
      rw [hst] at hs
      simp only [Except.toOption, Option.map_some, Option.some.injEq, Prod.mk.injEq] at h hs
      have vr := (C115_choice_list (cs := [exTau, exTau]) (by simp [vx]) hq hr).1
      refine ⟨_, r, stored, vx, hr, hst, vr, fun hash hi => ⟨?_, ?_⟩⟩
      · obtain ⟨r', _, h'⟩ := C153_copy hash vx
        exact ⟨r', h'⟩
      · exact stale_of hash hi stored vr "i'" (of_decide_eq_true h.1) h.2 (by rw [hs]; decide)

/-- the hypotheses of `C153_sequence` and `C153_parallel` are met by two activities -/
example : ∃ a b : Pattern, a.Valid ∧ b.Valid ∧ (∀ t ∈ b.net.transitions, t ∉ a.net.transitions) ∧ (∃ r, sequence a b = .ok r) ∧
    ∃ r, parallel a b = .ok r := by
  refine ⟨exAct "a" "A", exAct "b" "B", (exAct_valid _ _ (fun _ => none)).1, (exAct_valid _ _ (fun _ => none)).1, by decide, ?_, ?_⟩
  · have h : (sequence (exAct "a" "A") (exAct "b" "B")).toOption.isSome = true := by decide +kernel
    cases hr : sequence (exAct "a" "A") (exAct "b" "B") with
    | error e => rw [hr] at h; simp [Except.toOption] at h
    | ok r => exact ⟨r, rfl⟩
  · have h : (parallel (exAct "a" "A") (exAct "b" "B")).toOption.isSome = true := by decide +kernel
    cases hr : parallel (exAct "a" "A") (exAct "b" "B") with
    | error e => rw [hr] at h; simp [Except.toOption] at h
    | ok r => exact ⟨r, rfl⟩

end Prolothar.StaleHash
