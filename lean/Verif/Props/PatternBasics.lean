import Verif.Props.ActivityPattern
import Verif.Props.PetriPrune
/-
C114: the constructor, the standard markings, copying and pruning of activity patterns.
-/
namespace Prolothar.ActivityPattern
open Prolothar.Petri
open Prolothar.Spec.Petri

theorem mkPattern_eq (n : Net) (arg : MapArg) : mkPattern n arg =
    ((if n.isWorkflow then .ok n else copied n >>= toWorkflow) >>= fun net => match arg with
      | .name s => .ok ⟨net, n.transitions.foldl (fun d t => d.put t s) ([] : Dict String String)⟩
      | .dict d => if n.transitions.any fun t => n.visible t && !d.has t then .error .value else .ok ⟨net, d⟩) := by
  unfold mkPattern
  by_cases h : n.isWorkflow = true
  · rw [if_pos h, if_pos h]; rfl
  · rw [if_neg h, if_neg h]
    cases copied n with
    | error e => rfl
    | ok c =>
      show (toWorkflow c >>= _) = (toWorkflow c >>= _)
      rfl

/-- the net that the constructor uses -/
theorem init_net {n : Net} {arg : MapArg} {r : Pattern} (hw : n.WF) (ht : ∀ p ∈ n.places, 0 ≤ n.tokens p)
    (hpre : ∀ t ∈ n.transitions, n.pre t ≠ []) (hso : ∃ p, IsSource n.transitions n.pre n.post p) (hsi : ∃ p, IsSink n.transitions n.pre n.post p)
    (h : mkPattern n arg = .ok r) :
    r.net.WF ∧ (∀ p ∈ r.net.places, 0 ≤ r.net.tokens p) ∧ r.net.isWorkflow = true ∧ (∀ t ∈ r.net.transitions, r.net.pre t ≠ []) ∧
    (n.isWorkflow = true → r.net = n) ∧ n.places <+: r.net.places ∧ n.transitions <+: r.net.transitions ∧
    (∀ t ∈ n.transitions, r.net.pre t = n.pre t ∧ r.net.post t = n.post t ∧ r.net.guard t = n.guard t ∧ r.net.visible t = n.visible t ∧
      r.net.transLabel t = n.transLabel t) ∧
    (∀ t ∈ r.net.transitions, t ∉ n.transitions → r.net.visible t = false ∧ r.net.guard t = .always ∧ ∃ a b, r.net.pre t = [a] ∧ r.net.post t = [b]) := by
  rw [mkPattern_eq] at h
  by_cases hwf : n.isWorkflow = true
  · rw [if_pos hwf] at h
    obtain ⟨m, hm, h⟩ := bind_eq_ok h
    obtain rfl := Except.ok.inj hm
    have hr : r.net = n := by
      cases arg with
      | name s => exact congrArg Pattern.net (Except.ok.inj h).symm
      | dict d =>
        dsimp only at h
        split at h
        · cases h
        · exact congrArg Pattern.net (Except.ok.inj h).symm
    rw [hr]
    exact ⟨hw, ht, hwf, hpre, fun _ => rfl, List.prefix_rfl, List.prefix_rfl, fun _ _ => ⟨rfl, rfl, rfl, rfl, rfl⟩, fun _ h1 h2 => absurd h1 h2⟩
  · rw [if_neg hwf] at h
    obtain ⟨m, hm, h⟩ := bind_eq_ok h
    obtain ⟨c, hc, hm⟩ := bind_eq_ok hm
    have hr : r.net = m := by
      cases arg with
      | name s => exact congrArg Pattern.net (Except.ok.inj h).symm
      | dict d =>
        dsimp only at h
        split at h
        · cases h
        · exact congrArg Pattern.net (Except.ok.inj h).symm
    rw [hr]
    obtain ⟨v, hv⟩ := copied_ok hw ht
    rw [hc] at hv
    obtain rfl := Except.ok.inj hv
    obtain ⟨k1, k2, k3, k4, _, k6, k7, k8, k9⟩ := C99_transform (wf_vars hw v) hso hsi hm
    refine ⟨k1, ?_, k2, ?_, fun hx => absurd hx hwf, k3, k4, k8, k9⟩
    · intro p hp
      by_cases hpn : p ∈ n.places
      · rw [(k6 p hpn).1]; exact ht p hpn
      · rw [k7 p hp hpn]
    · intro t htm
      by_cases htn : t ∈ n.transitions
      · rw [(k8 t htn).1]; exact hpre t htn
      · obtain ⟨_, _, a, b, hab, _⟩ := k9 t htm htn
        rw [hab]; exact List.cons_ne_nil _ _

theorem put_all (s : String) : ∀ (l : List String) (d : Dict String String) (t : String),
    (l.foldl (fun d t => d.put t s) d).get? t = if t ∈ l then some s else d.get? t
  | [], d, t => by simp
  | x :: l, d, t => by
    rw [List.foldl_cons, put_all s l]
    by_cases hx : x = t
    · subst hx; rw [Dict.get?_put_self]; simp
    · rw [Dict.get?_put_of_ne _ _ hx]; simp [Ne.symm hx]

/-- C114: the constructor with a name: the pattern is well-formed, its net is the given net (with one source and one sink), and every transition
of the given net has this name -/
theorem C114_init_name {n : Net} {s : String} {r : Pattern} (hw : n.WF) (ht : ∀ p ∈ n.places, 0 ≤ n.tokens p)
    (hpre : ∀ t ∈ n.transitions, n.pre t ≠ []) (hso : ∃ p, IsSource n.transitions n.pre n.post p) (hsi : ∃ p, IsSink n.transitions n.pre n.post p)
    (h : mkPattern n (.name s) = .ok r) :
    r.Valid ∧ (n.isWorkflow = true → r.net = n) ∧ ∀ t, r.map.get? t = if t ∈ n.transitions then some s else none := by
  obtain ⟨k1, k2, k3, k4, k5, k6, k7, k8, k9⟩ := init_net hw ht hpre hso hsi h
  have hmap : r.map = n.transitions.foldl (fun (d : Dict String String) t => d.put t s) [] := by
    rw [mkPattern_eq] at h
    obtain ⟨m, _, h⟩ := bind_eq_ok h
    exact congrArg Pattern.map (Except.ok.inj h).symm
  have hget : ∀ t, r.map.get? t = if t ∈ n.transitions then some s else none := fun t => by rw [hmap, put_all]; rfl
  obtain ⟨⟨a, ha⟩, b, hb⟩ := (C99_is_workflow k1).1 k3
  refine ⟨⟨a, b, k1, k2, ha, hb, k4, fun t ht' hv => ?_⟩, k5, hget⟩
  by_cases htn : t ∈ n.transitions
  · exact ⟨s, by rw [hget, if_pos htn]⟩
  · rw [(k9 t ht' htn).1] at hv; cases hv

/-- C114: the constructor with a dictionary: if it succeeds, the pattern is well-formed, has the given names, and every visible transition has a name -/
theorem C114_init_dict {n : Net} {d : Dict String String} {r : Pattern} (hw : n.WF) (ht : ∀ p ∈ n.places, 0 ≤ n.tokens p)
    (hpre : ∀ t ∈ n.transitions, n.pre t ≠ []) (hso : ∃ p, IsSource n.transitions n.pre n.post p) (hsi : ∃ p, IsSink n.transitions n.pre n.post p)
    (h : mkPattern n (.dict d) = .ok r) :
    r.Valid ∧ (n.isWorkflow = true → r.net = n) ∧ r.map = d ∧ ∀ t ∈ n.transitions, n.visible t = true → ∃ x, d.get? t = some x := by
  obtain ⟨k1, k2, k3, k4, k5, k6, k7, k8, k9⟩ := init_net hw ht hpre hso hsi h
  obtain ⟨hmap, hn⟩ : r.map = d ∧ (n.transitions.any fun t => n.visible t && !d.has t) = false := by
    rw [mkPattern_eq] at h
    obtain ⟨m, _, h⟩ := bind_eq_ok h
    dsimp only at h
    split at h
    · cases h
    · next hx => exact ⟨congrArg Pattern.map (Except.ok.inj h).symm, by simpa using hx⟩
  have hnames : ∀ t ∈ n.transitions, n.visible t = true → ∃ x, d.get? t = some x := by
    intro t htn hv
    have := List.any_eq_false.1 hn t htn
    rw [hv, Bool.true_and, Bool.not_eq_true'] at this
    unfold Dict.has at this
    cases hg : d.get? t with
    | none => rw [hg] at this; exact absurd rfl this
    | some x => exact ⟨x, rfl⟩
  obtain ⟨⟨a, ha⟩, b, hb⟩ := (C99_is_workflow k1).1 k3
  refine ⟨⟨a, b, k1, k2, ha, hb, k4, fun t ht' hv => ?_⟩, k5, hmap, hnames⟩
  rw [hmap]
  by_cases htn : t ∈ n.transitions
  · rw [(k8 t htn).2.2.2.1] at hv; exact hnames t htn hv
  · rw [(k9 t ht' htn).1] at hv; cases hv

/-- C114: for a workflow net the constructor always succeeds with a name; with a dictionary it raises a ValueError iff some visible transition is missing -/
theorem C114_init_total {n : Net} (hn : n.isWorkflow = true) :
    (∀ s, ∃ r, mkPattern n (.name s) = .ok r) ∧
    ∀ d : Dict String String, (mkPattern n (.dict d) = .error .value ∧ ∃ t ∈ n.transitions, n.visible t = true ∧ d.get? t = none) ∨
      (mkPattern n (.dict d) = .ok ⟨n, d⟩ ∧ ∀ t ∈ n.transitions, n.visible t = true → d.get? t ≠ none) := by
  simp only [mkPattern_eq, if_pos hn]
  refine ⟨fun s => ⟨_, rfl⟩, fun d => ?_⟩
  show ((if (n.transitions.any fun t => n.visible t && !d.has t) = true then .error PyErr.value else .ok ⟨n, d⟩ : Py Pattern) = _ ∧ _) ∨
    ((if (n.transitions.any fun t => n.visible t && !d.has t) = true then .error PyErr.value else .ok ⟨n, d⟩ : Py Pattern) = _ ∧ _)
  cases ha : (n.transitions.any fun t => n.visible t && !d.has t) with
  | true =>
    left
    refine ⟨rfl, ?_⟩
    obtain ⟨t, ht, h⟩ := List.any_eq_true.1 ha
    rw [Bool.and_eq_true, Bool.not_eq_true'] at h
    refine ⟨t, ht, h.1, ?_⟩
    unfold Dict.has at h
    cases hg : d.get? t with
    | none => rfl
    | some x => rw [hg] at h; exact absurd h.2 (by simp)
  | false =>
    right
    refine ⟨rfl, ?_⟩
    intro t ht hv hg
    have := List.any_eq_false.1 ha t ht
    rw [hv] at this
    unfold Dict.has at this
    rw [hg] at this
    exact this rfl

theorem zeros_get (n : Net) (p : String) : Dict.get? (n.places.map fun p => (p, (0 : Int))) p = if p ∈ n.places then some 0 else none := by
  induction n.places with
  | nil => rfl
  | cons q l ih =>
    show (if q = p then some 0 else Dict.get? _ p) = _
    by_cases h : q = p
    · subst h; simp
    · rw [if_neg h, ih]; simp [Ne.symm h]

/-- C114: the standard markings have one token on the source (the sink) and none on the other places, and contain exactly the places of the net -/
theorem C114_markings {a : Pattern} (ha : a.Valid) : ∃ s e m m', a.initialMarking = .ok m ∧ a.finalMarking = .ok m' ∧
    (∀ p, IsSource a.net.transitions a.net.pre a.net.post p ↔ p = s) ∧ (∀ p, IsSink a.net.transitions a.net.pre a.net.post p ↔ p = e) ∧
    s ≠ e ∧ s ∈ a.net.places ∧ e ∈ a.net.places ∧
    (∀ p, m.get? p = if p ∈ a.net.places then some (single s p) else none) ∧
    ∀ p, m'.get? p = if p ∈ a.net.places then some (single e p) else none := by
  obtain ⟨s, e, ha⟩ := ha
  have key : ∀ x ∈ a.net.places, ∀ p, (a.allZeros.put x 1).get? p = if p ∈ a.net.places then some (single x p) else none := by
    intro x hx p
    by_cases h : x = p
    · subst h; rw [Dict.get?_put_self, if_pos hx]; simp [single]
    · rw [Dict.get?_put_of_ne _ _ h]
      show Dict.get? (a.net.places.map fun p => (p, (0 : Int))) p = _
      rw [zeros_get]; simp [single, Ne.symm h]
  refine ⟨s, e, a.allZeros.put s 1, a.allZeros.put e 1, ?_, ?_, ha.source, ha.sink, ?_, ha.source_mem, ha.sink_mem, key s ha.source_mem, key e ha.sink_mem⟩
  · unfold Pattern.initialMarking; rw [sources_eq ha.source]; rfl
  · unfold Pattern.finalMarking; rw [sinks_eq ha.sink]; rfl
  · rintro rfl
    exact ((ha.sink s).2 rfl).2 ((ha.source s).2 rfl).1

/-- C114: a copy of a pattern exists, and has the same names, places, transitions, arcs, guards, labels and tokens -/
theorem C114_copy {a : Pattern} (ha : a.Valid) : ∃ r v, a.copy = .ok r ∧ r = ⟨{ a.net with vars := v }, a.map⟩ ∧ r.Valid ∧
    ∀ h, (∀ w, r.Words h w ↔ a.Words h w) ∧ (r.Clean h ↔ a.Clean h) := by
  obtain ⟨s, e, ha⟩ := ha
  obtain ⟨v, hv⟩ := copied_ok ha.wf ha.tokens
  have hg : Pattern.Good ⟨{ a.net with vars := v }, a.map⟩ s e := ⟨wf_vars ha.wf v, ha.tokens, ha.source, ha.sink, ha.pre_ne, ha.names⟩
  refine ⟨_, v, ?_, rfl, ⟨s, e, hg⟩, fun h => ⟨fun w => Iff.rfl, Iff.rfl⟩⟩
  unfold Pattern.copy
  rw [hv]
  exact mkPattern_ok hg

theorem get?_filter (P : String → Bool) (d : Dict String String) (t : String) :
    Dict.get? (d.filter fun e => P e.1) t = if P t then d.get? t else none := by
  induction d with
  | nil => simp [Dict.get?]
  | cons e d ih =>
    rw [List.filter_cons]
    show _ = if P t then (if e.1 = t then some e.2 else Dict.get? d t) else none
    by_cases h : e.1 = t
    · subst h
      by_cases hp : P e.1 = true
      · rw [if_pos hp, if_pos hp, if_pos rfl]; show (if e.1 = e.1 then _ else _) = _; rw [if_pos rfl]
      · rw [if_neg hp, if_neg hp, ih, if_neg hp]
    · split
      · show (if e.1 = t then some e.2 else Dict.get? _ t) = _
        rw [if_neg h, ih]
      · rw [ih]

/-- C114: pruning a pattern prunes its net (see C100); all visible transitions remain, the remaining transitions keep their names, and
the removed ones are also removed from the map -/
theorem C114_prune {a : Pattern} (ha : a.Valid) : ∃ r, a.prune = .ok r ∧ a.net.prune = .ok r.net ∧ r.net.WF ∧
    (∀ t ∈ a.net.transitions, a.net.visible t = true → t ∈ r.net.transitions) ∧
    ∀ t, r.map.get? t = if t ∈ r.net.transitions then a.map.get? t else none := by
  obtain ⟨s, e, ha⟩ := ha
  obtain ⟨n', h1, h2, _, _, _, _, _, _, h3, _⟩ := C100_prune ha.wf (fun _ => none)
  refine ⟨⟨n', a.map.filter fun e => decide (e.1 ∈ n'.transitions)⟩, ?_, h1, h2, h3, fun t => ?_⟩
  · unfold Pattern.prune; rw [h1]; rfl
  · have := get?_filter (fun x => decide (x ∈ n'.transitions)) a.map t
    simpa using this

/-! ### a concrete pattern -/

/-- one visible transition between two places -/
def exAct (t name : String) : Pattern where
  net := { Net.empty with
    places := ["start", "end"], transitions := [t], transLabel := fun x => x, visible := fun x => decide (x = t)
    out := fun p => if p = "start" then [t] else []
    pre := fun x => if x = t then ["start"] else []
    post := fun x => if x = t then ["end"] else [] }
  map := [(t, name)]

theorem exAct_good (t name : String) : (exAct t name).Good "start" "end" := by
  have hpre : ∀ x, x ∈ [t] → (exAct t name).net.pre x = ["start"] := by intro x hx; rw [List.mem_singleton] at hx; subst hx; simp [exAct]
  have hpost : ∀ x, x ∈ [t] → (exAct t name).net.post x = ["end"] := by intro x hx; rw [List.mem_singleton] at hx; subst hx; simp [exAct]
  have e1 : ∀ p, (∃ x ∈ (exAct t name).net.transitions, p ∈ (exAct t name).net.pre x) ↔ p = "start" := by
    intro p
    constructor
    · rintro ⟨x, hx, hp⟩; rw [hpre x hx] at hp; exact List.mem_singleton.1 hp
    · rintro rfl; exact ⟨t, List.mem_singleton_self _, by rw [hpre t (List.mem_singleton_self _)]; exact List.mem_singleton_self _⟩
  have e2 : ∀ p, (∃ x ∈ (exAct t name).net.transitions, p ∈ (exAct t name).net.post x) ↔ p = "end" := by
    intro p
    constructor
    · rintro ⟨x, hx, hp⟩; rw [hpost x hx] at hp; exact List.mem_singleton.1 hp
    · rintro rfl; exact ⟨t, List.mem_singleton_self _, by rw [hpost t (List.mem_singleton_self _)]; exact List.mem_singleton_self _⟩
  refine ⟨⟨by show ["start", "end"].Nodup; decide, List.nodup_singleton _, ?_, ?_, ?_⟩, fun p _ => Int.le_refl 0, ?_, ?_, ?_, ?_⟩
  · intro x hx; rw [hpre x hx]
    exact ⟨List.nodup_singleton _, fun p hp => by rw [List.mem_singleton] at hp; subst hp; exact List.mem_cons_self⟩
  · intro x hx; rw [hpost x hx]
    exact ⟨List.nodup_singleton _, fun p hp => by rw [List.mem_singleton] at hp; subst hp; exact List.mem_cons_of_mem _ List.mem_cons_self⟩
  · intro p hp
    rcases List.mem_cons.1 hp with rfl | hp
    · refine ⟨by simp [exAct], fun u => ?_⟩
      show u ∈ (if "start" = "start" then [t] else []) ↔ u ∈ [t] ∧ "start" ∈ (if u = t then ["start"] else [])
      simp
    · rw [List.mem_singleton] at hp
      subst hp
      refine ⟨by simp [exAct], fun u => ?_⟩
      show u ∈ (if "end" = "start" then [t] else []) ↔ u ∈ [t] ∧ "end" ∈ (if u = t then ["start"] else [])
      rw [if_neg (by decide)]
      simp only [List.not_mem_nil, false_iff, not_and]
      intro hu hx
      split at hx
      · exact absurd hx (by decide)
      · cases hx
  · intro p
    show (_ ∧ ¬ _) ↔ _
    rw [e1, e2]
    constructor
    · exact And.left
    · rintro rfl; exact ⟨rfl, by decide⟩
  · intro p
    show (_ ∧ ¬ _) ↔ _
    rw [e1, e2]
    constructor
    · exact And.left
    · rintro rfl; exact ⟨rfl, by decide⟩
  · intro x hx; rw [hpre x hx]; exact List.cons_ne_nil _ _
  · intro x hx _
    rw [List.mem_singleton.1 hx]
    exact ⟨name, by simp [exAct, Dict.get?]⟩

theorem exAct_run {t name : String} {h : Heap} {ts : List String} {m : String → Int}
    (hr : Run (exAct t name).net.pre (exAct t name).net.post (Allowed h (exAct t name).net) (single "start") ts m) :
    (ts = [] ∧ m = single "start") ∨ (ts = [t] ∧ m = single "end") := by
  induction hr with
  | nil => exact .inl ⟨rfl, rfl⟩
  | @snoc ts m u hr ho he ih =>
    have hu : u = t := List.mem_singleton.1 ho.1
    subst hu
    have hpre : (exAct u name).net.pre u = ["start"] := by simp [exAct]
    have hpost : (exAct u name).net.post u = ["end"] := by simp [exAct]
    rw [hpre] at he
    rcases ih with ⟨rfl, rfl⟩ | ⟨rfl, rfl⟩
    · refine .inr ⟨rfl, ?_⟩
      rw [hpre, hpost]
      funext p
      unfold after single
      simp only [List.mem_singleton]
      by_cases h1 : p = "start"
      · subst h1; simp
      · by_cases h2 : p = "end"
        · subst h2; simp
        · simp [h1, h2]
    · have := he "start" (by simp)
      simp [single] at this

/-- the hypotheses of the theorems on patterns are met: the pattern is well-formed, completes properly and has one execution -/
theorem exAct_valid (t name : String) (h : Heap) : (exAct t name).Valid ∧ (exAct t name).Clean h ∧
    ∀ w, (exAct t name).Words h w ↔ w = [(t, some name)] := by
  have hg := exAct_good t name
  refine ⟨⟨_, _, hg⟩, hg.clean.2 ?_, fun w => hg.words.trans ?_⟩
  · intro ts m hr hm
    rcases exAct_run hr with ⟨_, rfl⟩ | ⟨_, rfl⟩
    · exact absurd hm (by show ¬ (1 ≤ single "start" "end"); decide)
    · rfl
  · have hobs : ((exAct t name).sys h "start" "end").obs t = some (t, some name) := by
      show (if (exAct t name).net.visible t then some ((exAct t name).net.transLabel t, (exAct t name).map.get? t) else none) = _
      simp [exAct, Dict.get?]
    constructor
    · rintro ⟨ts, hr, rfl⟩
      rcases exAct_run hr with ⟨_, hx⟩ | ⟨rfl, _⟩
      · have := congrFun hx "end"
        exact absurd this (by show ¬ (single "end" "end" = single "start" "end"); decide)
      · rw [List.filterMap_cons, hobs]; rfl
    · rintro rfl
      refine ⟨[t], ?_, by rw [List.filterMap_cons, hobs]; rfl⟩
      have hpre : (exAct t name).net.pre t = ["start"] := by simp [exAct]
      have hpost : (exAct t name).net.post t = ["end"] := by simp [exAct]
      have hx : single "end" = after ((exAct t name).net.pre t) ((exAct t name).net.post t) (single "start") := by
        rw [hpre, hpost]
        funext p
        unfold after single
        simp only [List.mem_singleton]
        by_cases h1 : p = "start"
        · subst h1; simp
        · by_cases h2 : p = "end"
          · subst h2; simp
          · simp [h1, h2]
      show Run _ _ _ (single "start") [t] (single "end")
      rw [hx]
      refine Run.snoc (ts := []) .nil ⟨List.mem_singleton_self _, accept_always rfl⟩ ?_
      intro p hp
      change p ∈ (exAct t name).net.pre t at hp
      rw [hpre, List.mem_singleton] at hp
      subst hp; decide

example : (exAct "holiday" "Holiday").net.isWorkflow = true := by decide
example : (mkPattern (exAct "holiday" "Holiday").net (.dict [])).toOption.isNone = true := by decide
example : (exAct "holiday" "Holiday").initialMarking = .ok [("start", 1), ("end", 0)] := by decide

end Prolothar.ActivityPattern
