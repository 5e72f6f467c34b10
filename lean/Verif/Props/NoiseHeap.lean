import Verif.Spec.NoiseStore
import Verif.Props.EventLogHeap
import Verif.Props.Noise
/-
C187: noise on event logs with object identities.
-/
namespace Prolothar.NoiseHeap
open Prolothar.EventLog Prolothar.EventLogHeap Prolothar.LogNoise Prolothar.NoiseStore
variable {I A V G κ : Type}

theorem Local.trans {tr : κ → List Nat} {h h' h'' : Heap I A V} {t : Nat} {v w : Trace I A V} (a : Local tr h h' t v) (b : Local tr h' h'' t w) :
    Local tr h h'' t w :=
  ⟨b.inv, b.traces.trans a.traces, b.here, fun x hx hne => (b.there x hx hne).trans (a.there x hx hne)⟩

/-- new objects and then a new list of events -/
theorem local_agree_setEvents {tr : κ → List Nat} {h h' : Heap I A V} (hi : Inv tr h) (a : Agree h h') {t : Nat} (ht : Live tr t) {es : List Nat}
    (hes : ∀ e ∈ es, e < h'.next) : Local tr h (setEvents h' t es) t { viewTrace h t with events := es.map h'.event } := by
  have h1 := local_setEvents (a.inv hi) ht hes
  have h2 := a.view hi ht
  refine ⟨h1.inv, h1.traces.trans a.traces, ?_, fun x hx hne => (h1.there x hx hne).trans (a.view hi hx)⟩
  rw [h1.here, h2]

/-- a new order of the events in the same list object -/
theorem local_inplace {tr : κ → List Nat} {h : Heap I A V} (hi : Inv tr h) {t : Nat} (ht : Live tr t) {es : List Nat}
    (hes : ∀ e ∈ es, e ∈ h.list (h.traceEvents t)) :
    Local tr h { h with list := upd h.list (h.traceEvents t) es } t { viewTrace h t with events := es.map h.event } := by
  refine ⟨⟨hi.nodup, hi.disj, hi.lists, hi.dicts, fun x hx => ?_⟩, rfl, ?_, fun x hx hxt => ?_⟩
  · obtain ⟨h1, h2, h3, h4⟩ := hi.bound x hx
    refine ⟨h1, h2, h3, ?_⟩
    show ∀ e ∈ upd h.list (h.traceEvents t) es (h.traceEvents x), e < h.next
    by_cases hxt : x = t
    · subst hxt
      rw [upd_self]
      exact fun e he => h4 e (hes e he)
    · rw [upd_ne _ _ fun hc => hxt (hi.lists x t hx ht hc)]
      exact h4
  · show (⟨h.traceId t, (upd h.list (h.traceEvents t) es (h.traceEvents t)).map h.event, h.dict (h.traceAttributes t)⟩ : Trace I A V) = _
    rw [upd_self]
    rfl
  · refine viewTrace_congr rfl ?_ rfl fun _ _ => rfl
    show upd h.list (h.traceEvents t) es (h.traceEvents x) = _
    rw [upd_ne _ _ fun hc => hxt (hi.lists x t hx ht hc)]

/-- what the operation on one trace object does -/
def Does (f : G → Heap I A V → Nat → Py (Heap I A V × G)) (F : G → List (Event A V) → Py (List (Event A V) × G)) : Prop :=
  ∀ (tr : Nat → List Nat) (g : G) (h : Heap I A V) (t : Nat), Inv tr h → Live tr t →
    ∃ h' es g', f g h t = .ok (h', g') ∧ F g (viewTrace h t).events = .ok (es, g') ∧ Local tr h h' t { viewTrace h t with events := es }

theorem addStep_fold (a : A) (p : ℚ) : ∀ (xs : List (Nat × ℚ)) (h : Heap I A V) (acc : List Nat), (∀ e ∈ acc, e < h.next) → (∀ x ∈ xs, x.1 < h.next) →
    Agree h (xs.foldl (addStep a p) (h, acc)).1 ∧
    (∀ e ∈ (xs.foldl (addStep a p) (h, acc)).2, e < (xs.foldl (addStep a p) (h, acc)).1.next) ∧
    (xs.foldl (addStep a p) (h, acc)).2.map (xs.foldl (addStep a p) (h, acc)).1.event =
      (xs.map fun x => (h.event x.1, x.2)).foldl (fun acc x =>
        let acc := acc ++ [x.1]
        if x.2 < p then acc ++ [Event.new a] else acc) (acc.map h.event) := by
  intro xs
  induction xs with
  | nil => intro h acc ha _; exact ⟨Agree.refl h, ha, rfl⟩
  | cons x xs ih =>
    intro h acc ha hx
    rw [List.foldl_cons, List.map_cons, List.foldl_cons]
    have hx0 : x.1 < h.next := hx x List.mem_cons_self
    by_cases hp : x.2 < p
    · have e1 : addStep a p (h, acc) x = ((newEvent h (Event.new a)).1, acc ++ [x.1] ++ [h.next]) := by
        unfold addStep; simp only [hp, if_true]; rfl
      rw [e1]
      have hag := agree_newEvent h (Event.new (V := V) a)
      obtain ⟨i1, i2, i3⟩ := ih (newEvent h (Event.new a)).1 (acc ++ [x.1] ++ [h.next]) (by
        intro e he
        show e < h.next + 1
        simp only [List.mem_append, List.mem_singleton] at he
        rcases he with (he | he) | he
        · have := ha e he; omega
        · omega
        · omega) (fun y hy => by
          show y.1 < h.next + 1
          have := hx y (List.mem_cons_of_mem _ hy); omega)
      refine ⟨hag.trans i1, i2, i3.trans ?_⟩
      have e2 : (xs.map fun x => ((newEvent h (Event.new a)).1.event x.1, x.2)) = xs.map fun x => (h.event x.1, x.2) :=
        List.map_congr_left fun y hy => by rw [hag.event _ (hx y (List.mem_cons_of_mem _ hy))]
      have e3 : (acc ++ [x.1] ++ [h.next]).map (newEvent h (Event.new (V := V) a)).1.event = acc.map h.event ++ [h.event x.1] ++ [Event.new a] := by
        rw [List.map_append, List.map_append, List.map_singleton, List.map_singleton, hag.event _ hx0,
          List.map_congr_left fun e he => hag.event e (ha e he)]
        congr 2
        exact upd_self _ _ _
      rw [e2, e3]
      simp only [hp, if_true]
    · have e1 : addStep a p (h, acc) x = (h, acc ++ [x.1]) := by
        unfold addStep; simp only [hp, if_false]
      rw [e1]
      obtain ⟨i1, i2, i3⟩ := ih h (acc ++ [x.1]) (by
        intro e he
        rcases List.mem_append.1 he with he | he
        · exact ha e he
        · rw [List.mem_singleton.1 he]; exact hx0) (fun y hy => hx y (List.mem_cons_of_mem _ hy))
      refine ⟨i1, i2, i3.trans ?_⟩
      simp only [hp, if_false, List.map_append, List.map_singleton]

theorem does_add (rng : G → ℚ × G) (a : A) (p : ℚ) :
    Does (I := I) (V := V) (addOn rng a p) (fun g es => .ok (addOnTrace rng a p g es)) := by
  intro tr g h t hi ht
  have hb := (hi.bound t ht).2.2.2
  obtain ⟨i1, i2, i3⟩ := addStep_fold a p ((h.list (h.traceEvents t)).zip (draws rng (h.list (h.traceEvents t)).length g).1) h []
    (fun e he => by cases he) (fun x hx => hb x.1 (List.of_mem_zip hx).1)
  have h1 := local_agree_setEvents hi i1 ht i2
  rw [i3] at h1
  have e1 : (addOnTrace rng a p g (viewTrace h t).events).1 = (((h.list (h.traceEvents t)).zip (draws rng (h.list (h.traceEvents t)).length g).1).map
      fun x => (h.event x.1, x.2)).foldl (fun acc x =>
        let acc := acc ++ [x.1]
        if x.2 < p then acc ++ [Event.new a] else acc) [] := by
    unfold addOnTrace viewTrace
    dsimp only
    rw [List.length_map, List.zip_map_left]
    rfl
  have e2 : (addOnTrace rng a p g (viewTrace h t).events).2 = (draws rng (h.list (h.traceEvents t)).length g).2 := by
    unfold addOnTrace viewTrace
    dsimp only
    rw [List.length_map]
  exact ⟨_, _, _, rfl, congrArg Except.ok (Prod.ext e1 e2), h1⟩

theorem keep_map (rng : G → ℚ × G) (p : ℚ) (f : Nat → Event A V) : ∀ (es : List Nat) (g : G),
    removeOnTrace rng p g (es.map f) = ((keep rng p g es).1.map f, (keep rng p g es).2) := by
  intro es
  induction es with
  | nil => intro g; rfl
  | cons e es ih =>
    intro g
    rw [List.map_cons]
    unfold removeOnTrace keep
    simp only [ih]
    split <;> rfl

theorem keep_subset (rng : G → ℚ × G) (p : ℚ) : ∀ (es : List Nat) (g : G), ∀ e ∈ (keep rng p g es).1, e ∈ es := by
  intro es
  induction es with
  | nil => intro g e he; cases he
  | cons x es ih =>
    intro g e he
    unfold keep at he
    dsimp only at he
    split at he
    · rcases List.mem_cons.1 he with rfl | he
      · exact List.mem_cons_self
      · exact List.mem_cons_of_mem _ (ih _ e he)
    · exact List.mem_cons_of_mem _ (ih _ e he)

theorem does_remove (rng : G → ℚ × G) (p : ℚ) :
    Does (I := I) (A := A) (V := V) (removeOn rng p) (fun g es => .ok (removeOnTrace rng p g es)) := by
  intro tr g h t hi ht
  have hb := (hi.bound t ht).2.2.2
  have h1 := local_setEvents hi ht (es := (keep rng p g (h.list (h.traceEvents t))).1) fun e he => hb e (keep_subset rng p _ g e he)
  exact ⟨_, _, _, rfl, congrArg Except.ok (keep_map rng p h.event (h.list (h.traceEvents t)) g), h1⟩

/-- one exchange in the list object is an exchange of the events -/
theorem swapIn_spec {tr : Nat → List Nat} {h : Heap I A V} (hi : Inv tr h) {t : Nat} (ht : Live tr t) {i : Nat}
    (hlen : i + 1 < (h.list (h.traceEvents t)).length) :
    ∃ h' es, swapIn h t i = .ok h' ∧ swapAt (viewTrace h t).events i = .ok es ∧ Local tr h h' t { viewTrace h t with events := es } ∧
      (h'.list (h'.traceEvents t)).length = (h.list (h.traceEvents t)).length := by
  generalize hes : h.list (h.traceEvents t) = es at hlen
  have hx : es[i + 1]? = some es[i + 1] := List.getElem?_eq_getElem hlen
  have hy : es[i]? = some es[i] := List.getElem?_eq_getElem (by omega)
  have hvx : (es.map h.event)[i + 1]? = some (h.event es[i + 1]) := by rw [List.getElem?_map, hx]; rfl
  have hvy : (es.map h.event)[i]? = some (h.event es[i]) := by rw [List.getElem?_map, hy]; rfl
  have h1 : swapIn h t i = .ok { h with list := upd h.list (h.traceEvents t) ((es.set i es[i + 1]).set (i + 1) es[i]) } := by
    unfold swapIn
    rw [hes, pyGet_ofNat hx, pyGet_ofNat hy]
    unfold pySet
    simp only [bind, Except.bind, pure, Except.pure, List.length_set, hlen, if_true, (by omega : i < es.length)]
  have h2 : swapAt (viewTrace h t).events i = .ok (((es.set i es[i + 1]).set (i + 1) es[i]).map h.event) := by
    unfold swapAt viewTrace
    dsimp only
    rw [hes, pyGet_ofNat hvx, pyGet_ofNat hvy]
    unfold pySet
    simp only [bind, Except.bind, List.length_set, List.length_map, hlen, if_true, (by omega : i < es.length), List.map_set]
  refine ⟨_, _, h1, h2, local_inplace hi ht fun e he => ?_, ?_⟩
  · rw [hes]
    rcases List.mem_or_eq_of_mem_set he with he | rfl
    · rcases List.mem_or_eq_of_mem_set he with he | rfl
      · exact he
      · exact List.getElem_mem _
    · exact List.getElem_mem _
  · show (upd h.list (h.traceEvents t) _ (h.traceEvents t)).length = _
    rw [upd_self, List.length_set, List.length_set]

theorem swap_fold (rng : G → ℚ × G) (p : ℚ) {tr : Nat → List Nat} {t : Nat} (ht : Live tr t) : ∀ (is : List Nat) (h : Heap I A V) (g : G), Inv tr h →
    (∀ i ∈ is, i + 1 < (h.list (h.traceEvents t)).length) →
    ∃ h' es g', is.foldlM (swapStepOn rng p t) (h, g) = .ok (h', g') ∧ is.foldlM (swapStep rng p) ((viewTrace h t).events, g) = .ok (es, g') ∧
      Local tr h h' t { viewTrace h t with events := es } := by
  intro is
  induction is with
  | nil => intro h g hi _; exact ⟨h, _, g, rfl, rfl, ⟨hi, rfl, rfl, fun _ _ _ => rfl⟩⟩
  | cons i is ih =>
    intro h g hi hl
    rw [List.foldlM_cons, List.foldlM_cons]
    by_cases hp : (rng g).1 < p
    · obtain ⟨h1, es1, s1, s2, s3, s4⟩ := swapIn_spec hi ht (hl i List.mem_cons_self)
      obtain ⟨h2, es2, g2, r1, r2, r3⟩ := ih h1 (rng g).2 s3.inv fun j hj => by rw [s4]; exact hl j (List.mem_cons_of_mem _ hj)
      have e1 : swapStepOn rng p t (h, g) i = .ok (h1, (rng g).2) := by
        unfold swapStepOn; simp only [hp, if_true, s1]; rfl
      have e2 : swapStep rng p ((viewTrace h t).events, g) i = .ok (es1, (rng g).2) := by
        unfold swapStep; simp only [hp, if_true, s2]; rfl
      have e3 : (viewTrace h1 t).events = es1 := by rw [s3.here]
      rw [e3] at r2
      refine ⟨h2, es2, g2, by rw [e1]; exact r1, by rw [e2]; exact r2, Local.trans s3 ?_⟩
      rw [s3.here] at r3
      exact r3
    · have e1 : swapStepOn rng p t (h, g) i = .ok (h, (rng g).2) := by
        unfold swapStepOn; simp only [hp, if_false]
      have e2 : swapStep rng p ((viewTrace h t).events, g) i = .ok ((viewTrace h t).events, (rng g).2) := by
        unfold swapStep; simp only [hp, if_false]
      rw [e1, e2]
      exact ih h (rng g).2 hi fun j hj => hl j (List.mem_cons_of_mem _ hj)

theorem does_swap (rng : G → ℚ × G) (p : ℚ) : Does (I := I) (A := A) (V := V) (swapOn rng p) (swapOnTrace rng p) := by
  intro tr g h t hi ht
  have h1 := swap_fold rng p ht (List.range ((h.list (h.traceEvents t)).length - 1)) h g hi fun i hi => by
    have := List.mem_range.1 hi; omega
  obtain ⟨h', es, g', r1, r2, r3⟩ := h1
  refine ⟨h', es, g', r1, ?_, r3⟩
  unfold swapOnTrace
  have : (viewTrace h t).events.length = (h.list (h.traceEvents t)).length := List.length_map _
  rw [this]
  exact r2

/-- the loop over distinct trace objects is the loop over the values of the traces -/
theorem eachTrace_spec {f : G → Heap I A V → Nat → Py (Heap I A V × G)} {F : G → List (Event A V) → Py (List (Event A V) × G)} (hf : Does f F)
    {tr : Nat → List Nat} : ∀ (ts : List Nat) (g : G) (h : Heap I A V), Inv tr h → ts.Nodup → (∀ t ∈ ts, Live tr t) →
    ∃ h' g' log, eachTrace f g h ts = .ok (h', g') ∧ onTraces F g (ts.map (viewTrace h)) = .ok (log, g') ∧ Inv tr h' ∧ h'.traces = h.traces ∧
      ts.map (viewTrace h') = log ∧ ∀ t, Live tr t → t ∉ ts → viewTrace h' t = viewTrace h t := by
  intro ts
  induction ts with
  | nil => intro g h hi _ _; exact ⟨h, g, [], rfl, rfl, hi, rfl, rfl, fun _ _ _ => rfl⟩
  | cons t ts ih =>
    intro g h hi hn hl
    obtain ⟨hnt, hn⟩ := List.nodup_cons.1 hn
    obtain ⟨h1, es, g1, a1, a2, a3⟩ := hf tr g h t hi (hl t List.mem_cons_self)
    obtain ⟨h2, g2, log, b1, b2, b3, b4, b5, b6⟩ := ih g1 h1 a3.inv hn fun x hx => hl x (List.mem_cons_of_mem _ hx)
    have e1 : ts.map (viewTrace h1) = ts.map (viewTrace h) :=
      List.map_congr_left fun x hx => a3.there x (hl x (List.mem_cons_of_mem _ hx)) fun hc => hnt (hc ▸ hx)
    rw [e1] at b2
    refine ⟨h2, g2, { viewTrace h t with events := es } :: log, ?_, ?_, b3, b4.trans a3.traces, ?_, fun x hx hxn => ?_⟩
    · unfold eachTrace; rw [a1]; exact b1
    · rw [List.map_cons]
      unfold onTraces
      rw [a2]
      show (do let rest ← onTraces F g1 (ts.map (viewTrace h)); _ : Py _) = _
      rw [b2]
      rfl
    · rw [List.map_cons, b5, b6 t (hl t List.mem_cons_self) hnt, a3.here]
    · rw [List.mem_cons, not_or] at hxn
      rw [b6 x hx hxn.2, a3.there x hx hxn.1]

/-- the loop over the traces of a log -/
theorem eachTrace_log {f : G → Heap I A V → Nat → Py (Heap I A V × G)} {F : G → List (Event A V) → Py (List (Event A V) × G)} (hf : Does f F)
    {h : Heap I A V} (hi : Inv h.traces h) (l : Nat) (g : G) :
    ∃ h' g' log, eachTrace f g h (h.traces l) = .ok (h', g') ∧ onTraces F g (view h l) = .ok (log, g') ∧ Inv h'.traces h' ∧
      view h' = upd (view h) l log := by
  obtain ⟨h', g', log, a1, a2, a3, a4, a5, a6⟩ := eachTrace_spec hf (h.traces l) g h hi (hi.nodup l) fun t ht => ⟨l, ht⟩
  refine ⟨h', g', log, a1, a2, a4 ▸ a3, funext fun m => ?_⟩
  by_cases hm : m = l
  · subst hm
    rw [upd_self, ← a5]
    unfold view
    rw [a4]
  · rw [upd_ne _ _ hm]
    unfold view
    rw [a4]
    exact List.map_congr_left fun t ht => a6 t ⟨m, ht⟩ fun hc => hm (hi.disj m l t ht hc)

theorem upd_id (gens : Nat → G) (g : Nat) : upd gens g (gens g) = gens := by
  funext x
  by_cases hx : x = g
  · subst hx; rw [upd_self]
  · rw [upd_ne _ _ hx]

theorem upd_upd {α : Type} (s : Nat → α) (l : Nat) (a b : α) : upd (upd s l a) l b = upd s l b := by
  funext x
  by_cases hx : x = l
  · subst hx; rw [upd_self, upd_self]
  · rw [upd_ne _ _ hx, upd_ne _ _ hx, upd_ne _ _ hx]

/-- applying a noise object has the effect it has on values -/
def Applies (run : (Nat → G) → Heap I A V → Py ((Nat → G) × Heap I A V))
    (val : (Nat → G) → Log I A V → Py ((Nat → G) × Log I A V)) (l : Nat) : Prop :=
  ∀ (gens : Nat → G) (h : Heap I A V), Inv h.traces h → ∃ gens' h' log, run gens h = .ok (gens', h') ∧ val gens (view h l) = .ok (gens', log) ∧
    Inv h'.traces h' ∧ view h' = upd (view h) l log

mutual
theorem apply_spec (rng : G → ℚ × G) (l : Nat) : ∀ n : NoiseObj A, Applies (I := I) (V := V) (n.apply rng l) (execNoise rng n) l
  | .add a p g => by
    intro gens h hi
    by_cases hp : p > 0
    · obtain ⟨h', g', log, a1, a2, a3, a4⟩ := eachTrace_log (does_add rng a p) hi l (gens g)
      refine ⟨upd gens g g', h', log, ?_, ?_, a3, a4⟩
      · unfold NoiseObj.apply; rw [if_pos hp, a1]; rfl
      · unfold execNoise Noise.apply; rw [if_pos hp, a2]; rfl
    · refine ⟨gens, h, view h l, ?_, ?_, hi, (upd_id _ _).symm⟩
      · unfold NoiseObj.apply; rw [if_neg hp]
      · unfold execNoise Noise.apply; rw [if_neg hp]
        exact congrArg (fun x => Except.ok (x, view h l)) (upd_id gens g)
  | .remove p g => by
    intro gens h hi
    by_cases hp : p > 0
    · obtain ⟨h', g', log, a1, a2, a3, a4⟩ := eachTrace_log (does_remove rng p) hi l (gens g)
      obtain ⟨b1, b2⟩ := dropEmpty_spec a3 l
      refine ⟨upd gens g g', dropEmpty h' l, log.filter fun t => decide (t.events.length > 0), ?_, ?_, b1, ?_⟩
      · unfold NoiseObj.apply; rw [if_pos hp, a1]; rfl
      · unfold execNoise Noise.apply; rw [if_pos hp, a2]; rfl
      · rw [b2, a4, upd_self, upd_upd]
    · refine ⟨gens, h, view h l, ?_, ?_, hi, (upd_id _ _).symm⟩
      · unfold NoiseObj.apply; rw [if_neg hp]
      · unfold execNoise Noise.apply; rw [if_neg hp]
        exact congrArg (fun x => Except.ok (x, view h l)) (upd_id gens g)
  | .swap p g => by
    intro gens h hi
    by_cases hp : p > 0
    · obtain ⟨h', g', log, a1, a2, a3, a4⟩ := eachTrace_log (does_swap rng p) hi l (gens g)
      refine ⟨upd gens g g', h', log, ?_, ?_, a3, a4⟩
      · unfold NoiseObj.apply; rw [if_pos hp, a1]; rfl
      · unfold execNoise Noise.apply; rw [if_pos hp, a2]; rfl
    · refine ⟨gens, h, view h l, ?_, ?_, hi, (upd_id _ _).symm⟩
      · unfold NoiseObj.apply; rw [if_neg hp]
      · unfold execNoise Noise.apply; rw [if_neg hp]
        exact congrArg (fun x => Except.ok (x, view h l)) (upd_id gens g)
  | .combined ns => by
    intro gens h hi
    obtain ⟨gens', h', log, a1, a2, a3, a4⟩ := applyAll_spec rng l ns gens h hi
    refine ⟨gens', h', log, ?_, ?_, a3, a4⟩
    · unfold NoiseObj.apply; exact a1
    · unfold execNoise; exact a2
theorem applyAll_spec (rng : G → ℚ × G) (l : Nat) : ∀ ns : List (NoiseObj A),
    Applies (I := I) (V := V) (NoiseObj.applyAll rng l ns) (execNoises rng ns) l
  | [] => by
    intro gens h hi
    refine ⟨gens, h, view h l, ?_, ?_, hi, (upd_id _ _).symm⟩
    · unfold NoiseObj.applyAll; rfl
    · unfold execNoises; rfl
  | n :: ns => by
    intro gens h hi
    obtain ⟨gens1, h1, log1, a1, a2, a3, a4⟩ := apply_spec rng l n gens h hi
    obtain ⟨gens2, h2, log2, b1, b2, b3, b4⟩ := applyAll_spec rng l ns gens1 h1 a3
    refine ⟨gens2, h2, log2, ?_, ?_, b3, ?_⟩
    · unfold NoiseObj.applyAll; rw [a1]; exact b1
    · unfold execNoises; rw [a2]
      rw [a4, upd_self] at b2
      exact b2
    · rw [b4, a4, upd_upd]
end

/-! ### the theorems -/

/-- C187: Programs that copy logs, change them and apply noise objects to them behave as if every variable held its own log: noise is
visible in the log it is applied to and in no other log, whatever the noise objects and their generators do, and also if a noise object is
used several times or occurs several times in a combination. -/
theorem C187_value_semantics [DecidableEq A] (rng : G → ℚ × G) (gens : Nat → G) {h : Heap I A V} (hi : Inv h.traces h) (prog : List (Act I A V)) :
    (runActs rng (gens, h) prog).map (fun st => (st.1, view st.2)) = execActs rng (gens, view h) prog := by
  induction prog generalizing gens h with
  | nil => rfl
  | cons a as ih =>
    cases a with
    | cmd c =>
      rcases step_spec hi c with ⟨h', h1, h2, h3⟩ | ⟨e, h1, h2⟩
      · unfold runActs execActs stepAct execAct
        dsimp only
        rw [h1, h3]
        exact ih gens h2
      · unfold runActs execActs stepAct execAct
        dsimp only
        rw [h1, h2]
        rfl
    | noise n l =>
      obtain ⟨gens', h', log, a1, a2, a3, a4⟩ := apply_spec rng l n gens h hi
      unfold runActs execActs stepAct execAct
      dsimp only
      rw [a1, a2]
      have := ih gens' a3
      rw [a4] at this
      exact this

/-- C187: applying noise never raises an exception; the other logs stay as they are, and the log gets the noise -/
theorem C187_apply (rng : G → ℚ × G) (l : Nat) (n : NoiseObj A) (gens : Nat → G) {h : Heap I A V} (hi : Inv h.traces h) :
    ∃ gens' h' log, n.apply rng l gens h = .ok (gens', h') ∧ execNoise rng n gens (view h l) = .ok (gens', log) ∧ view h' l = log ∧
      ∀ m, m ≠ l → view h' m = view h m := by
  obtain ⟨gens', h', log, a1, a2, a3, a4⟩ := apply_spec rng l n gens h hi
  exact ⟨gens', h', log, a1, a2, by rw [a4, upd_self], fun m hm => by rw [a4, upd_ne _ _ hm]⟩

/-- C187: the usual way to make a noisy log: noise that is applied to a copy leaves the original log as it was, and the copy gets the
noise of the original log -/
theorem C187_copy (rng : G → ℚ × G) (n : NoiseObj A) (gens : Nat → G) {h h1 : Heap I A V} (hi : Inv h.traces h) {src dst : Nat} (hne : src ≠ dst)
    (hc : copy h src dst = .ok h1) :
    ∃ gens' h2 log, n.apply rng dst gens h1 = .ok (gens', h2) ∧ execNoise rng n gens (view h src) = .ok (gens', log) ∧ view h2 dst = log ∧
      view h2 src = view h src := by
  rcases copy_spec hi src dst with ⟨_, h2⟩ | ⟨_, h', b1, b2, b3, _⟩
  · rw [hc] at h2; cases h2
  · rw [hc] at b1
    cases b1
    obtain ⟨gens', h2, log, a1, a2, a3, a4⟩ := C187_apply rng dst n gens b2
    rw [b3, upd_self] at a2
    refine ⟨gens', h2, log, a1, a2, a3, ?_⟩
    rw [a4 src hne, b3, upd_ne _ _ hne]

/-! ### distinct noise objects -/

theorem gens_agree_add (rng : G → ℚ × G) (a : A) (p : ℚ) (g : G) (log : Log I A V) :
    ∃ g' log', Noise.apply rng (.add a p g) log = .ok (.add a p g', log') := by
  by_cases hp : p > 0
  · obtain ⟨r, h1, _⟩ := onTraces_pure (fun g es => addOnTrace rng a p g es) g log
    exact ⟨r.2, r.1, by unfold Noise.apply; rw [if_pos hp, h1]; rfl⟩
  · exact ⟨g, log, by unfold Noise.apply; rw [if_neg hp]⟩

theorem gens_agree_remove (rng : G → ℚ × G) (p : ℚ) (g : G) (log : Log I A V) :
    ∃ g' log', Noise.apply rng (.remove p g) log = .ok (.remove p g', log') := by
  by_cases hp : p > 0
  · obtain ⟨r, h1, _⟩ := onTraces_pure (fun g es => removeOnTrace rng p g es) g log
    exact ⟨r.2, r.1.filter fun t => decide (t.events.length > 0), by unfold Noise.apply; rw [if_pos hp, h1]; rfl⟩
  · exact ⟨g, log, by unfold Noise.apply; rw [if_neg hp]⟩

theorem gens_agree_swap (rng : G → ℚ × G) (p : ℚ) (g : G) (log : Log I A V) :
    ∃ g' log', Noise.apply rng (.swap p g) log = .ok (.swap p g', log') := by
  by_cases hp : p > 0
  · obtain ⟨r, h1, _⟩ := onTraces_swap rng p g log
    exact ⟨r.2, r.1, by unfold Noise.apply; rw [if_pos hp, h1]; rfl⟩
  · exact ⟨g, log, by unfold Noise.apply; rw [if_neg hp]⟩

mutual
theorem inst_congr {gens gens' : Nat → G} : ∀ n : NoiseObj A, (∀ x ∈ addrs n, gens' x = gens x) → inst gens' n = inst gens n
  | .add a p g, h => by unfold inst; rw [h g (by unfold addrs; exact List.mem_singleton.2 rfl)]
  | .remove p g, h => by unfold inst; rw [h g (by unfold addrs; exact List.mem_singleton.2 rfl)]
  | .swap p g, h => by unfold inst; rw [h g (by unfold addrs; exact List.mem_singleton.2 rfl)]
  | .combined ns, h => by unfold inst; rw [instAll_congr ns (by unfold addrs at h; exact h)]
theorem instAll_congr {gens gens' : Nat → G} : ∀ ns : List (NoiseObj A), (∀ x ∈ addrsAll ns, gens' x = gens x) → instAll gens' ns = instAll gens ns
  | [], _ => rfl
  | n :: ns, h => by
    unfold addrsAll at h
    unfold instAll
    rw [inst_congr n fun x hx => h x (List.mem_append_left _ hx), instAll_congr ns fun x hx => h x (List.mem_append_right _ hx)]
end

mutual
/-- C187: with a noise object whose parts are distinct objects, the noise is that of `LogNoise.Noise.apply`, the subject of C38 to C41; no
other generator is used -/
theorem C187_distinct (rng : G → ℚ × G) : ∀ (n : NoiseObj A) (gens : Nat → G) (log : Log I A V), (addrs n).Nodup →
    ∃ gens' log', execNoise rng n gens log = .ok (gens', log') ∧ Noise.apply rng (inst gens n) log = .ok (inst gens' n, log') ∧
      ∀ x, x ∉ addrs n → gens' x = gens x
  | .add a p g, gens, log, _ => by
    obtain ⟨g', log', h1⟩ := gens_agree_add rng a p (gens g) log
    refine ⟨upd gens g g', log', ?_, ?_, fun x hx => ?_⟩
    · unfold execNoise; rw [h1]; rfl
    · unfold inst; rw [h1, upd_self]
    · unfold addrs at hx; exact upd_ne _ _ (List.mem_singleton.not.1 hx)
  | .remove p g, gens, log, _ => by
    obtain ⟨g', log', h1⟩ := gens_agree_remove (A := A) rng p (gens g) log
    refine ⟨upd gens g g', log', ?_, ?_, fun x hx => ?_⟩
    · unfold execNoise; rw [h1]; rfl
    · unfold inst; rw [h1, upd_self]
    · unfold addrs at hx; exact upd_ne _ _ (List.mem_singleton.not.1 hx)
  | .swap p g, gens, log, _ => by
    obtain ⟨g', log', h1⟩ := gens_agree_swap (A := A) rng p (gens g) log
    refine ⟨upd gens g g', log', ?_, ?_, fun x hx => ?_⟩
    · unfold execNoise; rw [h1]; rfl
    · unfold inst; rw [h1, upd_self]
    · unfold addrs at hx; exact upd_ne _ _ (List.mem_singleton.not.1 hx)
  | .combined ns, gens, log, hn => by
    unfold addrs at hn
    obtain ⟨gens', log', h1, h2, h3⟩ := distinct_all rng ns gens log hn
    refine ⟨gens', log', ?_, ?_, ?_⟩
    · unfold execNoise; exact h1
    · unfold inst Noise.apply; rw [h2]; rfl
    · unfold addrs; exact h3
theorem distinct_all (rng : G → ℚ × G) : ∀ (ns : List (NoiseObj A)) (gens : Nat → G) (log : Log I A V), (addrsAll ns).Nodup →
    ∃ gens' log', execNoises rng ns gens log = .ok (gens', log') ∧ Noise.applyAll rng (instAll gens ns) log = .ok (instAll gens' ns, log') ∧
      ∀ x, x ∉ addrsAll ns → gens' x = gens x
  | [], gens, log, _ => ⟨gens, log, by unfold execNoises; rfl, by unfold instAll Noise.applyAll; rfl, fun _ _ => rfl⟩
  | n :: ns, gens, log, hn => by
    unfold addrsAll at hn
    obtain ⟨n1, n2, n3⟩ := List.nodup_append.1 hn
    obtain ⟨gens1, log1, a1, a2, a3⟩ := C187_distinct rng n gens log n1
    obtain ⟨gens2, log2, b1, b2, b3⟩ := distinct_all rng ns gens1 log1 n2
    have e1 : instAll gens1 ns = instAll gens ns := instAll_congr ns fun x hx => a3 x fun hc => n3 x hc x hx rfl
    have e2 : inst gens2 n = inst gens1 n := inst_congr n fun x hx => b3 x fun hc => n3 x hx x hc rfl
    rw [e1] at b2
    refine ⟨gens2, log2, ?_, ?_, fun x hx => ?_⟩
    · unfold execNoises; rw [a1]; exact b1
    · unfold instAll Noise.applyAll
      rw [a2]
      show (do let rest ← Noise.applyAll rng (instAll gens ns) log1; _ : Py _) = _
      rw [b2, e2]
      rfl
    · unfold addrsAll at hx
      rw [List.mem_append, not_or] at hx
      rw [b3 x hx.2, a3 x hx.1]
end

/-! ### concrete cases -/

/-- a generator whose numbers are 1, 0, 1, 0, ... -/
def alternating (g : Nat) : ℚ × Nat := (if g % 2 = 0 then 1 else 0, g + 1)
/-- a generator whose numbers are all 0 -/
def zeros (g : Nat) : ℚ × Nat := (0, g + 1)

/-- noise that is applied to a copy, and a change of the original log: the copy has the noise only -/
example : (runActs zeros (fun _ => 0, emptyHeap) [.cmd (.addTrace 0 7 [⟨'a', [], none⟩, ⟨'b', [], none⟩, ⟨'c', [], none⟩] []), .cmd (.copy 0 1),
    .noise (.combined [.swap (1/2) 0, .add 'x' (1/2) 1]) 1, .cmd (.addEnd 0 'e')]).map (fun st => (view st.2 0, view st.2 1, st.1 0, st.1 1, st.1 2)) =
    .ok ([⟨7, [⟨'a', [], none⟩, ⟨'b', [], none⟩, ⟨'c', [], none⟩, ⟨'e', [], none⟩], []⟩],
      [⟨7, [⟨'b', [], none⟩, ⟨'x', [], none⟩, ⟨'c', [], none⟩, ⟨'x', [], none⟩, ⟨'a', [], none⟩, ⟨'x', [], none⟩], []⟩], 2, 3, 0) := by decide +kernel

/-- C187: the parts of a train-test split are not copies: noise that is applied to the train log is in the original log -/
theorem C187_split_witness : (do
    let h ← run emptyHeap [.addTrace 0 7 [⟨'a', [], none⟩, ⟨'b', [], none⟩] [], .addTrace 0 8 [⟨'c', [], none⟩] []]
    let h := split h 1 2 (h.traces 0) 1
    let r ← (NoiseObj.swap (1/2) 0).apply zeros 1 (fun _ => 0) h
    return (view h 0, view r.2 0) : Py _) =
    .ok ([⟨7, [⟨'a', [], none⟩, ⟨'b', [], none⟩], []⟩, ⟨8, [⟨'c', [], none⟩], []⟩],
      [⟨7, [⟨'b', [], none⟩, ⟨'a', [], none⟩], []⟩, ⟨8, [⟨'c', [], none⟩], []⟩]) := by decide +kernel

/-- C187: a trace object that is in a log twice gets the noise twice: here the second swap undoes the first -/
theorem C187_duplicate_witness : (do
    let h ← run emptyHeap [.addTrace 0 7 [⟨'a', [], none⟩, ⟨'b', [], none⟩] []]
    let h := { h with traces := upd h.traces 0 (h.traces 0 ++ h.traces 0) }
    let r ← (NoiseObj.swap (1/2) 0).apply zeros 0 (fun _ => 0) h
    let v ← execNoise zeros (.swap (1/2) 0) (fun _ => 0) (view h 0)
    return (view h 0, view r.2 0, v.2) : Py _) =
    .ok ([⟨7, [⟨'a', [], none⟩, ⟨'b', [], none⟩], []⟩, ⟨7, [⟨'a', [], none⟩, ⟨'b', [], none⟩], []⟩],
      [⟨7, [⟨'a', [], none⟩, ⟨'b', [], none⟩], []⟩, ⟨7, [⟨'a', [], none⟩, ⟨'b', [], none⟩], []⟩],
      [⟨7, [⟨'b', [], none⟩, ⟨'a', [], none⟩], []⟩, ⟨7, [⟨'b', [], none⟩, ⟨'a', [], none⟩], []⟩]) := by decide +kernel

/-- C187: a noise object that occurs twice in a combination is not the same as two noise objects with the same seed -/
theorem C187_shared_witness : (do
    let log : Log Nat Char Nat := [⟨7, [⟨'a', [], none⟩, ⟨'b', [], none⟩, ⟨'c', [], none⟩], []⟩]
    let r ← execNoise alternating (.combined [.remove (1/2) 0, .remove (1/2) 0]) (fun _ => 0) log
    let v ← execNoise alternating (.combined [.remove (1/2) 0, .remove (1/2) 1]) (fun _ => 0) log
    return (r.2, v.2) : Py _) = .ok ([⟨7, [⟨'c', [], none⟩], []⟩], [⟨7, [⟨'a', [], none⟩], []⟩]) := by decide +kernel

end Prolothar.NoiseHeap
