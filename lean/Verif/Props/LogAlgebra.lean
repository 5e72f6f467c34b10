import Verif.Props.EventLog
import Mathlib.Data.List.DropRight
/-
C167: the preprocessing steps of an event log: which of them can be repeated without effect, which can be swapped,
and which cannot.
-/
namespace Prolothar.EventLog
open Prolothar.Spec.EventLog
variable {I A V : Type} [DecidableEq A]

/-! ### operations that act on the event lists and drop empty traces -/

/-- apply `g` to the events of every trace -/
def mapEvents (g : List (Event A V) → List (Event A V)) (log : Log I A V) : Log I A V :=
  log.map fun (t : Trace I A V) => { t with events := g t.events }

/-- apply `g` to the events of every trace, drop the empty traces -/
def mapEvents' (g : List (Event A V) → List (Event A V)) (log : Log I A V) : Log I A V :=
  (mapEvents g log).filter fun t => !t.events.isEmpty

omit [DecidableEq A] in
theorem mapEvents'_cons (g : List (Event A V) → List (Event A V)) (t : Trace I A V) (log : Log I A V) :
    mapEvents' g (t :: log) =
      if g t.events = [] then mapEvents' g log else { t with events := g t.events } :: mapEvents' g log := by
  unfold mapEvents' mapEvents
  rw [List.map_cons, List.filter_cons]
  by_cases h : g t.events = []
  · simp [h]
  · simp [h]

omit [DecidableEq A] in
theorem mapEvents'_comp (f g : List (Event A V) → List (Event A V)) (hf : f [] = []) (log : Log I A V) :
    mapEvents' f (mapEvents' g log) = mapEvents' (fun es => f (g es)) log := by
  induction log with
  | nil => rfl
  | cons t log ih =>
    rw [mapEvents'_cons g, mapEvents'_cons (fun es => f (g es))]
    by_cases h : g t.events = []
    · rw [if_pos h, if_pos (by rw [h, hf]), ih]
    · rw [if_neg h, mapEvents'_cons f, ih]

omit [DecidableEq A] in
theorem mapEvents_mapEvents' (f g : List (Event A V) → List (Event A V)) (hf : ∀ es, f es = [] ↔ es = []) (log : Log I A V) :
    mapEvents f (mapEvents' g log) = mapEvents' (fun es => f (g es)) log := by
  induction log with
  | nil => rfl
  | cons t log ih =>
    rw [mapEvents'_cons g, mapEvents'_cons (fun es => f (g es))]
    by_cases h : g t.events = []
    · rw [if_pos h, if_pos ((hf _).2 h), ih]
    · rw [if_neg h, if_neg (fun h' => h ((hf _).1 h')), ← ih]; rfl

omit [DecidableEq A] in
theorem mapEvents'_mapEvents (f g : List (Event A V) → List (Event A V)) (log : Log I A V) :
    mapEvents' f (mapEvents g log) = mapEvents' (fun es => f (g es)) log := by
  unfold mapEvents' mapEvents; rw [List.map_map]; rfl

omit [DecidableEq A] in
theorem filterActivities_true (log : Log I A V) (p : A → Bool) :
    filterActivities log p true = mapEvents' (fun es => es.filter fun e => p e.activity) log := by
  unfold filterActivities mapEvents' mapEvents
  have h1 : (fun t : Trace I A V => decide (t.events.length > 0)) = fun t => !t.events.isEmpty := by
    funext t; cases t.events <;> simp
  simp [h1]

/-- what `cut_traces` does with the events of one trace -/
def cutEvents (start stop : Option (A → Bool)) (es : List (Event A V)) : List (Event A V) :=
  let es := match start with
    | none => es
    | some S => fromStart S es
  match stop with
  | none => es
  | some E => es.rdropWhile fun e => !E e.activity

omit [DecidableEq A] in
theorem cutTraces_eq (log : Log I A V) (start stop : Option (A → Bool)) :
    cutTraces log start stop = mapEvents' (cutEvents start stop) log := by
  cases start with
  | none =>
    cases stop with
    | none => rw [C29_cut_nothing]; unfold mapEvents' mapEvents cutEvents; simp
    | some E => rw [C29_cut_end]; rfl
  | some S =>
    cases stop with
    | none => rw [C29_cut_start]; rfl
    | some E => rw [C29_cut_traces]; rfl

omit [DecidableEq A] in
theorem fromStart_prefix (S : A → Bool) (es : List (Event A V)) {y : List (Event A V)} (hy : y <+: fromStart S es) :
    fromStart S y = y := by
  have hcons : ∀ (x : Event A V) (l : List (Event A V)), S x.activity = true → fromStart S (x :: l) = x :: l := by
    intro x l hx
    unfold fromStart
    rw [if_pos (by simp [hx]), List.dropWhile_cons_of_neg (by simp [hx])]
  have hone : ∀ l : List (Event A V), l.length ≤ 1 → fromStart S l = l := by
    intro l hl
    unfold fromStart
    match l, hl with
    | [], _ => simp
    | [x], _ => by_cases hx : S x.activity <;> simp [hx]
  cases y with
  | nil => exact hone [] (by simp)
  | cons x l =>
    obtain ⟨rest, hrest⟩ := hy
    unfold fromStart at hrest
    split at hrest
    · next h =>
      refine hcons x l ?_
      rw [List.any_eq_true] at h
      obtain ⟨e, he, hS⟩ := h
      have hne : es.dropWhile (fun e => !S e.activity) ≠ [] := by rw [← hrest]; simp
      have hh := List.head_dropWhile_not (fun e : Event A V => !S e.activity) hne
      have hx : (es.dropWhile (fun e => !S e.activity)).head hne = x := by
        have : (es.dropWhile (fun e => !S e.activity)).head? = some x := by rw [← hrest]; rfl
        rw [List.head?_eq_some_head hne] at this
        exact Option.some.inj this
      rw [hx] at hh
      simpa using hh
    · refine hone _ ?_
      have := congrArg List.length hrest
      simp only [List.length_append, List.length_drop] at this
      omega

omit [DecidableEq A] in
/-- C167: cutting the traces a second time with the same activities changes nothing. -/
theorem C167_cut_idempotent (log : Log I A V) (start stop : Option (A → Bool)) :
    cutTraces (cutTraces log start stop) start stop = cutTraces log start stop := by
  rw [cutTraces_eq, cutTraces_eq, mapEvents'_comp]
  · congr 1
    funext es
    have hr : ∀ (E : A → Bool) (l : List (Event A V)), (l.rdropWhile fun e => !E e.activity) <+: l :=
      fun E l => List.rdropWhile_prefix _ l
    cases start with
    | none =>
      cases stop with
      | none => rfl
      | some E => exact List.rdropWhile_idempotent _ _
    | some S =>
      cases stop with
      | none => exact fromStart_prefix S es (List.prefix_refl _)
      | some E =>
        show ((fromStart S ((fromStart S es).rdropWhile _)).rdropWhile _) = _
        rw [fromStart_prefix S es (hr E _)]
        exact List.rdropWhile_idempotent _ _
  · cases start <;> cases stop <;> rfl

omit [DecidableEq A] in
theorem filter_dropWhile_comm {β : Type} (p q : β → Bool) (h : ∀ x, q x = false → p x = true) :
    ∀ l : List β, (l.dropWhile q).filter p = (l.filter p).dropWhile q
  | [] => rfl
  | x :: l => by
    by_cases hq : q x = true
    · rw [List.dropWhile_cons_of_pos hq, filter_dropWhile_comm p q h l, List.filter_cons]
      split
      · rw [List.dropWhile_cons_of_pos hq]
      · rfl
    · have hq' : q x = false := by simpa using hq
      rw [List.dropWhile_cons_of_neg hq, List.filter_cons_of_pos (h x hq'), List.dropWhile_cons_of_neg hq]

omit [DecidableEq A] in
/-- C167: cutting and filtering can be swapped if the filter keeps all start and end activities and every trace has a
start activity. -/
theorem C167_cut_filter (log : Log I A V) (S E p : A → Bool) (hS : ∀ a, S a = true → p a = true)
    (hE : ∀ a, E a = true → p a = true) (hlog : ∀ t ∈ log, ∃ a ∈ t.activities, S a = true) :
    filterActivities (cutTraces log (some S) (some E)) p true = cutTraces (filterActivities log p true) (some S) (some E) := by
  rw [cutTraces_eq, cutTraces_eq, filterActivities_true, filterActivities_true, mapEvents'_comp _ _ rfl, mapEvents'_comp _ _ rfl]
  unfold mapEvents' mapEvents
  congr 1
  apply List.map_congr_left
  intro t ht
  obtain ⟨a, ha, hSa⟩ := hlog t ht
  obtain ⟨e, he, rfl⟩ := List.mem_map.1 ha
  congr 1
  show List.filter _ ((fromStart S t.events).rdropWhile _) = (fromStart S (t.events.filter _)).rdropWhile _
  unfold fromStart
  rw [if_pos (List.any_eq_true.2 ⟨e, he, hSa⟩),
    if_pos (List.any_eq_true.2 ⟨e, List.mem_filter.2 ⟨he, hS _ hSa⟩, hSa⟩)]
  unfold List.rdropWhile
  rw [List.filter_reverse, filter_dropWhile_comm _ _ (fun x hx => hE _ (by simpa using hx)), List.filter_reverse,
    filter_dropWhile_comm _ _ (fun x hx => hS _ (by simpa using hx))]

/-- C167 (disagreement): without a start activity they cannot: `cut_traces` keeps the last event of such a trace if it
is an end activity, and filtering changes which event is the last one. -/
theorem C167_cut_filter_witness :
    let log : Log Nat String Unit := [⟨0, [Event.new "e", Event.new "x"], []⟩]
    let S := fun a : String => decide (a = "s")
    let E := fun a : String => decide (a = "e")
    let p := fun a : String => decide (a = "s") || decide (a = "e")
    filterActivities (cutTraces log (some S) (some E)) p true = [] ∧
    cutTraces (filterActivities log p true) (some S) (some E) = [⟨0, [Event.new "e"], []⟩] := by
  decide +kernel

theorem firsts_filter (p : A → Bool) (es : List (Event A V)) : ∀ s s' : List A, (∀ a, p a = true → (a ∈ s ↔ a ∈ s')) →
    firsts s (es.filter fun e => p e.activity) = (firsts s' es).filter fun e => p e.activity := by
  induction es with
  | nil => intro _ _ _; rfl
  | cons e es ih =>
    intro s s' hs
    rw [firsts_cons s', List.filter_cons]
    by_cases hp : p e.activity = true
    · rw [if_pos hp, firsts_cons]
      by_cases hm : e.activity ∈ s
      · rw [if_pos hm, if_pos ((hs _ hp).1 hm)]; exact ih s s' hs
      · rw [if_neg hm, if_neg (fun h => hm ((hs _ hp).2 h)), List.filter_cons_of_pos (p := fun e : Event A V => p e.activity) hp]
        congr 1
        refine ih _ _ (fun a ha => ?_)
        rw [mem_setAdd, mem_setAdd, hs a ha]
    · rw [if_neg hp]
      by_cases hm : e.activity ∈ s'
      · rw [if_pos hm]; exact ih s s' hs
      · rw [if_neg hm, List.filter_cons_of_neg (p := fun e : Event A V => p e.activity) hp]
        refine ih _ _ (fun a ha => ?_)
        rw [mem_setAdd, hs a ha]
        constructor
        · exact .inl
        · rintro (h | rfl)
          · exact h
          · exact absurd ha hp

theorem firsts_nil_iff (es : List (Event A V)) : firsts [] es = [] ↔ es = [] := by
  cases es with
  | nil => exact ⟨fun _ => rfl, fun _ => rfl⟩
  | cons e es => rw [firsts_cons, if_neg (by simp)]; simp

/-- C167: filtering activities and keeping first occurrences can be swapped. -/
theorem C167_filter_keep_first (log : Log I A V) (p : A → Bool) (b : Bool) :
    keepFirst (filterActivities log p b) = filterActivities (keepFirst log) p b := by
  have hk : ∀ log : Log I A V, keepFirst log = mapEvents (firsts []) log := fun _ => rfl
  have hpt : ∀ es : List (Event A V), firsts [] (es.filter fun e => p e.activity) = (firsts [] es).filter fun e => p e.activity :=
    fun es => firsts_filter p es [] [] (fun _ _ => Iff.rfl)
  cases b with
  | true =>
    rw [filterActivities_true, filterActivities_true, hk, hk, mapEvents_mapEvents' _ _ firsts_nil_iff, mapEvents'_mapEvents]
    congr 1
    funext es
    exact hpt es
  | false =>
    rw [C30_filter_keep_empty, C30_filter_keep_empty, hk, hk]
    unfold mapEvents
    rw [List.map_map, List.map_map]
    apply List.map_congr_left
    intro t _
    show ({ t with events := _ } : Trace I A V) = { t with events := _ }
    rw [hpt]

omit [DecidableEq A] in
/-- C167: start and end activities can be added in either order. -/
theorem C167_add_commute (log : Log I A V) (s e : A) :
    addEndActivity (addStartActivity log s) e = addStartActivity (addEndActivity log e) s := by
  unfold addEndActivity addStartActivity
  rw [List.map_map, List.map_map]
  rfl

omit [DecidableEq A] in
/-- C167: filtering with a filter that accepts the added activities commutes with adding them (empty traces kept); a
filter that rejects them undoes the adding. -/
theorem C167_filter_added (log : Log I A V) (a : A) (p : A → Bool) (b : Bool) :
    (p a = true → filterActivities (addStartActivity log a) p false = addStartActivity (filterActivities log p false) a ∧
      filterActivities (addEndActivity log a) p false = addEndActivity (filterActivities log p false) a) ∧
    (p a = false → filterActivities (addStartActivity log a) p b = filterActivities log p b ∧
      filterActivities (addEndActivity log a) p b = filterActivities log p b) := by
  constructor
  · intro ha
    simp only [C30_filter_keep_empty, addStartActivity, addEndActivity, List.map_map]
    refine ⟨List.map_congr_left fun t _ => ?_, List.map_congr_left fun t _ => ?_⟩
    · simp [Function.comp, Event.new, ha]
    · simp [Function.comp, Event.new, ha]
  · intro ha
    have h1 : (addStartActivity log a).map (fun (t : Trace I A V) => { t with events := t.events.filter fun e => p e.activity }) =
        log.map (fun (t : Trace I A V) => { t with events := t.events.filter fun e => p e.activity }) := by
      unfold addStartActivity
      rw [List.map_map]
      exact List.map_congr_left fun t _ => by simp [Function.comp, Event.new, ha]
    have h2 : (addEndActivity log a).map (fun (t : Trace I A V) => { t with events := t.events.filter fun e => p e.activity }) =
        log.map (fun (t : Trace I A V) => { t with events := t.events.filter fun e => p e.activity }) := by
      unfold addEndActivity
      rw [List.map_map]
      exact List.map_congr_left fun t _ => by simp [Function.comp, Event.new, ha]
    unfold filterActivities
    rw [h1, h2]
    exact ⟨rfl, rfl⟩

/-! ### joining -/
section
variable [DecidableEq V]

omit [DecidableEq V] in
theorem foldlM_join_chain [DecidableEq V] (args : JoinArgs A V) : ∀ (es : List (Event A V)) (st : List (Event A V) × Event A V),
    ((st.2 :: es).map Event.activity).IsChain (fun a b => a ≠ b ∨ args.blacklist b = true) →
    ∃ st', es.foldlM (joinStep args) st = .ok st' ∧ st'.1 ++ [st'.2] = st.1 ++ st.2 :: es
  | [], st, _ => ⟨st, rfl, rfl⟩
  | e :: es, st, h => by
    rw [List.map_cons, List.map_cons, List.isChain_cons_cons] at h
    have hstep : joinStep args st e = .ok (st.1 ++ [st.2], e) := by
      unfold joinStep
      rw [if_neg]
      rintro ⟨h1, h2⟩
      rcases h.1 with h' | h'
      · exact h' h1
      · rw [h2] at h'; cases h'
    obtain ⟨st', h1, h2⟩ := foldlM_join_chain args es (st.1 ++ [st.2], e) (by rw [List.map_cons]; exact h.2)
    refine ⟨st', ?_, ?_⟩
    · rw [List.foldlM_cons, hstep]; exact h1
    · rw [h2]; simp

theorem joinTrace_chain (args : JoinArgs A V) {es : List (Event A V)} (hne : es ≠ [])
    (h : (es.map Event.activity).IsChain (fun a b => a ≠ b ∨ args.blacklist b = true)) : joinTrace args es = .ok es := by
  cases es with
  | nil => exact absurd rfl hne
  | cons e es =>
    obtain ⟨st', h1, h2⟩ := foldlM_join_chain args es ([], e) h
    unfold joinTrace
    simp only [h1]
    exact congrArg Except.ok h2

theorem joinSuccessive_nonempty (args : JoinArgs A V) {log log' : Log I A V} (h : joinSuccessive args log = .ok log') :
    (∀ t ∈ log, t.events ≠ []) ∧ ∀ t ∈ log', t.events ≠ [] := by
  have hf := mapM_ok_forall₂ h
  have h1 : ∀ t ∈ log, t.events ≠ [] := by
    intro t ht
    induction hf with
    | nil => cases ht
    | @cons t1 t1' l1 l1' hh hrest ih =>
      rcases List.mem_cons.1 ht with rfl | ht
      · intro he
        simp only [he] at hh
        cases hh
      · exact ih (forall₂_mapM hrest) ht
  refine ⟨h1, ?_⟩
  have hj := C34_join args log log' h
  intro t ht he
  clear hf h
  induction hj with
  | nil => cases ht
  | @cons t1 t1' l1 l1' hh hrest ih =>
    rcases List.mem_cons.1 ht with rfl | ht
    · obtain ⟨-, -, ⟨runs, h2, h3⟩, -⟩ := hh
      rw [he] at h3
      cases h3
      exact h1 t1 (by simp) (by simpa using h2)
    · exact ih (fun t ht => h1 t (List.mem_cons_of_mem _ ht)) ht

/-- C167: joining a second time changes nothing and does not raise. -/
theorem C167_join_idempotent (args : JoinArgs A V) {log log' : Log I A V} (h : joinSuccessive args log = .ok log') :
    joinSuccessive args log' = .ok log' := by
  have hne := (joinSuccessive_nonempty args h).2
  have hj := C34_join args log log' h
  have hch : ∀ t ∈ log', t.activities.IsChain fun a b => a ≠ b ∨ args.blacklist b = true := by
    clear hne h
    induction hj with
    | nil => intro t ht; cases ht
    | cons hh _ ih =>
      intro t ht
      rcases List.mem_cons.1 ht with rfl | ht
      · exact hh.2.2.2
      · exact ih t ht
  refine forall₂_mapM ?_
  clear hj h
  induction log' with
  | nil => exact .nil
  | cons t l ih =>
    refine .cons ?_ (ih (fun u hu => hne u (List.mem_cons_of_mem _ hu)) (fun u hu => hch u (List.mem_cons_of_mem _ hu)))
    rw [joinTrace_chain args (hne t (by simp)) (hch t (by simp))]
    rfl

/-- drop every element that equals its predecessor; the predecessor of the first element is `o` -/
def squeeze : Option A → List A → List A
  | _, [] => []
  | o, a :: l => if o = some a then squeeze o l else a :: squeeze (some a) l

theorem squeeze_filter (p : A → Bool) : ∀ (l : List A) (o o' : Option A), (∀ a, o' = some a → p a = true → o = some a) →
    squeeze o ((squeeze o' l).filter p) = squeeze o (l.filter p)
  | [], _, _, _ => rfl
  | a :: l, o, o', h => by
    rw [squeeze]
    by_cases hp : p a = true
    · by_cases ho' : o' = some a
      · rw [if_pos ho', squeeze_filter p l o o' h, List.filter_cons_of_pos hp, squeeze, if_pos (h a ho' hp)]
      · rw [if_neg ho', List.filter_cons_of_pos hp, List.filter_cons_of_pos hp, squeeze, squeeze]
        by_cases ho : o = some a
        · rw [if_pos ho, if_pos ho]
          exact squeeze_filter p l o (some a) (fun b hb _ => by cases hb; exact ho)
        · rw [if_neg ho, if_neg ho, squeeze_filter p l (some a) (some a) (fun b hb _ => hb)]
    · rw [List.filter_cons_of_neg hp]
      by_cases ho' : o' = some a
      · rw [if_pos ho', squeeze_filter p l o o' h]
      · rw [if_neg ho', List.filter_cons_of_neg hp]
        exact squeeze_filter p l o (some a) (fun b hb hb' => by cases hb; exact absurd hb' hp)

theorem squeeze_replicate (a : A) (l : List A) : ∀ c : Nat, squeeze (some a) (List.replicate c a ++ l) = squeeze (some a) l
  | 0 => rfl
  | c + 1 => by rw [List.replicate_succ, List.cons_append, squeeze, if_pos rfl, squeeze_replicate a l c]

theorem squeeze_expands : ∀ (r w : List A) (o : Option A), Expands r w → (o.toList ++ r).IsChain (· ≠ ·) → squeeze o w = r
  | [], w, o, h, _ => by
    obtain ⟨counts, -, -, h3⟩ := h
    cases counts <;> (simp at h3; subst h3; rfl)
  | a :: r, w, o, h, hc => by
    obtain ⟨counts, h1, h2, h3⟩ := h
    cases counts with
    | nil => simp at h1
    | cons c counts =>
      have hc0 : 0 < c := h2 c (by simp)
      obtain ⟨c, rfl⟩ : ∃ d, c = d + 1 := ⟨c - 1, by omega⟩
      have ho : ¬ o = some a := by
        rintro rfl
        simp at hc
      rw [h3]
      simp only [List.zipWith_cons_cons, List.flatten_cons, List.replicate_succ, List.cons_append]
      rw [squeeze, if_neg ho, squeeze_replicate]
      congr 1
      refine squeeze_expands r _ (some a) ⟨counts, by simpa using h1, fun x hx => h2 x (by simp [hx]), rfl⟩ ?_
      cases o with
      | none => exact hc
      | some b =>
        have : (b :: a :: r).IsChain (· ≠ ·) := hc
        rw [List.isChain_cons_cons] at this
        exact this.2

theorem join_squeeze (args : JoinArgs A V) {log log' : Log I A V} (h : joinSuccessive args log = .ok log')
    (hb : ∀ a, args.blacklist a = false) : List.Forall₂ (fun t t' : Trace I A V => t'.activities = squeeze none t.activities) log log' := by
  refine (C34_run_compressed args log log' h hb).imp ?_
  rintro t t' ⟨h1, h2⟩
  exact (squeeze_expands _ _ none h1 (by simpa using h2)).symm

/-- C167: joining before filtering makes no difference to the activities if events are joined again afterwards (no
activity is blacklisted; empty traces cannot be joined). -/
theorem C167_join_filter_join (args : JoinArgs A V) {log l1 l2 l3 : Log I A V} (p : A → Bool)
    (hb : ∀ a, args.blacklist a = false) (h1 : joinSuccessive args log = .ok l1)
    (h2 : joinSuccessive args (filterActivities l1 p true) = .ok l2)
    (h3 : joinSuccessive args (filterActivities log p true) = .ok l3) :
    l2.map Trace.activities = l3.map Trace.activities ∧ l2.map Trace.id = l3.map Trace.id := by
  have hids : ∀ {a b : Log I A V}, joinSuccessive args a = .ok b → b.map Trace.id = a.map Trace.id := by
    intro a b hab
    have := C34_join args a b hab
    clear hab
    induction this with
    | nil => rfl
    | cons hh _ ih => rw [List.map_cons, List.map_cons, ih, hh.1]
  have hacts : ∀ {a b : Log I A V}, joinSuccessive args a = .ok b → b.map Trace.activities = a.map (fun t => squeeze none t.activities) := by
    intro a b hab
    have := join_squeeze args hab hb
    clear hab
    induction this with
    | nil => rfl
    | cons hh _ ih => rw [List.map_cons, List.map_cons, ih, hh]
  rw [hacts h2, hacts h3, hids h2, hids h3]
  have hj := C34_join args log l1 h1
  have hs := join_squeeze args h1 hb
  clear h1 h2 h3
  rw [filterActivities_true, filterActivities_true]
  induction hj with
  | nil => exact ⟨rfl, rfl⟩
  | @cons t t' l l' hh hrest ih =>
    rw [List.forall₂_cons] at hs
    have ih := ih hs.2
    have hact : t'.activities = squeeze none t.activities := hs.1
    have hf : ∀ u : Trace I A V, (u.events.filter fun e => p e.activity).map Event.activity = u.activities.filter p := by
      intro u; unfold Trace.activities; rw [List.filter_map]; rfl
    have hsame := squeeze_filter p t.activities none none (by simp)
    rw [← hact] at hsame
    have hnil : t'.activities.filter p = [] ↔ t.activities.filter p = [] := by
      have hsq : ∀ l : List A, squeeze none l = [] ↔ l = [] := by
        intro l; cases l with
        | nil => exact ⟨fun _ => rfl, fun _ => rfl⟩
        | cons a l => rw [squeeze, if_neg (by simp)]; simp
      rw [← hsq, hsame, hsq]
    have hnil' : ∀ u : Trace I A V, (u.events.filter fun e => p e.activity) = [] ↔ u.activities.filter p = [] := by
      intro u; rw [← hf u, List.map_eq_nil_iff]
    rw [mapEvents'_cons, mapEvents'_cons]
    by_cases hn : t.activities.filter p = []
    · rw [if_pos ((hnil' t').2 (hnil.2 hn)), if_pos ((hnil' t).2 hn)]; exact ih
    · rw [if_neg (fun h => hn (hnil.1 ((hnil' t').1 h))), if_neg (fun h => hn ((hnil' t).1 h))]
      simp only [List.map_cons]
      refine ⟨?_, by rw [ih.2, hh.1]⟩
      rw [ih.1]
      congr 1
      show squeeze none (List.map Event.activity _) = squeeze none (List.map Event.activity _)
      rw [hf, hf, hsame]

/-- C167 (disagreement): joining and filtering alone cannot be swapped: filtering can make equal activities adjacent. -/
theorem C167_join_filter_witness :
    let args : JoinArgs String Nat := { sub := (· - ·), add := (· + ·) }
    let log : Log Nat String Nat := [⟨0, [Event.new "a", Event.new "b", Event.new "a"], []⟩]
    let p := fun x : String => decide (x = "a")
    (∃ l, joinSuccessive args (filterActivities log p true) = .ok l ∧ l.map Trace.activities = [["a"]]) ∧
    ∃ l, joinSuccessive args log = .ok l ∧ (filterActivities l p true).map Trace.activities = [["a", "a"]] :=
  ⟨⟨[⟨0, [Event.new "a"], []⟩], by decide +kernel, by decide +kernel⟩,
    ⟨[⟨0, [Event.new "a", Event.new "b", Event.new "a"], []⟩], by decide +kernel, by decide +kernel⟩⟩

/-- C167: keeping first occurrences needs no join before: the activities are the same with and without, whatever is
blacklisted. -/
theorem C167_join_keep_first (args : JoinArgs A V) {log log' : Log I A V} (h : joinSuccessive args log = .ok log') :
    (keepFirst log').map Trace.activities = (keepFirst log).map Trace.activities := by
  have hf : ∀ (es : List (Event A V)) (s : List A) (g : List (Event A V)) (a : A), (∀ e ∈ g, e.activity = a) → a ∈ s →
      firsts s (g ++ es) = firsts s es := by
    intro es s g a hg ha
    induction g with
    | nil => rfl
    | cons e g ih =>
      rw [List.cons_append, firsts_cons, if_pos (by rw [hg e (by simp)]; exact ha)]
      exact ih (fun e he => hg e (by simp [he]))
  have key : ∀ (runs : List (List (Event A V))) (es : List (Event A V)), List.Forall₂ (Joined args) runs es → ∀ s : List A,
      (firsts s es).map Event.activity = (firsts s runs.flatten).map Event.activity := by
    intro runs es hr
    induction hr with
    | nil => intro s; rfl
    | @cons g e runs es hj _ ih =>
      intro s
      rw [List.flatten_cons]
      obtain ⟨x, g, rfl⟩ := List.exists_cons_of_ne_nil hj.nonempty
      have hx : x.activity = e.activity := hj.activity x (by simp)
      rw [List.cons_append, firsts_cons, firsts_cons, hx]
      by_cases hm : e.activity ∈ s
      · rw [if_pos hm, if_pos hm, hf _ _ g e.activity (fun y hy => hj.activity y (by simp [hy])) hm, ih s]
      · rw [if_neg hm, if_neg hm, List.map_cons, List.map_cons, hx,
          hf _ _ g e.activity (fun y hy => hj.activity y (by simp [hy])) (mem_setAdd.2 (.inr rfl)), ih]
  have hj := C34_join args log log' h
  clear h
  unfold keepFirst
  rw [List.map_map, List.map_map]
  induction hj with
  | nil => rfl
  | @cons t t' l l' hh _ ih =>
    rw [List.map_cons, List.map_cons, ih]
    congr 1
    obtain ⟨-, -, ⟨runs, h1, h2⟩, -⟩ := hh
    show (firsts [] t'.events).map Event.activity = (firsts [] t.events).map Event.activity
    rw [h1]
    exact key runs _ h2 []

end

/-- the hypotheses are met: a log with a repeated activity that can be joined, filtered and cut -/
example :
    let args : JoinArgs String Nat := { sub := (· - ·), add := (· + ·) }
    let log : Log Nat String Nat := [⟨0, ["x", "s", "a", "a", "b", "a", "e", "y"].map Event.new, []⟩]
    let p := fun x : String => decide (x ≠ "b")
    let S := fun a : String => decide (a = "s")
    let E := fun a : String => decide (a = "e")
    (∃ l, joinSuccessive args log = .ok l ∧ l.map Trace.activities = [["x", "s", "a", "b", "a", "e", "y"]]) ∧
    (cutTraces (filterActivities log p true) (some S) (some E)).map Trace.activities = [["s", "a", "a", "a", "e"]] ∧
    (keepFirst (filterActivities log p true)).map Trace.activities = [["x", "s", "a", "e", "y"]] :=
  ⟨⟨[⟨0, ["x", "s", "a", "b", "a", "e", "y"].map Event.new, []⟩], by decide +kernel, by decide +kernel⟩, by decide +kernel, by decide +kernel⟩

end Prolothar.EventLog
