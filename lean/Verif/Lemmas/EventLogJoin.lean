import Verif.Lemmas.EventLog
import Verif.Spec.EventLogJoin
import Mathlib.Data.List.Chain
set_option linter.unusedSimpArgs false
set_option linter.unusedVariables false
set_option linter.unusedSectionVars false
namespace Prolothar.EventLog
variable {I A V : Type} [DecidableEq A] [DecidableEq V]

theorem joined_single (args : JoinArgs A V) (e : Event A V) : Joined args [e] e where
  nonempty := by simp
  activity := by simp
  blacklisted := by simp
  single := by simp
  transition := by simp
  enddate := by simp
  other := by simp
  durationOfDates := by simp
  durationSum := by simp
  agree := by simp

theorem forM_ok {β : Type} {f : β → Py Unit} {l : List β} (h : l.forM f = .ok ()) :
    ∀ x ∈ l, f x = .ok () := by
  induction l with
  | nil => simp
  | cons x xs ih =>
    have h : (f x >>= fun _ => xs.forM f) = .ok () := h
    cases hx : f x with
    | error e =>
      rw [hx] at h
      have h : Except.error (α := Unit) e = .ok () := h
      cases h
    | ok u =>
      rw [hx] at h
      intro y hy
      rcases List.mem_cons.1 hy with rfl | hy
      · exact hx
      · exact ih h y hy

theorem ok_forM {β : Type} {f : β → Py Unit} {l : List β} (h : ∀ x ∈ l, f x = .ok ()) :
    l.forM f = .ok () := by
  induction l with
  | nil => rfl
  | cons x xs ih =>
    show (f x >>= fun _ => xs.forM f) = .ok ()
    rw [h x (by simp)]
    exact ih fun y hy => h y (by simp [hy])

theorem getItem_ok {d : Dict String V} {k : String} {v : V} : d.getItem k = .ok v ↔ d.get? k = some v := by
  unfold Dict.getItem
  cases d.get? k with
  | none => simp
  | some w => simp

theorem check_ok {args : JoinArgs A V} {a b : Event A V} {k : String}
    (h : checkAttribute args a b k = .ok ()) (hp : Plain args k) :
    a.attributes.get? k = b.attributes.get? k := by
  unfold checkAttribute at h
  unfold Plain at hp
  rw [if_pos hp] at h
  cases ha : a.attributes.getItem k with
  | error e =>
    rw [ha] at h
    have h : Except.error (α := Unit) e = .ok () := h
    cases h
  | ok x =>
    rw [ha] at h
    cases hb : b.attributes.getItem k with
    | error e =>
      rw [hb] at h
      have h : Except.error (α := Unit) e = .ok () := h
      cases h
    | ok y =>
      rw [hb] at h
      have h : (if x = y then Except.ok () else Except.error PyErr.value : Py Unit) = .ok () := h
      split at h
      · next e => subst e; rw [getItem_ok.1 ha, getItem_ok.1 hb]
      · cases h

theorem joinEnd_ok {args : JoinArgs A V} {a b a' : Event A V} (h : joinEnd args a b = .ok a') :
    a'.activity = a.activity ∧ a'.transition = a.transition ∧
    (∀ k, args.enddate = some k → (b.attributes.get? k).isSome ∧
      a'.attributes.get? k = b.attributes.get? k) ∧
    ∀ k, args.enddate ≠ some k → a'.attributes.get? k = a.attributes.get? k := by
  unfold joinEnd at h
  cases he : args.enddate with
  | none => rw [he] at h; cases h; simp
  | some k =>
    rw [he] at h
    cases hb : b.attributes.getItem k with
    | error e =>
      simp only [hb] at h
      have h : Except.error (α := Event A V) e = .ok a' := h
      cases h
    | ok v =>
      simp only [hb] at h
      have h : Except.ok (ε := PyErr) { a with attributes := a.attributes.put k v } = .ok a' := h
      cases h
      refine ⟨rfl, rfl, ?_, ?_⟩
      · rintro k' ⟨⟩
        rw [getItem_ok.1 hb]
        exact ⟨rfl, Dict.get?_put_self ..⟩
      · intro k' hk'
        exact Dict.get?_put_of_ne _ _ (fun hc => hk' (hc ▸ rfl))

theorem joinDuration_ok {args : JoinArgs A V} {a b a' : Event A V}
    (h : joinDuration args a b = .ok a') :
    a'.activity = a.activity ∧ a'.transition = a.transition ∧
    (∀ k, args.duration ≠ some k → a'.attributes.get? k = a.attributes.get? k) ∧
    (∀ d s e, args.duration = some d → args.startdate = some s → args.enddate = some e →
      ∃ x y, a.attributes.get? e = some x ∧ a.attributes.get? s = some y ∧
        a'.attributes.get? d = some (args.sub x y)) ∧
    (∀ d, args.duration = some d → (args.startdate = none ∨ args.enddate = none) →
      ∃ x y, a.attributes.get? d = some x ∧ b.attributes.get? d = some y ∧
        a'.attributes.get? d = some (args.add x y)) := by
  have aux : ∀ (d k1 k2 : String) (a2 : Event A V) (f : V → V → V),
      (do let x ← a.attributes.getItem k1
          let y ← a2.attributes.getItem k2
          return { a with attributes := a.attributes.put d (f x y) } : Py (Event A V)) = .ok a' →
      ∃ x y, a.attributes.get? k1 = some x ∧ a2.attributes.get? k2 = some y ∧
        a' = { a with attributes := a.attributes.put d (f x y) } := by
    intro d k1 k2 a2 f h
    cases h1 : a.attributes.getItem k1 with
    | error e =>
      rw [h1] at h
      have h : Except.error (α := Event A V) e = .ok a' := h
      cases h
    | ok x =>
      rw [h1] at h
      cases h2 : a2.attributes.getItem k2 with
      | error e =>
        rw [h2] at h
        have h : Except.error (α := Event A V) e = .ok a' := h
        cases h
      | ok y =>
        rw [h2] at h
        have h : Except.ok (ε := PyErr) { a with attributes := a.attributes.put d (f x y) } = .ok a' := h
        cases h
        exact ⟨x, y, getItem_ok.1 h1, getItem_ok.1 h2, rfl⟩
  unfold joinDuration at h
  cases hd : args.duration with
  | none => rw [hd] at h; cases h; simp
  | some d =>
    rw [hd] at h
    cases hs : args.startdate with
    | none =>
      simp only [hs] at h
      obtain ⟨x, y, h1, h2, rfl⟩ := aux _ _ _ _ _ h
      refine ⟨rfl, rfl, ?_, by simp, ?_⟩
      · intro k hk; exact Dict.get?_put_of_ne _ _ (fun hc => hk (hc ▸ rfl))
      · rintro d' ⟨⟩ _
        exact ⟨x, y, h1, h2, Dict.get?_put_self ..⟩
    | some s =>
      cases he : args.enddate with
      | none =>
        simp only [hs, he] at h
        obtain ⟨x, y, h1, h2, rfl⟩ := aux _ _ _ _ _ h
        refine ⟨rfl, rfl, ?_, by simp, ?_⟩
        · intro k hk; exact Dict.get?_put_of_ne _ _ (fun hc => hk (hc ▸ rfl))
        · rintro d' ⟨⟩ _
          exact ⟨x, y, h1, h2, Dict.get?_put_self ..⟩
      | some e =>
        simp only [hs, he] at h
        obtain ⟨x, y, h1, h2, rfl⟩ := aux _ _ _ _ _ h
        refine ⟨rfl, rfl, ?_, ?_, by simp⟩
        · intro k hk; exact Dict.get?_put_of_ne _ _ (fun hc => hk (hc ▸ rfl))
        · rintro d' s' e' ⟨⟩ ⟨⟩ ⟨⟩
          exact ⟨x, y, h1, h2, Dict.get?_put_self ..⟩

theorem joinEvents_split {args : JoinArgs A V} {a b a' : Event A V}
    (h : joinEvents args a b = .ok a') :
    (args.raiseError = true → ∀ k ∈ a.attributes.keys ++ b.attributes.keys,
      checkAttribute args a b k = .ok ()) ∧
    ∃ a1, joinEnd args a b = .ok a1 ∧ joinDuration args a1 b = .ok a' := by
  unfold joinEvents at h
  have h' : (args.raiseError = true →
      (a.attributes.keys ++ b.attributes.keys).forM (checkAttribute args a b) = .ok ()) ∧
      (do let a1 ← joinEnd args a b; joinDuration args a1 b) = .ok a' := by
    by_cases hr : args.raiseError = true
    · rw [if_pos hr] at h
      cases hf : (a.attributes.keys ++ b.attributes.keys).forM (checkAttribute args a b) with
      | error e =>
        rw [hf] at h
        have h : Except.error (α := Event A V) e = .ok a' := h
        cases h
      | ok u => rw [hf] at h; exact ⟨fun _ => rfl, h⟩
    · rw [if_neg hr] at h; exact ⟨fun hc => absurd hc hr, h⟩
  refine ⟨fun hr => forM_ok (h'.1 hr), ?_⟩
  have h2 := h'.2
  cases hj : joinEnd args a b with
  | error e =>
    rw [hj] at h2
    have h2 : Except.error (α := Event A V) e = .ok a' := h2
    cases h2
  | ok a1 => rw [hj] at h2; exact ⟨a1, rfl, h2⟩

theorem joined_extend {args : JoinArgs A V} {g : List (Event A V)} {a b a' : Event A V}
    (hj : Joined args g a) (hact : a.activity = b.activity) (hbl : args.blacklist b.activity = false)
    (h : joinEvents args a b = .ok a') : Joined args (g ++ [b]) a' := by
  obtain ⟨hc, a1, h1, h2⟩ := joinEvents_split h
  obtain ⟨e1, e2, e3, e4⟩ := joinEnd_ok h1
  obtain ⟨d1, d2, d3, d4, d5⟩ := joinDuration_ok h2
  have hhead : ∀ e, (g ++ [b]).head? = some e → g.head? = some e := by
    intro e he
    cases g with
    | nil => exact absurd rfl hj.nonempty
    | cons x xs => simpa using he
  have hplain : ∀ k, Plain args k → a'.attributes.get? k = a.attributes.get? k := by
    intro k hk
    rw [d3 k (fun hc => hk.2.2 hc.symm), e4 k (fun hc => hk.2.1 hc.symm)]
  have hlen : 1 ≤ g.length := List.length_pos_iff.2 hj.nonempty
  have hact' : a'.activity = b.activity := by rw [d1, e1, hact]
  constructor
  · simp
  · intro e he
    rcases List.mem_append.1 he with he | he
    · rw [hj.activity e he, d1, e1]
    · rw [List.mem_singleton.1 he, hact']
  · intro hb; rw [hact', hbl] at hb; cases hb
  · intro e he
    have := congrArg List.length he
    simp at this; exact absurd this hj.nonempty
  · intro e he; rw [d2, e2]; exact hj.transition e (hhead e he)
  · intro k hk hd e he
    rw [List.getLast?_concat] at he
    cases he
    rw [d3 k hd]; exact (e3 k hk).2
  · intro k hk hd e he
    rw [d3 k hd, e4 k hk]; exact hj.other k hk hd e (hhead e he)
  · intro d s e hd hs he hds hde _
    obtain ⟨x, y, hx, hy, hxy⟩ := d4 d s e hd hs he
    refine ⟨x, y, ?_, ?_, hxy⟩
    · rw [d3 e (by rw [hd]; simpa using hde)]; exact hx
    · rw [d3 s (by rw [hd]; simpa using hds)]; exact hy
  · intro d hd hse hed _
    obtain ⟨x, y, hx, hy, hxy⟩ := d5 d hd hse
    rw [e4 d hed] at hx
    by_cases hl : g.length = 1
    · obtain ⟨e, rfl⟩ := List.length_eq_one_iff.1 hl
      have := hj.single e rfl
      subst this
      exact ⟨x, [y], by simp [hx, hy], by simpa using hxy⟩
    · obtain ⟨v, vs, hv, hr⟩ := hj.durationSum d hd hse hed (by omega)
      refine ⟨v, vs ++ [y], by simp [hv, hy], ?_⟩
      rw [hr] at hx; cases hx
      rw [hxy]; simp
  · intro hr e he k hk
    rw [hplain k hk]
    rcases List.mem_append.1 he with he | he
    · exact hj.agree hr e he k hk
    · rw [List.mem_singleton.1 he]
      by_cases hm : k ∈ a.attributes.keys ++ b.attributes.keys
      · exact (check_ok (hc hr k hm) hk).symm
      · rw [List.mem_append, not_or] at hm
        rw [Dict.get?_eq_none_iff.2 hm.1, Dict.get?_eq_none_iff.2 hm.2]

theorem joinFold_ok {args : JoinArgs A V} {es : List (Event A V)} {gs : List (List (Event A V))}
    {g : List (Event A V)} {st st' : List (Event A V) × Event A V}
    (hd : List.Forall₂ (Joined args) gs st.1) (hl : Joined args g st.2)
    (hch : ((st.1 ++ [st.2]).map Event.activity).IsChain
      fun x y => x ≠ y ∨ args.blacklist y = true)
    (h : es.foldlM (joinStep args) st = .ok st') :
    ∃ gs', List.Forall₂ (Joined args) gs' (st'.1 ++ [st'.2]) ∧
      gs.flatten ++ g ++ es = gs'.flatten ∧
      ((st'.1 ++ [st'.2]).map Event.activity).IsChain fun x y => x ≠ y ∨ args.blacklist y = true := by
  induction es generalizing gs g st with
  | nil =>
    cases h
    refine ⟨gs ++ [g], ?_, by simp, hch⟩
    exact List.rel_append hd (.cons hl .nil)
  | cons e es ih =>
    rw [List.foldlM_cons] at h
    unfold joinStep at h
    split at h
    · next hc =>
      cases hj : joinEvents args st.2 e with
      | error er =>
        simp only [hj] at h
        have h : Except.error (α := List (Event A V) × Event A V) er = .ok st' := h
        cases h
      | ok a =>
        simp only [hj] at h
        have hl' := joined_extend hl hc.1 hc.2 hj
        have ha : a.activity = st.2.activity := by
          rw [hc.1]; exact (hl'.activity e (by simp)).symm
        have h : es.foldlM (joinStep args) (st.1, a) = .ok st' := h
        obtain ⟨gs', h1, h2, h3⟩ := ih (st := (st.1, a)) hd hl' (by simpa [ha] using hch) h
        exact ⟨gs', h1, by rw [← h2]; simp, h3⟩
    · next hc =>
      have h : es.foldlM (joinStep args) (st.1 ++ [st.2], e) = .ok st' := h
      have hch' : ((st.1 ++ [st.2] ++ [e]).map Event.activity).IsChain
          fun x y => x ≠ y ∨ args.blacklist y = true := by
        rw [List.map_append, List.isChain_append]
        refine ⟨hch, by simp, ?_⟩
        intro x hx y hy
        simp at hx hy
        subst hx; subst hy
        by_cases he : st.2.activity = e.activity
        · right
          cases hb : args.blacklist e.activity with
          | true => rfl
          | false => exact absurd ⟨he, hb⟩ hc
        · exact .inl he
      obtain ⟨gs', h1, h2, h3⟩ := ih (st := (st.1 ++ [st.2], e)) (gs := gs ++ [g])
        (List.rel_append hd (.cons hl .nil)) (joined_single args e) hch' h
      exact ⟨gs', h1, by rw [← h2]; simp, h3⟩

theorem joinEvents_succeeds {args : JoinArgs A V} {a b : Event A V} (ha : Present args a)
    (hb : Present args b) (hc : Compatible args a b) :
    ∃ a', joinEvents args a b = .ok a' ∧ Present args a' ∧ Compatible args a' b := by
  have hforM : args.raiseError = true →
      (a.attributes.keys ++ b.attributes.keys).forM (checkAttribute args a b) = .ok () := by
    intro hr
    apply ok_forM
    intro k hk
    unfold checkAttribute
    split
    · next hp =>
      have heq := hc hr k hp
      have : ∃ v, a.attributes.get? k = some v := by
        rcases List.mem_append.1 hk with hk | hk
        · exact Dict.mem_keys_iff.1 hk
        · rw [heq]; exact Dict.mem_keys_iff.1 hk
      obtain ⟨v, hv⟩ := this
      rw [getItem_ok.2 hv, getItem_ok.2 (heq ▸ hv)]
      show (if v = v then Except.ok () else Except.error PyErr.value : Py Unit) = .ok ()
      simp
    · rfl
  have hend : ∃ a1, joinEnd args a b = .ok a1 := by
    unfold joinEnd
    cases he : args.enddate with
    | none => exact ⟨_, rfl⟩
    | some k =>
      obtain ⟨v, hv⟩ := Option.isSome_iff_exists.1 (hb.1 k he)
      simp only [getItem_ok.2 hv]
      exact ⟨_, rfl⟩
  obtain ⟨a1, h1⟩ := hend
  obtain ⟨e1, e2, e3, e4⟩ := joinEnd_ok h1
  have hsome : ∀ k, (a.attributes.get? k).isSome → (a1.attributes.get? k).isSome := by
    intro k hk
    by_cases he : args.enddate = some k
    · rw [(e3 k he).2]; exact (e3 k he).1
    · rw [e4 k he]; exact hk
  have hdur : ∃ a2, joinDuration args a1 b = .ok a2 := by
    unfold joinDuration
    cases hd : args.duration with
    | none => exact ⟨_, rfl⟩
    | some d =>
      obtain ⟨x, hx⟩ := Option.isSome_iff_exists.1 (hsome d (ha.2.1 d hd))
      obtain ⟨y, hy⟩ := Option.isSome_iff_exists.1 (hb.2.1 d hd)
      cases hs : args.startdate with
      | none => simp only [getItem_ok.2 hx, getItem_ok.2 hy]; exact ⟨_, rfl⟩
      | some s =>
        cases he : args.enddate with
        | none => simp only [getItem_ok.2 hx, getItem_ok.2 hy]; exact ⟨_, rfl⟩
        | some e =>
          obtain ⟨x', hx'⟩ := Option.isSome_iff_exists.1 (hsome e (ha.1 e he))
          obtain ⟨y', hy'⟩ := Option.isSome_iff_exists.1 (hsome s (ha.2.2 (by simp [hd]) s hs))
          simp only [getItem_ok.2 hx', getItem_ok.2 hy']; exact ⟨_, rfl⟩
  obtain ⟨a2, h2⟩ := hdur
  obtain ⟨d1, d2, d3, d4, d5⟩ := joinDuration_ok h2
  have hsome2 : ∀ k, (a1.attributes.get? k).isSome → (a2.attributes.get? k).isSome := by
    intro k hk
    by_cases hd : args.duration = some k
    · cases hs : args.startdate with
      | none =>
        obtain ⟨_, _, _, _, h⟩ := d5 k hd (.inl hs)
        rw [h]; rfl
      | some s =>
        cases he : args.enddate with
        | none =>
          obtain ⟨_, _, _, _, h⟩ := d5 k hd (.inr he)
          rw [h]; rfl
        | some e =>
          obtain ⟨_, _, _, _, h⟩ := d4 k s e hd hs he
          rw [h]; rfl
    · rw [d3 k hd]; exact hk
  have hres : joinEvents args a b = .ok a2 := by
    unfold joinEvents
    by_cases hr : args.raiseError = true
    · rw [if_pos hr, hforM hr, h1]; exact h2
    · rw [if_neg hr, h1]; exact h2
  refine ⟨a2, hres, ?_, ?_⟩
  · exact ⟨fun k hk => hsome2 k (hsome k (ha.1 k hk)), fun k hk => hsome2 k (hsome k (ha.2.1 k hk)),
      fun hd k hk => hsome2 k (hsome k (ha.2.2 hd k hk))⟩
  · intro hr k hk
    rw [d3 k (fun hc => hk.2.2 hc.symm), e4 k (fun hc => hk.2.1 hc.symm)]
    exact hc hr k hk

theorem joinFold_succeeds {args : JoinArgs A V} {es : List (Event A V)}
    {st : List (Event A V) × Event A V} {prev : Event A V}
    (hp : ∀ e ∈ es, Present args e)
    (hch : (prev :: es).IsChain fun a b => a.activity = b.activity →
      args.blacklist b.activity = false → Compatible args a b)
    (h1 : Present args st.2) (h2 : Compatible args st.2 prev) (h3 : st.2.activity = prev.activity) :
    ∃ st', es.foldlM (joinStep args) st = .ok st' := by
  induction es generalizing st prev with
  | nil => exact ⟨st, rfl⟩
  | cons e es ih =>
    rw [List.isChain_cons_cons] at hch
    rw [List.foldlM_cons]
    unfold joinStep
    split
    · next hc =>
      have hcomp : Compatible args st.2 e := by
        intro hr k hk
        rw [h2 hr k hk]
        exact hch.1 (h3 ▸ hc.1) hc.2 hr k hk
      obtain ⟨a, ha, hpa, hca⟩ := joinEvents_succeeds h1 (hp e (by simp)) hcomp
      simp only [ha]
      have hact : a.activity = e.activity := by
        obtain ⟨_, a1, j1, j2⟩ := joinEvents_split ha
        rw [(joinDuration_ok j2).1, (joinEnd_ok j1).1]; exact hc.1
      exact ih (st := (st.1, a)) (fun x hx => hp x (by simp [hx])) hch.2 hpa hca hact
    · exact ih (st := (st.1 ++ [st.2], e)) (fun x hx => hp x (by simp [hx])) hch.2
        (hp e (by simp)) (fun _ _ _ => rfl) rfl

theorem joined_expands {args : JoinArgs A V} {gs : List (List (Event A V))} {rs : List (Event A V)}
    (h : List.Forall₂ (Joined args) gs rs) :
    Spec.EventLog.Expands (rs.map Event.activity) (gs.flatten.map Event.activity) := by
  refine ⟨gs.map List.length, by simp [h.length_eq], ?_, ?_⟩
  · intro c hc
    obtain ⟨g, hg, rfl⟩ := List.mem_map.1 hc
    obtain ⟨r, hr⟩ : ∃ r, Joined args g r := by
      clear hc
      induction h with
      | nil => cases hg
      | cons h1 _ ih =>
        rcases List.mem_cons.1 hg with rfl | hg
        · exact ⟨_, h1⟩
        · exact ih hg
    exact List.length_pos_iff.2 hr.nonempty
  · induction h with
    | nil => rfl
    | @cons g r gs rs hg _ ih =>
      simp only [List.flatten_cons, List.map_append, List.map_cons, List.zipWith_cons_cons, ih]
      congr 1
      rw [List.eq_replicate_iff]
      refine ⟨by simp, ?_⟩
      intro x hx
      obtain ⟨e, he, rfl⟩ := List.mem_map.1 hx
      exact hg.activity e he

end Prolothar.EventLog
