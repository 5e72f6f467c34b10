import Verif.Props.ActivityPattern
/-
The net of a choice between any number of patterns.
-/
namespace Prolothar.ActivityPattern
open Prolothar.Petri
open Prolothar.Spec.Petri

theorem put_absent {d : Dict String String} {k v : String} (h : k ∉ d.keys) : d.put k v = d ++ [(k, v)] := by
  induction d with
  | nil => rfl
  | cons e d ih =>
    unfold Dict.keys at h
    rw [List.map_cons, List.mem_cons, not_or] at h
    show (if e.1 = k then _ else _) = _
    rw [if_neg (Ne.symm h.1), ih h.2]
    rfl

theorem perm_del {d : Dict String String} {k v : String} (h : d.get? k = some v) : List.Perm d ((k, v) :: d.del k) := by
  induction d with
  | nil => cases h
  | cons e d ih =>
    change (if e.1 = k then some e.2 else Dict.get? d k) = some v at h
    show List.Perm _ ((k, v) :: if e.1 = k then d else e :: Dict.del d k)
    by_cases hk : e.1 = k
    · rw [if_pos hk] at h ⊢
      obtain rfl := Option.some.inj h
      subst hk
      exact List.Perm.refl _
    · rw [if_neg hk] at h ⊢
      exact ((ih h).cons e).trans (List.Perm.swap _ _ _)

theorem rekey_perm : ∀ (r : List (String × String)) (d : Dict String String), d.WF → (∀ e ∈ r, e.1 ∈ d.keys) → (r.map Prod.fst).Nodup →
    (r.map Prod.snd).Nodup → (∀ e ∈ r, e.1 ≠ e.2 → e.2 ∉ d.keys) →
    ∃ d', rekey r d = .ok d' ∧ (d'.map Prod.snd).Perm (d.map Prod.snd)
  | [], d, _, _, _, _, _ => ⟨d, rfl, List.Perm.refl _⟩
  | (o, n) :: r, d, hw, hk, hf, hs, hn => by
    rw [List.map_cons, List.nodup_cons] at hf hs
    rw [rekey]
    by_cases he : o = n
    · rw [if_pos he]
      exact rekey_perm r d hw (fun e h => hk e (List.mem_cons_of_mem _ h)) hf.2 hs.2 fun e h => hn e (List.mem_cons_of_mem _ h)
    · rw [if_neg he]
      have hom : o ∈ d.keys := hk (o, n) List.mem_cons_self
      obtain ⟨x, hx⟩ : ∃ x, d.get? o = some x := by
        cases hg : d.get? o with
        | none => exact absurd hom (Dict.get?_eq_none_iff.1 hg)
        | some x => exact ⟨x, rfl⟩
      rw [hx]
      have hnk : n ∉ d.keys := hn (o, n) List.mem_cons_self he
      have hnk' : n ∉ (d.del o).keys := by rw [Dict.keys_del]; exact fun h => hnk (List.mem_of_mem_erase h)
      have keys' : ∀ y, y ∈ ((d.del o).put n x).keys ↔ (y ∈ d.keys ∧ y ≠ o) ∨ y = n := by
        intro y
        rw [Dict.mem_keys_put, Dict.keys_del, hw.mem_erase_iff]
        tauto
      obtain ⟨d', h1, h2⟩ := rekey_perm r ((d.del o).put n x) ((hw.del o).put n x) (fun e h => (keys' _).2 (.inl ⟨hk e (List.mem_cons_of_mem _ h),
        fun heq => hf.1 (heq ▸ List.mem_map.2 ⟨e, h, rfl⟩)⟩)) hf.2 hs.2 (fun e h hne hm => by
          rcases (keys' _).1 hm with ⟨hm, _⟩ | hm
          · exact hn e (List.mem_cons_of_mem _ h) hne hm
          · exact hs.1 (hm ▸ List.mem_map.2 ⟨e, h, rfl⟩))
      refine ⟨d', h1, h2.trans ?_⟩
      rw [put_absent hnk', List.map_append]
      refine List.Perm.trans ?_ ((perm_del hx).map Prod.snd).symm
      exact List.perm_append_singleton _ _

/-- the new id is the old id followed by quotes -/
theorem renames_pair : ∀ (l ex : List String) (r : List (String × String)), renames ex l = .ok r →
    ∀ e ∈ r, ∃ k, e.2 = (List.replicate k "'").foldl (· ++ ·) e.1
  | [], ex, r, h => by obtain rfl := Except.ok.inj h; simp
  | x :: xs, ex, r, h => by
    rw [renames] at h
    obtain ⟨y, h1, h⟩ := bind_eq_ok h
    obtain ⟨r', h2, h⟩ := bind_eq_ok h
    obtain rfl := Except.ok.inj h
    intro e he
    rcases List.mem_cons.1 he with rfl | he
    · exact makeIdUnique_quotes h1
    · exact renames_pair xs _ _ h2 e he

/-- all places remain in the dictionary, if no new id is the id of another place of the same pattern -/
theorem remaining_ok {rp : List (String × String)} (hf : (rp.map Prod.fst).Nodup) (hs : (rp.map Prod.snd).Nodup)
    (hn : ∀ e ∈ rp, e.1 ≠ e.2 → e.2 ∉ rp.map Prod.fst) :
    ∃ ps, remaining rp = .ok ps ∧ ps.Nodup ∧ ∀ x, x ∈ ps ↔ x ∈ rp.map Prod.snd := by
  have hkeys : Dict.keys (rp.map fun e => (e.1, e.1)) = rp.map Prod.fst := by unfold Dict.keys; rw [List.map_map]; rfl
  obtain ⟨d, h1, h2⟩ := rekey_perm rp (rp.map fun e => (e.1, e.1)) (by unfold Dict.WF; rw [hkeys]; exact hf)
    (fun e he => by rw [hkeys]; exact List.mem_map.2 ⟨e, he, rfl⟩) hf hs (fun e he => by rw [hkeys]; exact hn e he)
  have hren : Renaming [] (rp.map Prod.fst) rp := ⟨rfl, hs, by simp⟩
  have hval : (rp.map fun e => (e.1, e.1)).map Prod.snd = rp.map Prod.fst := by rw [List.map_map]; rfl
  rw [hval] at h2
  have hps : (d.map fun e => newId rp e.2).Perm (rp.map Prod.snd) := by
    have := h2.map (newId rp)
    rw [List.map_map, List.map_map] at this
    refine this.trans (List.Perm.of_eq ?_)
    apply List.map_congr_left
    intro e he
    exact hren.get hf he
  refine ⟨d.map fun e => newId rp e.2, ?_, hps.nodup_iff.2 hs, fun x => hps.mem_iff⟩
  unfold remaining
  rw [h1]; rfl

/-- a pattern with new ids -/
abbrev Item := Pattern × (String → String) × (String → String)

/-- the net `n` consists of the renamed nets of the patterns in `l` -/
structure Multi (l : List Item) (n : Net) : Prop where
  wf : n.WF
  tokens : ∀ p ∈ n.places, 0 ≤ n.tokens p
  places : ∀ x, x ∈ n.places ↔ ∃ e ∈ l, ∃ p ∈ e.1.net.places, e.2.1 p = x
  trans : ∀ x, x ∈ n.transitions ↔ ∃ e ∈ l, ∃ t ∈ e.1.net.transitions, e.2.2 t = x
  fb : ∀ e ∈ l, ∀ t ∈ e.1.net.transitions, n.pre (e.2.2 t) = (e.1.net.pre t).map e.2.1 ∧ n.post (e.2.2 t) = (e.1.net.post t).map e.2.1 ∧
    n.guard (e.2.2 t) = e.1.net.guard t ∧ n.visible (e.2.2 t) = e.1.net.visible t ∧ n.transLabel (e.2.2 t) = e.1.net.transLabel t
  inj : ∀ e ∈ l, ∀ p ∈ e.1.net.places, ∀ q ∈ e.1.net.places, e.2.1 p = e.2.1 q → p = q
  disj : l.Pairwise fun e e' => ∀ p ∈ e.1.net.places, ∀ q ∈ e'.1.net.places, e.2.1 p ≠ e'.2.1 q

theorem Multi.nil : Multi [] Net.empty :=
  ⟨⟨List.nodup_nil, List.nodup_nil, fun _ h => (by cases h), fun _ h => (by cases h), fun _ h => (by cases h)⟩, fun _ h => (by cases h), fun x => (by simp [Net.empty]), fun x => (by simp [Net.empty]), fun _ h => (by cases h), fun _ h => (by cases h), List.Pairwise.nil⟩

theorem Multi.snoc {l : List Item} {n n' : Net} (h : Multi l n) {a : Pattern} {f g : String → String} (hj : Joined n a.net f g n') :
    Multi (l ++ [(a, f, g)]) n' := by
  refine ⟨hj.wf, hj.tokens, ?_, ?_, ?_, ?_, ?_⟩
  · intro x
    rw [hj.places, h.places]
    simp only [List.mem_append, List.mem_singleton, or_and_right, exists_or, exists_eq_left]
  · intro x
    rw [hj.trans, h.trans]
    simp only [List.mem_append, List.mem_singleton, or_and_right, exists_or, exists_eq_left]
  · intro e he t ht
    rcases List.mem_append.1 he with he | he
    · obtain ⟨h1, h2, h3, h4, h5⟩ := hj.fa (e.2.2 t) ((h.trans _).2 ⟨e, he, t, ht, rfl⟩)
      rw [h1, h2, h3, h4, h5]
      exact h.fb e he t ht
    · rw [List.mem_singleton] at he
      subst he
      exact hj.fb t ht
  · intro e he
    rcases List.mem_append.1 he with he | he
    · exact h.inj e he
    · rw [List.mem_singleton] at he
      subst he
      exact hj.inj
  · rw [List.pairwise_append]
    refine ⟨h.disj, List.pairwise_singleton _ _, ?_⟩
    intro e he e' he' p hp q hq heq
    rw [List.mem_singleton] at he'
    subst he'
    exact hj.new q hq ((h.places _).2 ⟨e, he, p, hp, heq⟩)

/-- the new ids of all patterns -/
inductive RenamingAll : List String → List (List String) → List (List (String × String)) → Prop
  | nil {ex : List String} : RenamingAll ex [] []
  | cons {ex l : List String} {ls : List (List String)} {r : List (String × String)} {rs : List (List (String × String))} :
      Renaming ex l r → renames ex l = .ok r → RenamingAll (ex ++ r.map Prod.snd) ls rs → RenamingAll ex (l :: ls) (r :: rs)

theorem renamesAll_ok : ∀ (ls : List (List String)) (ex : List String), ∃ rs, renamesAll ex ls = .ok rs ∧ RenamingAll ex ls rs
  | [], ex => ⟨[], rfl, .nil⟩
  | l :: ls, ex => by
    obtain ⟨r, h1, h2⟩ := renames_ok l ex
    obtain ⟨rs, h3, h4⟩ := renamesAll_ok ls (ex ++ r.map Prod.snd)
    refine ⟨r :: rs, ?_, .cons h2 h1 h4⟩
    rw [renamesAll, h1]
    show (renamesAll _ ls >>= _) = _
    rw [h3]; rfl

/-- the items of the patterns with the new ids -/
def items : List Pattern → List (List (String × String)) → List (List (String × String)) → List Item
  | a :: as, rt :: rts, rp :: rps => (a, newId rp, newId rt) :: items as rts rps
  | _, _, _ => []

theorem choiceNets_ok : ∀ (as : List Pattern) (rts rps : List (List (String × String))) (exT exP : List String) (n : Net) (l : List Item),
    (∀ a ∈ as, a.Valid) → (∀ a ∈ as, ∀ p ∈ a.net.places, '\'' ∉ p.toList) →
    RenamingAll exT (as.map fun a => a.net.transitions) rts → RenamingAll exP (as.map fun a => a.net.places) rps →
    (∀ x ∈ n.transitions, x ∈ exT) → (∀ x ∈ n.places, x ∈ exP) → Multi l n →
    ∃ n', choiceNets (as.zip (rts.zip rps)) n = .ok n' ∧ Multi (l ++ items as rts rps) n'
  | [], rts, rps, exT, exP, n, l, _, _, hT, hP, _, _, hm => by
    cases hT; cases hP
    exact ⟨n, rfl, by simpa [items] using hm⟩
  | a :: as, _, _, exT, exP, n, l, hv, hq, hT, hP, hnT, hnP, hm => by
    rw [List.map_cons] at hT hP
    cases hT with
    | @cons _ _ _ rt rts hrt _ hT =>
    cases hP with
    | @cons _ _ _ rp rps hrp hren hP =>
    obtain ⟨s, e, ha⟩ := hv a List.mem_cons_self
    have hfst : (rp.map Prod.fst).Nodup := by rw [hrp.fst]; exact ha.wf.places
    obtain ⟨ps, h1, h2, h3⟩ := remaining_ok hfst hrp.nodup (by
      intro e he hne hx
      rw [hrp.fst] at hx
      have hq' := hq a List.mem_cons_self _ hx
      obtain ⟨k, hk⟩ := renames_pair _ _ _ hren e he
      cases k with
      | zero => exact hne hk.symm
      | succ k =>
        apply hq'
        rw [hk]
        have : ∀ (k : Nat) (x : String), '\'' ∈ ((List.replicate (k + 1) "'").foldl (· ++ ·) x).toList := by
          intro k
          induction k with
          | zero => intro x; simp
          | succ k ih => intro x; rw [List.replicate_succ, List.foldl_cons]; exact ih _
        exact this k e.1)
    have hrt' : Renaming n.transitions a.net.transitions rt := ⟨hrt.fst, hrt.nodup, fun y hy h => hrt.fresh y hy (hnT y h)⟩
    have hrp' : Renaming n.places a.net.places rp := ⟨hrp.fst, hrp.nodup, fun y hy h => hrp.fresh y hy (hnP y h)⟩
    have hj := addNet_joined hm.wf ha.wf hm.tokens ha.tokens hrp' hrt' h2 h3
    obtain ⟨n', h4, h5⟩ := choiceNets_ok as rts rps _ _ _ _ (fun b hb => hv b (List.mem_cons_of_mem _ hb)) (fun b hb => hq b (List.mem_cons_of_mem _ hb)) hT hP
      (by
        intro x hx
        rcases List.mem_append.1 (show x ∈ n.transitions ++ rt.map Prod.snd from hx) with h | h
        · exact List.mem_append_left _ (hnT x h)
        · exact List.mem_append_right _ h)
      (by
        intro x hx
        rcases List.mem_append.1 (show x ∈ n.places ++ ps from hx) with h | h
        · exact List.mem_append_left _ (hnP x h)
        · exact List.mem_append_right _ ((h3 x).1 h)) (hm.snoc hj)
    refine ⟨n', ?_, by rw [List.append_assoc] at h5; exact h5⟩
    show choiceNets ((a, rt, rp) :: as.zip (rts.zip rps)) n = _
    rw [choiceNets, h1]
    exact h4

theorem names_step (m : Dict String String) : ∀ (rt : List (String × String)) (d : Dict String String), (rt.map Prod.snd).Nodup →
    (∀ e ∈ rt, (rt.foldl (fun d e => match m.get? e.1 with | some s => d.put e.2 s | none => d) d).get? e.2 =
      match m.get? e.1 with | some s => some s | none => d.get? e.2) ∧
    ∀ x, x ∉ rt.map Prod.snd → (rt.foldl (fun d e => match m.get? e.1 with | some s => d.put e.2 s | none => d) d).get? x = d.get? x
  | [], d, _ => ⟨by simp, fun _ _ => rfl⟩
  | e :: rt, d, hn => by
    rw [List.map_cons, List.nodup_cons] at hn
    rw [List.foldl_cons]
    obtain ⟨h1, h2⟩ := names_step m rt (match m.get? e.1 with | some s => d.put e.2 s | none => d) hn.2
    constructor
    · intro e' he'
      rcases List.mem_cons.1 he' with rfl | he'
      · rw [h2 _ hn.1]
        cases m.get? e'.1 with
        | none => rfl
        | some s => exact Dict.get?_put_self _ _ _
      · rw [h1 e' he']
        have hne : e.2 ≠ e'.2 := fun h => hn.1 (h ▸ List.mem_map.2 ⟨e', he', rfl⟩)
        cases m.get? e'.1 with
        | some s => rfl
        | none =>
          show Dict.get? (match m.get? e.1 with | some s => d.put e.2 s | none => d) e'.2 = _
          cases m.get? e.1 with
          | none => rfl
          | some s => exact Dict.get?_put_of_ne _ _ hne
    · intro x hx
      rw [List.map_cons, List.mem_cons, not_or] at hx
      rw [h2 x hx.2]
      cases m.get? e.1 with
      | none => rfl
      | some s => exact Dict.get?_put_of_ne _ _ (Ne.symm hx.1)

/-- the high level activities of the renamed transitions -/
theorem choiceNames_ok : ∀ (as : List Pattern) (rts rps : List (List (String × String))) (ex : List String) (d : Dict String String),
    (∀ a ∈ as, a.Valid) → RenamingAll ex (as.map fun a => a.net.transitions) rts → (∀ x, x ∉ ex → d.get? x = none) →
    (∀ e ∈ items as rts rps, ∀ t ∈ e.1.net.transitions, (choiceNames (as.zip rts) d).get? (e.2.2 t) = e.1.map.get? t) ∧
    ∀ x ∈ ex, (choiceNames (as.zip rts) d).get? x = d.get? x
  | [], rts, rps, ex, d, _, h, _ => by
    cases h
    exact ⟨by simp [items], fun _ _ => rfl⟩
  | a :: as, _, rps, ex, d, hv, h, hd => by
    rw [List.map_cons] at h
    cases h with
    | @cons _ _ _ rt rts hr _ h =>
    obtain ⟨s, e, ha⟩ := hv a List.mem_cons_self
    obtain ⟨h1, h2⟩ := names_step a.map rt d hr.nodup
    have ih := fun rps => choiceNames_ok as rts rps (ex ++ rt.map Prod.snd)
      (rt.foldl (fun d e => match a.map.get? e.1 with | some s => d.put e.2 s | none => d) d)
      (fun b hb => hv b (List.mem_cons_of_mem _ hb)) h (fun x hx => by
        rw [List.mem_append, not_or] at hx
        rw [h2 x hx.2, hd x hx.1])
    have hz : choiceNames ((a :: as).zip (rt :: rts)) d =
      choiceNames (as.zip rts) (rt.foldl (fun d e => match a.map.get? e.1 with | some s => d.put e.2 s | none => d) d) := rfl
    rw [hz]
    constructor
    · intro it hit t ht
      cases rps with
      | nil => simp [items] at hit
      | cons rp rps =>
        rcases List.mem_cons.1 (show it ∈ (a, newId rp, newId rt) :: items as rts rps from hit) with rfl | hit
        · have hm := hr.mem_new ha.wf.transitions ht
          show Dict.get? _ (newId rt t) = _
          rw [(ih rps).2 _ (List.mem_append_right _ (List.mem_map.2 ⟨_, hm, rfl⟩)), h1 _ hm]
          show (match a.map.get? t with | some s => some s | none => d.get? (newId rt t)) = a.map.get? t
          cases hg : a.map.get? t with
          | some s => rfl
          | none => exact hd _ (hr.new_fresh ha.wf.transitions ht)
        · exact (ih rps).1 it hit t ht
    · intro x hx
      rw [(ih rps).2 x (List.mem_append_left _ hx), h2 x]
      exact fun hm => hr.fresh x hm hx

/-- the source and the sink of a pattern -/
def srcOf (a : Pattern) : String := a.net.sourceSink.1.headD ""
def snkOf (a : Pattern) : String := a.net.sourceSink.2.headD ""

theorem Pattern.Valid.good {a : Pattern} (h : a.Valid) : a.Good (srcOf a) (snkOf a) := by
  obtain ⟨s, e, h⟩ := h
  have h1 : srcOf a = s := by unfold srcOf; rw [sources_eq h.source]; rfl
  have h2 : snkOf a = e := by unfold snkOf; rw [sinks_eq h.sink]; rfl
  rw [h1, h2]; exact h

theorem ends_ok : ∀ (as : List Pattern) (rts rps : List (List (String × String))) (exT exP : List String), (∀ a ∈ as, a.Valid) →
    RenamingAll exT (as.map fun a => a.net.transitions) rts → RenamingAll exP (as.map fun a => a.net.places) rps →
    (as.zip rps).mapM (fun e => do
      let s ← popSet e.1.net.sourceSink.1
      let t ← popSet e.1.net.sourceSink.2
      return (newId e.2 s, newId e.2 t)) = (.ok ((items as rts rps).map fun e => (e.2.1 (srcOf e.1), e.2.1 (snkOf e.1))) : Py _)
  | [], rts, rps, _, _, _, hT, hP => by cases hT; cases hP; rfl
  | a :: as, _, _, exT, exP, hv, hT, hP => by
    rw [List.map_cons] at hT hP
    cases hT with
    | @cons _ _ _ rt rts _ _ hT =>
    cases hP with
    | @cons _ _ _ rp rps _ _ hP =>
    have ih := ends_ok as rts rps _ _ (fun b hb => hv b (List.mem_cons_of_mem _ hb)) hT hP
    have hg := (hv a List.mem_cons_self).good
    rw [List.zip_cons_cons, List.mapM_cons, ih, sources_eq hg.source, sinks_eq hg.sink]
    rfl

theorem items_fst : ∀ (as : List Pattern) (rts rps : List (List (String × String))) (exT exP : List String),
    RenamingAll exT (as.map fun a => a.net.transitions) rts → RenamingAll exP (as.map fun a => a.net.places) rps →
    (items as rts rps).map Prod.fst = as
  | [], _, _, _, _, hT, hP => by cases hT; cases hP; rfl
  | a :: as, _, _, _, _, hT, hP => by
    rw [List.map_cons] at hT hP
    cases hT with
    | @cons _ _ _ rt rts _ _ hT =>
    cases hP with
    | @cons _ _ _ rp rps _ _ hP =>
    show a :: (items as rts rps).map Prod.fst = _
    rw [items_fst as rts rps _ _ hT hP]

/-- adding one transition for each element of a list -/
theorem fold_added {n0 : Net} {ps : List String} (tid a b : String → String) : ∀ (l : List String) (n n' : Net) (ts : List (String × List String × List String)),
    Added n0 n ps ts → l.foldlM (fun n p => do
      let n ← n.addTransition (tid p) none false
      n.addConnection (a p) (tid p) (b p)) n = (.ok n' : Py Net) →
    Added n0 n' ps (ts ++ l.map fun p => (tid p, [a p], [b p]))
  | [], n, n', ts, h, hr => by obtain rfl := Except.ok.inj hr; simpa using h
  | p :: l, n, n', ts, h, hr => by
    rw [List.foldlM_cons] at hr
    obtain ⟨n2, h2, hr⟩ := bind_eq_ok hr
    obtain ⟨n1, h1, h2⟩ := bind_eq_ok h2
    have k1 := (h.addTransition h1).2
    have k2 := k1.addConnection ts.length (a := []) (b := []) (by simp) h2
    rw [List.set_append_right _ _ (Nat.le_refl _), Nat.sub_self] at k2
    have := fold_added tid a b l n2 n' _ k2 hr
    rw [List.append_assoc] at this
    exact this

theorem copy_ok {a : Pattern} (h : a.Valid) : ∃ v, a.copy = .ok ⟨{ a.net with vars := v }, a.map⟩ := by
  obtain ⟨s, e, h⟩ := h
  obtain ⟨v, hv⟩ := copied_ok h.wf h.tokens
  refine ⟨v, ?_⟩
  unfold Pattern.copy
  rw [hv]
  exact mkPattern_ok (s := s) (e := e) ⟨wf_vars h.wf v, h.tokens, h.source, h.sink, h.pre_ne, h.names⟩

/-- the values of the variables of the net do not matter, as guards do not refer to them by name -/
theorem copies_ok : ∀ (cs : List Pattern), (∀ a ∈ cs, a.Valid) →
    ∃ cs', cs.mapM Pattern.copy = .ok cs' ∧ List.Forall₂ (fun a a' => ∃ v, a' = ⟨{ a.net with vars := v }, a.map⟩) cs cs'
  | [], _ => ⟨[], rfl, .nil⟩
  | a :: cs, h => by
    obtain ⟨v, hv⟩ := copy_ok (h a List.mem_cons_self)
    obtain ⟨cs', h1, h2⟩ := copies_ok cs fun b hb => h b (List.mem_cons_of_mem _ hb)
    refine ⟨_ :: cs', ?_, .cons ⟨v, rfl⟩ h2⟩
    rw [List.mapM_cons, hv, h1]; rfl

theorem valid_vars {a : Pattern} (v : Dict String Nat) (h : a.Valid) : Pattern.Valid ⟨{ a.net with vars := v }, a.map⟩ := by
  obtain ⟨s, e, h⟩ := h
  exact ⟨s, e, wf_vars h.wf v, h.tokens, h.source, h.sink, h.pre_ne, h.names⟩

end Prolothar.ActivityPattern
