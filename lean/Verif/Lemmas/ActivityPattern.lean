import Verif.Model.ActivityPattern
import Verif.Lemmas.Workflow
import Verif.Props.PetriPrune
/-
Renaming and joining of nets, adding places and transitions.
-/
namespace Prolothar.ActivityPattern
open Prolothar.Petri
open Prolothar.Spec.Petri

theorem makeIdUnique_ok (existing : List String) (id : String) :
    ∃ y, makeIdUnique existing (existing.length + 1) id = .ok y ∧ y ∉ existing := by
  obtain ⟨k, h1, h2, _⟩ := C67_unique existing id (existing.length + 1) (Nat.lt_succ_self _)
  exact ⟨_, h1, h2⟩

/-- `r` gives every element of `l` a new id, which is not in `existing` -/
structure Renaming (existing l : List String) (r : List (String × String)) : Prop where
  fst : r.map Prod.fst = l
  nodup : (r.map Prod.snd).Nodup
  fresh : ∀ y ∈ r.map Prod.snd, y ∉ existing

theorem renames_ok : ∀ (l existing : List String), ∃ r, renames existing l = .ok r ∧ Renaming existing l r
  | [], existing => ⟨[], rfl, rfl, List.nodup_nil, by simp⟩
  | x :: xs, existing => by
    obtain ⟨y, h1, h2⟩ := makeIdUnique_ok existing x
    obtain ⟨r, h3, h4⟩ := renames_ok xs (existing ++ [y])
    refine ⟨(x, y) :: r, by rw [renames, h1]; show (do let r ← renames (existing ++ [y]) xs; pure ((x, y) :: r)) = _; rw [h3]; rfl, ?_, ?_, ?_⟩
    · rw [List.map_cons, h4.fst]
    · rw [List.map_cons, List.nodup_cons]
      refine ⟨fun hy => ?_, h4.nodup⟩
      have := h4.fresh y hy
      simp at this
    · intro z hz
      rw [List.map_cons, List.mem_cons] at hz
      rcases hz with rfl | hz
      · exact h2
      · have := h4.fresh z hz
        rw [List.mem_append, not_or] at this
        exact this.1

namespace Renaming
variable {existing l : List String} {r : List (String × String)}

theorem get (h : Renaming existing l r) (hl : l.Nodup) {x y : String} (hm : (x, y) ∈ r) : newId r x = y := by
  unfold newId
  rw [Dict.get?_of_mem (d := r) (by unfold Dict.WF Dict.keys; rw [h.fst]; exact hl) hm]
  rfl

theorem mem_new (h : Renaming existing l r) (hl : l.Nodup) {x : String} (hx : x ∈ l) : (x, newId r x) ∈ r := by
  rw [← h.fst] at hx
  obtain ⟨e, he, rfl⟩ := List.mem_map.1 hx
  rw [h.get hl (x := e.1) (y := e.2) he]
  exact he

theorem new_mem (h : Renaming existing l r) (hl : l.Nodup) {x : String} (hx : x ∈ l) : newId r x ∈ r.map Prod.snd :=
  List.mem_map.2 ⟨_, h.mem_new hl hx, rfl⟩

theorem mem_snd (h : Renaming existing l r) (hl : l.Nodup) {y : String} : y ∈ r.map Prod.snd ↔ ∃ x ∈ l, newId r x = y := by
  constructor
  · intro hy
    obtain ⟨e, he, rfl⟩ := List.mem_map.1 hy
    exact ⟨e.1, by rw [← h.fst]; exact List.mem_map.2 ⟨e, he, rfl⟩, h.get hl he⟩
  · rintro ⟨x, hx, rfl⟩; exact h.new_mem hl hx

theorem old_of_mem (h : Renaming existing l r) {x y : String} (hm : (x, y) ∈ r) : oldId r y = some x := by
  unfold oldId
  cases hf : r.find? fun e => e.2 = y with
  | none =>
    have := List.find?_eq_none.1 hf (x, y) hm
    simp at this
  | some e =>
    have h1 := List.mem_of_find?_eq_some hf
    have h2 : e.2 = y := by simpa using List.find?_some hf
    have := List.inj_on_of_nodup_map h.nodup h1 hm h2
    rw [this]; rfl

theorem old_new (h : Renaming existing l r) (hl : l.Nodup) {x : String} (hx : x ∈ l) : oldId r (newId r x) = some x :=
  h.old_of_mem (h.mem_new hl hx)

theorem inj (h : Renaming existing l r) (hl : l.Nodup) {x y : String} (hx : x ∈ l) (hy : y ∈ l) (he : newId r x = newId r y) : x = y := by
  have h1 := h.old_new hl hx
  rw [he, h.old_new hl hy] at h1
  exact (Option.some.inj h1).symm

theorem old_none (h : Renaming existing l r) {y : String} (hy : y ∈ existing) : oldId r y = none := by
  unfold oldId
  rw [Option.map_eq_none_iff, List.find?_eq_none]
  intro e he hx
  have : e.2 = y := by simpa using hx
  exact h.fresh e.2 (List.mem_map.2 ⟨e, he, rfl⟩) (this ▸ hy)

theorem new_fresh (h : Renaming existing l r) (hl : l.Nodup) {x : String} (hx : x ∈ l) : newId r x ∉ existing := h.fresh _ (h.new_mem hl hx)

end Renaming

/-- the net `n` consists of the renamed nets `a` and `b` -/
structure Joined (a b : Net) (f g : String → String) (n : Net) : Prop where
  wf : n.WF
  tokens : ∀ p ∈ n.places, 0 ≤ n.tokens p
  places : ∀ x, x ∈ n.places ↔ x ∈ a.places ∨ ∃ p ∈ b.places, f p = x
  trans : ∀ x, x ∈ n.transitions ↔ x ∈ a.transitions ∨ ∃ t ∈ b.transitions, g t = x
  fa : ∀ t ∈ a.transitions, n.pre t = a.pre t ∧ n.post t = a.post t ∧ n.guard t = a.guard t ∧ n.visible t = a.visible t ∧ n.transLabel t = a.transLabel t
  fb : ∀ t ∈ b.transitions, n.pre (g t) = (b.pre t).map f ∧ n.post (g t) = (b.post t).map f ∧ n.guard (g t) = b.guard t ∧ n.visible (g t) = b.visible t ∧
    n.transLabel (g t) = b.transLabel t
  inj : ∀ p ∈ b.places, ∀ q ∈ b.places, f p = f q → p = q
  injT : ∀ t ∈ b.transitions, ∀ u ∈ b.transitions, g t = g u → t = u
  new : ∀ p ∈ b.places, f p ∉ a.places
  newT : ∀ t ∈ b.transitions, g t ∉ a.transitions

theorem addNet_joined {a b : Net} (ha : a.WF) (hb : b.WF) (ta : ∀ p ∈ a.places, 0 ≤ a.tokens p) (tb : ∀ p ∈ b.places, 0 ≤ b.tokens p)
    {rp rt : List (String × String)} (hp : Renaming a.places b.places rp) (ht : Renaming a.transitions b.transitions rt) {ps : List String}
    (hps : ps.Nodup) (hps' : ∀ x, x ∈ ps ↔ x ∈ rp.map Prod.snd) :
    Joined a b (newId rp) (newId rt) (addNet a b rp rt ps (rt.map Prod.snd)) := by
  have inj := fun p hp' q hq => hp.inj (x := p) (y := q) hb.places hp' hq
  have injT := fun p hp' q hq => ht.inj (x := p) (y := q) hb.transitions hp' hq
  have hnd : ∀ {r : List (String × String)} {ex l : List String}, Renaming ex l r → l.Nodup → ∀ k : List String, k.Nodup → (∀ x ∈ k, x ∈ l) → (k.map (newId r)).Nodup := by
    intro r ex l hr hl k hk hkl
    exact (List.nodup_map_iff_inj_on hk).2 fun x hx y hy he => hr.inj hl (hkl x hx) (hkl y hy) he
  have fa : ∀ t ∈ a.transitions, (addNet a b rp rt ps (rt.map Prod.snd)).pre t = a.pre t ∧ (addNet a b rp rt ps (rt.map Prod.snd)).post t = a.post t ∧
      (addNet a b rp rt ps (rt.map Prod.snd)).guard t = a.guard t ∧ (addNet a b rp rt ps (rt.map Prod.snd)).visible t = a.visible t ∧
      (addNet a b rp rt ps (rt.map Prod.snd)).transLabel t = a.transLabel t := by
    intro t h
    unfold addNet
    simp [ht.old_none h]
  have fb : ∀ t ∈ b.transitions, (addNet a b rp rt ps (rt.map Prod.snd)).pre (newId rt t) = (b.pre t).map (newId rp) ∧
      (addNet a b rp rt ps (rt.map Prod.snd)).post (newId rt t) = (b.post t).map (newId rp) ∧
      (addNet a b rp rt ps (rt.map Prod.snd)).guard (newId rt t) = b.guard t ∧ (addNet a b rp rt ps (rt.map Prod.snd)).visible (newId rt t) = b.visible t ∧
      (addNet a b rp rt ps (rt.map Prod.snd)).transLabel (newId rt t) = b.transLabel t := by
    intro t h
    unfold addNet
    simp [ht.old_new hb.transitions h]
  have places : ∀ x, x ∈ (addNet a b rp rt ps (rt.map Prod.snd)).places ↔ x ∈ a.places ∨ ∃ p ∈ b.places, newId rp p = x := by
    intro x
    show x ∈ a.places ++ ps ↔ _
    rw [List.mem_append, hps', hp.mem_snd hb.places]
  have trans : ∀ x, x ∈ (addNet a b rp rt ps (rt.map Prod.snd)).transitions ↔ x ∈ a.transitions ∨ ∃ p ∈ b.transitions, newId rt p = x := by
    intro x
    show x ∈ a.transitions ++ rt.map Prod.snd ↔ _
    rw [List.mem_append, ht.mem_snd hb.transitions]
  refine ⟨⟨?_, ?_, ?_, ?_, ?_⟩, ?_, places, trans, fa, fb, inj, injT, fun p h => hp.new_fresh hb.places h, fun t h => ht.new_fresh hb.transitions h⟩
  · show (a.places ++ ps).Nodup
    rw [List.nodup_append]
    refine ⟨ha.places, hps, ?_⟩
    rintro x hx y hy rfl
    exact hp.fresh x ((hps' x).1 hy) hx
  · show (a.transitions ++ rt.map Prod.snd).Nodup
    rw [List.nodup_append]
    refine ⟨ha.transitions, ht.nodup, ?_⟩
    rintro x hx y hy rfl
    exact ht.fresh x hy hx
  · intro t h
    rcases (trans t).1 h with h | ⟨u, hu, rfl⟩
    · rw [(fa t h).1]
      exact ⟨(ha.pre t h).1, fun p hp' => (places p).2 (.inl ((ha.pre t h).2 p hp'))⟩
    · rw [(fb u hu).1]
      refine ⟨hnd hp hb.places _ (hb.pre u hu).1 (hb.pre u hu).2, fun p hp' => ?_⟩
      obtain ⟨q, hq, rfl⟩ := List.mem_map.1 hp'
      exact (places _).2 (.inr ⟨q, (hb.pre u hu).2 q hq, rfl⟩)
  · intro t h
    rcases (trans t).1 h with h | ⟨u, hu, rfl⟩
    · rw [(fa t h).2.1]
      exact ⟨(ha.post t h).1, fun p hp' => (places p).2 (.inl ((ha.post t h).2 p hp'))⟩
    · rw [(fb u hu).2.1]
      refine ⟨hnd hp hb.places _ (hb.post u hu).1 (hb.post u hu).2, fun p hp' => ?_⟩
      obtain ⟨q, hq, rfl⟩ := List.mem_map.1 hp'
      exact (places _).2 (.inr ⟨q, (hb.post u hu).2 q hq, rfl⟩)
  · intro p h
    rcases (places p).1 h with h | ⟨q, hq, rfl⟩
    · have ho : (addNet a b rp rt ps (rt.map Prod.snd)).out p = a.out p := by unfold addNet; simp [hp.old_none h]
      rw [ho]
      refine ⟨(ha.out p h).1, fun t => ?_⟩
      rw [(ha.out p h).2, trans]
      constructor
      · rintro ⟨h1, h2⟩; exact ⟨.inl h1, by rw [(fa t h1).1]; exact h2⟩
      · rintro ⟨h1 | ⟨u, hu, rfl⟩, h2⟩
        · exact ⟨h1, by rwa [(fa t h1).1] at h2⟩
        · rw [(fb u hu).1] at h2
          obtain ⟨q, hq, rfl⟩ := List.mem_map.1 h2
          exact absurd h (hp.new_fresh hb.places ((hb.pre u hu).2 q hq))
    · have ho : (addNet a b rp rt ps (rt.map Prod.snd)).out (newId rp q) = (b.out q).map (newId rt) := by
        unfold addNet; simp [hp.old_new hb.places hq]
      rw [ho]
      refine ⟨hnd ht hb.transitions _ (hb.out q hq).1 (fun t h => (((hb.out q hq).2 t).1 h).1), fun t => ?_⟩
      rw [List.mem_map, trans]
      constructor
      · rintro ⟨u, hu, rfl⟩
        obtain ⟨h1, h2⟩ := ((hb.out q hq).2 u).1 hu
        exact ⟨.inr ⟨u, h1, rfl⟩, by rw [(fb u h1).1]; exact List.mem_map.2 ⟨q, h2, rfl⟩⟩
      · rintro ⟨h1 | ⟨u, hu, rfl⟩, h2⟩
        · rw [(fa t h1).1] at h2
          exact absurd ((ha.pre t h1).2 _ h2) (hp.new_fresh hb.places hq)
        · rw [(fb u hu).1] at h2
          obtain ⟨q', hq', he⟩ := List.mem_map.1 h2
          rw [hp.inj hb.places ((hb.pre u hu).2 q' hq') hq he] at hq'
          exact ⟨u, ((hb.out q hq).2 u).2 ⟨hu, hq'⟩, rfl⟩
  · intro p h
    rcases (places p).1 h with h | ⟨q, hq, rfl⟩
    · unfold addNet; simp only [hp.old_none h]; exact ta p h
    · unfold addNet; simp only [hp.old_new hb.places hq]; exact tb q hq

/-- a pattern as it is produced by the constructor from a net with the source `s` and the sink `e`, in which every transition consumes something -/
structure Pattern.Good (a : Pattern) (s e : String) : Prop where
  wf : a.net.WF
  tokens : ∀ p ∈ a.net.places, 0 ≤ a.net.tokens p
  source : ∀ p, IsSource a.net.transitions a.net.pre a.net.post p ↔ p = s
  sink : ∀ p, IsSink a.net.transitions a.net.pre a.net.post p ↔ p = e
  pre_ne : ∀ t ∈ a.net.transitions, a.net.pre t ≠ []
  names : ∀ t ∈ a.net.transitions, a.net.visible t = true → ∃ x, a.map.get? t = some x

/-- the workflow of a pattern for the given values of the variables: what is seen of a visible transition is its label and its high level activity -/
def Pattern.sys (h : Heap) (a : Pattern) (s e : String) : Sys String String (String × Option String) where
  pre := a.net.pre
  post := a.net.post
  ok := Allowed h a.net
  obs t := if a.net.visible t then some (a.net.transLabel t, a.map.get? t) else none
  src := s
  snk := e

namespace Pattern.Good
variable {a : Pattern} {s e : String}

theorem source_mem (h : a.Good s e) : s ∈ a.net.places := by
  obtain ⟨⟨t, ht, hp⟩, _⟩ := (h.source s).2 rfl
  exact (h.wf.pre t ht).2 s hp

theorem sink_mem (h : a.Good s e) : e ∈ a.net.places := by
  obtain ⟨⟨t, ht, hp⟩, _⟩ := (h.sink e).2 rfl
  exact (h.wf.post t ht).2 e hp

theorem ne (h : a.Good s e) : s ≠ e := by
  rintro rfl
  exact ((h.sink s).2 rfl).2 ((h.source s).2 rfl).1

end Pattern.Good

theorem eq_singleton {l : List String} (hn : l.Nodup) {a : String} (h : ∀ x, x ∈ l ↔ x = a) : l = [a] := by
  obtain ⟨b, hb⟩ := List.length_eq_one_iff.1 ((length_one_iff hn).2 ⟨a, h⟩)
  subst hb
  rw [(h b).1 (by simp)]

theorem sources_eq {n : Net} {s : String} (h : ∀ p, IsSource n.transitions n.pre n.post p ↔ p = s) : n.sourceSink.1 = [s] :=
  eq_singleton (nodup_source n) fun x => mem_source.trans (h x)

theorem sinks_eq {n : Net} {s : String} (h : ∀ p, IsSink n.transitions n.pre n.post p ↔ p = s) : n.sourceSink.2 = [s] :=
  eq_singleton (nodup_sink n) fun x => mem_sink.trans (h x)

theorem isWorkflow_of {n : Net} {s e : String} (hw : n.WF) (hs : ∀ p, IsSource n.transitions n.pre n.post p ↔ p = s)
    (he : ∀ p, IsSink n.transitions n.pre n.post p ↔ p = e) : n.isWorkflow = true := by
  unfold Net.isWorkflow
  rw [sources_eq hs, sinks_eq he]
  have h1 : s ∈ n.places := by
    obtain ⟨⟨t, ht, hp⟩, _⟩ := (hs s).2 rfl
    exact (hw.pre t ht).2 s hp
  have h2 : e ∈ n.places := by
    obtain ⟨⟨t, ht, hp⟩, _⟩ := (he e).2 rfl
    exact (hw.post t ht).2 e hp
  have hne : s ≠ e := by
    rintro rfl
    exact ((he s).2 rfl).2 ((hs s).2 rfl).1
  have : n.places.length ≥ 2 := by
    match hpl : n.places, h1, h2 with
    | [], h1, _ => simp at h1
    | [x], h1, h2 =>
      simp only [List.mem_singleton] at h1 h2
      exact absurd (h1.trans h2.symm) hne
    | x :: y :: l, _, _ => simp
  simp [this]

/-- copying keeps everything but the variables -/
theorem copied_ok {n : Net} (hw : n.WF) (ht : ∀ p ∈ n.places, 0 ≤ n.tokens p) : ∃ v, copied n = .ok { n with vars := v } := by
  unfold copied Net.copy
  rw [if_neg (by rintro ⟨p, hp, h⟩; have := ht p hp; omega), if_pos]
  · exact ⟨_, rfl⟩
  · exact ⟨fun p hp t h => (((hw.out p hp).2 t).1 h).1, fun t h => ⟨(hw.pre t h).2, (hw.post t h).2⟩⟩

theorem wf_vars {n : Net} (hw : n.WF) (v : Dict String Nat) : ({ n with vars := v } : Net).WF := hw.congr rfl rfl rfl rfl rfl

theorem addNames_ok {vis : String → Bool} {names : Dict String String} : ∀ (r : List (String × String)) (d : Dict String String),
    (∀ e ∈ r, vis e.1 = true → ∃ x, names.get? e.1 = some x) → (r.map Prod.snd).Nodup →
    ∃ d', addNames vis names r d = .ok d' ∧ (∀ e ∈ r, d'.get? e.2 = if vis e.1 then names.get? e.1 else d.get? e.2) ∧
      ∀ u, u ∉ r.map Prod.snd → d'.get? u = d.get? u
  | [], d, _, _ => ⟨d, rfl, by simp, fun _ _ => rfl⟩
  | (t, u) :: r, d, hn, hd => by
    rw [List.map_cons, List.nodup_cons] at hd
    have ih := fun d => addNames_ok r d (fun e he => hn e (List.mem_cons_of_mem _ he)) hd.2
    by_cases hv : vis t = true
    · obtain ⟨x, hx⟩ := hn (t, u) List.mem_cons_self hv
      obtain ⟨d', h1, h2, h3⟩ := ih (d.put u x)
      refine ⟨d', by rw [addNames, if_pos hv, hx]; exact h1, ?_, ?_⟩
      · intro e he
        rcases List.mem_cons.1 he with rfl | he
        · rw [h3 u hd.1, Dict.get?_put_self, if_pos hv, hx]
        · have hne : u ≠ e.2 := fun h => hd.1 (h ▸ List.mem_map.2 ⟨e, he, rfl⟩)
          rw [h2 e he, Dict.get?_put_of_ne _ _ hne]
      · intro v hv'
        rw [List.map_cons, List.mem_cons, not_or] at hv'
        rw [h3 v hv'.2, Dict.get?_put_of_ne _ _ (Ne.symm hv'.1)]
    · obtain ⟨d', h1, h2, h3⟩ := ih d
      refine ⟨d', by rw [addNames, if_neg hv]; exact h1, ?_, ?_⟩
      · intro e he
        rcases List.mem_cons.1 he with rfl | he
        · rw [h3 u hd.1, if_neg hv]
        · exact h2 e he
      · intro v hv'
        rw [List.map_cons, List.mem_cons, not_or] at hv'
        exact h3 v hv'.2

/-- the result of `_prepare_composition` -/
structure Prepared (a b : Pattern) (s1 e1 s2 e2 : String) (f g : String → String) (c : Prep) : Prop where
  s1 : c.s1 = s1
  e1 : c.e1 = e1
  s2 : c.s2 = f s2
  e2 : c.e2 = f e2
  net : Joined a.net b.net f g c.net
  mapA : ∀ t ∈ a.net.transitions, c.map.get? t = a.map.get? t
  mapB : ∀ t ∈ b.net.transitions, b.net.visible t = true → c.map.get? (g t) = b.map.get? t

theorem prepare_ok {a b : Pattern} {s1 e1 s2 e2 : String} (ha : a.Good s1 e1) (hb : b.Good s2 e2) :
    ∃ c f g, prepare a b = .ok c ∧ Prepared a b s1 e1 s2 e2 f g c := by
  obtain ⟨v1, h1⟩ := copied_ok ha.wf ha.tokens
  obtain ⟨v2, h2⟩ := copied_ok hb.wf hb.tokens
  obtain ⟨rp, h3, hp⟩ := renames_ok b.net.places a.net.places
  obtain ⟨rt, h4, ht⟩ := renames_ok b.net.transitions a.net.transitions
  obtain ⟨d, h5, h6, h7⟩ := addNames_ok (vis := b.net.visible) (names := b.map) rt a.map (fun e he hv => hb.names e.1 (by
    rw [← ht.fst]; exact List.mem_map.2 ⟨e, he, rfl⟩) hv) ht.nodup
  have ss1 : ∀ v, ({ a.net with vars := v } : Net).sourceSink = a.net.sourceSink := fun _ => rfl
  have ss2 : ∀ v, ({ b.net with vars := v } : Net).sourceSink = b.net.sourceSink := fun _ => rfl
  have hj := addNet_joined (a := { a.net with vars := v1 }) (b := { b.net with vars := v2 }) (wf_vars ha.wf v1) (wf_vars hb.wf v2) ha.tokens hb.tokens
    (rp := rp) (rt := rt) hp ht hp.nodup (fun x => Iff.rfl)
  refine ⟨⟨s1, e1, newId rp s2, newId rp e2, d, addNet { a.net with vars := v1 } { b.net with vars := v2 } rp rt (rp.map Prod.snd) (rt.map Prod.snd)⟩,
    newId rp, newId rt, ?_, rfl, rfl, rfl, rfl, ?_, ?_, ?_⟩
  · unfold prepare
    simp only [h1, h2, bind, Except.bind, h3, h4, h5, ss1, ss2, sources_eq ha.source, sources_eq hb.source, sinks_eq ha.sink, sinks_eq hb.sink, popSet]
    rfl
  · exact ⟨hj.wf, hj.tokens, hj.places, hj.trans, hj.fa, hj.fb, hj.inj, hj.injT, hj.new, hj.newT⟩
  · intro t hta
    exact h7 t fun hx => ht.fresh t hx hta
  · intro t htb hv
    rw [h6 _ (ht.mem_new hb.wf.transitions htb)]
    simp [hv]

/-- `n` is `n0` with the new places `ps` and the new invisible transitions `ts`, given with their input and output places -/
structure Added (n0 n : Net) (ps : List String) (ts : List (String × List String × List String)) : Prop where
  wf : n.WF
  tokens : ∀ p ∈ n.places, 0 ≤ n.tokens p
  places : n.places = n0.places ++ ps
  trans : n.transitions = n0.transitions ++ ts.map Prod.fst
  old : ∀ t ∈ n0.transitions, n.pre t = n0.pre t ∧ n.post t = n0.post t ∧ n.guard t = n0.guard t ∧ n.visible t = n0.visible t ∧ n.transLabel t = n0.transLabel t
  new : ∀ x ∈ ts, n.pre x.1 = x.2.1 ∧ n.post x.1 = x.2.2 ∧ n.guard x.1 = .always ∧ n.visible x.1 = false

namespace Added
variable {n0 n n' : Net} {ps : List String} {ts : List (String × List String × List String)}

theorem refl (hw : n0.WF) (ht : ∀ p ∈ n0.places, 0 ≤ n0.tokens p) : Added n0 n0 [] [] :=
  ⟨hw, ht, by simp, by simp, fun _ _ => ⟨rfl, rfl, rfl, rfl, rfl⟩, by simp⟩

theorem addPlace (h : Added n0 n ps ts) {id : String} (hn : n.addPlace id "" 0 = .ok n') :
    id ∉ n.places ∧ Added n0 n' (ps ++ [id]) ts := by
  obtain ⟨h1, rfl⟩ := addPlace_ok hn
  refine ⟨h1, addPlace_wf h.wf hn, ?_, ?_, h.trans, h.old, h.new⟩
  · intro p hp
    show 0 ≤ upd n.tokens id 0 p
    by_cases he : p = id
    · subst he; rw [upd_self]
    · rw [upd_ne _ _ he]
      rcases List.mem_append.1 (show p ∈ n.places ++ [id] from hp) with hp | hp
      · exact h.tokens p hp
      · exact absurd (List.mem_singleton.1 hp) he
  · show n.places ++ [id] = _
    rw [h.places, List.append_assoc]

theorem addTransition (h : Added n0 n ps ts) {id : String} (hn : n.addTransition id none false = .ok n') :
    id ∉ n.transitions ∧ Added n0 n' ps (ts ++ [(id, [], [])]) := by
  have hw := addTransition_wf h.wf hn
  unfold Net.addTransition at hn
  split at hn
  · cases hn
  next hid =>
  obtain rfl := Except.ok.inj hn
  have hold : ∀ t ∈ n.transitions, t ≠ id := fun t ht he => hid (he ▸ ht)
  refine ⟨hid, hw, h.tokens, h.places, ?_, ?_, ?_⟩
  · show n.transitions ++ [id] = _
    rw [h.trans]; simp
  · intro t ht
    have := hold t (by rw [h.trans]; exact List.mem_append_left _ ht)
    simp only [upd_ne _ _ this]
    exact h.old t ht
  · intro x hx
    rcases List.mem_append.1 hx with hx | hx
    · have := hold x.1 (by rw [h.trans]; exact List.mem_append_right _ (List.mem_map.2 ⟨x, hx, rfl⟩))
      simp only [upd_ne _ _ this]
      exact h.new x hx
    · rw [List.mem_singleton.1 hx]
      simp

theorem addConnection (h : Added n0 n ps ts) {s t e : String} (i : Nat) {a b : List String} (hi : ts[i]? = some (t, a, b))
    (hn : n.addConnection s t e = .ok n') : Added n0 n' ps (ts.set i (t, setAdd a s, setAdd b e)) := by
  have hw := addConnection_wf h.wf hn
  unfold Net.addConnection at hn
  split at hn
  · cases hn
  split at hn
  · cases hn
  split at hn
  · cases hn
  obtain rfl := Except.ok.inj hn
  obtain ⟨hlt, hi'⟩ := List.getElem?_eq_some_iff.1 hi
  have hmem : (t, a, b) ∈ ts := hi' ▸ List.getElem_mem hlt
  have hnd : (n0.transitions ++ ts.map Prod.fst).Nodup := h.trans ▸ h.wf.transitions
  rw [List.nodup_append] at hnd
  have hfst : (ts.set i (t, setAdd a s, setAdd b e)).map Prod.fst = ts.map Prod.fst := by
    rw [List.map_set]
    apply List.ext_getElem (by simp)
    intro j h1 h2
    rw [List.getElem_set]
    split
    · next hj => subst hj; rw [List.getElem_map, hi']
    · rfl
  refine ⟨hw, h.tokens, h.places, ?_, ?_, ?_⟩
  · rw [hfst]; exact h.trans
  · intro u hu
    have : u ≠ t := fun he => hnd.2.2 u hu t (List.mem_map.2 ⟨_, hmem, rfl⟩) he
    simp only [upd_ne _ _ this]
    exact h.old u hu
  · intro x hx
    rcases List.mem_or_eq_of_mem_set hx with hx' | rfl
    · by_cases hxt : x.1 = t
      · -- the entry of `t` was replaced
        obtain ⟨j, hj, hxj⟩ := List.getElem_of_mem hx
        rw [List.getElem_set] at hxj
        split at hxj
        · rw [← hxj]
          obtain ⟨e1, e2, e3, e4⟩ := h.new _ hmem
          simp only at e1 e2 e3 e4
          simp [e1, e2, e3, e4]
        · next hij =>
          exfalso
          have hj' : j < ts.length := by simpa using hj
          have hinj := hnd.2.1
          have := (List.Nodup.getElem_inj_iff hinj (i := i) (j := j) (hi := by simpa using hlt) (hj := by simpa using hj')).1 (by
            rw [List.getElem_map, List.getElem_map, hi', hxj, hxt])
          exact hij this
      · simp only [upd_ne _ _ hxt]
        exact h.new x hx'
    · obtain ⟨e1, e2, e3, e4⟩ := h.new _ hmem
      simp only at e1 e2 e3 e4
      simp [e1, e2, e3, e4]

end Added

theorem addConnection_total {n : Net} {s t e : String} (hs : s ∈ n.places) (ht : t ∈ n.transitions) (he : e ∈ n.places) :
    ∃ n', n.addConnection s t e = .ok n' := by
  unfold Net.addConnection
  rw [if_neg (not_not.2 hs), if_neg (not_not.2 he), if_neg (not_not.2 ht)]
  exact ⟨_, rfl⟩

end Prolothar.ActivityPattern
