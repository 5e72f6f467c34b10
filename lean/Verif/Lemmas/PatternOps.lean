import Verif.Lemmas.ActivityPattern
/-
The nets of composed patterns.
-/
namespace Prolothar.ActivityPattern
open Prolothar.Petri
open Prolothar.Spec.Petri

/-- some transition consumes from `x` -/
def InPre (n : Net) (x : String) : Prop := ∃ t ∈ n.transitions, x ∈ n.pre t

/-- some transition produces on `x` -/
def InPost (n : Net) (x : String) : Prop := ∃ t ∈ n.transitions, x ∈ n.post t

theorem isSource_iff {n : Net} {x : String} : IsSource n.transitions n.pre n.post x ↔ InPre n x ∧ ¬ InPost n x := Iff.rfl
theorem isSink_iff {n : Net} {x : String} : IsSink n.transitions n.pre n.post x ↔ InPost n x ∧ ¬ InPre n x := Iff.rfl

/-- the net `n` consists of the nets of `a` and `b` (renamed), new places and new transitions -/
structure Glue (a b : Pattern) (s1 e1 s2 e2 : String) (f g : String → String) (ps : List String) (ts : List (String × List String × List String))
    (n : Net) (map : Dict String String) : Prop where
  ga : a.Good s1 e1
  gb : b.Good s2 e2
  wf : n.WF
  tokens : ∀ p ∈ n.places, 0 ≤ n.tokens p
  places : ∀ x, x ∈ n.places ↔ x ∈ a.net.places ∨ (∃ p ∈ b.net.places, f p = x) ∨ x ∈ ps
  trans : ∀ x, x ∈ n.transitions ↔ x ∈ a.net.transitions ∨ (∃ t ∈ b.net.transitions, g t = x) ∨ x ∈ ts.map Prod.fst
  fa : ∀ t ∈ a.net.transitions, n.pre t = a.net.pre t ∧ n.post t = a.net.post t ∧ n.guard t = a.net.guard t ∧ n.visible t = a.net.visible t ∧
    n.transLabel t = a.net.transLabel t
  fb : ∀ t ∈ b.net.transitions, n.pre (g t) = (b.net.pre t).map f ∧ n.post (g t) = (b.net.post t).map f ∧ n.guard (g t) = b.net.guard t ∧
    n.visible (g t) = b.net.visible t ∧ n.transLabel (g t) = b.net.transLabel t
  fn : ∀ x ∈ ts, n.pre x.1 = x.2.1 ∧ n.post x.1 = x.2.2 ∧ n.guard x.1 = .always ∧ n.visible x.1 = false
  inj : ∀ p ∈ b.net.places, ∀ q ∈ b.net.places, f p = f q → p = q
  new : ∀ p ∈ b.net.places, f p ∉ a.net.places
  mapA : ∀ t ∈ a.net.transitions, map.get? t = a.map.get? t
  mapB : ∀ t ∈ b.net.transitions, b.net.visible t = true → map.get? (g t) = b.map.get? t

theorem Prepared.glue {a b : Pattern} {s1 e1 s2 e2 : String} {f g : String → String} {c : Prep} (h : Prepared a b s1 e1 s2 e2 f g c)
    (ga : a.Good s1 e1) (gb : b.Good s2 e2) {n : Net} {ps : List String} {ts : List (String × List String × List String)}
    (hn : Added c.net n ps ts) : Glue a b s1 e1 s2 e2 f g ps ts n c.map := by
  refine ⟨ga, gb, hn.wf, hn.tokens, ?_, ?_, ?_, ?_, hn.new, h.net.inj, h.net.new, h.mapA, h.mapB⟩
  · intro x; rw [hn.places, List.mem_append, h.net.places, or_assoc]
  · intro x; rw [hn.trans, List.mem_append, h.net.trans, or_assoc]
  · intro t ht
    obtain ⟨h1, h2, h3, h4, h5⟩ := hn.old t ((h.net.trans t).2 (.inl ht))
    rw [h1, h2, h3, h4, h5]; exact h.net.fa t ht
  · intro t ht
    obtain ⟨h1, h2, h3, h4, h5⟩ := hn.old (g t) ((h.net.trans _).2 (.inr ⟨t, ht, rfl⟩))
    rw [h1, h2, h3, h4, h5]; exact h.net.fb t ht

namespace Glue
variable {a b : Pattern} {s1 e1 s2 e2 : String} {f g : String → String} {ps : List String} {ts : List (String × List String × List String)}
  {n : Net} {map : Dict String String}

theorem partA (h : Glue a b s1 e1 s2 e2 f g ps ts n map) (hp : Heap) (s e : String) :
    Part (a.sys hp s1 e1) (Pattern.sys hp ⟨n, map⟩ s e) (· ∈ a.net.places) id id where
  inj := fun _ _ _ _ h => h
  ok := fun t ht => ⟨(h.trans t).2 (.inl ht.1), by show (n.guard t).accept hp = _; rw [(h.fa t ht.1).2.2.1]; exact ht.2⟩
  pre := fun t ht x => by
    show x ∈ n.pre t ↔ _
    rw [(h.fa t ht.1).1]
    exact ⟨fun hx => ⟨x, hx, rfl⟩, fun ⟨p, hx, he⟩ => he ▸ hx⟩
  post := fun t ht x => by
    show x ∈ n.post t ↔ _
    rw [(h.fa t ht.1).2.1]
    exact ⟨fun hx => ⟨x, hx, rfl⟩, fun ⟨p, hx, he⟩ => he ▸ hx⟩
  obs := fun t ht => by
    show (if n.visible t then some (n.transLabel t, map.get? t) else none) = if a.net.visible t then some (a.net.transLabel t, a.map.get? t) else none
    rw [(h.fa t ht.1).2.2.2.1, (h.fa t ht.1).2.2.2.2, h.mapA t ht.1]
  pre_pl := fun t ht => (h.ga.wf.pre t ht.1).2
  post_pl := fun t ht => (h.ga.wf.post t ht.1).2
  pre_ne := fun t ht => h.ga.pre_ne t ht.1
  src_pl := h.ga.source_mem
  snk_pl := h.ga.sink_mem
  snk_out := fun t ht hx => ((h.ga.sink e1).2 rfl).2 ⟨t, ht.1, hx⟩

theorem partB (h : Glue a b s1 e1 s2 e2 f g ps ts n map) (hp : Heap) (s e : String) :
    Part (b.sys hp s2 e2) (Pattern.sys hp ⟨n, map⟩ s e) (· ∈ b.net.places) f g where
  inj := fun p q hp hq => h.inj p hp q hq
  ok := fun t ht => ⟨(h.trans _).2 (.inr (.inl ⟨t, ht.1, rfl⟩)), by show (n.guard (g t)).accept hp = _; rw [(h.fb t ht.1).2.2.1]; exact ht.2⟩
  pre := fun t ht x => by
    show x ∈ n.pre (g t) ↔ _
    rw [(h.fb t ht.1).1]
    exact List.mem_map
  post := fun t ht x => by
    show x ∈ n.post (g t) ↔ _
    rw [(h.fb t ht.1).2.1]
    exact List.mem_map
  obs := fun t ht => by
    show (if n.visible (g t) then some (n.transLabel (g t), map.get? (g t)) else none) =
      if b.net.visible t then some (b.net.transLabel t, b.map.get? t) else none
    rw [(h.fb t ht.1).2.2.2.1, (h.fb t ht.1).2.2.2.2]
    split
    · next hv => rw [h.mapB t ht.1 hv]
    · rfl
  pre_pl := fun t ht => (h.gb.wf.pre t ht.1).2
  post_pl := fun t ht => (h.gb.wf.post t ht.1).2
  pre_ne := fun t ht => h.gb.pre_ne t ht.1
  src_pl := h.gb.source_mem
  snk_pl := h.gb.sink_mem
  snk_out := fun t ht hx => ((h.gb.sink e2).2 rfl).2 ⟨t, ht.1, hx⟩

theorem ok_cases (h : Glue a b s1 e1 s2 e2 f g ps ts n map) {hp : Heap} {s e u : String} (hu : (Pattern.sys hp ⟨n, map⟩ s e).ok u) :
    (∃ t, (a.sys hp s1 e1).ok t ∧ u = id t) ∨ (∃ t, (b.sys hp s2 e2).ok t ∧ u = g t) ∨ u ∈ ts.map Prod.fst := by
  rcases (h.trans u).1 hu.1 with h1 | ⟨t, ht, rfl⟩ | h1
  · exact .inl ⟨u, ⟨h1, by have h2 := hu.2; rw [show (Pattern.mk n map).net.guard u = n.guard u from rfl, (h.fa u h1).2.2.1] at h2; exact h2⟩, rfl⟩
  · exact .inr (.inl ⟨t, ⟨ht, by have h2 := hu.2; rw [show (Pattern.mk n map).net.guard (g t) = n.guard (g t) from rfl, (h.fb t ht).2.2.1] at h2; exact h2⟩, rfl⟩)
  · exact .inr (.inr h1)

theorem new_ok (h : Glue a b s1 e1 s2 e2 f g ps ts n map) (hp : Heap) (s e : String) {x : String × List String × List String} (hx : x ∈ ts) :
    (Pattern.sys hp ⟨n, map⟩ s e).ok x.1 ∧ (Pattern.sys hp ⟨n, map⟩ s e).obs x.1 = none := by
  refine ⟨⟨(h.trans _).2 (.inr (.inr (List.mem_map.2 ⟨x, hx, rfl⟩))), ?_⟩, ?_⟩
  · show (n.guard x.1).accept hp = _
    rw [(h.fn x hx).2.2.1]; exact accept_always rfl
  · show (if n.visible x.1 then _ else _) = none
    rw [(h.fn x hx).2.2.2]; rfl

theorem names (h : Glue a b s1 e1 s2 e2 f g ps ts n map) : ∀ t ∈ n.transitions, n.visible t = true → ∃ x, map.get? t = some x := by
  intro t ht hv
  rcases (h.trans t).1 ht with h1 | ⟨u, hu, rfl⟩ | h1
  · rw [(h.fa t h1).2.2.2.1] at hv
    rw [h.mapA t h1]; exact h.ga.names t h1 hv
  · rw [(h.fb u hu).2.2.2.1] at hv
    rw [h.mapB u hu hv]; exact h.gb.names u hu hv
  · obtain ⟨x, hx, rfl⟩ := List.mem_map.1 h1
    rw [(h.fn x hx).2.2.2] at hv; cases hv

theorem disj (h : Glue a b s1 e1 s2 e2 f g ps ts n map) : ∀ p q, p ∈ a.net.places → q ∈ b.net.places → id p ≠ f q :=
  fun _ q hp hq he => h.new q hq (he ▸ hp)

theorem pre_ne (h : Glue a b s1 e1 s2 e2 f g ps ts n map) (hts : ∀ x ∈ ts, x.2.1 ≠ []) : ∀ t ∈ n.transitions, n.pre t ≠ [] := by
  intro t ht
  rcases (h.trans t).1 ht with h1 | ⟨u, hu, rfl⟩ | h1
  · rw [(h.fa t h1).1]; exact h.ga.pre_ne t h1
  · rw [(h.fb u hu).1]; intro he; exact h.gb.pre_ne u hu (List.map_eq_nil_iff.1 he)
  · obtain ⟨x, hx, rfl⟩ := List.mem_map.1 h1
    rw [(h.fn x hx).1]; exact hts x hx

theorem inPre (h : Glue a b s1 e1 s2 e2 f g ps ts n map) (x : String) :
    InPre n x ↔ InPre a.net x ∨ (∃ p, InPre b.net p ∧ f p = x) ∨ ∃ y ∈ ts, x ∈ y.2.1 := by
  constructor
  · rintro ⟨t, ht, hx⟩
    rcases (h.trans t).1 ht with h1 | ⟨u, hu, rfl⟩ | h1
    · rw [(h.fa t h1).1] at hx; exact .inl ⟨t, h1, hx⟩
    · rw [(h.fb u hu).1] at hx
      obtain ⟨p, hp, rfl⟩ := List.mem_map.1 hx
      exact .inr (.inl ⟨p, ⟨u, hu, hp⟩, rfl⟩)
    · obtain ⟨y, hy, rfl⟩ := List.mem_map.1 h1
      rw [(h.fn y hy).1] at hx; exact .inr (.inr ⟨y, hy, hx⟩)
  · rintro (⟨t, ht, hx⟩ | ⟨p, ⟨u, hu, hp⟩, rfl⟩ | ⟨y, hy, hx⟩)
    · exact ⟨t, (h.trans t).2 (.inl ht), by rw [(h.fa t ht).1]; exact hx⟩
    · exact ⟨g u, (h.trans _).2 (.inr (.inl ⟨u, hu, rfl⟩)), by rw [(h.fb u hu).1]; exact List.mem_map.2 ⟨p, hp, rfl⟩⟩
    · exact ⟨y.1, (h.trans _).2 (.inr (.inr (List.mem_map.2 ⟨y, hy, rfl⟩))), by rw [(h.fn y hy).1]; exact hx⟩

theorem inPost (h : Glue a b s1 e1 s2 e2 f g ps ts n map) (x : String) :
    InPost n x ↔ InPost a.net x ∨ (∃ p, InPost b.net p ∧ f p = x) ∨ ∃ y ∈ ts, x ∈ y.2.2 := by
  constructor
  · rintro ⟨t, ht, hx⟩
    rcases (h.trans t).1 ht with h1 | ⟨u, hu, rfl⟩ | h1
    · rw [(h.fa t h1).2.1] at hx; exact .inl ⟨t, h1, hx⟩
    · rw [(h.fb u hu).2.1] at hx
      obtain ⟨p, hp, rfl⟩ := List.mem_map.1 hx
      exact .inr (.inl ⟨p, ⟨u, hu, hp⟩, rfl⟩)
    · obtain ⟨y, hy, rfl⟩ := List.mem_map.1 h1
      rw [(h.fn y hy).2.1] at hx; exact .inr (.inr ⟨y, hy, hx⟩)
  · rintro (⟨t, ht, hx⟩ | ⟨p, ⟨u, hu, hp⟩, rfl⟩ | ⟨y, hy, hx⟩)
    · exact ⟨t, (h.trans t).2 (.inl ht), by rw [(h.fa t ht).2.1]; exact hx⟩
    · exact ⟨g u, (h.trans _).2 (.inr (.inl ⟨u, hu, rfl⟩)), by rw [(h.fb u hu).2.1]; exact List.mem_map.2 ⟨p, hp, rfl⟩⟩
    · exact ⟨y.1, (h.trans _).2 (.inr (.inr (List.mem_map.2 ⟨y, hy, rfl⟩))), by rw [(h.fn y hy).2.1]; exact hx⟩

theorem not_b (h : Glue a b s1 e1 s2 e2 f g ps ts n map) {x : String} (hx : x ∈ a.net.places) :
    (¬ ∃ p, InPre b.net p ∧ f p = x) ∧ ¬ ∃ p, InPost b.net p ∧ f p = x := by
  constructor
  · rintro ⟨p, ⟨t, ht, hp⟩, rfl⟩; exact h.new p ((h.gb.wf.pre t ht).2 p hp) hx
  · rintro ⟨p, ⟨t, ht, hp⟩, rfl⟩; exact h.new p ((h.gb.wf.post t ht).2 p hp) hx

theorem not_a (h : Glue a b s1 e1 s2 e2 f g ps ts n map) {x : String} (hx : x ∉ a.net.places) : ¬ InPre a.net x ∧ ¬ InPost a.net x := by
  constructor
  · rintro ⟨t, ht, hp⟩; exact hx ((h.ga.wf.pre t ht).2 x hp)
  · rintro ⟨t, ht, hp⟩; exact hx ((h.ga.wf.post t ht).2 x hp)

theorem not_b' (h : Glue a b s1 e1 s2 e2 f g ps ts n map) {x : String} (hx : ∀ p ∈ b.net.places, f p ≠ x) :
    (¬ ∃ p, InPre b.net p ∧ f p = x) ∧ ¬ ∃ p, InPost b.net p ∧ f p = x := by
  constructor
  · rintro ⟨p, ⟨t, ht, hp⟩, rfl⟩; exact hx p ((h.gb.wf.pre t ht).2 p hp) rfl
  · rintro ⟨p, ⟨t, ht, hp⟩, rfl⟩; exact hx p ((h.gb.wf.post t ht).2 p hp) rfl

theorem only_b (h : Glue a b s1 e1 s2 e2 f g ps ts n map) {q : String} (hq : q ∈ b.net.places) :
    ((∃ p, InPre b.net p ∧ f p = f q) ↔ InPre b.net q) ∧ ((∃ p, InPost b.net p ∧ f p = f q) ↔ InPost b.net q) := by
  constructor
  · constructor
    · rintro ⟨p, ⟨t, ht, hp⟩, he⟩; rw [← h.inj p ((h.gb.wf.pre t ht).2 p hp) q hq he]; exact ⟨t, ht, hp⟩
    · intro hx; exact ⟨q, hx, rfl⟩
  · constructor
    · rintro ⟨p, ⟨t, ht, hp⟩, he⟩; rw [← h.inj p ((h.gb.wf.post t ht).2 p hp) q hq he]; exact ⟨t, ht, hp⟩
    · intro hx; exact ⟨q, hx, rfl⟩

theorem logic {P Q N M S : Prop} (h : P ∧ ¬ Q ↔ S) : ((P ∨ N) ∧ ¬ (Q ∨ M)) ↔ (S ∧ ¬ M) ∨ (N ∧ ¬ M ∧ ¬ Q) := by
  rw [← h, not_or]; by_cases P <;> by_cases Q <;> by_cases N <;> by_cases M <;> simp [*]

/-- the sources of the composed net: the sources of the parts, if no new transition produces on them, and new places -/
theorem source_iff (h : Glue a b s1 e1 s2 e2 f g ps ts n map) (x : String) : IsSource n.transitions n.pre n.post x ↔
    ((x = s1 ∨ x = f s2) ∧ ¬ ∃ y ∈ ts, x ∈ y.2.2) ∨
    ((∃ y ∈ ts, x ∈ y.2.1) ∧ (¬ ∃ y ∈ ts, x ∈ y.2.2) ∧ ¬ InPost a.net x ∧ ¬ ∃ p, InPost b.net p ∧ f p = x) := by
  have hA := fun x => (isSource_iff (n := a.net) (x := x)).symm.trans (h.ga.source x)
  have hB := fun x => (isSource_iff (n := b.net) (x := x)).symm.trans (h.gb.source x)
  rw [isSource_iff, h.inPre, h.inPost]
  by_cases hx : x ∈ a.net.places
  · have h1 := h.not_b hx
    have h2 : x ≠ f s2 := fun he => h.new _ h.gb.source_mem (he ▸ hx)
    rw [eq_false h1.1, eq_false h1.2, eq_false h2, or_false, false_or, false_or, not_false_eq_true, and_true]
    exact logic (hA x)
  · have h1 := h.not_a hx
    have h2 : x ≠ s1 := fun he => hx (he ▸ h.ga.source_mem)
    rw [eq_false h1.1, eq_false h1.2, eq_false h2, false_or, false_or, false_or, not_false_eq_true, true_and]
    by_cases hq : ∃ q ∈ b.net.places, f q = x
    · obtain ⟨q, hq, rfl⟩ := hq
      have h3 := h.only_b hq
      have h4 : f q = f s2 ↔ q = s2 := ⟨h.inj q hq s2 h.gb.source_mem, fun he => by rw [he]⟩
      rw [h3.1, h3.2, h4]
      exact logic (hB q)
    · have h3 := h.not_b' (x := x) fun p hp he => hq ⟨p, hp, he⟩
      have h4 : x ≠ f s2 := fun he => hq ⟨s2, h.gb.source_mem, he.symm⟩
      rw [eq_false h3.1, eq_false h3.2, eq_false h4, false_and, false_or, false_or, false_or, not_false_eq_true, and_true]

/-- the sinks of the composed net -/
theorem sink_iff (h : Glue a b s1 e1 s2 e2 f g ps ts n map) (x : String) : IsSink n.transitions n.pre n.post x ↔
    ((x = e1 ∨ x = f e2) ∧ ¬ ∃ y ∈ ts, x ∈ y.2.1) ∨
    ((∃ y ∈ ts, x ∈ y.2.2) ∧ (¬ ∃ y ∈ ts, x ∈ y.2.1) ∧ ¬ InPre a.net x ∧ ¬ ∃ p, InPre b.net p ∧ f p = x) := by
  have hA := fun x => (isSink_iff (n := a.net) (x := x)).symm.trans (h.ga.sink x)
  have hB := fun x => (isSink_iff (n := b.net) (x := x)).symm.trans (h.gb.sink x)
  rw [isSink_iff, h.inPre, h.inPost]
  by_cases hx : x ∈ a.net.places
  · have h1 := h.not_b hx
    have h2 : x ≠ f e2 := fun he => h.new _ h.gb.sink_mem (he ▸ hx)
    rw [eq_false h1.1, eq_false h1.2, eq_false h2, or_false, false_or, false_or, not_false_eq_true, and_true]
    exact logic (hA x)
  · have h1 := h.not_a hx
    have h2 : x ≠ e1 := fun he => hx (he ▸ h.ga.sink_mem)
    rw [eq_false h1.1, eq_false h1.2, eq_false h2, false_or, false_or, false_or, not_false_eq_true, true_and]
    by_cases hq : ∃ q ∈ b.net.places, f q = x
    · obtain ⟨q, hq, rfl⟩ := hq
      have h3 := h.only_b hq
      have h4 : f q = f e2 ↔ q = e2 := ⟨h.inj q hq e2 h.gb.sink_mem, fun he => by rw [he]⟩
      rw [h3.1, h3.2, h4]
      exact logic (hB q)
    · have h3 := h.not_b' (x := x) fun p hp he => hq ⟨p, hp, he⟩
      have h4 : x ≠ f e2 := fun he => hq ⟨e2, h.gb.sink_mem, he.symm⟩
      rw [eq_false h3.1, eq_false h3.2, eq_false h4, false_and, false_or, false_or, false_or, not_false_eq_true, and_true]

theorem good (h : Glue a b s1 e1 s2 e2 f g ps ts n map) {s e : String} (hs : ∀ x, IsSource n.transitions n.pre n.post x ↔ x = s)
    (he : ∀ x, IsSink n.transitions n.pre n.post x ↔ x = e) (hts : ∀ x ∈ ts, x.2.1 ≠ []) : Pattern.Good ⟨n, map⟩ s e :=
  ⟨h.wf, h.tokens, hs, he, h.pre_ne hts, h.names⟩

end Glue

theorem mkPattern_ok {n : Net} {map : Dict String String} {s e : String} (h : Pattern.Good ⟨n, map⟩ s e) : mkPattern n (.dict map) = .ok ⟨n, map⟩ := by
  have h1 : n.isWorkflow = true := isWorkflow_of h.wf h.source h.sink
  have h2 : (n.transitions.any fun t => n.visible t && !map.has t) = false := by
    rw [List.any_eq_false]
    intro t ht hx
    rw [Bool.and_eq_true, Bool.not_eq_true'] at hx
    obtain ⟨x, hx'⟩ := h.names t ht hx.1
    have : map.has t = true := by unfold Dict.has; rw [show map.get? t = some x from hx']; rfl
    rw [this] at hx
    exact absurd hx.2 (by simp)
  unfold mkPattern
  simp only [h1, if_true, h2]
  rfl

end Prolothar.ActivityPattern
