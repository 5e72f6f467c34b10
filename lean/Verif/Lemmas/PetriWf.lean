import Verif.Lemmas.Petri
/-
Source and sink places, transformation to a workflow net.
-/
namespace Prolothar.Petri
open Prolothar.Spec.Petri

theorem mem_collect {f : String → List String} : ∀ (ts s : List String) (p : String),
    p ∈ ts.foldl (fun s t => (f t).foldl setAdd s) s ↔ p ∈ s ∨ ∃ t ∈ ts, p ∈ f t
  | [], s, p => by simp
  | t :: ts, s, p => by
    rw [List.foldl_cons, mem_collect ts, mem_foldl_setAdd]
    simp [or_assoc]

theorem nodup_collect {f : String → List String} : ∀ (ts s : List String), s.Nodup →
    (ts.foldl (fun s t => (f t).foldl setAdd s) s).Nodup
  | [], _, h => h
  | _ :: ts, _, h => nodup_collect ts _ (nodup_foldl_setAdd _ _ h)

theorem mem_source {n : Net} {p : String} : p ∈ n.sourceSink.1 ↔ IsSource n.transitions n.pre n.post p := by
  show p ∈ List.filter _ _ ↔ _
  rw [List.mem_filter, decide_eq_true_eq, mem_collect, mem_collect]
  simp [IsSource]

theorem mem_sink {n : Net} {p : String} : p ∈ n.sourceSink.2 ↔ IsSink n.transitions n.pre n.post p := by
  show p ∈ List.filter _ _ ↔ _
  rw [List.mem_filter, decide_eq_true_eq, mem_collect, mem_collect]
  simp [IsSink]

theorem nodup_source (n : Net) : n.sourceSink.1.Nodup := (nodup_collect _ _ List.nodup_nil).filter _
theorem nodup_sink (n : Net) : n.sourceSink.2.Nodup := (nodup_collect _ _ List.nodup_nil).filter _

theorem length_one_iff {l : List String} (h : l.Nodup) : l.length = 1 ↔ ∃ a, ∀ x, x ∈ l ↔ x = a := by
  constructor
  · intro hl
    obtain ⟨a, rfl⟩ := List.length_eq_one_iff.1 hl
    exact ⟨a, by simp⟩
  · rintro ⟨a, ha⟩
    match l, h, ha with
    | [], _, ha => exact absurd ((ha a).2 rfl) (by simp)
    | [b], _, _ => rfl
    | b :: c :: l, h, ha =>
      have hb := (ha b).1 (by simp)
      have hc := (ha c).1 (by simp)
      rw [hb, hc] at h
      simp at h

/-- `n'` is `n` with one more invisible transition for each element of `l`, whose pre- and postset are given by `f` -/
structure Grown (f : String → List String × List String) (l : List String) (n n' : Net) : Prop where
  places : n'.places = n.places
  tokens : n'.tokens = n.tokens
  vars : n'.vars = n.vars
  placeLabel : n'.placeLabel = n.placeLabel
  trans : ∃ ts, n'.transitions = n.transitions ++ ts ∧
    (∀ x ∈ n.transitions, n'.pre x = n.pre x ∧ n'.post x = n.post x ∧ n'.guard x = n.guard x ∧ n'.visible x = n.visible x ∧
      n'.transLabel x = n.transLabel x) ∧
    (∀ x ∈ ts, n'.visible x = false ∧ n'.guard x = .always ∧ ∃ p ∈ l, n'.pre x = (f p).1 ∧ n'.post x = (f p).2) ∧
    ∀ p ∈ l, ∃ x ∈ ts, n'.pre x = (f p).1 ∧ n'.post x = (f p).2

theorem Grown.nil (f : String → List String × List String) (n : Net) : Grown f [] n n :=
  ⟨rfl, rfl, rfl, rfl, [], by simp, fun _ _ => ⟨rfl, rfl, rfl, rfl, rfl⟩, by simp, by simp⟩

theorem Grown.cons {f : String → List String × List String} {p : String} {l : List String} {n n1 n2 : Net} {t a b : String}
    (hf : f p = ([a], [b])) {m : Net} (h1 : n.addTransition t none false = .ok m) (h2 : m.addConnection a t b = .ok n1)
    (h3 : Grown f l n1 n2) : Grown f (p :: l) n n2 := by
  unfold Net.addTransition at h1
  split at h1
  · cases h1
  next ht =>
  obtain rfl := Except.ok.inj h1
  unfold Net.addConnection at h2
  split at h2
  · cases h2
  split at h2
  · cases h2
  split at h2
  · cases h2
  obtain rfl := Except.ok.inj h2
  obtain ⟨e1, e2, e3, e4, ts, e5, e6, e7, e8⟩ := h3
  refine ⟨e1, e2, e3, e4, t :: ts, by rw [e5]; simp, ?_, ?_, ?_⟩
  · intro x hx
    have hne : x ≠ t := by rintro rfl; exact ht hx
    obtain ⟨a1, a2, a3, a4, a5⟩ := e6 x (by simp [hx])
    rw [a1, a2, a3, a4, a5]
    simp [upd_ne _ _ hne]
  · intro x hx
    rcases List.mem_cons.1 hx with rfl | hx
    · obtain ⟨a1, a2, a3, a4, a5⟩ := e6 x (by simp)
      refine ⟨by rw [a4]; simp, by rw [a3]; simp, p, by simp, ?_, ?_⟩
      · rw [a1, hf]; simp [setAdd]
      · rw [a2, hf]; simp [setAdd]
    · obtain ⟨b1, b2, q, hq, b3⟩ := e7 x hx
      exact ⟨b1, b2, q, by simp [hq], b3⟩
  · intro q hq
    rcases List.mem_cons.1 hq with rfl | hq
    · obtain ⟨a1, a2, a3, a4, a5⟩ := e6 t (by simp)
      refine ⟨t, by simp, ?_, ?_⟩
      · rw [a1, hf]; simp [setAdd]
      · rw [a2, hf]; simp [setAdd]
    · obtain ⟨x, hx, b⟩ := e8 q hq
      exact ⟨x, by simp [hx], b⟩

theorem bind_eq_ok {α β : Type} {x : Py α} {f : α → Py β} {b : β} (h : (x >>= f) = .ok b) : ∃ a, x = .ok a ∧ f a = .ok b := by
  cases x with
  | error e => cases h
  | ok a => exact ⟨a, rfl, h⟩

/-- the new place of `newSource` and `newSink` -/
def withPlace (n : Net) (s : String) : Net :=
  { n with places := n.places ++ [s], placeLabel := upd n.placeLabel s "", tokens := upd n.tokens s 0, out := upd n.out s [] }

theorem addPlace_ok {n n' : Net} {s : String} (h : n.addPlace s "" 0 = .ok n') : s ∉ n.places ∧ n' = withPlace n s := by
  unfold Net.addPlace at h
  rw [if_neg (by omega)] at h
  split at h
  · cases h
  · next hs => exact ⟨hs, (Except.ok.inj h).symm⟩

theorem newSource_grown {n n' : Net} {old : List String} (hw : n.WF) (h : newSource n old = .ok n') :
    ",".intercalate old ∉ n.places ∧ n'.WF ∧ Grown (fun p => ([",".intercalate old], [p])) old (withPlace n (",".intercalate old)) n' := by
  obtain ⟨n1, h1, h2⟩ := bind_eq_ok h
  have hw1 := addPlace_wf hw h1
  obtain ⟨hs, rfl⟩ := addPlace_ok h1
  refine ⟨hs, ?_⟩
  generalize ",".intercalate old = s at h2 hw1 ⊢
  clear h h1 hs
  generalize withPlace n s = m at h2 hw1 ⊢
  clear hw
  induction old generalizing m with
  | nil =>
    obtain rfl := Except.ok.inj h2
    exact ⟨hw1, .nil _ _⟩
  | cons p l ih =>
    rw [List.foldlM_cons] at h2
    obtain ⟨m2, hm, hrest⟩ := bind_eq_ok h2
    obtain ⟨m1, hm1, hm2⟩ := bind_eq_ok hm
    obtain ⟨r1, r2⟩ := ih m2 hrest (addConnection_wf (addTransition_wf hw1 hm1) hm2)
    exact ⟨r1, Grown.cons rfl hm1 hm2 r2⟩

theorem newSink_grown {n n' : Net} {old : List String} (hw : n.WF) (h : newSink n old = .ok n') :
    ",".intercalate old ∉ n.places ∧ n'.WF ∧ Grown (fun p => ([p], [",".intercalate old])) old (withPlace n (",".intercalate old)) n' := by
  obtain ⟨n1, h1, h2⟩ := bind_eq_ok h
  have hw1 := addPlace_wf hw h1
  obtain ⟨hs, rfl⟩ := addPlace_ok h1
  refine ⟨hs, ?_⟩
  generalize ",".intercalate old = s at h2 hw1 ⊢
  clear h h1 hs
  generalize withPlace n s = m at h2 hw1 ⊢
  clear hw
  induction old generalizing m with
  | nil =>
    obtain rfl := Except.ok.inj h2
    exact ⟨hw1, .nil _ _⟩
  | cons p l ih =>
    rw [List.foldlM_cons] at h2
    obtain ⟨m2, hm, hrest⟩ := bind_eq_ok h2
    obtain ⟨t, _, hm⟩ := bind_eq_ok hm
    obtain ⟨m1, hm1, hm2⟩ := bind_eq_ok hm
    obtain ⟨r1, r2⟩ := ih m2 hrest (addConnection_wf (addTransition_wf hw1 hm1) hm2)
    exact ⟨r1, Grown.cons rfl hm1 hm2 r2⟩

/-- the arcs of the grown net -/
theorem Grown.arcs {f : String → List String × List String} {l : List String} {n n' : Net} (h : Grown f l n n') (p : String) :
    ((∃ t ∈ n'.transitions, p ∈ n'.pre t) ↔ (∃ t ∈ n.transitions, p ∈ n.pre t) ∨ ∃ q ∈ l, p ∈ (f q).1) ∧
    ((∃ t ∈ n'.transitions, p ∈ n'.post t) ↔ (∃ t ∈ n.transitions, p ∈ n.post t) ∨ ∃ q ∈ l, p ∈ (f q).2) := by
  obtain ⟨-, -, -, -, ts, e5, e6, e7, e8⟩ := h
  constructor
  · rw [e5]
    constructor
    · rintro ⟨t, ht, hp⟩
      rcases List.mem_append.1 ht with ht | ht
      · exact .inl ⟨t, ht, (e6 t ht).1 ▸ hp⟩
      · obtain ⟨-, -, q, hq, h1, -⟩ := e7 t ht
        exact .inr ⟨q, hq, h1 ▸ hp⟩
    · rintro (⟨t, ht, hp⟩ | ⟨q, hq, hp⟩)
      · exact ⟨t, List.mem_append_left _ ht, (e6 t ht).1 ▸ hp⟩
      · obtain ⟨x, hx, h1, -⟩ := e8 q hq
        exact ⟨x, List.mem_append_right _ hx, h1 ▸ hp⟩
  · rw [e5]
    constructor
    · rintro ⟨t, ht, hp⟩
      rcases List.mem_append.1 ht with ht | ht
      · exact .inl ⟨t, ht, (e6 t ht).2.1 ▸ hp⟩
      · obtain ⟨-, -, q, hq, -, h1⟩ := e7 t ht
        exact .inr ⟨q, hq, h1 ▸ hp⟩
    · rintro (⟨t, ht, hp⟩ | ⟨q, hq, hp⟩)
      · exact ⟨t, List.mem_append_left _ ht, (e6 t ht).2.1 ▸ hp⟩
      · obtain ⟨x, hx, -, h1⟩ := e8 q hq
        exact ⟨x, List.mem_append_right _ hx, h1 ▸ hp⟩

end Prolothar.Petri
