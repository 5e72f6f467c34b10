import Verif.Lemmas.PetriPrune
import Verif.Props.Petri
/-
C100: pruning of invisible transitions.
-/
namespace Prolothar.Petri
open Prolothar.Spec.Petri

/-- the transition belongs to the net and its guard accepts -/
def Allowed (h : Heap) (n : Net) (t : String) : Prop := t ∈ n.transitions ∧ (n.guard t).accept h = .ok true

theorem accept_always {h : Heap} {g : Guard} (hg : g.isAlways = true) : g.accept h = .ok true := by
  cases g <;> first | (simp [Guard.isAlways] at hg; done) | (simp [Guard.accept])

/-- the conditions under which `prune` keeps the behaviour: the numbers of tokens are not negative, the marked places are sources
(or are not consumed from), and the net is safe -/
def Prunable (h : Heap) (n : Net) : Prop :=
  (∀ p, 0 ≤ n.tokens p) ∧
  (∀ p, n.tokens p ≠ 0 → IsSource n.transitions n.pre n.post p ∨ ∀ t ∈ n.transitions, p ∉ n.pre t) ∧
  Safe n.pre n.post (Allowed h n) n.tokens

/-- C100: `prune` succeeds for every net; it keeps all visible transitions, the remaining transitions keep their input places, labels and
guards, and the pruned net is consistent. If the net is safe and marked on source places only, the same sequences of visible
transitions can be fired before and after. More precisely, what can be reached in the pruned net can be reached in the original
one with the same visible transitions, and from every marking that is reached in the original net invisible transitions lead to
a marking that is reached in the pruned one with the same visible transitions. -/
theorem C100_prune {n : Net} (hw : n.WF) (h : Heap) :
    ∃ n', n.prune = .ok n' ∧ n'.WF ∧ n'.tokens = n.tokens ∧ n'.guard = n.guard ∧ n'.visible = n.visible ∧ n'.transLabel = n.transLabel ∧
      n'.placeLabel = n.placeLabel ∧ n'.transitions.Sublist n.transitions ∧ (∀ t ∈ n.transitions, n.visible t = true → t ∈ n'.transitions) ∧
      (∀ t ∈ n'.transitions, n'.pre t = n.pre t) ∧
      (Prunable h n → Safe n'.pre n'.post (Allowed h n') n'.tokens ∧
      (∀ σ, Trace n.pre n.post (Allowed h n) n.visible n.tokens σ ↔ Trace n'.pre n'.post (Allowed h n') n'.visible n'.tokens σ) ∧
      (∀ ts' m, Run n'.pre n'.post (Allowed h n') n'.tokens ts' m →
        ∃ ts, Run n.pre n.post (Allowed h n) n.tokens ts m ∧ ts.filter n.visible = ts'.filter n.visible) ∧
      (∀ ts m, Run n.pre n.post (Allowed h n) n.tokens ts m →
        ∃ us m', (∀ u ∈ us, n.visible u = false) ∧ Run n.pre n.post (Allowed h n) n.tokens (ts ++ us) m' ∧
          ∃ ts', Run n'.pre n'.post (Allowed h n') n'.tokens ts' m' ∧ ts'.filter n.visible = ts.filter n.visible)) := by
  have hi0 : PruneInv (Prunable h n) n n ([] ++ n.transitions) (fun u => (n.guard u).accept h = .ok true) n.visible n.tokens :=
    ⟨hw, ⟨rfl, rfl, rfl, rfl, rfl, rfl, rfl, rfl⟩, fun u hu => hu, fun _ _ => rfl, fun u hu hn => absurd hu hn, fun _ => Reduces.refl _ _ _, fun c => c.2.2⟩
  obtain ⟨n1, rem, h1, hi, hsub, hvis⟩ := pruneLoop_inv (n0 := n) (g := fun u => (n.guard u).accept h = .ok true) (si := n.sourceSink.2) (fun c => c.1)
    (so := n.sourceSink.1) (fun c p hp => by
      by_cases h0 : n.tokens p = 0
      · exact .inl h0
      · rcases c.2.1 p h0 with h' | h'
        · exact absurd (mem_source.2 h') hp
        · exact .inr h')
    (fun t ht => accept_always ht) n.transitions n [] (by simpa using hw.transitions) hi0
  rw [List.nil_append] at hsub hvis
  have hmem : ∀ p, p ∈ rem.foldl (fun s t => (n1.post t).foldl setAdd ((n1.pre t).foldl setAdd s)) [] ↔ ∃ t ∈ rem, p ∈ n1.pre t ∨ p ∈ n1.post t := by
    have : ∀ (l s : List String) p, p ∈ l.foldl (fun s t => (n1.post t).foldl setAdd ((n1.pre t).foldl setAdd s)) s ↔
        p ∈ s ∨ ∃ t ∈ l, p ∈ n1.pre t ∨ p ∈ n1.post t := by
      intro l
      induction l with
      | nil => simp
      | cons t l ih =>
        intro s p
        rw [List.foldl_cons, ih, mem_foldl_setAdd, mem_foldl_setAdd]
        simp only [List.mem_cons, exists_eq_or_imp, or_assoc]
    simpa using this rem []
  have hnd : (rem.foldl (fun s t => (n1.post t).foldl setAdd ((n1.pre t).foldl setAdd s)) []).Nodup := by
    have : ∀ (l s : List String), s.Nodup → (l.foldl (fun s t => (n1.post t).foldl setAdd ((n1.pre t).foldl setAdd s)) s).Nodup := by
      intro l
      induction l with
      | nil => exact fun s h => h
      | cons t l ih => intro s hs; exact ih _ (nodup_foldl_setAdd _ _ (nodup_foldl_setAdd _ _ hs))
    exact this rem [] List.nodup_nil
  obtain ⟨s1, s2, s3, s4, s5, s6, s7, s8⟩ := hi.same
  have hok : Allowed h { n1 with transitions := rem, places := rem.foldl (fun s t => (n1.post t).foldl setAdd ((n1.pre t).foldl setAdd s)) [] } =
      (arcs n1 rem fun u => (n.guard u).accept h = .ok true).ok := by
    funext t
    show (t ∈ rem ∧ (n1.guard t).accept h = .ok true) = (t ∈ rem ∧ _)
    rw [s4]
  refine ⟨{ n1 with transitions := rem, places := rem.foldl (fun s t => (n1.post t).foldl setAdd ((n1.pre t).foldl setAdd s)) [] },
    by unfold Net.prune; simp only [h1]; rfl, ?_, s5, s4, s3, s7, s6, hsub, hvis, hi.pre, fun c => ?_⟩
  · constructor
    · exact hnd
    · exact hw.transitions.sublist hsub
    · intro t ht
      exact ⟨(hi.wf.pre t (hi.sub t ht)).1, fun p hp => (hmem p).2 ⟨t, ht, .inl hp⟩⟩
    · intro t ht
      exact ⟨(hi.wf.post t (hi.sub t ht)).1, fun p hp => (hmem p).2 ⟨t, ht, .inr hp⟩⟩
    · intro p hp
      have hpp : p ∈ n1.places := by
        obtain ⟨t, ht, h | h⟩ := (hmem p).1 hp
        · exact (hi.wf.pre t (hi.sub t ht)).2 p h
        · exact (hi.wf.post t (hi.sub t ht)).2 p h
      refine ⟨(hi.wf.out p hpp).1, fun t => ?_⟩
      show t ∈ n1.out p ↔ t ∈ rem ∧ p ∈ n1.pre t
      rw [(hi.wf.out p hpp).2]
      constructor
      · rintro ⟨h1, h2⟩
        refine ⟨?_, h2⟩
        by_contra hnr
        rw [(hi.dead t h1 hnr).1] at h2
        cases h2
      · rintro ⟨h1, h2⟩; exact ⟨hi.sub t h1, h2⟩
  have hsafe := hi.safe c
  have hred := hi.red c
  refine ⟨?_, ?_, ?_, ?_⟩
  · rw [hok]
    show Safe n1.pre n1.post _ n1.tokens
    rw [s5]; exact hsafe
  · intro σ
    rw [hok]
    show _ ↔ Trace n1.pre n1.post _ n1.visible n1.tokens σ
    rw [s5, s3]
    exact hred.trace σ
  · intro ts' m hr
    rw [hok] at hr
    change Run n1.pre n1.post _ n1.tokens ts' m at hr
    rw [s5] at hr
    exact hred.back [] _ .nil ts' m hr
  · intro ts m hr
    obtain ⟨us, m', k1, k2, ts', k3, k4⟩ := hred.fwd ts m hr
    refine ⟨us, m', ?_, hr.append k1, ts', ?_, k4⟩
    · intro u hu
      have := List.filter_eq_nil_iff.1 k2 u hu
      simpa using this
    · rw [hok]
      show Run n1.pre n1.post _ n1.tokens ts' m'
      rw [s5]; exact k3

/-- source `s`, transition `a` to `p`, invisible transition `t` from `p` to `q`, transition `b` from `q` to `e` -/
def exChain (tokens : String → Int) (postA : List String) : Net :=
  { Net.empty with
    places := ["s", "p", "q", "e"], transitions := ["a", "t", "b"], tokens := tokens
    out := fun x => if x = "s" then ["a"] else if x = "p" then ["t"] else if x = "q" then ["b"] else []
    visible := fun x => decide (x ≠ "t")
    pre := fun x => if x = "a" then ["s"] else if x = "t" then ["p"] else if x = "b" then ["q"] else []
    post := fun x => if x = "a" then postA else if x = "t" then ["q"] else if x = "b" then ["e"] else [] }

theorem exChain_wf (tokens : String → Int) {postA : List String} (h1 : postA.Nodup) (h2 : ∀ p ∈ postA, p ∈ ["s", "p", "q", "e"]) :
    (exChain tokens postA).WF := by
  constructor
  · simp [exChain]
  · simp [exChain]
  · intro t ht
    simp only [exChain, List.mem_cons, List.not_mem_nil, or_false] at ht
    rcases ht with rfl | rfl | rfl <;> simp [exChain]
  · intro t ht
    simp only [exChain, List.mem_cons, List.not_mem_nil, or_false] at ht
    rcases ht with rfl | rfl | rfl
    · exact ⟨h1, h2⟩
    · exact ⟨by simp [exChain], by simp [exChain]⟩
    · exact ⟨by simp [exChain], by simp [exChain]⟩
  · intro p hp
    simp only [exChain, List.mem_cons, List.not_mem_nil, or_false] at hp
    rcases hp with rfl | rfl | rfl | rfl
    · refine ⟨by simp [exChain], fun t => ?_⟩
      simp only [exChain]
      constructor
      · intro h
        simp only [if_true, List.mem_singleton] at h
        subst h; decide
      · rintro ⟨h1, h2⟩
        simp only [List.mem_cons, List.not_mem_nil, or_false] at h1
        rcases h1 with rfl | rfl | rfl <;> revert h2 <;> decide
    · refine ⟨by simp [exChain], fun t => ?_⟩
      simp only [exChain]
      constructor
      · intro h
        have : t = "t" := by simpa using h
        subst this; decide
      · rintro ⟨h1, h2⟩
        simp only [List.mem_cons, List.not_mem_nil, or_false] at h1
        rcases h1 with rfl | rfl | rfl <;> revert h2 <;> decide
    · refine ⟨by simp [exChain], fun t => ?_⟩
      simp only [exChain]
      constructor
      · intro h
        have : t = "b" := by simpa using h
        subst this; decide
      · rintro ⟨h1, h2⟩
        simp only [List.mem_cons, List.not_mem_nil, or_false] at h1
        rcases h1 with rfl | rfl | rfl <;> revert h2 <;> decide
    · refine ⟨by simp [exChain], fun t => ?_⟩
      simp only [exChain]
      constructor
      · intro h
        simp at h
      · rintro ⟨h1, h2⟩
        simp only [List.mem_cons, List.not_mem_nil, or_false] at h1
        rcases h1 with rfl | rfl | rfl <;> revert h2 <;> decide

/-- one token on `s` -/
def oneToken : String → Int := fun x => if x = "s" then 1 else 0

theorem exChain_allowed {h : Heap} {tokens : String → Int} {postA : List String} {t : String} (ht : Allowed h (exChain tokens postA) t) :
    t = "a" ∨ t = "t" ∨ t = "b" := by
  simpa [exChain] using ht.1

/-- the net is safe -/
theorem exChain_safe (h : Heap) : Safe (exChain oneToken ["p"]).pre (exChain oneToken ["p"]).post (Allowed h (exChain oneToken ["p"])) (exChain oneToken ["p"]).tokens := by
  have key : ∀ ts m, Run (exChain oneToken ["p"]).pre (exChain oneToken ["p"]).post (Allowed h (exChain oneToken ["p"])) oneToken ts m →
      m "s" + m "p" + m "q" + m "e" = 1 ∧ ∀ x, x ≠ "s" → x ≠ "p" → x ≠ "q" → x ≠ "e" → m x = 0 := by
    intro ts m hr
    induction hr with
    | nil => exact ⟨by decide, fun x hx _ _ _ => by simp [oneToken, hx]⟩
    | @snoc ts m t hr ht he ih =>
      rcases exChain_allowed ht with rfl | rfl | rfl
      · refine ⟨?_, fun x h1 h2 h3 h4 => ?_⟩
        · simp [after, exChain]; linarith [ih.1]
        · simp [after, exChain, h1, h2, ih.2 x h1 h2 h3 h4]
      · refine ⟨?_, fun x h1 h2 h3 h4 => ?_⟩
        · simp [after, exChain]; linarith [ih.1]
        · simp [after, exChain, h2, h3, ih.2 x h1 h2 h3 h4]
      · refine ⟨?_, fun x h1 h2 h3 h4 => ?_⟩
        · simp [after, exChain]; linarith [ih.1]
        · simp [after, exChain, h3, h4, ih.2 x h1 h2 h3 h4]
  intro ts m hr p
  have h1 := key ts m hr
  have h0 := hr.nonneg (fun p => by show 0 ≤ oneToken p; unfold oneToken; split <;> decide)
  have hs := h0 "s"; have hp := h0 "p"; have hq := h0 "q"; have he := h0 "e"
  by_cases e1 : p = "s"
  · subst e1; linarith [h1.1]
  by_cases e2 : p = "p"
  · subst e2; linarith [h1.1]
  by_cases e3 : p = "q"
  · subst e3; linarith [h1.1]
  by_cases e4 : p = "e"
  · subst e4; linarith [h1.1]
  rw [h1.2 p e1 e2 e3 e4]; decide

/-- a net that meets all conditions of C100 -/
example (h : Heap) : (exChain oneToken ["p"]).WF ∧ Prunable h (exChain oneToken ["p"]) := by
  refine ⟨exChain_wf oneToken (by decide) (by decide), fun p => ?_, fun p hp => ?_, exChain_safe h⟩
  · show 0 ≤ oneToken p
    unfold oneToken; split <;> decide
  · have : p = "s" := by
      by_contra hne
      exact hp (by simp [exChain, oneToken, hne])
    subst this
    exact .inl ⟨⟨"a", by decide, by decide⟩, by decide⟩

/-- the invisible transition and the place `p` are removed -/
example : (exChain oneToken ["p"]).prune.toOption.map (fun n => (n.transitions, n.places, n.post "a", n.pre "b")) =
    some (["a", "b"], ["s", "q", "e"], ["q"], ["q"]) := by decide

theorem prune_fields {n : Net} {ts a b c d : List String} {x y : Int}
    (h : n.prune.toOption.map (fun n => (n.transitions, n.pre "a", n.post "a", n.pre "b", n.post "b", n.tokens "s", n.tokens "q")) =
      some (ts, a, b, c, d, x, y)) :
    ∃ n', n.prune = .ok n' ∧ n'.transitions = ts ∧ n'.pre "a" = a ∧ n'.post "a" = b ∧ n'.pre "b" = c ∧ n'.post "b" = d ∧
      n'.tokens "s" = x ∧ n'.tokens "q" = y := by
  cases hp : n.prune with
  | error e => rw [hp] at h; cases h
  | ok n' =>
    rw [hp] at h
    exact ⟨n', rfl, by simpa [Except.toOption] using h⟩

/-- in the pruned chain `b` is fired at most as often as there are tokens on `s` and `q` -/
theorem chain_count (h : Heap) {n' : Net} (ht : n'.transitions = ["a", "b"]) (h1 : n'.pre "a" = ["s"]) (h2 : n'.post "a" = ["q"])
    (h3 : n'.pre "b" = ["q"]) (h4 : n'.post "b" = ["e"]) (h5 : 0 ≤ n'.tokens "s") (h6 : 0 ≤ n'.tokens "q") {ts : List String}
    {m : String → Int} (hr : Run n'.pre n'.post (Allowed h n') n'.tokens ts m) :
    0 ≤ m "s" ∧ 0 ≤ m "q" ∧ m "s" + m "q" + ts.count "b" = n'.tokens "s" + n'.tokens "q" := by
  induction hr with
  | nil => exact ⟨h5, h6, by simp⟩
  | @snoc ts m t hr ht' he ih =>
    have hm : t = "a" ∨ t = "b" := by simpa [ht] using ht'.1
    obtain ⟨i1, i2, i3⟩ := ih
    rcases hm with rfl | rfl
    · rw [h1] at he ⊢
      rw [h2]
      have := he "s" (by simp)
      refine ⟨?_, ?_, ?_⟩ <;> simp [after] <;> linarith
    · rw [h3] at he ⊢
      rw [h4]
      have := he "q" (by simp)
      refine ⟨?_, ?_, ?_⟩ <;> simp [after] <;> linarith

theorem exChain_ok (h : Heap) (tokens : String → Int) (postA : List String) {t : String} (ht : t = "a" ∨ t = "t" ∨ t = "b") :
    Allowed h (exChain tokens postA) t := by
  refine ⟨by simpa [exChain] using ht, ?_⟩
  show Guard.always.accept h = _
  simp [Guard.accept]

/-- C100: in a net that is not safe `prune` changes the behaviour. Here the transition `a` puts a token on both `p` and `q`, so `b` can be
fired twice, but only once after pruning. -/
theorem C100_unsafe_witness (h : Heap) : ∃ n n' : Net, n.WF ∧ (∀ p, 0 ≤ n.tokens p) ∧
    (∀ p, n.tokens p ≠ 0 → IsSource n.transitions n.pre n.post p) ∧ n.prune = .ok n' ∧
    Trace n.pre n.post (Allowed h n) n.visible n.tokens ["a", "b", "b"] ∧
    ¬ Trace n'.pre n'.post (Allowed h n') n.visible n'.tokens ["a", "b", "b"] := by
  have hw := exChain_wf oneToken (postA := ["p", "q"]) (by decide) (by decide)
  obtain ⟨n', hn', h1, h2, h3, h4, h5, h6, h7⟩ := prune_fields (n := exChain oneToken ["p", "q"]) (ts := ["a", "b"]) (a := ["s"]) (b := ["q"])
    (c := ["q"]) (d := ["e"]) (x := 1) (y := 0) rfl
  refine ⟨_, n', hw, ?_, ?_, hn', ?_, ?_⟩
  · intro p
    show 0 ≤ oneToken p
    unfold oneToken; split <;> decide
  · intro p hp
    have : p = "s" := by
      by_contra hne
      exact hp (by simp [exChain, oneToken, hne])
    subst this
    exact ⟨⟨"a", by decide, by decide⟩, by decide⟩
  · refine ⟨["a", "b", "t", "b"], _, Run.snoc (ts := ["a", "b", "t"]) (Run.snoc (ts := ["a", "b"]) (Run.snoc (ts := ["a"])
      (Run.snoc (ts := []) .nil ?_ ?_) ?_ ?_) ?_ ?_) ?_ ?_, by decide⟩
    · exact exChain_ok _ _ _ (by simp)
    · intro p hp
      have : p = "s" := by simpa [exChain] using hp
      subst this; decide
    · exact exChain_ok _ _ _ (by simp)
    · intro p hp
      have : p = "q" := by simpa [exChain] using hp
      subst this; decide
    · exact exChain_ok _ _ _ (by simp)
    · intro p hp
      have : p = "p" := by simpa [exChain] using hp
      subst this; decide
    · exact exChain_ok _ _ _ (by simp)
    · intro p hp
      have : p = "q" := by simpa [exChain] using hp
      subst this; decide
  · rintro ⟨ts, m, hr, hf⟩
    obtain ⟨k1, k2, k3⟩ := chain_count h h1 h2 h3 h4 h5 (by rw [h6]; decide) (by rw [h7]) hr
    have hc : (ts.filter (exChain oneToken ["p", "q"]).visible).count "b" = ts.count "b" := List.count_filter (by decide)
    rw [hf] at hc
    rw [h6, h7, ← hc] at k3
    have : (["a", "b", "b"] : List String).count "b" = 2 := by decide
    rw [this] at k3
    push_cast at k3
    linarith

/-- C100: tokens on a place that is not a source can be lost. Here there is a token on the place `p`, from which `b` can be fired through the
invisible transition, but not after pruning. -/
theorem C100_token_lost_witness (h : Heap) : ∃ n n' : Net, n.WF ∧ (∀ p, 0 ≤ n.tokens p ∧ n.tokens p ≤ 1) ∧ n.prune = .ok n' ∧
    Trace n.pre n.post (Allowed h n) n.visible n.tokens ["b"] ∧ ¬ Trace n'.pre n'.post (Allowed h n') n.visible n'.tokens ["b"] := by
  have hw := exChain_wf (fun x => if x = "p" then 1 else 0) (postA := ["p"]) (by decide) (by decide)
  obtain ⟨n', hn', h1, h2, h3, h4, h5, h6, h7⟩ := prune_fields (n := exChain (fun x => if x = "p" then 1 else 0) ["p"]) (ts := ["a", "b"])
    (a := ["s"]) (b := ["q"]) (c := ["q"]) (d := ["e"]) (x := 0) (y := 0) rfl
  refine ⟨_, n', hw, ?_, hn', ?_, ?_⟩
  · intro p
    show 0 ≤ (if p = "p" then (1 : Int) else 0) ∧ (if p = "p" then (1 : Int) else 0) ≤ 1
    split <;> decide
  · refine ⟨["t", "b"], _, Run.snoc (ts := ["t"]) (Run.snoc (ts := []) .nil ?_ ?_) ?_ ?_, by decide⟩
    · exact exChain_ok _ _ _ (by simp)
    · intro p hp
      have : p = "p" := by simpa [exChain] using hp
      subst this; decide
    · exact exChain_ok _ _ _ (by simp)
    · intro p hp
      have : p = "q" := by simpa [exChain] using hp
      subst this; decide
  · rintro ⟨ts, m, hr, hf⟩
    obtain ⟨k1, k2, k3⟩ := chain_count h h1 h2 h3 h4 h5 (by rw [h6]) (by rw [h7]) hr
    have hc : (ts.filter (exChain (fun x => if x = "p" then 1 else 0) ["p"]).visible).count "b" = ts.count "b" := List.count_filter (by decide)
    rw [hf] at hc
    rw [h6, h7, ← hc] at k3
    have : (["b"] : List String).count "b" = 1 := by decide
    rw [this] at k3
    push_cast at k3
    linarith

end Prolothar.Petri
