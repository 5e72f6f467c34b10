import Verif.Props.Petri
import Mathlib.Algebra.BigOperators.Group.List.Basic
import Mathlib.Data.List.Perm.Basic
import Mathlib.Algebra.Order.Ring.Int
import Mathlib.Tactic.Ring
/-
C166: what follows for whole sequences of calls of `force_transition` and for simulation steps: the state equation,
the irrelevance of the order, monotonicity, independence of transitions without common input places, and place
invariants.
-/
namespace Prolothar.Petri
open Prolothar.Spec.Petri

/-- a program that calls `force_transition` (data_petri_net.py 317-327) for each transition of a list, in this order,
and does not catch exceptions -/
def forceAll (n : Net) : List String → Net × Py Unit
  | [] => (n, .ok ())
  | t :: ts =>
    match n.force t with
    | (n', .ok _) => forceAll n' ts
    | (n', .error e) => (n', .error e)

/-- how many transitions of `ts` consume from `p` -/
def takes (n : Net) (ts : List String) (p : String) : Nat := ts.countP (fun t => decide (p ∈ n.pre t))
/-- how many transitions of `ts` produce on `p` -/
def puts (n : Net) (ts : List String) (p : String) : Nat := ts.countP (fun t => decide (p ∈ n.post t))

theorem forceAll_same : ∀ (ts : List String) (n : Net), n.SameArcs (forceAll n ts).1
  | [], n => .refl n
  | t :: ts, n => by
    have h1 := force_same n t
    rw [forceAll]
    match hf : n.force t with
    | (n', .ok _) => rw [hf] at h1; exact h1.trans (forceAll_same ts n')
    | (n', .error e) => rw [hf] at h1; exact h1

theorem forceAll_cons_ok {n : Net} (hw : n.WF) {t : String} {ts : List String} :
    (forceAll n (t :: ts)).2 = .ok () ↔
      t ∈ n.transitions ∧ Enabled (n.pre t) n.tokens ∧ (forceAll (n.force t).1 ts).2 = .ok () := by
  by_cases h : t ∈ n.transitions ∧ Enabled (n.pre t) n.tokens
  · have hok := (C64_fire hw h.1 h.2).1
    rw [forceAll]
    match hf : n.force t with
    | (n', .ok _) => simp [h.1, h.2]
    | (n', .error e) => rw [hf] at hok; cases hok
  · have herr : (n.force t).2 = .error .value := C64_rejected hw (by rw [not_and_or] at h; exact h)
    rw [forceAll]
    match hf : n.force t with
    | (n', .ok _) => rw [hf] at herr; cases herr
    | (n', .error e) =>
      constructor
      · intro h'; cases h'
      · intro h'; exact absurd ⟨h'.1, h'.2.1⟩ h

theorem forceAll_cons {n : Net} (hw : n.WF) {t : String} (ts : List String) (ht : t ∈ n.transitions)
    (he : Enabled (n.pre t) n.tokens) : forceAll n (t :: ts) = forceAll (n.force t).1 ts := by
  have hok := (C64_fire hw ht he).1
  rw [forceAll]
  match hf : n.force t with
  | (n', .ok _) => rfl
  | (n', .error e) => rw [hf] at hok; cases hok

theorem takes_cons (n : Net) (t : String) (ts : List String) (p : String) :
    takes n (t :: ts) p = takes n ts p + (if p ∈ n.pre t then 1 else 0) := by
  unfold takes; rw [List.countP_cons]; simp
theorem puts_cons (n : Net) (t : String) (ts : List String) (p : String) :
    puts n (t :: ts) p = puts n ts p + (if p ∈ n.post t then 1 else 0) := by
  unfold puts; rw [List.countP_cons]; simp

theorem takes_same {n n' : Net} (h : n.SameArcs n') (ts : List String) (p : String) : takes n' ts p = takes n ts p := by
  unfold takes; rw [h.pre]
theorem puts_same {n n' : Net} (h : n.SameArcs n') (ts : List String) (p : String) : puts n' ts p = puts n ts p := by
  unfold puts; rw [h.post]

/-- C166: the state equation. If the whole sequence can be fired, then every place has lost one token for each firing
that consumes from it and got one for each firing that produces on it; places, transitions, arcs, guards, labels and
variables are as before. -/
theorem C166_state_equation {ts : List String} {n : Net} (hw : n.WF) (h : (forceAll n ts).2 = .ok ()) :
    (∀ p, (forceAll n ts).1.tokens p = n.tokens p - takes n ts p + puts n ts p) ∧ n.SameArcs (forceAll n ts).1 := by
  refine ⟨?_, forceAll_same ts n⟩
  induction ts generalizing n with
  | nil => intro p; simp [forceAll, takes, puts]
  | cons t ts ih =>
    intro p
    obtain ⟨ht, he, hr⟩ := (forceAll_cons_ok hw).1 h
    have hs := force_same n t
    rw [forceAll_cons hw ts ht he, ih (hs.wf hw) hr p, (C64_fire hw ht he).2.1 p, takes_same hs, puts_same hs,
      takes_cons, puts_cons]
    split <;> split <;> push_cast <;> omega

/-- C166: the order does not matter for the result: two sequences that fire the same transitions equally often and
both succeed lead to the same net. -/
theorem C166_order {ts ts' : List String} {n : Net} (hw : n.WF) (hp : ts.Perm ts') (h : (forceAll n ts).2 = .ok ())
    (h' : (forceAll n ts').2 = .ok ()) : (forceAll n ts).1 = (forceAll n ts').1 := by
  have ht : (forceAll n ts).1.tokens = (forceAll n ts').1.tokens := by
    funext p
    rw [(C166_state_equation hw h).1 p, (C166_state_equation hw h').1 p]
    unfold takes puts
    rw [hp.countP_eq, hp.countP_eq]
  have h1 := forceAll_same ts n
  have h2 := forceAll_same ts' n
  generalize (forceAll n ts).1 = a at *
  generalize (forceAll n ts').1 = b at *
  cases a; cases b
  obtain ⟨a1, a2, a3, a4, a5, a6, a7, a8, a9, a10⟩ := h1
  obtain ⟨b1, b2, b3, b4, b5, b6, b7, b8, b9, b10⟩ := h2
  simp_all

/-- C166: monotonicity. What can be fired can also be fired with more tokens, and the additional tokens stay where
they are. -/
theorem C166_monotone {ts : List String} {n n' : Net} (hw : n.WF) (hs : n.SameArcs n') (hle : ∀ p, n.tokens p ≤ n'.tokens p)
    (h : (forceAll n ts).2 = .ok ()) :
    (forceAll n' ts).2 = .ok () ∧
      ∀ p, (forceAll n' ts).1.tokens p - (forceAll n ts).1.tokens p = n'.tokens p - n.tokens p := by
  have hok : (forceAll n' ts).2 = .ok () := by
    induction ts generalizing n n' with
    | nil => rfl
    | cons t ts ih =>
      obtain ⟨ht, he, hr⟩ := (forceAll_cons_ok hw).1 h
      have hw' := hs.wf hw
      have ht' : t ∈ n'.transitions := by rw [hs.transitions]; exact ht
      have he' : Enabled (n'.pre t) n'.tokens := by
        rw [hs.pre]; exact fun p hp => le_trans (he p hp) (hle p)
      refine (forceAll_cons_ok hw').2 ⟨ht', he', ih ((force_same n t).wf hw) ?_ ?_ hr⟩
      · have a := force_same n t
        have b := force_same n' t
        exact ⟨by rw [b.1, a.1, hs.1], by rw [b.2, a.2, hs.2], by rw [b.3, a.3, hs.3], by rw [b.4, a.4, hs.4],
          by rw [b.5, a.5, hs.5], by rw [b.6, a.6, hs.6], by rw [b.7, a.7, hs.7], by rw [b.8, a.8, hs.8],
          by rw [b.9, a.9, hs.9], by rw [b.10, a.10, hs.10]⟩
      · intro p
        rw [(C64_fire hw ht he).2.1 p, (C64_fire hw' ht' he').2.1 p, hs.pre, hs.post]
        have := hle p
        omega
  refine ⟨hok, fun p => ?_⟩
  rw [(C166_state_equation hw h).1 p, (C166_state_equation (hs.wf hw) hok).1 p, takes_same hs, puts_same hs]
  omega

/-- C166: a set of enabled transitions, no two of which share an input place, can be fired in any order. -/
theorem C166_independent {ts : List String} {n : Net} (hw : n.WF) (hnd : ts.Nodup)
    (hen : ∀ t ∈ ts, t ∈ n.transitions ∧ Enabled (n.pre t) n.tokens)
    (hdis : ∀ t ∈ ts, ∀ u ∈ ts, t ≠ u → ∀ p ∈ n.pre t, p ∉ n.pre u) :
    (forceAll n ts).2 = .ok () ∧
      ∀ ts' : List String, ts'.Perm ts → forceAll n ts' = forceAll n ts := by
  have key : ∀ (ts : List String) (n : Net), n.WF → ts.Nodup → (∀ t ∈ ts, t ∈ n.transitions ∧ Enabled (n.pre t) n.tokens) →
      (∀ t ∈ ts, ∀ u ∈ ts, t ≠ u → ∀ p ∈ n.pre t, p ∉ n.pre u) → (forceAll n ts).2 = .ok () := by
    intro ts
    induction ts with
    | nil => exact fun _ _ _ _ _ => rfl
    | cons t ts ih =>
      intro n hw hnd hen hdis
      have ⟨ht, he⟩ := hen t (by simp)
      have hs := force_same n t
      refine (forceAll_cons_ok hw).2 ⟨ht, he, ih _ (hs.wf hw) (List.nodup_cons.1 hnd).2 ?_ ?_⟩
      · intro u hu
        have ⟨hu1, hu2⟩ := hen u (List.mem_cons_of_mem _ hu)
        refine ⟨by rw [hs.transitions]; exact hu1, ?_⟩
        rw [hs.pre]
        intro p hp
        have hne : u ≠ t := by rintro rfl; exact (List.nodup_cons.1 hnd).1 hu
        have hnp := hdis u (List.mem_cons_of_mem _ hu) t (by simp) hne p hp
        rw [(C64_fire hw ht he).2.1 p, if_neg hnp]
        have := hu2 p hp
        split <;> omega
      · rw [hs.pre]
        exact fun a ha b hb => hdis a (List.mem_cons_of_mem _ ha) b (List.mem_cons_of_mem _ hb)
  have hok := key ts n hw hnd hen hdis
  refine ⟨hok, fun ts' hp => ?_⟩
  have hok' := key ts' n hw (hp.nodup_iff.2 hnd) (fun t ht => hen t (hp.mem_iff.1 ht))
    (fun t ht u hu => hdis t (hp.mem_iff.1 ht) u (hp.mem_iff.1 hu))
  exact Prod.ext (C166_order hw hp hok' hok) (hok'.trans hok.symm)

/-- C166: whatever is chosen at random, a simulation step has the same effect as calling `force_transition` for some
set of transitions, none of which raises; the order of these calls is irrelevant. -/
theorem C166_simulate (h : Heap) {n : Net} (hw : n.WF) (hg : ∀ t ∈ n.transitions, ∃ b, (n.guard t).accept h = .ok b)
    (pick : String → Nat) :
    ∃ F : List String, F.Nodup ∧ (∀ t ∈ F, (n.guard t).accept h = .ok true) ∧
      ∀ F' : List String, F'.Perm F → n.simulate h pick = forceAll n F' := by
  obtain ⟨F, hnd, h1, h2, hok, hs, ht, -⟩ := C97_step h hw hg pick
  refine ⟨F, hnd, fun t ht => (h1 t ht).2.2.1, fun F' hp => ?_⟩
  have hind := C166_independent hw hnd (fun t ht => ⟨(h1 t ht).1, (h1 t ht).2.2.2⟩) h2
  rw [hind.2 F' hp]
  refine Prod.ext ?_ (hok.trans hind.1.symm)
  have hseq := (C166_state_equation hw hind.1).1
  have htok : (n.simulate h pick).1.tokens = (forceAll n F).1.tokens := by
    funext p; rw [ht p, hseq p]; rfl
  have hs' := forceAll_same F n
  generalize (n.simulate h pick).1 = a at *
  generalize (forceAll n F).1 = b at *
  cases a; cases b
  obtain ⟨a1, a2, a3, a4, a5, a6, a7, a8, a9, a10⟩ := hs
  obtain ⟨b1, b2, b3, b4, b5, b6, b7, b8, b9, b10⟩ := hs'
  simp_all

/-- weighted number of tokens -/
def weight (w : String → Int) (n : Net) : Int := (n.places.map (fun p => w p * n.tokens p)).sum

theorem sum_indicator (w : String → Int) (l : List String) : ∀ ps : List String, ps.Nodup → l.Nodup → (∀ p ∈ l, p ∈ ps) →
    (ps.map (fun p => w p * (if p ∈ l then 1 else 0))).sum = (l.map w).sum := by
  intro ps hps hl hsub
  have h1 : ((ps.filter (fun p => decide (p ∈ l))).map w).sum = (l.map w).sum := by
    apply List.Perm.sum_eq
    apply List.Perm.map
    rw [List.perm_ext_iff_of_nodup (hps.filter _) hl]
    intro p
    simp only [List.mem_filter, decide_eq_true_eq]
    exact ⟨fun h => h.2, fun h => ⟨hsub p h, h⟩⟩
  rw [← h1]
  clear h1 hsub hps
  induction ps with
  | nil => rfl
  | cons p ps ih =>
    rw [List.map_cons, List.sum_cons, ih, List.filter_cons]
    by_cases h : p ∈ l
    · rw [if_pos h, if_pos (by simpa using h)]; simp
    · rw [if_neg h, if_neg (by simpa using h)]; simp

theorem weight_fire (w : String → Int) {n : Net} (hw : n.WF) {t : String} (ht : t ∈ n.transitions)
    (he : Enabled (n.pre t) n.tokens) :
    weight w (n.force t).1 = weight w n - ((n.pre t).map w).sum + ((n.post t).map w).sum := by
  have hs := force_same n t
  unfold weight
  rw [hs.places, ← sum_indicator w (n.pre t) n.places hw.places (hw.pre t ht).1 (hw.pre t ht).2,
    ← sum_indicator w (n.post t) n.places hw.places (hw.post t ht).1 (hw.post t ht).2]
  have htok := (C64_fire hw ht he).2.1
  generalize n.places = ps
  induction ps with
  | nil => rfl
  | cons p ps ih =>
    simp only [List.map_cons, List.sum_cons]
    rw [ih, htok p]
    ring

/-- C166: place invariants. If the weights of the input places and those of the output places of every transition have
the same sum, then the weighted number of tokens never changes, whatever is fired -/
theorem C166_place_invariant (w : String → Int) {ts : List String} {n : Net} (hw : n.WF)
    (hinv : ∀ t ∈ n.transitions, ((n.pre t).map w).sum = ((n.post t).map w).sum) (h : (forceAll n ts).2 = .ok ()) :
    weight w (forceAll n ts).1 = weight w n := by
  induction ts generalizing n with
  | nil => rfl
  | cons t ts ih =>
    obtain ⟨ht, he, hr⟩ := (forceAll_cons_ok hw).1 h
    have hs := force_same n t
    rw [forceAll_cons hw ts ht he, ih (hs.wf hw) (by rw [hs.transitions, hs.pre, hs.post]; exact hinv) hr,
      weight_fire w hw ht he, hinv t ht]
    omega

/-- C166: the same for any number of simulation steps with any random choices -/
theorem C166_place_invariant_simulate (w : String → Int) (h : Heap) {n : Net} (hw : n.WF)
    (hinv : ∀ t ∈ n.transitions, ((n.pre t).map w).sum = ((n.post t).map w).sum)
    (hg : ∀ t ∈ n.transitions, ∃ b, (n.guard t).accept h = .ok b) (picks : List (String → Nat)) :
    weight w (picks.foldl (fun m pick => (m.simulate h pick).1) n) = weight w n := by
  induction picks generalizing n with
  | nil => rfl
  | cons pick picks ih =>
    obtain ⟨F, -, -, hF⟩ := C166_simulate h hw hg pick
    have hok := (C97_step h hw hg pick)
    obtain ⟨-, -, -, -, hok, hs, -⟩ := hok
    rw [List.foldl_cons, ih (hs.wf hw) (by rw [hs.transitions, hs.pre, hs.post]; exact hinv)
      (by rw [hs.transitions, hs.guard]; exact hg), hF F (.refl _)]
    exact C166_place_invariant w hw hinv (by rw [← hF F (.refl _)]; exact hok)

/-- in the example net, "t" then "u" then nothing: `b` has lost its token, `a` has it again -/
example : (forceAll exNet ["t", "u"]).2 = .ok () ∧ (forceAll exNet ["t", "u"]).1.tokens "a" = 1 ∧
    (forceAll exNet ["t", "u"]).1.tokens "b" = 0 ∧ (forceAll exNet ["u", "t"]).2 = .error .value := by decide

/-- a net with two independent transitions and a place invariant: tokens of `a`, `c` and those of `b`, `d` -/
def exPar : Net :=
  { Net.empty with
    places := ["a", "b", "c", "d"], transitions := ["t", "u", "v"]
    tokens := fun p => if p = "a" ∨ p = "b" then 1 else 0
    out := fun p => if p = "a" then ["t"] else if p = "b" then ["u"] else if p = "c" then ["v"] else []
    pre := fun t => if t = "t" then ["a"] else if t = "u" then ["b"] else if t = "v" then ["c"] else []
    post := fun t => if t = "t" then ["c"] else if t = "u" then ["d"] else if t = "v" then ["a"] else [] }

theorem exPar_wf : exPar.WF := by
  refine ⟨by decide, by decide, by decide, by decide, ?_⟩
  intro p hp
  have hp' : p = "a" ∨ p = "b" ∨ p = "c" ∨ p = "d" := by simpa [exPar] using hp
  refine ⟨by rcases hp' with rfl | rfl | rfl | rfl <;> decide, fun t => ⟨fun h => ?_, fun h => ?_⟩⟩
  · rcases hp' with rfl | rfl | rfl | rfl
    · have : t = "t" := by simpa [exPar] using h
      subst this; decide
    · have : t = "u" := by simpa [exPar] using h
      subst this; decide
    · have : t = "v" := by simpa [exPar] using h
      subst this; decide
    · simp [exPar] at h
  · have ht : t = "t" ∨ t = "u" ∨ t = "v" := by simpa [exPar] using h.1
    have h2 := h.2
    rcases ht with rfl | rfl | rfl
    · have : p = "a" := by simpa [exPar] using h2
      subst this; decide
    · have : p = "b" := by simpa [exPar] using h2
      subst this; decide
    · have : p = "c" := by simpa [exPar] using h2
      subst this; decide

/-- the hypotheses of the independence theorem and of the place invariant are met -/
example : (∀ t ∈ ["t", "u"], t ∈ exPar.transitions ∧ Enabled (exPar.pre t) exPar.tokens) ∧
    (∀ t ∈ ["t", "u"], ∀ u ∈ ["t", "u"], t ≠ u → ∀ p ∈ exPar.pre t, p ∉ exPar.pre u) ∧
    (∀ t ∈ exPar.transitions, ((exPar.pre t).map (fun p => if p = "a" ∨ p = "c" then 2 else (5 : Int))).sum =
      ((exPar.post t).map (fun p => if p = "a" ∨ p = "c" then 2 else (5 : Int))).sum) ∧
    weight (fun p => if p = "a" ∨ p = "c" then 2 else 5) exPar = 7 := by
  unfold Enabled
  decide

end Prolothar.Petri
