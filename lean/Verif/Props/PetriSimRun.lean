import Verif.Props.PetriRun
import Verif.Lemmas.AlmostSure
import Mathlib.Data.Set.Finite.Lattice
import Mathlib.Data.Set.Finite.Basic
import Mathlib.Data.Int.Interval
import Mathlib.Data.Finset.Lattice.Fold
import Mathlib.Order.Interval.Set.Defs
import Mathlib.SetTheory.Cardinal.Finite
import Verif.Props.PatternSound
/-
C178: which markings the simulation can end in: every firing sequence that ends in a marking in which nothing more is enabled can be
reproduced by the simulation with suitable random choices, and nothing else can be reached; a simulation of a sound pattern terminates with
probability 1.
-/
namespace Prolothar.Petri
open Prolothar.Spec.Petri

/-- a program that calls `simulate_one_timestep` (data_petri_net.py 268-285) once for each element of the list, which contains the random
choices of that call, and does not catch exceptions -/
def simulateAll (h : Heap) (n : Net) : List (String → Nat) → Net × Py Unit
  | [] => (n, .ok ())
  | pick :: picks =>
    match n.simulate h pick with
    | (n', .ok _) => simulateAll h n' picks
    | (n', .error e) => (n', .error e)

/-- no transition that consumes something is enabled and has an accepting guard -/
def Finished (h : Heap) (n : Net) : Prop :=
  ∀ t ∈ n.transitions, n.pre t ≠ [] → (n.guard t).accept h = .ok true → ¬ Enabled (n.pre t) n.tokens

/-- exactly those transitions are fired that are chosen at all of their input places -/
theorem simulate_exact (h : Heap) {n : Net} (hw : n.WF) (hg : ∀ t ∈ n.transitions, ∃ b, (n.guard t).accept h = .ok b)
    (pick : String → Nat) :
    ∃ F : List String, F.Nodup ∧
      (∀ t, t ∈ F ↔ t ∈ n.transitions ∧ n.pre t ≠ [] ∧ ∀ p ∈ n.pre t, choice h n pick p = some t) ∧
      n.simulate h pick = forceAll n F ∧ (forceAll n F).2 = .ok () := by
  have hsel := select_eq (h := h) (n := n) (pick := pick) n.places []
    fun p hp t ht => hg t (((hw.out p hp).2 t).1 ht).1
  generalize hd : n.places.foldl (fun d p => bumpSel d (choice h n pick p)) [] = d at hsel
  have hcount := fun t => sel_count (c := choice h n pick) t n.places [] Dict.WF.nil
  rw [hd] at hcount
  have hwf : d.WF := (hcount "").1
  have hval : ∀ e ∈ d, e.2 = n.places.countP (fun p => choice h n pick p = some e.1) := by
    intro e he
    have h1 := (hcount e.1).2.1
    rw [Dict.get?_of_mem hwf he] at h1
    simpa [Dict.get?] using h1
  have hmem : ∀ e ∈ d, ∃ p ∈ n.places, choice h n pick p = some e.1 := by
    intro e he
    have h1 := (hcount e.1).2.2
    rw [Dict.get?_of_mem hwf he] at h1
    simpa [Dict.get?] using h1
  have hfull : ∀ e ∈ d, (n.pre e.1).length ≤ e.2 → ∀ p ∈ n.pre e.1, choice h n pick p = some e.1 := by
    intro e he hle p hp
    rw [hval e he, List.countP_eq_length_filter] at hle
    have hsub : (n.places.filter fun p => decide (choice h n pick p = some e.1)).Subperm (n.pre e.1) := by
      refine List.subperm_of_subset (hw.places.filter _) fun q hq => ?_
      rw [List.mem_filter, decide_eq_true_eq] at hq
      exact (choice_some hw hq.1 hq.2).2.1
    have hperm := hsub.perm_of_length_le hle
    have := hperm.mem_iff.2 hp
    rw [List.mem_filter, decide_eq_true_eq] at this
    exact this.2
  have htr : ∀ e ∈ d, e.1 ∈ n.transitions := by
    intro e he
    obtain ⟨p0, hp0, hc0⟩ := hmem e he
    exact (choice_some hw hp0 hc0).1
  have hen : ∀ e ∈ d, (n.pre e.1).length ≤ e.2 → Enabled (n.pre e.1) n.tokens := fun e he hle p hp =>
    (choice_some hw ((hw.pre e.1 (htr e he)).2 p hp) (hfull e he hle p hp)).2.2.2
  have hdis : ∀ e ∈ d, ∀ e' ∈ d, (n.pre e.1).length ≤ e.2 → (n.pre e'.1).length ≤ e'.2 → e.1 ≠ e'.1 →
      ∀ p ∈ n.pre e.1, p ∉ n.pre e'.1 := by
    intro e he e' he' h1 h2 hne p hp hp'
    have a := hfull e he h1 p hp
    rw [hfull e' he' h2 p hp'] at a
    exact hne (Option.some.inj a).symm
  obtain ⟨r1, r2, r3⟩ := fireSelected_spec d n hw hwf htr hen hdis
  have hsim : n.simulate h pick = fireSelected n d := by unfold Net.simulate; rw [hsel]
  have hnd : ((d.filter fun e => decide ((n.pre e.1).length ≤ e.2)).map (·.1)).Nodup :=
    List.Nodup.sublist (List.Sublist.map _ List.filter_sublist) hwf
  have hiff : ∀ t, t ∈ (d.filter fun e => decide ((n.pre e.1).length ≤ e.2)).map (·.1) ↔
      t ∈ n.transitions ∧ n.pre t ≠ [] ∧ ∀ p ∈ n.pre t, choice h n pick p = some t := by
    intro t
    constructor
    · intro ht
      obtain ⟨e, he, rfl⟩ := List.mem_map.1 ht
      rw [List.mem_filter, decide_eq_true_eq] at he
      obtain ⟨p0, hp0, hc0⟩ := hmem e he.1
      have hc := choice_some hw hp0 hc0
      exact ⟨hc.1, List.ne_nil_of_mem hc.2.1, hfull e he.1 he.2⟩
    · rintro ⟨ht, hne, hall⟩
      obtain ⟨p, hp⟩ := List.exists_mem_of_ne_nil _ hne
      have hsome := (hcount t).2.2.2 (.inr ⟨p, (hw.pre t ht).2 p hp, hall p hp⟩)
      obtain ⟨k, hk⟩ := Option.isSome_iff_exists.1 hsome
      have hke := Dict.mem_of_get? hk
      refine List.mem_map.2 ⟨(t, k), List.mem_filter.2 ⟨hke, ?_⟩, rfl⟩
      rw [decide_eq_true_eq, hval _ hke, List.countP_eq_length_filter]
      refine (List.subperm_of_subset (hw.pre t ht).1 fun q hq => ?_).length_le
      rw [List.mem_filter, decide_eq_true_eq]
      exact ⟨(hw.pre t ht).2 q hq, hall q hq⟩
  generalize (d.filter fun e => decide ((n.pre e.1).length ≤ e.2)).map (·.1) = F at *
  have hind := C166_independent hw hnd
    (fun t ht => ⟨((hiff t).1 ht).1, fun p hp =>
      (choice_some hw ((hw.pre t ((hiff t).1 ht).1).2 p hp) (((hiff t).1 ht).2.2 p hp)).2.2.2⟩)
    (fun t ht u hu hne p hp hp' => by
      have a := ((hiff t).1 ht).2.2 p hp
      rw [((hiff u).1 hu).2.2 p hp'] at a
      exact hne (Option.some.inj a).symm)
  refine ⟨F, hnd, hiff, ?_, hind.1⟩
  rw [hsim]
  refine Prod.ext ?_ (r1.trans hind.1.symm)
  have hseq := (C166_state_equation hw hind.1).1
  have htok : (fireSelected n d).1.tokens = (forceAll n F).1.tokens := by
    funext p; rw [r3 p, hseq p]; rfl
  have hs' := forceAll_same F n
  generalize (fireSelected n d).1 = a at *
  generalize (forceAll n F).1 = b at *
  cases a; cases b
  obtain ⟨a1, a2, a3, a4, a5, a6, a7, a8, a9, a10⟩ := r2
  obtain ⟨b1, b2, b3, b4, b5, b6, b7, b8, b9, b10⟩ := hs'
  simp_all

theorem forceAll_append : ∀ (u v : List String) (n : Net), (forceAll n u).2 = .ok () → forceAll n (u ++ v) = forceAll (forceAll n u).1 v
  | [], _, _, _ => rfl
  | t :: u, v, n, h => by
    rw [List.cons_append, forceAll, forceAll]
    rw [forceAll] at h
    match hf : n.force t with
    | (n', .ok _) => rw [hf] at h; exact forceAll_append u v n' h
    | (n', .error e) => rw [hf] at h; cases h

theorem forceAll_prefix : ∀ (u v : List String) (n : Net), (forceAll n (u ++ v)).2 = .ok () → (forceAll n u).2 = .ok ()
  | [], _, _, _ => rfl
  | t :: u, v, n, h => by
    rw [forceAll]
    rw [List.cons_append, forceAll] at h
    match hf : n.force t with
    | (n', .ok _) => rw [hf] at h; exact forceAll_prefix u v n' h
    | (n', .error e) => rw [hf] at h; cases h

/-- a transition that is enabled at the beginning and whose input places are not used before can be fired first -/
theorem fire_first : ∀ (u : List String) {v : List String} {t : String} {n : Net}, n.WF → (forceAll n (u ++ t :: v)).2 = .ok () →
    Enabled (n.pre t) n.tokens → (∀ s ∈ u, ∀ p ∈ n.pre t, p ∉ n.pre s) → (forceAll n (t :: (u ++ v))).2 = .ok ()
  | [], v, t, n, _, h, _, _ => h
  | s :: u, v, t, n, hw, h, he, hd => by
    obtain ⟨hs, hes, hr⟩ := (forceAll_cons_ok hw).1 h
    have hsame := force_same n s
    have het : Enabled ((n.force s).1.pre t) (n.force s).1.tokens := by
      rw [hsame.pre]
      intro p hp
      rw [(C64_fire hw hs hes).2.1 p, if_neg (hd s (by simp) p hp)]
      have := he p hp
      split <;> omega
    have ih := fire_first u (hsame.wf hw) hr het (by
      rw [hsame.pre]; exact fun x hx => hd x (List.mem_cons_of_mem _ hx))
    obtain ⟨ht, -, hr'⟩ := (forceAll_cons_ok (hsame.wf hw)).1 ih
    have ht : t ∈ n.transitions := by rw [hsame.transitions] at ht; exact ht
    have hsame' := force_same n t
    have hes' : Enabled ((n.force t).1.pre s) (n.force t).1.tokens := by
      rw [hsame'.pre]
      intro p hp
      rw [(C64_fire hw ht he).2.1 p, if_neg (fun h' => hd s (by simp) p h' hp)]
      have := hes p hp
      split <;> omega
    have hs' : s ∈ (n.force t).1.transitions := by rw [hsame'.transitions]; exact hs
    have ht' : t ∈ (n.force s).1.transitions := by rw [hsame.transitions]; exact ht
    have hst : (forceAll n [s, t]).2 = .ok () :=
      (forceAll_cons_ok hw).2 ⟨hs, hes, (forceAll_cons_ok (hsame.wf hw)).2 ⟨ht', het, rfl⟩⟩
    have hts : (forceAll n [t, s]).2 = .ok () :=
      (forceAll_cons_ok hw).2 ⟨ht, he, (forceAll_cons_ok (hsame'.wf hw)).2 ⟨hs', hes', rfl⟩⟩
    have heq := C166_order hw (List.Perm.swap t s []) hst hts
    have e1 : (forceAll n (t :: (s :: u ++ v))) = forceAll (forceAll n [t, s]).1 (u ++ v) :=
      forceAll_append [t, s] (u ++ v) n hts
    have e2 : (forceAll n (s :: t :: (u ++ v))) = forceAll (forceAll n [s, t]).1 (u ++ v) :=
      forceAll_append [s, t] (u ++ v) n hst
    rw [e1, ← heq, ← e2]
    exact (forceAll_cons_ok hw).2 ⟨hs, hes, ih⟩

/-- the first transition of the sequence that consumes from the place -/
def firstUse (n : Net) (σ : List String) (p : String) : Option String := σ.find? (fun t => decide (p ∈ n.pre t))

theorem fire_set_first : ∀ (F : List String) {σ : List String} {n : Net}, n.WF → (forceAll n σ).2 = .ok () → F.Nodup →
    (∀ t ∈ F, t ∈ σ ∧ Enabled (n.pre t) n.tokens ∧ ∀ p ∈ n.pre t, firstUse n σ p = some t) →
    ∃ σ', σ.Perm (F ++ σ') ∧ (forceAll n (F ++ σ')).2 = .ok ()
  | [], σ, n, _, h, _, _ => ⟨σ, .refl _, h⟩
  | t :: F, σ, n, hw, h, hnd, hF => by
    obtain ⟨hmem, he, hfirst⟩ := hF t (by simp)
    obtain ⟨u, v, rfl, htu⟩ := List.eq_append_cons_of_mem hmem
    have hd : ∀ s ∈ u, ∀ p ∈ n.pre t, p ∉ n.pre s := by
      intro s hs p hp hps
      have h1 := hfirst p hp
      unfold firstUse at h1
      rw [List.find?_append] at h1
      match hu : u.find? (fun t => decide (p ∈ n.pre t)) with
      | none =>
        rw [List.find?_eq_none] at hu
        exact hu s hs (by simpa using hps)
      | some x =>
        rw [hu] at h1
        have hx := List.mem_of_find?_eq_some hu
        have : x = t := by simpa using h1
        exact htu (this ▸ hx)
    have h1 := fire_first u hw h he hd
    obtain ⟨ht, -, hr⟩ := (forceAll_cons_ok hw).1 h1
    have hs := force_same n t
    rw [List.nodup_cons] at hnd
    obtain ⟨σ', hp, hok⟩ := fire_set_first F (hs.wf hw) hr hnd.2 (by
      intro f hf
      obtain ⟨g1, g2, g3⟩ := hF f (List.mem_cons_of_mem _ hf)
      have hne : f ≠ t := by rintro rfl; exact hnd.1 hf
      have hnp : ∀ p ∈ n.pre f, p ∉ n.pre t := by
        intro p hp hpt
        have := hfirst p hpt
        rw [g3 p hp] at this
        exact hne (Option.some.inj this)
      refine ⟨?_, ?_, ?_⟩
      · simp only [List.mem_append, List.mem_cons] at g1 ⊢
        tauto
      · rw [hs.pre]
        intro p hp
        rw [(C64_fire hw ht he).2.1 p, if_neg (hnp p hp)]
        have := g2 p hp
        split <;> omega
      · rw [hs.pre]
        intro p hp
        have := g3 p hp
        unfold firstUse at this ⊢
        rw [hs.pre]
        rw [List.find?_append, List.find?_cons_of_neg (by simpa using hnp p hp)] at this
        rw [List.find?_append]
        exact this)
    exact ⟨σ', List.perm_middle.trans (hp.cons t), (forceAll_cons_ok hw).2 ⟨ht, he, hok⟩⟩

/-- the random choices that follow the sequence: at every place, the first transition of the sequence that consumes from it -/
def follow (h : Heap) (n : Net) (σ : List String) (p : String) : Nat :=
  match firstUse n σ p with
  | none => 0
  | some t => ((n.out p).filter fun t => decide ((n.guard t).accept h = .ok true)).idxOf t

theorem choice_follow {h : Heap} {n : Net} (hw : n.WF) {σ : List String}
    (hσ : ∀ t ∈ σ, t ∈ n.transitions ∧ (n.guard t).accept h = .ok true)
    {p t : String} (hp : p ∈ n.places) (htok : 0 < n.tokens p) (hf : firstUse n σ p = some t) :
    choice h n (follow h n σ) p = some t := by
  unfold choice
  rw [if_pos htok]
  have htm : t ∈ σ := List.mem_of_find?_eq_some hf
  have htp : p ∈ n.pre t := by simpa using List.find?_some hf
  have hm : t ∈ (n.out p).filter (fun t => decide ((n.guard t).accept h = .ok true)) := by
    rw [List.mem_filter, (hw.out p hp).2]
    exact ⟨⟨(hσ t htm).1, htp⟩, by simpa using (hσ t htm).2⟩
  unfold follow
  rw [hf]
  dsimp only
  rw [Nat.mod_eq_of_lt (List.idxOf_lt_length_of_mem hm)]
  exact List.getElem?_idxOf hm

theorem forceAll_mem : ∀ (τ : List String) (m : Net), m.WF → (forceAll m τ).2 = .ok () → ∀ x ∈ τ, x ∈ m.transitions := by
  intro τ
  induction τ with
  | nil => simp
  | cons y τ ih =>
    intro m hm hr x hx
    obtain ⟨h1, h2, h3⟩ := (forceAll_cons_ok hm).1 hr
    rcases List.mem_cons.1 hx with rfl | hx
    · exact h1
    · have := ih _ ((force_same m y).wf hm) h3 x hx
      rwa [(force_same m y).transitions] at this

/-- C178: the simulation can end wherever firing can end. If a sequence of transitions with accepting guards that consume something can be
fired and nothing more is enabled afterwards, then there are random choices with which the simulation leads to the same net, in at most
as many time steps as the sequence has elements. -/
theorem C178_complete (h : Heap) : ∀ (k : Nat) {σ : List String} {n : Net}, σ.length ≤ k → n.WF →
    (∀ t ∈ n.transitions, ∃ b, (n.guard t).accept h = .ok b) → (forceAll n σ).2 = .ok () →
    (∀ t ∈ σ, (n.guard t).accept h = .ok true ∧ n.pre t ≠ []) → Finished h (forceAll n σ).1 →
    ∃ picks : List (String → Nat), picks.length ≤ σ.length ∧ simulateAll h n picks = forceAll n σ
  | 0, σ, n, hk, _, _, _, _, _ => by
    obtain rfl := List.eq_nil_of_length_eq_zero (Nat.le_zero.1 hk)
    exact ⟨[], Nat.le_refl _, rfl⟩
  | k + 1, [], n, _, _, _, _, _, _ => ⟨[], Nat.le_refl _, rfl⟩
  | k + 1, t :: σ, n, hk, hw, hg, hok, hσ, hfin => by
    have hσ' : ∀ x ∈ t :: σ, x ∈ n.transitions ∧ (n.guard x).accept h = .ok true := fun x hx =>
      ⟨forceAll_mem _ n hw hok x hx, (hσ x hx).1⟩
    obtain ⟨F, hnd, hF, hsim, hFok⟩ := simulate_exact h hw hg (follow h n (t :: σ))
    have hch : ∀ x ∈ F, Enabled (n.pre x) n.tokens ∧ ∀ p ∈ n.pre x, firstUse n (t :: σ) p = some x := by
      intro x hx
      obtain ⟨g1, g2, g3⟩ := (hF x).1 hx
      have hen : Enabled (n.pre x) n.tokens := fun p hp => (choice_some hw ((hw.pre x g1).2 p hp) (g3 p hp)).2.2.2
      have hsome : ∀ p ∈ n.pre x, ∀ y, firstUse n (t :: σ) p = some y → y = x := by
        intro p hp y hy
        have := choice_follow hw hσ' ((hw.pre x g1).2 p hp) (by have := hen p hp; omega) hy
        rw [g3 p hp] at this
        exact (Option.some.inj this).symm
      have hxσ : x ∈ t :: σ := by
        by_contra hnot
        have hnone : ∀ p ∈ n.pre x, firstUse n (t :: σ) p = none := by
          intro p hp
          match hy : firstUse n (t :: σ) p with
          | none => rfl
          | some y =>
            have hm : y ∈ t :: σ := List.mem_of_find?_eq_some hy
            exact absurd (hsome p hp y hy ▸ hm) hnot
        have hs := forceAll_same (t :: σ) n
        obtain ⟨p0, hp0⟩ := List.exists_mem_of_ne_nil _ g2
        have hacc := (choice_some hw ((hw.pre x g1).2 p0 hp0) (g3 p0 hp0)).2.2.1
        refine hfin x (by rw [hs.transitions]; exact g1) (by rw [hs.pre]; exact g2) (by rw [hs.guard]; exact hacc) ?_
        rw [hs.pre]
        intro p hp
        have htake : takes n (t :: σ) p = 0 := by
          have := hnone p hp
          unfold firstUse at this
          rw [List.find?_eq_none] at this
          unfold takes
          rw [List.countP_eq_zero]
          exact this
        rw [(C166_state_equation hw hok).1 p, htake]
        have := hen p hp
        push_cast
        omega
      refine ⟨hen, fun p hp => ?_⟩
      match hy : firstUse n (t :: σ) p with
      | none =>
        unfold firstUse at hy
        rw [List.find?_eq_none] at hy
        exact absurd (decide_eq_true hp) (hy x hxσ)
      | some y => rw [hsome p hp y hy]
    obtain ⟨σ', hperm, hok'⟩ := fire_set_first F hw hok hnd (by
      intro x hx
      refine ⟨?_, hch x hx⟩
      obtain ⟨p, hp⟩ := List.exists_mem_of_ne_nil _ ((hF x).1 hx).2.1
      exact List.mem_of_find?_eq_some ((hch x hx).2 p hp))
    obtain ⟨htt, hte, -⟩ := (forceAll_cons_ok hw).1 hok
    have htF : t ∈ F := by
      refine (hF t).2 ⟨htt, (hσ t (by simp)).2, fun p hp => ?_⟩
      refine choice_follow hw hσ' ((hw.pre t htt).2 p hp) (by have := hte p hp; omega) ?_
      unfold firstUse
      rw [List.find?_cons_of_pos (by simpa using hp)]
    have hlen : (t :: σ).length = F.length + σ'.length := by rw [hperm.length_eq, List.length_append]
    have hFpos : 0 < F.length := List.length_pos_of_mem htF
    have hsame := forceAll_same F n
    have happ := forceAll_append F σ' n hFok
    have heq : forceAll n (t :: σ) = forceAll (forceAll n F).1 σ' := by
      rw [← happ]
      exact Prod.ext (C166_order hw hperm hok hok') (hok.trans hok'.symm)
    obtain ⟨picks, hpl, hpk⟩ := C178_complete h k (σ := σ') (n := (forceAll n F).1) (by omega) (hsame.wf hw)
      (by rw [hsame.transitions, hsame.guard]; exact hg) (by rw [← heq]; exact hok)
      (by
        rw [hsame.guard, hsame.pre]
        exact fun x hx => hσ x (hperm.mem_iff.2 (List.mem_append_right _ hx)))
      (by rw [← heq]; exact hfin)
    refine ⟨follow h n (t :: σ) :: picks, by rw [List.length_cons]; omega, ?_⟩
    rw [heq, ← hpk, simulateAll, hsim]
    match hx : forceAll n F with
    | (n', .ok _) => rfl
    | (n', .error e) => rw [hx] at hFok; cases hFok

/-- C178: every simulation is a firing sequence: it never raises, and it leads to a net that is also reached by firing transitions with
accepting guards one after the other -/
theorem C178_sequential (h : Heap) : ∀ (picks : List (String → Nat)) {n : Net}, n.WF →
    (∀ t ∈ n.transitions, ∃ b, (n.guard t).accept h = .ok b) →
    ∃ σ : List String, (∀ t ∈ σ, (n.guard t).accept h = .ok true ∧ n.pre t ≠ []) ∧ (forceAll n σ).2 = .ok () ∧
      simulateAll h n picks = forceAll n σ
  | [], n, _, _ => ⟨[], by simp, rfl, rfl⟩
  | pick :: picks, n, hw, hg => by
    obtain ⟨F, hnd, hF, hsim, hFok⟩ := simulate_exact h hw hg pick
    have hsame := forceAll_same F n
    obtain ⟨σ, h1, h2, h3⟩ := C178_sequential h picks (hsame.wf hw) (by rw [hsame.transitions, hsame.guard]; exact hg)
    rw [hsame.guard, hsame.pre] at h1
    refine ⟨F ++ σ, ?_, ?_, ?_⟩
    · intro t ht
      rcases List.mem_append.1 ht with ht | ht
      · obtain ⟨g1, g2, g3⟩ := (hF t).1 ht
        obtain ⟨p, hp⟩ := List.exists_mem_of_ne_nil _ g2
        exact ⟨(choice_some hw ((hw.pre t g1).2 p hp) (g3 p hp)).2.2.1, g2⟩
      · exact h1 t ht
    · rw [forceAll_append F σ n hFok]; exact h2
    · rw [forceAll_append F σ n hFok, ← h3, simulateAll, hsim]
      match hx : forceAll n F with
      | (n', .ok _) => rfl
      | (n', .error e) => rw [hx] at hFok; cases hFok

/-- C178: the final markings of the simulation are exactly the final markings of the net -/
theorem C178_finals (h : Heap) {n n' : Net} (hw : n.WF) (hg : ∀ t ∈ n.transitions, ∃ b, (n.guard t).accept h = .ok b)
    (hfin : Finished h n') :
    (∃ picks, simulateAll h n picks = (n', .ok ())) ↔
      ∃ σ : List String, (∀ t ∈ σ, (n.guard t).accept h = .ok true ∧ n.pre t ≠ []) ∧ forceAll n σ = (n', .ok ()) := by
  constructor
  · rintro ⟨picks, hp⟩
    obtain ⟨σ, h1, -, h3⟩ := C178_sequential h picks hw hg
    exact ⟨σ, h1, by rw [← h3, hp]⟩
  · rintro ⟨σ, h1, h2⟩
    obtain ⟨picks, -, hp⟩ := C178_complete h σ.length (Nat.le_refl _) hw hg (by rw [h2]) h1 (by rw [h2]; exact hfin)
    exact ⟨picks, by rw [hp, h2]⟩

/-! ### almost sure termination -/

theorem simulate_finished (h : Heap) {n : Net} (hw : n.WF) (hg : ∀ t ∈ n.transitions, ∃ b, (n.guard t).accept h = .ok b)
    (hfin : Finished h n) (pick : String → Nat) : n.simulate h pick = (n, .ok ()) := by
  obtain ⟨F, -, hF, hsim, -⟩ := simulate_exact h hw hg pick
  have : F = [] := by
    rw [List.eq_nil_iff_forall_not_mem]
    intro t ht
    obtain ⟨g1, g2, g3⟩ := (hF t).1 ht
    obtain ⟨p, hp⟩ := List.exists_mem_of_ne_nil _ g2
    have hc := choice_some hw ((hw.pre t g1).2 p hp) (g3 p hp)
    exact hfin t g1 g2 hc.2.2.1 fun q hq => (choice_some hw ((hw.pre t g1).2 q hq) (g3 q hq)).2.2.2
  rw [hsim, this]; rfl

theorem simulate_congr (h : Heap) {n : Net} (hw : n.WF) (hg : ∀ t ∈ n.transitions, ∃ b, (n.guard t).accept h = .ok b)
    {pick pick' : String → Nat} (he : ∀ p ∈ n.places, choice h n pick p = choice h n pick' p) : n.simulate h pick = n.simulate h pick' := by
  have key : ∀ (ps : List String) (d : Dict String Nat), (∀ p ∈ ps, p ∈ n.places) →
      ps.foldl (fun d p => bumpSel d (choice h n pick p)) d = ps.foldl (fun d p => bumpSel d (choice h n pick' p)) d := by
    intro ps
    induction ps with
    | nil => exact fun _ _ => rfl
    | cons p ps ih =>
      intro d hp
      rw [List.foldl_cons, List.foldl_cons, he p (hp p (by simp)), ih _ fun q hq => hp q (List.mem_cons_of_mem _ hq)]
  unfold Net.simulate
  rw [select_eq n.places [] fun p hp t ht => hg t (((hw.out p hp).2 t).1 ht).1,
    select_eq n.places [] fun p hp t ht => hg t (((hw.out p hp).2 t).1 ht).1, key _ _ fun p hp => hp]

/-- how many transitions can be selected at a place that has a token -/
def options (h : Heap) (n : Net) (p : String) : Nat := (n.out p).countP fun t => decide ((n.guard t).accept h = .ok true)

/-- the random choices of one time step: one number below `M` for every place. If `M` is a multiple of the number of options at a place, then
each option is selected by the same share of the numbers below `M` (data_petri_net.py 271-281, `random.choice`) -/
def pickOf (ps : List String) (M : Nat) (ω : {p // p ∈ ps} → Fin M) (p : String) : Nat :=
  if hp : p ∈ ps then ω ⟨p, hp⟩ else 0

theorem simulateAll_ok (h : Heap) (picks : List (String → Nat)) {n : Net} (hw : n.WF)
    (hg : ∀ t ∈ n.transitions, ∃ b, (n.guard t).accept h = .ok b) :
    (simulateAll h n picks).2 = .ok () ∧ n.SameArcs (simulateAll h n picks).1 := by
  obtain ⟨σ, -, h2, h3⟩ := C178_sequential h picks hw hg
  rw [h3]
  exact ⟨h2, forceAll_same σ n⟩

theorem simulateAll_foldl (h : Heap) : ∀ (picks : List (String → Nat)) {n : Net}, n.WF →
    (∀ t ∈ n.transitions, ∃ b, (n.guard t).accept h = .ok b) →
    (simulateAll h n picks).1 = picks.foldl (fun m pick => (m.simulate h pick).1) n
  | [], _, _, _ => rfl
  | pick :: picks, n, hw, hg => by
    obtain ⟨F, -, hF, hsim, hok⟩ := simulate_exact h hw hg pick
    have hsame := forceAll_same F n
    have ih := simulateAll_foldl h picks (hsame.wf hw) (by rw [hsame.transitions, hsame.guard]; exact hg)
    rw [List.foldl_cons, hsim, ← ih, simulateAll, hsim]
    match hx : forceAll n F with
    | (n', .ok _) => rfl
    | (n', .error e) => rw [hx] at hok; cases hok

theorem forceAll_nonneg {p : String} : ∀ (σ : List String) {n : Net}, n.WF → (forceAll n σ).2 = .ok () → 0 ≤ n.tokens p →
    0 ≤ (forceAll n σ).1.tokens p
  | [], _, _, _, h => h
  | t :: σ, n, hw, hok, h0 => by
    obtain ⟨ht, he, hr⟩ := (forceAll_cons_ok hw).1 hok
    rw [forceAll_cons hw σ ht he]
    refine forceAll_nonneg σ ((force_same n t).wf hw) hr ?_
    rw [(C64_fire hw ht he).2.1 p]
    by_cases hp : p ∈ n.pre t
    · have := he p hp
      rw [if_pos hp]; split <;> omega
    · rw [if_neg hp]; split <;> omega

/-- every choice can be made with the numbers below `M` -/
theorem pick_exists (h : Heap) {n : Net} {ps : List String} {M : Nat} (hps : n.places = ps) (hM0 : 0 < M)
    (hM : ∀ p ∈ ps, options h n p ≠ 0 → options h n p ∣ M) (pick : String → Nat) :
    ∃ ω : {p // p ∈ ps} → Fin M, ∀ p ∈ n.places, choice h n (pickOf ps M ω) p = choice h n pick p := by
  have hlt : ∀ p ∈ ps, (if options h n p = 0 then 0 else pick p % options h n p) < M := by
    intro p hp
    split
    · exact hM0
    · next h0 => exact (Nat.mod_lt _ (Nat.pos_of_ne_zero h0)).trans_le (Nat.le_of_dvd hM0 (hM p hp h0))
  refine ⟨fun p => ⟨_, hlt p.1 p.2⟩, fun p hp => ?_⟩
  have hp' : p ∈ ps := hps ▸ hp
  unfold choice pickOf
  rw [dif_pos hp']
  have ho : options h n p = ((n.out p).filter fun t => decide ((n.guard t).accept h = .ok true)).length := List.countP_eq_length_filter
  by_cases h0 : options h n p = 0
  · rw [ho, List.length_eq_zero_iff] at h0
    rw [h0]; rfl
  · dsimp only
    rw [if_neg h0, ho, Nat.mod_mod]

/-- C178: almost sure termination. Let `G` describe final nets, let the number of tokens be bounded, and let a final net be reachable by
firing from wherever the simulation leads. Then the probability that the simulation, with independent and uniformly distributed random choices,
has not arrived at a final net after `m` time steps becomes arbitrarily small. -/
theorem C178_almost_sure (h : Heap) {n : Net} (hw : n.WF) (hg : ∀ t ∈ n.transitions, ∃ b, (n.guard t).accept h = .ok b)
    (h0 : ∀ p ∈ n.places, 0 ≤ n.tokens p) {B : Int} (hB : ∀ picks, ∀ p ∈ n.places, (simulateAll h n picks).1.tokens p ≤ B)
    {G : Net → Prop} (hG : ∀ n', G n' → Finished h n')
    (hopt : ∀ picks, ∃ σ : List String, (∀ t ∈ σ, (n.guard t).accept h = .ok true ∧ n.pre t ≠ []) ∧
      (forceAll (simulateAll h n picks).1 σ).2 = .ok () ∧ G (forceAll (simulateAll h n picks).1 σ).1)
    {M : Nat} (hM0 : 0 < M) (hM : ∀ p ∈ n.places, options h n p ≠ 0 → options h n p ∣ M) {ε : ℚ} (hε : 0 < ε) :
    ∃ N, ∀ m, N ≤ m →
      (Nat.card {w : Fin m → ({p // p ∈ n.places} → Fin M) // ¬ G (simulateAll h n ((List.ofFn w).map (pickOf n.places M))).1} : ℚ) ≤
        ε * (Nat.card (Fin m → ({p // p ∈ n.places} → Fin M)) : ℚ) := by
  classical
  let R : Net → Prop := fun s => ∃ picks, (simulateAll h n picks).1 = s
  let step : Net → ({p // p ∈ n.places} → Fin M) → Net := fun s ω => (s.simulate h (pickOf n.places M ω)).1
  have hRs : ∀ s, R s → n.SameArcs s := by
    rintro s ⟨picks, rfl⟩
    exact (simulateAll_ok h picks hw hg).2
  have hRw : ∀ s, R s → s.WF := fun s hs => (hRs s hs).wf hw
  have hRg : ∀ s, R s → ∀ t ∈ s.transitions, ∃ b, (s.guard t).accept h = .ok b := fun s hs => by
    rw [(hRs s hs).transitions, (hRs s hs).guard]; exact hg
  have hRstep' : ∀ s pick, R s → R (s.simulate h pick).1 := by
    rintro s pick ⟨picks, rfl⟩
    refine ⟨picks ++ [pick], ?_⟩
    rw [simulateAll_foldl h _ hw hg, List.foldl_append, ← simulateAll_foldl h _ hw hg]; rfl
  have hR : ∀ s a, R s → R (step s a) := fun s a hs => hRstep' s _ hs
  -- the goal, restricted to what can be reached
  have habs : ∀ s a, (G s ∧ R s) → (G (step s a) ∧ R (step s a)) := by
    rintro s a ⟨hg', hs⟩
    have : step s a = s := by
      show (s.simulate h _).1 = s
      rw [simulate_finished h (hRw s hs) (hRg s hs) (hG s hg')]
    rw [this]; exact ⟨hg', hs⟩
  -- finitely many nets can be reached
  have hfin : {s | R s}.Finite := by
    have hpi : (Set.pi Set.univ (fun _ : {p // p ∈ n.places} => Set.Icc (0 : Int) B)).Finite :=
      Set.Finite.pi fun _ => Set.finite_Icc 0 B
    refine Set.Finite.of_injOn (f := fun s (p : {p // p ∈ n.places}) => s.tokens p.1) ?_ ?_ hpi
    · rintro s ⟨picks, rfl⟩ p -
      refine ⟨?_, hB picks p.1 p.2⟩
      obtain ⟨σ, -, h2, h3⟩ := C178_sequential h picks hw hg
      show 0 ≤ (simulateAll h n picks).1.tokens p.1
      rw [h3]
      exact forceAll_nonneg σ hw h2 (h0 p.1 p.2)
    · intro a ha b hb hab
      have hoff : ∀ s, R s → ∀ p, p ∉ n.places → s.tokens p = n.tokens p := by
        rintro s ⟨picks, rfl⟩ p hp
        obtain ⟨σ, -, h2, h3⟩ := C178_sequential h picks hw hg
        rw [h3, (C166_state_equation hw h2).1 p]
        have hmem := forceAll_mem σ n hw h2
        have e1 : takes n σ p = 0 := by
          unfold takes
          rw [List.countP_eq_zero]
          intro t ht hpt
          exact hp ((hw.pre t (hmem t ht)).2 p (by simpa using hpt))
        have e2 : puts n σ p = 0 := by
          unfold puts
          rw [List.countP_eq_zero]
          intro t ht hpt
          exact hp ((hw.post t (hmem t ht)).2 p (by simpa using hpt))
        rw [e1, e2]; simp
      have htok : a.tokens = b.tokens := by
        funext p
        by_cases hp : p ∈ n.places
        · exact congrFun hab ⟨p, hp⟩
        · rw [hoff a ha p hp, hoff b hb p hp]
      have sa := hRs a ha
      have sb := hRs b hb
      clear hab hoff ha hb
      cases a; cases b
      obtain ⟨a1, a2, a3, a4, a5, a6, a7, a8, a9, a10⟩ := sa
      obtain ⟨b1, b2, b3, b4, b5, b6, b7, b8, b9, b10⟩ := sb
      simp_all
  -- from every reachable net there are choices that lead to a final one
  have hword : ∀ s, R s → ∃ w : List ({p // p ∈ n.places} → Fin M), G (w.foldl step s) ∧ R (w.foldl step s) := by
    intro s hs
    have key : ∀ (picks : List (String → Nat)) (s : Net), R s →
        ∃ w : List ({p // p ∈ n.places} → Fin M), w.foldl step s = picks.foldl (fun m pick => (m.simulate h pick).1) s := by
      intro picks
      induction picks with
      | nil => exact fun s _ => ⟨[], rfl⟩
      | cons pick picks ih =>
        intro s hs
        have hopts : ∀ p, options h s p = options h n p := fun p => by
          unfold options; rw [(hRs s hs).out, (hRs s hs).guard]
        obtain ⟨ω, hω⟩ := pick_exists h (hRs s hs).places hM0 (fun p hp => by rw [hopts]; exact hM p hp) pick
        have he : step s ω = (s.simulate h pick).1 :=
          congrArg Prod.fst (simulate_congr h (hRw s hs) (hRg s hs) hω)
        obtain ⟨w, hw'⟩ := ih _ (hRstep' s pick hs)
        exact ⟨ω :: w, by rw [List.foldl_cons, List.foldl_cons, he, hw']⟩
    have hRfold : ∀ (w : List ({p // p ∈ n.places} → Fin M)) (s : Net), R s → R (w.foldl step s) := by
      intro w
      induction w with
      | nil => exact fun s hs => hs
      | cons a w ih => exact fun s hs => ih _ (hR s a hs)
    obtain ⟨picks0, hp0⟩ := id hs
    obtain ⟨σ, g1, g2, g3⟩ := hopt picks0
    rw [hp0] at g2 g3
    obtain ⟨picks, -, hp⟩ := C178_complete h σ.length (Nat.le_refl _) (hRw s hs) (hRg s hs) g2
      (by rw [(hRs s hs).guard, (hRs s hs).pre]; exact g1) (hG _ g3)
    obtain ⟨w, hw'⟩ := key picks s hs
    refine ⟨w, ?_, hRfold w s hs⟩
    rw [hw', ← simulateAll_foldl h picks (hRw s hs) (hRg s hs), hp]
    exact g3
  have hne : Nonempty ({p // p ∈ n.places} → Fin M) := ⟨fun _ => ⟨0, hM0⟩⟩
  obtain ⟨N, hN⟩ := AlmostSure.misses_vanish_finite (step := step) (G := fun s => G s ∧ R s) hR habs hfin hword hε
  refine ⟨N, fun m hm => ?_⟩
  have h1 := hN n ⟨[], rfl⟩ m hm
  have hrun : ∀ w : Fin m → ({p // p ∈ n.places} → Fin M),
      (simulateAll h n ((List.ofFn w).map (pickOf n.places M))).1 = (List.ofFn w).foldl step n := by
    intro w
    rw [simulateAll_foldl h _ hw hg, List.foldl_map]
  have hcard : Nat.card {w : Fin m → ({p // p ∈ n.places} → Fin M) // ¬ G (simulateAll h n ((List.ofFn w).map (pickOf n.places M))).1} ≤
      AlmostSure.misses step (fun s => G s ∧ R s) n m := by
    rw [AlmostSure.misses_eq]
    refine Nat.card_le_card_of_injective (fun w => ⟨w.1, fun hc => w.2 ?_⟩) fun a b hab => ?_
    · rw [hrun w.1]; exact hc.1
    · exact Subtype.ext (by have := congrArg Subtype.val hab; exact this)
  refine le_trans (by exact_mod_cast hcard) (h1.trans (le_of_eq ?_))
  rw [Nat.card_eq_fintype_card, Fintype.card_fun (α := Fin m), Fintype.card_fin m, Nat.cast_pow]

/-- C178: the restriction to final markings is needed: two transitions that do not compete are always fired in the same time step, so that
the simulation of the example net cannot reach the marking in which only one of them has been fired -/
theorem C178_intermediate (h : Heap) (picks : List (String → Nat)) :
    (forceAll exPar ["t"]).2 = .ok () ∧ (simulateAll h exPar picks).1.tokens ≠ (forceAll exPar ["t"]).1.tokens := by
  have hw : exPar.WF := exPar_wf
  have hg : ∀ t ∈ exPar.transitions, ∃ b, (exPar.guard t).accept h = .ok b := fun t _ => ⟨true, accept_always rfl⟩
  refine ⟨by decide, fun heq => ?_⟩
  have ha := congrFun heq "a"
  have hd := congrFun heq "d"
  match picks with
  | [] =>
    have ha : exPar.tokens "a" = (forceAll exPar ["t"]).1.tokens "a" := ha
    exact absurd ha (by decide)
  | pick :: picks =>
    rw [simulateAll_foldl h _ hw hg, List.foldl_cons] at hd
    obtain ⟨F, hnd, q1, -, -, hs, ht, hall⟩ := C97_step h hw hg pick
    have hu : "u" ∈ F := hall "u" (by decide) (by decide) (accept_always rfl) (by unfold Enabled; decide) (by
      intro x hx hne _
      have hx' : x = "t" ∨ x = "u" ∨ x = "v" := by simpa [exPar] using hx
      rcases hx' with rfl | rfl | rfl
      · decide
      · exact absurd rfl hne
      · decide)
    have hg' : ∀ t ∈ (exPar.simulate h pick).1.transitions, ∃ b, ((exPar.simulate h pick).1.guard t).accept h = .ok b := by
      rw [hs.transitions, hs.guard]; exact hg
    rw [← simulateAll_foldl h _ (hs.wf hw) hg'] at hd
    obtain ⟨σ, -, h2, h3⟩ := C178_sequential h picks (hs.wf hw) hg'
    rw [h3, (C166_state_equation (hs.wf hw) h2).1 "d", takes_same hs, ht "d"] at hd
    have hz : ∀ l : List String, l.countP (fun t => decide ("d" ∈ exPar.pre t)) = 0 := by
      intro l
      rw [List.countP_eq_zero]
      intro t _ hc
      have hc : "d" ∈ exPar.pre t := by simpa using hc
      unfold exPar at hc
      dsimp only at hc
      split at hc
      · revert hc; decide
      · split at hc
        · revert hc; decide
        · split at hc
          · revert hc; decide
          · cases hc
    unfold takes at hd
    rw [hz, hz] at hd
    have hp : 0 < F.countP (fun t => decide ("d" ∈ exPar.post t)) := List.countP_pos_iff.2 ⟨"u", hu, by decide⟩
    have e1 : exPar.tokens "d" = 0 := by decide
    have e2 : (forceAll exPar ["t"]).1.tokens "d" = 0 := by decide
    rw [e1, e2] at hd
    push_cast at hd
    omega

/-- after `t` and `u` nothing is enabled in the first example net: the hypotheses of `C178_complete` are met. The place `a` still has a
token, and `t` is selected there again and again, but never fired. -/
example (h : Heap) : exNet.WF ∧ (forceAll exNet ["t", "u"]).2 = .ok () ∧ Finished h (forceAll exNet ["t", "u"]).1 ∧
    (∀ t ∈ ["t", "u"], (exNet.guard t).accept h = .ok true ∧ exNet.pre t ≠ []) ∧ (forceAll exNet ["t", "u"]).1.tokens "a" = 1 := by
  refine ⟨exNet_wf, by decide, ?_, fun t ht => ⟨accept_always rfl, ?_⟩, by decide⟩
  · intro t ht _ _
    have hs := forceAll_same ["t", "u"] exNet
    rw [hs.transitions] at ht
    have : t = "t" ∨ t = "u" := by simpa [exNet] using ht
    unfold Enabled
    rcases this with rfl | rfl <;> decide
  · revert t; decide

end Prolothar.Petri

namespace Prolothar.ActivityPattern
open Prolothar.Petri
open Prolothar.Spec.Petri

theorem forceAll_agree : ∀ (σ : List String) {n n' : Net}, n.WF → n.SameArcs n' → (∀ p ∈ n.places, n.tokens p = n'.tokens p) →
    (forceAll n σ).2 = .ok () →
    (forceAll n' σ).2 = .ok () ∧ ∀ p ∈ n.places, (forceAll n σ).1.tokens p = (forceAll n' σ).1.tokens p
  | [], _, _, _, _, he, _ => ⟨rfl, he⟩
  | t :: σ, n, n', hw, hs, he, hok => by
    obtain ⟨ht, hen, hr⟩ := (forceAll_cons_ok hw).1 hok
    have hw' := hs.wf hw
    have ht' : t ∈ n'.transitions := by rw [hs.transitions]; exact ht
    have hen' : Enabled (n'.pre t) n'.tokens := by
      rw [hs.pre]
      intro p hp
      rw [← he p ((hw.pre t ht).2 p hp)]
      exact hen p hp
    have a := force_same n t
    have b := force_same n' t
    obtain ⟨i1, i2⟩ := forceAll_agree σ (n := (n.force t).1) (n' := (n'.force t).1) (a.wf hw)
      ⟨by rw [b.1, a.1, hs.1], by rw [b.2, a.2, hs.2], by rw [b.3, a.3, hs.3], by rw [b.4, a.4, hs.4],
          by rw [b.5, a.5, hs.5], by rw [b.6, a.6, hs.6], by rw [b.7, a.7, hs.7], by rw [b.8, a.8, hs.8],
          by rw [b.9, a.9, hs.9], by rw [b.10, a.10, hs.10]⟩
      (by
        rw [a.places]
        intro p hp
        rw [(C64_fire hw ht hen).2.1 p, (C64_fire hw' ht' hen').2.1 p, hs.pre, hs.post, he p hp]) hr
    rw [a.places] at i2
    rw [forceAll_cons hw σ ht hen, forceAll_cons hw' σ ht' hen']
    exact ⟨i1, i2⟩

theorem forceAll_run {h : Heap} {n : Net} (hw : n.WF) (σ : List String) (hok : (forceAll n σ).2 = .ok ())
    (hσ : ∀ t ∈ σ, (n.guard t).accept h = .ok true) : Run n.pre n.post (Allowed h n) n.tokens σ (forceAll n σ).1.tokens := by
  induction σ using List.reverseRecOn with
  | nil => exact .nil
  | append_singleton σ t ih =>
    have h1 := forceAll_prefix σ [t] n hok
    have ih := ih h1 fun x hx => hσ x (List.mem_append_left _ hx)
    rw [forceAll_append σ [t] n h1] at hok ⊢
    have hs := forceAll_same σ n
    generalize (forceAll n σ).1 = m at *
    obtain ⟨ht, he, -⟩ := (forceAll_cons_ok (hs.wf hw)).1 hok
    have htok : (forceAll m [t]).1.tokens = after (n.pre t) (n.post t) m.tokens := by
      funext p
      rw [forceAll_cons (hs.wf hw) [] ht he]
      show (m.force t).1.tokens p = _
      rw [(C64_fire (hs.wf hw) ht he).2.1 p, hs.pre, hs.post]; rfl
    rw [htok]
    rw [hs.pre] at he
    rw [hs.transitions] at ht
    exact ih.snoc ⟨ht, hσ t (by simp)⟩ he

theorem run_forceAll {h : Heap} {n : Net} (hw : n.WF) {σ : List String} {m : String → Int}
    (hr : Run n.pre n.post (Allowed h n) n.tokens σ m) :
    (forceAll n σ).2 = .ok () ∧ (forceAll n σ).1.tokens = m ∧ ∀ t ∈ σ, Allowed h n t := by
  induction hr with
  | nil => exact ⟨rfl, rfl, by simp⟩
  | snoc hr ho he ih =>
    rename_i ts m' t
    obtain ⟨i1, i2, i3⟩ := ih
    have hs := forceAll_same ts n
    rw [forceAll_append ts [t] n i1]
    generalize (forceAll n ts).1 = x at *
    have ht : t ∈ x.transitions := by rw [hs.transitions]; exact ho.1
    have he' : Enabled (x.pre t) x.tokens := by rw [hs.pre, i2]; exact he
    refine ⟨(forceAll_cons_ok (hs.wf hw)).2 ⟨ht, he', rfl⟩, ?_, ?_⟩
    · funext p
      rw [forceAll_cons (hs.wf hw) [] ht he']
      show (x.force t).1.tokens p = _
      rw [(C64_fire (hs.wf hw) ht he').2.1 p, hs.pre, hs.post, i2]; rfl
    · intro u hu
      rcases List.mem_append.1 hu with hu | hu
      · exact i3 u hu
      · rw [List.mem_singleton.1 hu]; exact ho

/-- the net has the standard final marking of the pattern -/
def Pattern.AtEnd (a : Pattern) (n : Net) : Prop := ∃ m, a.finalMarking = .ok m ∧ ∀ p, n.getMarking.get? p = m.get? p

/-- what a simulation of a well-formed pattern from its standard initial marking does -/
theorem pattern_sim {a : Pattern} {s e : String} (ha : a.Good s e) (h : Heap) (hg : ∀ t ∈ a.net.transitions, ∃ b, (a.net.guard t).accept h = .ok b)
    {m0 : Dict String Int} (hm : a.initialMarking = .ok m0) :
    (a.net.setMarking m0).2 = .ok () ∧ a.net.SameArcs (a.net.setMarking m0).1 ∧
    (∀ p ∈ a.net.places, (a.net.setMarking m0).1.tokens p = single s p) ∧
    (∀ n, a.net.SameArcs n → (a.AtEnd n ↔ ∀ p ∈ a.net.places, n.tokens p = single e p)) ∧
    ∀ picks, ∃ n' : Net, a.net.SameArcs n' ∧ (a.sys h s e).Reaches n'.tokens ∧
      ∀ p ∈ a.net.places, n'.tokens p = (simulateAll h (a.net.setMarking m0).1 picks).1.tokens p := by
  obtain ⟨s', e', m, m', g1, g2, g3, g4, -, -, -, g5, g6⟩ := C114_markings ⟨s, e, ha⟩
  obtain rfl := (g3 s).1 ((ha.source s).2 rfl)
  obtain rfl := (g4 e).1 ((ha.sink e).2 rfl)
  obtain rfl : m = m0 := by rw [g1] at hm; exact Except.ok.inj hm
  have hwf : m.WF := by
    have hx := hm
    unfold Pattern.initialMarking at hx
    cases hp : popSet a.net.sourceSink.1 with
    | error x => rw [hp] at hx; cases hx
    | ok x =>
      rw [hp] at hx
      obtain rfl : a.allZeros.put x 1 = m := Except.ok.inj hx
      refine Dict.WF.put ?_ _ _
      unfold Dict.WF Dict.keys Pattern.allZeros
      rw [List.map_map]
      simpa [Function.comp_def] using ha.wf.places
  have hkeys : ∀ p ∈ m.keys, p ∈ a.net.places := by
    intro p hp
    obtain ⟨x, hx, rfl⟩ := List.mem_map.1 hp
    have := Dict.get?_of_mem hwf hx
    rw [g5] at this
    by_contra hc
    rw [if_neg hc] at this; cases this
  obtain ⟨k1, k2, k3, -⟩ := C66_set_get hwf hkeys
  have htok : ∀ p ∈ a.net.places, (a.net.setMarking m).1.tokens p = single s p := by
    intro p hp
    rw [k3, g5, if_pos hp]; rfl
  refine ⟨k1, k2, htok, ?_, ?_⟩
  · intro n hn
    have hget : ∀ p, n.getMarking.get? p = if p ∈ n.places then some (n.tokens p) else none := fun p => getMarking_get n p
    constructor
    · rintro ⟨m'', q1, q2⟩ p hp
      rw [g2] at q1
      obtain rfl := Except.ok.inj q1
      have := q2 p
      rw [hget, hn.places, if_pos hp, g6, if_pos hp] at this
      exact Option.some.inj this
    · intro hall
      refine ⟨m', g2, fun p => ?_⟩
      rw [hget, hn.places, g6]
      split
      · next hp => rw [hall p hp]
      · rfl
  · intro picks
    have hw' := k2.wf ha.wf
    obtain ⟨σ, q1, q2, q3⟩ := C178_sequential h picks hw' (by rw [k2.transitions, k2.guard]; exact hg)
    have hs1 := tokens_same a.net (single s)
    have hback : (a.net.setMarking m).1.SameArcs { a.net with tokens := single s } :=
      ⟨k2.1.symm, k2.2.symm, k2.3.symm, k2.4.symm, k2.5.symm, k2.6.symm, k2.7.symm, k2.8.symm, k2.9.symm, k2.10.symm⟩
    obtain ⟨r1, r2⟩ := forceAll_agree σ hw' hback (by rw [k2.places]; exact htok) q2
    rw [k2.guard, k2.pre] at q1
    refine ⟨(forceAll { a.net with tokens := single s } σ).1, hs1.trans (forceAll_same _ _), ⟨σ, ?_⟩, ?_⟩
    · exact forceAll_run (h := h) (hs1.wf ha.wf) σ r1 fun t ht => (q1 t ht).1
    · intro p hp
      rw [q3, r2 p (by rw [k2.places]; exact hp)]

theorem finished_of_end {a : Pattern} {s e : String} (ha : a.Good s e) {h : Heap} {n : Net} (hn : a.net.SameArcs n)
    (he : ∀ p ∈ a.net.places, n.tokens p = single e p) : Finished h n := by
  intro t ht hne _ hen
  obtain ⟨p, hpt⟩ := List.exists_mem_of_ne_nil _ hne
  have htok := hen p hpt
  rw [hn.transitions] at ht
  rw [hn.pre] at hpt
  rw [he p ((ha.wf.pre t ht).2 p hpt)] at htok
  have : p = e := by
    by_contra hne
    unfold single at htok
    rw [if_neg hne] at htok; exact absurd htok (by decide)
  subst this
  exact absurd ⟨t, ht, hpt⟩ ((ha.sink p).2 rfl).2

/-- C178: a simulation of a sound pattern can always be completed: whatever has been chosen at random so far, there are random choices that
lead to the standard final marking. -/
theorem C178_option_to_complete {a : Pattern} (ha : a.Valid) {h : Heap} (hs : a.Sound h)
    (hg : ∀ t ∈ a.net.transitions, ∃ b, (a.net.guard t).accept h = .ok b) {m0 : Dict String Int} (hm : a.initialMarking = .ok m0)
    (picks : List (String → Nat)) :
    (∃ σ : List String, (∀ t ∈ σ, (a.net.guard t).accept h = .ok true ∧ a.net.pre t ≠ []) ∧
      (forceAll (simulateAll h (a.net.setMarking m0).1 picks).1 σ).2 = .ok () ∧
      a.AtEnd (forceAll (simulateAll h (a.net.setMarking m0).1 picks).1 σ).1) ∧
    ∃ picks', a.AtEnd (simulateAll h (a.net.setMarking m0).1 (picks ++ picks')).1 := by
  obtain ⟨s, e, ha⟩ := ha
  have hs := ha.sound.1 hs
  obtain ⟨-, k2, -, k4, k5⟩ := pattern_sim ha h hg hm
  have hw0 := k2.wf ha.wf
  have hg0 : ∀ t ∈ (a.net.setMarking m0).1.transitions, ∃ b, ((a.net.setMarking m0).1.guard t).accept h = .ok b := by
    rw [k2.transitions, k2.guard]; exact hg
  obtain ⟨n', l1, l2, l3⟩ := k5 picks
  have hsim := simulateAll_ok h picks hw0 hg0
  obtain ⟨us, hus⟩ := hs.1 _ l2
  have hus : Run n'.pre n'.post (Allowed h n') n'.tokens us (single e) := by
    have hal : Allowed h n' = Allowed h a.net := by
      funext t; unfold Allowed; rw [l1.transitions, l1.guard]
    rw [l1.pre, l1.post, hal]; exact hus
  obtain ⟨f1, f2, f3⟩ := run_forceAll (l1.wf ha.wf) hus
  have hx := k2.trans hsim.2
  have hback : n'.SameArcs (simulateAll h (a.net.setMarking m0).1 picks).1 :=
    ⟨by rw [hx.1, l1.1], by rw [hx.2, l1.2], by rw [hx.3, l1.3], by rw [hx.4, l1.4], by rw [hx.5, l1.5], by rw [hx.6, l1.6],
      by rw [hx.7, l1.7], by rw [hx.8, l1.8], by rw [hx.9, l1.9], by rw [hx.10, l1.10]⟩
  obtain ⟨r1, r2⟩ := forceAll_agree us (l1.wf ha.wf) hback (by rw [l1.places]; exact l3) f1
  have hacc : ∀ t ∈ us, (a.net.guard t).accept h = .ok true ∧ a.net.pre t ≠ [] := by
    intro t ht
    have := f3 t ht
    unfold Allowed at this
    rw [l1.transitions, l1.guard] at this
    exact ⟨this.2, ha.pre_ne t this.1⟩
  have hsame := hx.trans (forceAll_same us _)
  have hend : a.AtEnd (forceAll (simulateAll h (a.net.setMarking m0).1 picks).1 us).1 := by
    refine (k4 _ hsame).2 fun p hp => ?_
    rw [← r2 p (by rw [l1.places]; exact hp), f2]
  refine ⟨⟨us, hacc, r1, hend⟩, ?_⟩
  obtain ⟨picks', -, hp⟩ := C178_complete h us.length (Nat.le_refl _) (hsim.2.wf hw0)
    (by rw [hsim.2.transitions, hsim.2.guard]; exact hg0) r1 (by rw [hx.guard, hx.pre]; exact hacc)
    (finished_of_end ha hsame ((k4 _ hsame).1 hend))
  refine ⟨picks', ?_⟩
  rw [simulateAll_foldl h _ hw0 hg0, List.foldl_append, ← simulateAll_foldl h _ hw0 hg0,
    ← simulateAll_foldl h _ (hsim.2.wf hw0) (by rw [hsim.2.transitions, hsim.2.guard]; exact hg0), hp]
  exact hend

/-- C178: a simulation of a sound pattern terminates with probability 1: the probability that the standard final marking has not been
reached after `m` time steps becomes arbitrarily small. -/
theorem C178_pattern_terminates {a : Pattern} (ha : a.Valid) {h : Heap} (hs : a.Sound h) (h1 : a.OneSafe h)
    (hg : ∀ t ∈ a.net.transitions, ∃ b, (a.net.guard t).accept h = .ok b) {m0 : Dict String Int} (hm : a.initialMarking = .ok m0)
    {M : Nat} (hM0 : 0 < M) (hM : ∀ p ∈ a.net.places, options h a.net p ≠ 0 → options h a.net p ∣ M) {ε : ℚ} (hε : 0 < ε) :
    ∃ N, ∀ m, N ≤ m →
      (Nat.card {w : Fin m → ({p // p ∈ a.net.places} → Fin M) //
        ¬ a.AtEnd (simulateAll h (a.net.setMarking m0).1 ((List.ofFn w).map (pickOf a.net.places M))).1} : ℚ) ≤
        ε * (Nat.card (Fin m → ({p // p ∈ a.net.places} → Fin M)) : ℚ) := by
  have hcomp := C178_option_to_complete ha hs hg hm
  obtain ⟨s, e, ha⟩ := ha
  have h1 := ha.oneSafe.1 h1
  obtain ⟨-, k2, k3, k4, k5⟩ := pattern_sim ha h hg hm
  have hw0 := k2.wf ha.wf
  have hg0 : ∀ t ∈ (a.net.setMarking m0).1.transitions, ∃ b, ((a.net.setMarking m0).1.guard t).accept h = .ok b := by
    rw [k2.transitions, k2.guard]; exact hg
  have key := C178_almost_sure h (n := (a.net.setMarking m0).1) hw0 hg0 (B := 1)
    (by
      rw [k2.places]
      intro p hp
      rw [k3 p hp]
      unfold single; split <;> decide)
    (by
      rw [k2.places]
      intro picks p hp
      obtain ⟨n', l1, l2, l3⟩ := k5 picks
      rw [← l3 p hp]
      exact h1 _ l2 p)
    (G := fun n => a.net.SameArcs n ∧ a.AtEnd n) (fun n' hn => finished_of_end ha hn.1 ((k4 n' hn.1).1 hn.2))
    (fun picks => by
      obtain ⟨⟨σ, q1, q2, q3⟩, -⟩ := hcomp picks
      refine ⟨σ, by rw [k2.guard, k2.pre]; exact q1, q2, ?_, q3⟩
      exact (k2.trans (simulateAll_ok h picks hw0 hg0).2).trans (forceAll_same σ _))
    hM0 (by
      rw [k2.places]
      have : ∀ p, options h (a.net.setMarking m0).1 p = options h a.net p := fun p => by
        unfold options; rw [k2.out, k2.guard]
      intro p hp; rw [this]; exact hM p hp) hε
  rw [k2.places] at key
  obtain ⟨N, hN⟩ := key
  refine ⟨N, fun m hm' => le_trans ?_ (hN m hm')⟩
  have : Nat.card {w : Fin m → ({p // p ∈ a.net.places} → Fin M) //
        ¬ a.AtEnd (simulateAll h (a.net.setMarking m0).1 ((List.ofFn w).map (pickOf a.net.places M))).1} ≤
      Nat.card {w : Fin m → ({p // p ∈ a.net.places} → Fin M) //
        ¬ (a.net.SameArcs (simulateAll h (a.net.setMarking m0).1 ((List.ofFn w).map (pickOf a.net.places M))).1 ∧
          a.AtEnd (simulateAll h (a.net.setMarking m0).1 ((List.ofFn w).map (pickOf a.net.places M))).1)} := by
    refine Nat.card_le_card_of_injective (fun w => ⟨w.1, fun hc => w.2 hc.2⟩) fun a b hab => ?_
    exact Subtype.ext (by have := congrArg Subtype.val hab; exact this)
  exact_mod_cast this

/-- the hypotheses are met by a repetition of a parallel composition, followed by a choice: its simulation terminates with probability 1 -/
example (h : Heap) : ∃ r m0, exNested.eval = .ok r ∧ r.Valid ∧ r.Sound h ∧ r.OneSafe h ∧
    (∀ t ∈ r.net.transitions, ∃ b, (r.net.guard t).accept h = .ok b) ∧ r.initialMarking = .ok m0 ∧
    (∀ p ∈ r.net.places, options h r.net p ≠ 0 → options h r.net p ∣ 2) ∧ 2 < r.net.places.length := by
  have hs : (match exNested.eval with
    | .ok r => r.net.transitions.all (fun t => (r.net.guard t).isAlways) && decide (2 < r.net.places.length)
      && r.net.places.all (fun p => decide ((r.net.out p).length ≤ 2))
    | .error _ => false) = true := by decide +kernel
  have hx : exNested.All (fun a => a.Valid ∧ a.Sound h ∧ a.OneSafe h) :=
    ⟨⟨exAct_sound _ _ h, exAct_sound _ _ h⟩, exAct_sound _ _ h, exAct_sound _ _ h⟩
  cases hr : exNested.eval with
  | error e => rw [hr] at hs; cases hs
  | ok r =>
    rw [hr] at hs
    simp only [Bool.and_eq_true, List.all_eq_true, decide_eq_true_eq] at hs
    obtain ⟨k0, k1, k2⟩ := C156_nested h _ r hx hr
    obtain ⟨s, e, m, m', g1, -⟩ := C114_markings k0
    refine ⟨r, m, rfl, k0, k1, k2, fun t ht => ⟨true, accept_always (hs.1.1 t ht)⟩, g1, fun p hp h0 => ?_, hs.1.2⟩
    have : options h r.net p ≤ 2 := (List.countP_le_length).trans (hs.2 p hp)
    have h12 : options h r.net p = 1 ∨ options h r.net p = 2 := by omega
    rcases h12 with h12 | h12
    · rw [h12]; exact ⟨2, rfl⟩
    · rw [h12]

end Prolothar.ActivityPattern
