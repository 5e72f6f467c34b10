import Verif.Props.WalkEnds
import Verif.Props.LogModels
import Mathlib.Data.Finite.Sum
/-
C180: a directly-follows graph is found again in the logs that are simulated from it. The sample space is that of C174.
-/
namespace Prolothar.Dfg
open Prolothar.Spec Prolothar.Spec.Dfg
open Prolothar.EventLog (Log Trace)
variable {A : Type} [LinearOrder A]

/-- the graph of the log has exactly the activities and edges that a trace can come to and follow -/
def Rediscovers {I V : Type} (g : Graph A) (starts stops : List A) (log : Log I A V) : Prop :=
  (∀ a b, (view (createFromLog log)).Edge a b ↔ OnTheWay g starts stops a ∧ a ∉ stops ∧ (view g).Edge a b) ∧
  ∀ a, (view (createFromLog log)).node a ↔ OnTheWay g starts stops a

/-! ### looking at the chosen activities -/

/-- the options, the activity chosen before in the same trace, and whether something was seen -/
abbrev Look (A : Type) := List A × Option A × Bool

/-- one choice -/
def look (g : Graph A) (starts stops : List A) (hit : Option A → A → Bool) (s : Look A) (k : Nat) : Look A :=
  match s.1[k % s.1.length]? with
  | none => s
  | some a => if a ∈ stops then (starts, none, s.2.2 || hit s.2.1 a) else (options g a, some a, s.2.2 || hit s.2.1 a)

/-- what is seen in a trace -/
def hits (hit : Option A → A → Bool) : Option A → List A → Prop
  | _, [] => False
  | last, a :: q => hit last a = true ∨ hits hit (some a) q

theorem look_some {g : Graph A} {starts stops : List A} {hit : Option A → A → Bool} {opts : List A} {last : Option A} {f : Bool} {k : Nat} {a : A}
    (h : opts[k % opts.length]? = some a) :
    look g starts stops hit (opts, last, f) k =
      if a ∈ stops then (starts, none, f || hit last a) else (options g a, some a, f || hit last a) := by
  unfold look
  dsimp only
  rw [h]

/-- what is seen in a trace is seen by the choices that make it -/
theorem walk_look {g : Graph A} (h : WF g) (starts stops : List A) (hit : Option A → A → Bool) : ∀ (fuel : Nat) (l : List Nat) (opts path r : List A) (l' : List Nat),
    walk g pick (fun a => decide (a ∈ stops)) fuel l opts path = .ok (r, l') →
    ∃ q, q ≠ [] ∧ r = path ++ q ∧ l' = l.drop q.length ∧ ∀ w, w <+: l → ∀ f : Bool,
      (w.length < q.length → (w.foldl (look g starts stops hit) (opts, path.getLast?, f)).2.2 = true → f = true ∨ hits hit path.getLast? q) ∧
      (q.length ≤ w.length → ∃ f' : Bool, w.foldl (look g starts stops hit) (opts, path.getLast?, f) =
          (w.drop q.length).foldl (look g starts stops hit) (starts, none, f') ∧ (f' = true → f = true ∨ hits hit path.getLast? q))
  | 0, _, _, _, _, _, hr => by cases hr
  | fuel + 1, l, opts, path, r, l', hr => by
    obtain ⟨h1, h2⟩ := walk_succ h pick (fun a => decide (a ∈ stops)) fuel l opts path
    by_cases hne : opts = []
    · rw [h1 hne] at hr; cases hr
    · obtain ⟨a, ha, hidx, h3, h4, h5⟩ := h2 hne
      by_cases hk : a ∈ g.nodes.keys
      swap
      · rw [h3 hk] at hr; cases hr
      have hhead : ∀ k w, (k :: w) <+: l → opts[k % opts.length]? = some a ∧ w <+: l.tail := by
        rintro k w ⟨v, rfl⟩
        exact ⟨hidx, v, rfl⟩
      by_cases hst : a ∈ stops
      · rw [h4 hk (by simpa using hst)] at hr
        obtain ⟨rfl, rfl⟩ := Prod.mk.inj (Except.ok.inj hr)
        refine ⟨[a], by simp, rfl, ?_, fun w hw f => ?_⟩
        · show l.tail = _
          rw [List.length_singleton, List.drop_one]
        · cases w with
          | nil => exact ⟨fun _ hf => .inl hf, fun hl => by simp at hl⟩
          | cons k w =>
            obtain ⟨g1, g2⟩ := hhead k w hw
            refine ⟨fun hl => by simp at hl, fun _ => ⟨f || hit path.getLast? a, ?_, fun hf => ?_⟩⟩
            · rw [List.foldl_cons, look_some g1, if_pos hst]; rfl
            · rw [Bool.or_eq_true] at hf
              exact hf.imp id fun hh => .inl hh
      · obtain ⟨o, -, -, l3, l4⟩ := h5 hk (by simpa using hst)
        have hl : o = options g a := Except.ok.inj (l3.symm.trans (options_ok h hk).1)
        subst hl
        rw [l4] at hr
        obtain ⟨q, q1, q2, q3, q4⟩ := walk_look h starts stops hit fuel _ _ _ _ _ hr
        have q3 : l' = l.tail.drop q.length := q3
        rw [List.getLast?_concat] at q4
        refine ⟨a :: q, by simp, by rw [q2]; simp, by rw [q3, List.length_cons, List.drop_tail], fun w hw f => ?_⟩
        cases w with
        | nil => exact ⟨fun _ hf => .inl hf, fun hl => by simp at hl⟩
        | cons k w =>
          obtain ⟨g1, g2⟩ := hhead k w hw
          have hstep : (k :: w).foldl (look g starts stops hit) (opts, path.getLast?, f) =
              w.foldl (look g starts stops hit) (options g a, some a, f || hit path.getLast? a) := by
            rw [List.foldl_cons, look_some g1, if_neg hst]
          have himp : (f || hit path.getLast? a) = true ∨ hits hit (some a) q → f = true ∨ hits hit path.getLast? (a :: q) := by
            rintro (hf | hh)
            · rw [Bool.or_eq_true] at hf
              exact hf.imp id fun hh => .inl hh
            · exact .inr (.inr hh)
          obtain ⟨p1, p2⟩ := q4 w g2 (f || hit path.getLast? a)
          rw [hstep]
          refine ⟨fun hl hf => himp (p1 (by simpa using hl) hf), fun hl => ?_⟩
          obtain ⟨f', e1, e2⟩ := p2 (by simpa using hl)
          exact ⟨f', e1, fun hf => himp (e2 hf)⟩

theorem walks_look {g : Graph A} (h : WF g) (starts stops : List A) (hit : Option A → A → Bool) (fuel : Nat) : ∀ (m : Nat) (l : List Nat) (ts : List (List A)),
    walks g pick starts stops fuel m l = .ok ts → ∀ w, w <+: l → w.length ≤ m → ∀ f : Bool,
      (w.foldl (look g starts stops hit) (starts, none, f)).2.2 = true → f = true ∨ ∃ t ∈ ts, hits hit none t
  | 0, l, ts, _, w, _, hl, f, hf => by
    obtain rfl : w = [] := List.eq_nil_of_length_eq_zero (Nat.le_zero.1 hl)
    exact .inl hf
  | m + 1, l, ts, hts, w, hw, hl, f, hf => by
    rw [walks] at hts
    cases hwk : walk g pick (fun a => decide (a ∈ stops)) fuel l starts [] with
    | error e => rw [hwk] at hts; cases hts
    | ok r =>
      rw [hwk, ok_bind] at hts
      obtain ⟨r, l'⟩ := r
      dsimp only at hts
      cases hrest : walks g pick starts stops fuel m l' with
      | error e => rw [hrest] at hts; cases hts
      | ok rest =>
        rw [hrest, ok_bind] at hts
        obtain rfl : r :: rest = ts := Except.ok.inj hts
        obtain ⟨q, q1, q2, q3, q4⟩ := walk_look h starts stops hit fuel _ _ _ _ _ hwk
        rw [List.nil_append] at q2
        subst q2 q3
        obtain ⟨p1, p2⟩ := q4 w hw f
        have hq : 0 < r.length := List.length_pos_iff.2 q1
        by_cases hlen : w.length < r.length
        · exact (p1 hlen hf).imp id fun hh => ⟨r, List.mem_cons_self, hh⟩
        · obtain ⟨f', e1, e2⟩ := p2 (by omega)
          rw [List.getLast?_nil] at e1
          rw [e1] at hf
          rcases walks_look h starts stops hit fuel m _ rest hrest (w.drop r.length) (hw.drop _) (by rw [List.length_drop]; omega) f' hf with hf' | ⟨t, ht, hh⟩
          · exact (e2 hf').imp id fun hh => ⟨r, List.mem_cons_self, hh⟩
          · exact .inr ⟨t, List.mem_cons_of_mem _ ht, hh⟩

/-! ### everything is seen at some time -/

/-- the states that can be reached -/
def Placed (g : Graph A) (starts stops : List A) (s : Look A) : Prop :=
  (s.1 = starts ∧ s.2.1 = none) ∨ ∃ a ∈ g.nodes.keys, a ∉ stops ∧ OnTheWay g starts stops a ∧ s.1 = options g a ∧ s.2.1 = some a

theorem Placed.fair {g : Graph A} {starts stops : List A} {s : Look A} (hp : Placed g starts stops s) : Fair g starts stops s.1 := by
  rcases hp with ⟨h1, -⟩ | ⟨a, h1, h2, h3, h4, -⟩
  · exact .inl h1
  · exact .inr ⟨a, h1, h2, h3, h4⟩

theorem placed_finite (g : Graph A) (starts stops : List A) : {s | Placed g starts stops s}.Finite := by
  have h1 : ((insert (starts, (none : Option A)) ((fun a => (options g a, some a)) '' {a | a ∈ g.nodes.keys})) ×ˢ (Set.univ : Set Bool)).Finite :=
    (((List.finite_toSet g.nodes.keys).image _).insert _).prod Set.finite_univ
  refine (h1.image fun p => (p.1.1, p.1.2, p.2)).subset ?_
  rintro ⟨opts, last, f⟩ (⟨e1, e2⟩ | ⟨a, ha, -, -, e1, e2⟩)
  · dsimp only at e1 e2
    subst e1 e2
    exact ⟨((opts, none), f), ⟨.inl rfl, trivial⟩, rfl⟩
  · dsimp only at e1 e2
    subst e1 e2
    exact ⟨((options g a, some a), f), ⟨.inr ⟨a, ha, rfl⟩, trivial⟩, rfl⟩

section
variable {g : Graph A} {starts stops : List A} (hit : Option A → A → Bool) (h : WF g) (hs : ∀ s ∈ starts, s ∈ g.nodes.keys)
include h hs

theorem look_placed {s : Look A} (hp : Placed g starts stops s) (k : Nat) : Placed g starts stops (look g starts stops hit s k) := by
  unfold look
  cases ha : s.1[k % s.1.length]? with
  | none => exact hp
  | some a =>
    dsimp only
    obtain ⟨hk, hw⟩ := fair_mem h hs hp.fair (List.mem_of_getElem? ha)
    by_cases hst : a ∈ stops
    · rw [if_pos hst]; exact .inl ⟨rfl, rfl⟩
    · rw [if_neg hst]; exact .inr ⟨a, hk, hst, hw, rfl, rfl⟩

omit hs in
theorem fair_length {N : Nat} (hN0 : 0 < N) (hd : starts.length ∣ N) (hdeg : ∀ a, outDegree g a ≠ 0 → outDegree g a ∣ N) {opts : List A}
    (hf : Fair g starts stops opts) (hne : opts ≠ []) : opts.length ≤ N := by
  rcases hf with rfl | ⟨a, ha, _, _, rfl⟩
  · exact Nat.le_of_dvd hN0 hd
  · rw [(options_ok h ha).2.2.2]
    refine Nat.le_of_dvd hN0 (hdeg a ?_)
    rw [← (options_ok h ha).2.2.2]
    exact fun h0 => hne (List.eq_nil_of_length_eq_zero h0)

omit hs in
theorem choice_of {N : Nat} (hN0 : 0 < N) (hd : starts.length ∣ N) (hdeg : ∀ a, outDegree g a ≠ 0 → outDegree g a ∣ N) {opts : List A}
    (hf : Fair g starts stops opts) {a : A} (ha : a ∈ opts) : ∃ k : Fin N, opts[(k : Nat) % opts.length]? = some a := by
  obtain ⟨i, hi, hie⟩ := List.getElem_of_mem ha
  refine ⟨⟨i, hi.trans_le (fair_length h hN0 hd hdeg hf (List.ne_nil_of_mem ha))⟩, ?_⟩
  rw [Nat.mod_eq_of_lt hi, List.getElem?_eq_getElem hi, hie]

/-- some choices lead to the choice of a given activity -/
theorem come_to {N : Nat} (hN0 : 0 < N) (hd : starts.length ∣ N) (hdeg : ∀ a, outDegree g a ≠ 0 → outDegree g a ∣ N) {x a : A}
    (hr : Spec.Graph.Reach (fun x y => x ∉ stops ∧ (view g).Edge x y) x a) : ∀ (s : Look A), Placed g starts stops s → x ∈ s.1 →
    ∃ (w : List (Fin N)) (k : Fin N), Placed g starts stops ((w.map Fin.val).foldl (look g starts stops hit) s) ∧
      ((w.map Fin.val).foldl (look g starts stops hit) s).1[(k : Nat) % ((w.map Fin.val).foldl (look g starts stops hit) s).1.length]? = some a := by
  induction hr using Relation.ReflTransGen.head_induction_on with
  | refl =>
    intro s hp hx
    obtain ⟨k, hk⟩ := choice_of h hN0 hd hdeg hp.fair hx
    exact ⟨[], k, hp, hk⟩
  | head hbc _ ih =>
    rename_i b c _
    intro s hp hx
    obtain ⟨k, hk⟩ := choice_of h hN0 hd hdeg hp.fair hx
    obtain ⟨opts, last, f⟩ := s
    have hstep : look g starts stops hit (opts, last, f) k = (options g b, some b, f || hit last b) := by
      rw [look_some hk, if_neg hbc.1]
    have hc : c ∈ options g b := ((options_ok h (fair_mem h hs hp.fair hx).1).2.2.1 c).2 ((view_edge g b c).1 hbc.2)
    have hp' := look_placed hit h hs hp k
    rw [hstep] at hp'
    obtain ⟨w, k', h1, h2⟩ := ih (options g b, some b, f || hit last b) hp' hc
    refine ⟨k :: w, k', ?_⟩
    rw [List.map_cons, List.foldl_cons, hstep]
    exact ⟨h1, h2⟩

variable (hway : ∀ a, OnTheWay g starts stops a → CanEnd g stops a)

omit [LinearOrder A] h hs in
/-- the first end activity on a path -/
theorem first_end {E : A → A → Prop} {P : List A} {x e : A} (he : e ∈ P) (hr : Spec.Graph.Reach E x e) :
    ∃ e' ∈ P, Spec.Graph.Reach (fun x y => x ∉ P ∧ E x y) x e' := by
  classical
  induction hr using Relation.ReflTransGen.head_induction_on with
  | refl => exact ⟨e, he, .refl⟩
  | head hbc _ ih =>
    rename_i b c _
    by_cases hb : b ∈ P
    · exact ⟨b, hb, .refl⟩
    · obtain ⟨e', h1, h2⟩ := ih
      exact ⟨e', h1, .head ⟨hb, hbc⟩ h2⟩

include hway
/-- some choices end the current trace -/
theorem restart {N : Nat} (hN0 : 0 < N) (hd : starts.length ∣ N) (hdeg : ∀ a, outDegree g a ≠ 0 → outDegree g a ∣ N) (hne : starts ≠ [])
    (s : Look A) (hp : Placed g starts stops s) :
    ∃ (w : List (Fin N)) (f : Bool), (w.map Fin.val).foldl (look g starts stops hit) s = (starts, none, f) := by
  obtain ⟨b, hb⟩ := List.exists_mem_of_ne_nil _ (fair_ne h hs hway hne hp.fair)
  obtain ⟨e, he, hr⟩ := hway b (fair_mem h hs hp.fair hb).2
  obtain ⟨e', he', hr'⟩ := first_end he hr
  obtain ⟨w, k, -, h2⟩ := come_to hit h hs hN0 hd hdeg hr' s hp hb
  generalize hs' : (w.map Fin.val).foldl (look g starts stops hit) s = s' at h2
  obtain ⟨opts, last, f⟩ := s'
  refine ⟨w ++ [k], f || hit last e', ?_⟩
  rw [List.map_append, List.foldl_append, hs', List.map_singleton, List.foldl_cons, List.foldl_nil, look_some h2, if_pos he']

/-- an activity, or an edge, that a trace can come to is seen for some choices -/
theorem seen {N : Nat} (hN0 : 0 < N) (hd : starts.length ∣ N) (hdeg : ∀ a, outDegree g a ≠ 0 → outDegree g a ∣ N) (hne : starts ≠ [])
    {a : A} (ha : OnTheWay g starts stops a)
    (hit_spec : (∀ last, hit last a = true) ∨ ∃ b, a ∉ stops ∧ (view g).Edge a b ∧ hit (some a) b = true)
    (s : Look A) (hp : Placed g starts stops s) :
    ∃ w : List (Fin N), ((w.map Fin.val).foldl (look g starts stops hit) s).2.2 = true := by
  obtain ⟨w, f, hw⟩ := restart hit h hs hway hN0 hd hdeg hne s hp
  obtain ⟨x, hx, hr⟩ := ha
  obtain ⟨w', k, h1, h2⟩ := come_to hit h hs hN0 hd hdeg hr (starts, none, f) (.inl ⟨rfl, rfl⟩) hx
  rcases hit_spec with hn | ⟨b, hst, hab, hb⟩
  · refine ⟨w ++ (w' ++ [k]), ?_⟩
    rw [List.map_append, List.foldl_append, hw, List.map_append, List.foldl_append]
    generalize (w'.map Fin.val).foldl (look g starts stops hit) (starts, none, f) = s' at h2 ⊢
    obtain ⟨opts, last, f⟩ := s'
    rw [List.map_singleton, List.foldl_cons, List.foldl_nil, look_some h2, hn, Bool.or_true]
    split <;> rfl
  · generalize hs' : (w'.map Fin.val).foldl (look g starts stops hit) (starts, none, f) = s' at h1 h2
    obtain ⟨opts, last, f'⟩ := s'
    have hp2 := look_placed hit h hs h1 k
    rw [look_some h2, if_neg hst] at hp2
    have hmem : b ∈ options g a := ((options_ok h (fair_mem h hs h1.fair (List.mem_of_getElem? h2)).1).2.2.1 b).2 ((view_edge g a b).1 hab)
    obtain ⟨k', hk'⟩ := choice_of h hN0 hd hdeg hp2.fair hmem
    refine ⟨w ++ (w' ++ [k, k']), ?_⟩
    rw [List.map_append, List.foldl_append, hw, List.map_append, List.foldl_append, hs']
    rw [List.map_cons, List.map_singleton, List.foldl_cons, List.foldl_cons, List.foldl_nil, look_some h2, if_neg hst, look_some hk', hb, Bool.or_true]
    split <;> rfl

end

/-! ### counting -/

/-- the share of the outcomes that miss one of finitely many things -/
theorem miss_all {Ω : Type} [Fintype Ω] [Nonempty Ω] {ι : Type} (good : ι → List Ω → Prop) : ∀ (T : List ι),
    (∀ t ∈ T, ∀ ε : ℚ, 0 < ε → ∃ K, ∀ m, K ≤ m → (Nat.card { w : Fin m → Ω // ¬ good t (List.ofFn w) } : ℚ) ≤ ε * (Fintype.card Ω : ℚ) ^ m) →
    ∀ ε : ℚ, 0 < ε → ∃ K, ∀ m, K ≤ m → (Nat.card { w : Fin m → Ω // ¬ ∀ t ∈ T, good t (List.ofFn w) } : ℚ) ≤ ε * (Fintype.card Ω : ℚ) ^ m
  | [], _, ε, hε => by
    refine ⟨0, fun m _ => ?_⟩
    have : IsEmpty { w : Fin m → Ω // ¬ ∀ t ∈ ([] : List ι), good t (List.ofFn w) } := ⟨fun w => w.2 (by simp)⟩
    rw [Nat.card_of_isEmpty]
    positivity
  | t :: T, hT, ε, hε => by
    obtain ⟨K1, h1⟩ := hT t List.mem_cons_self (ε / 2) (by positivity)
    obtain ⟨K2, h2⟩ := miss_all good T (fun t ht => hT t (List.mem_cons_of_mem _ ht)) (ε / 2) (by positivity)
    refine ⟨max K1 K2, fun m hm => ?_⟩
    have g1 := h1 m (le_trans (le_max_left _ _) hm)
    have g2 := h2 m (le_trans (le_max_right _ _) hm)
    have : Nat.card { w : Fin m → Ω // ¬ ∀ t' ∈ t :: T, good t' (List.ofFn w) } ≤
        Nat.card { w : Fin m → Ω // ¬ good t (List.ofFn w) } + Nat.card { w : Fin m → Ω // ¬ ∀ t ∈ T, good t (List.ofFn w) } := by
      classical
      rw [← Nat.card_sum]
      refine Nat.card_le_card_of_injective (fun w => if hw : good t (List.ofFn w.1) then .inr ⟨w.1, fun hc => w.2 ?_⟩ else .inl ⟨w.1, hw⟩) ?_
      · intro t' ht'
        rcases List.mem_cons.1 ht' with rfl | ht'
        · exact hw
        · exact hc t' ht'
      · intro u v huv
        apply Subtype.ext
        dsimp only at huv
        split at huv <;> split at huv <;> simp_all
    have h3 : (Nat.card { w : Fin m → Ω // ¬ ∀ t' ∈ t :: T, good t' (List.ofFn w) } : ℚ) ≤
        (Nat.card { w : Fin m → Ω // ¬ good t (List.ofFn w) } : ℚ) + (Nat.card { w : Fin m → Ω // ¬ ∀ t ∈ T, good t (List.ofFn w) } : ℚ) := by
      exact_mod_cast this
    linarith

/-- an event that depends on the first letters only -/
theorem card_prefix {Ω : Type} [Fintype Ω] (P : List Ω → Prop) (K r : Nat) :
    Nat.card { w : Fin (K + r) → Ω // P ((List.ofFn w).take K) } ≤ Nat.card { w : Fin K → Ω // P (List.ofFn w) } * Fintype.card Ω ^ r := by
  classical
  have hcard : Nat.card (Fin r → Ω) = Fintype.card Ω ^ r := by simp
  rw [← hcard, ← Nat.card_prod]
  have htake : ∀ w : Fin (K + r) → Ω, (List.ofFn w).take K = List.ofFn (fun i => w (Fin.castAdd r i)) := by
    intro w
    rw [List.ofFn_add, List.take_left' (by simp)]
    rfl
  refine Nat.card_le_card_of_injective (fun w => (⟨fun i => w.1 (Fin.castAdd r i), by rw [← htake]; exact w.2⟩, fun i => w.1 (Fin.natAdd K i))) ?_
  intro u v huv
  obtain ⟨e1, e2⟩ := Prod.mk.inj huv
  have e1 := congrArg Subtype.val e1
  dsimp only at e1
  apply Subtype.ext
  funext i
  refine Fin.addCases (fun i => ?_) (fun i => ?_) i
  · exact congrFun e1 i
  · exact congrFun e2 i

/-! ### what is simulated -/

omit [LinearOrder A] in
theorem chain_on_way {E : A → A → Prop} {P : List A} : ∀ (t : List A) (a : A), (a :: t).IsChain E → (∀ x ∈ (a :: t).dropLast, x ∉ P) →
    ∀ x ∈ a :: t, Spec.Graph.Reach (fun x y => x ∉ P ∧ E x y) a x
  | [], a, _, _, x, hx => by
    obtain rfl := List.mem_singleton.1 hx
    exact .refl
  | b :: t, a, hc, hP, x, hx => by
    rcases List.mem_cons.1 hx with rfl | hx
    · exact .refl
    · rw [List.isChain_cons_cons] at hc
      refine .head ⟨hP a (by simp), hc.1⟩ (chain_on_way t b hc.2 (fun x hx => hP x ?_) x hx)
      rw [List.dropLast_cons_of_ne_nil (by simp)]
      exact List.mem_cons_of_mem _ hx

/-- what is seen in a simulated log is on the way -/
theorem simulated_on_way {G : Type} {g : Graph A} (hb : Built g) (choose : G → Nat → Nat × G) (rng : G) (fuel n : Nat)
    (starts stops : Option (List A)) {traces : List (List A)} (hr : generateLog g choose rng fuel n starts stops = .ok traces) {t : List A} (ht : t ∈ traces) :
    (∀ a ∈ t, OnTheWay g (starts.getD (sources g)) (stops.getD (sinks g)) a) ∧
    ∀ a b, 0 < adjacentCount a b t → a ∉ stops.getD (sinks g) ∧ (view g).Edge a b := by
  obtain ⟨hc, ⟨s, hs, hh⟩, q, e, rfl, he, hq⟩ := (C84_generated hb choose rng fuel n starts stops hr).2 t ht
  have hq' : ∀ x ∈ (q ++ [e]).dropLast, x ∉ stops.getD (sinks g) := by
    rw [List.dropLast_concat]; exact hq
  constructor
  · intro a ha
    generalize q ++ [e] = t at hc hh ha hq'
    cases t with
    | nil => cases ha
    | cons x t =>
      obtain rfl : x = s := Option.some.inj hh
      exact ⟨x, hs, chain_on_way t x hc hq' a ha⟩
  · intro a b hab
    obtain ⟨u, v, huv⟩ := LogModels.adj_pos'.1 hab
    rw [huv] at hc hq'
    refine ⟨hq' a ?_, ?_⟩
    · rw [List.dropLast_append_of_ne_nil (by simp), List.dropLast_cons_of_ne_nil (by simp)]
      simp
    · have := (List.isChain_append.1 hc).2.1
      exact (List.isChain_cons_cons.1 this).1

/-- what is looked for: an activity or an edge -/
def hitOf : A ⊕ (A × A) → Option A → A → Bool
  | .inl a, _, x => decide (x = a)
  | .inr (a, b), last, x => decide (last = some a ∧ x = b)

theorem hits_node {a : A} : ∀ {last : Option A} {t : List A}, hits (hitOf (.inl a)) last t → a ∈ t
  | _, x :: t, .inl hx => by
    have : x = a := of_decide_eq_true hx
    rw [this]; exact List.mem_cons_self
  | _, _ :: t, .inr hx => List.mem_cons_of_mem _ (hits_node hx)

theorem hits_edge {a b : A} : ∀ {last : Option A} {t : List A}, hits (hitOf (.inr (a, b))) last t →
    (last = some a ∧ ∃ v, t = b :: v) ∨ ∃ u v, t = u ++ a :: b :: v
  | last, x :: t, .inl hx => by
    obtain ⟨h1, rfl⟩ : last = some a ∧ x = b := of_decide_eq_true hx
    exact .inl ⟨h1, t, rfl⟩
  | _, x :: t, .inr hx => by
    rcases hits_edge hx with ⟨h1, v, rfl⟩ | ⟨u, v, rfl⟩
    · exact .inr ⟨[], v, by rw [Option.some.inj h1]; rfl⟩
    · exact .inr ⟨x :: u, v, rfl⟩

/-- what can be seen: an activity or an edge -/
def Wanted (g : Graph A) (starts stops : List A) : A ⊕ (A × A) → Prop
  | .inl a => OnTheWay g starts stops a
  | .inr (a, b) => OnTheWay g starts stops a ∧ a ∉ stops ∧ (view g).Edge a b

/-- it is seen with these choices -/
def Good (g : Graph A) (starts stops : List A) {N : Nat} (t : A ⊕ (A × A)) (w : List (Fin N)) : Prop :=
  ((w.map Fin.val).foldl (look g starts stops (hitOf t)) (starts, none, false)).2.2 = true

section
variable {g : Graph A} {starts stops : List A} (h : WF g) (hs : ∀ s ∈ starts, s ∈ g.nodes.keys)
include h hs

theorem good_vanish (hway : ∀ a, OnTheWay g starts stops a → CanEnd g stops a) {N : Nat} (hN0 : 0 < N) (hd : starts.length ∣ N)
    (hdeg : ∀ a, outDegree g a ≠ 0 → outDegree g a ∣ N) (hne : starts ≠ []) (t : A ⊕ (A × A)) (hw : Wanted g starts stops t) (ε : ℚ) (hε : 0 < ε) :
    ∃ K, ∀ m, K ≤ m → (Nat.card { w : Fin m → Fin N // ¬ Good g starts stops t (List.ofFn w) } : ℚ) ≤ ε * (Fintype.card (Fin N) : ℚ) ^ m := by
  have hnon : Nonempty (Fin N) := ⟨⟨0, hN0⟩⟩
  obtain ⟨a, ha, hspec⟩ : ∃ a, OnTheWay g starts stops a ∧
      ((∀ last, hitOf t last a = true) ∨ ∃ b, a ∉ stops ∧ (view g).Edge a b ∧ hitOf t (some a) b = true) := by
    cases t with
    | inl a => exact ⟨a, hw, .inl fun _ => by simp [hitOf]⟩
    | inr p => exact ⟨p.1, hw.1, .inr ⟨p.2, hw.2.1, hw.2.2, by simp [hitOf]⟩⟩
  obtain ⟨K, hK⟩ := AlmostSure.misses_vanish_finite (Ω := Fin N)
    (step := fun s k => look g starts stops (hitOf t) s k.val) (G := fun s => s.2.2 = true) (R := Placed g starts stops)
    (fun s k hp => look_placed _ h hs hp k)
    (fun s k hf => by
      unfold look
      split
      · exact hf
      · split <;> (dsimp only; rw [hf]; rfl))
    (placed_finite _ _ _)
    (fun s hp => by
      obtain ⟨w, hw⟩ := seen (hitOf t) h hs hway hN0 hd hdeg hne ha hspec s hp
      rw [List.foldl_map] at hw
      exact ⟨w, hw⟩) hε
  refine ⟨K, fun m hm => ?_⟩
  have h1 := hK (starts, none, false) (.inl ⟨rfl, rfl⟩) m hm
  rw [AlmostSure.misses_eq] at h1
  unfold Good
  simp only [List.foldl_map]
  exact h1

/-- the targets are finitely many -/
theorem wanted_list : ∃ T : List (A ⊕ (A × A)), ∀ t, t ∈ T ↔ Wanted g starts stops t := by
  classical
  refine ⟨((g.nodes.keys.map Sum.inl) ++ (g.edges.keys.map Sum.inr)).filter fun t => decide (Wanted g starts stops t), fun t => ?_⟩
  rw [List.mem_filter, decide_eq_true_iff, and_iff_right_iff_imp]
  intro hw
  cases t with
  | inl a =>
    refine List.mem_append_left _ (List.mem_map.2 ⟨a, ?_, rfl⟩)
    obtain ⟨s, hs0, hr⟩ := hw
    rcases Relation.ReflTransGen.cases_tail hr with rfl | ⟨b, -, hb'⟩
    · exact hs a hs0
    · exact (((view_edge g b a).1 hb'.2).nodes h).2
  | inr p =>
    refine List.mem_append_right _ (List.mem_map.2 ⟨p, ?_, rfl⟩)
    have := (view_edge g p.1 p.2).1 hw.2.2
    unfold Edge cnt at this
    cases hget : g.edges.get? (p.1, p.2) with
    | none => rw [hget] at this; simp at this
    | some e => exact Dict.mem_keys_iff.2 ⟨e, hget⟩

end

/-- choices with which everything is seen soon enough give a log from which the graph is rediscovered -/
theorem rediscovers_of_good {g : Graph A} (hb : Built g) (starts stops : Option (List A)) (hne : starts.getD (sources g) ≠ [])
    {fuel n N : Nat} {w u : List (Fin N)} (hu : u <+: w) (hlen : u.length ≤ n)
    (hgood : ∀ t, Wanted g (starts.getD (sources g)) (stops.getD (sinks g)) t → Good g (starts.getD (sources g)) (stops.getD (sinks g)) t u)
    {traces : List (List A)} (htr : generateLog g pick (w.map Fin.val) fuel n starts stops = .ok traces)
    {I V : Type} (log : Log I A V) (hlog : log.map Trace.activities = traces) :
    Rediscovers g (starts.getD (sources g)) (stops.getD (sinks g)) log := by
  have hwalks : walks g pick (starts.getD (sources g)) (stops.getD (sinks g)) fuel n (w.map Fin.val) = .ok traces := by
    have := htr
    unfold generateLog at this
    dsimp only at this
    rw [if_neg hne] at this
    split at this
    · cases this
    · exact this
  have hseen : ∀ t, Wanted g (starts.getD (sources g)) (stops.getD (sinks g)) t → ∃ v ∈ traces, hits (hitOf t) none v := by
    intro t hwt
    rcases walks_look hb.wf _ _ (hitOf t) fuel n _ _ hwalks _ (hu.map Fin.val) (by rw [List.length_map]; omega) false (hgood t hwt) with hf | hh
    · cases hf
    · exact hh
  have hmap : ∀ v, v ∈ traces ↔ ∃ t ∈ log, t.activities = v := by
    intro v; rw [← hlog, List.mem_map]
  obtain ⟨-, c2, c3⟩ := C44_counts log
  refine ⟨fun a b => ?_, fun a => ?_⟩
  · rw [c2]
    constructor
    · rintro ⟨t, ht, hpos⟩
      obtain ⟨o1, o2⟩ := simulated_on_way hb pick _ fuel n starts stops htr ((hmap _).2 ⟨t, ht, rfl⟩)
      obtain ⟨u, v, huv⟩ := LogModels.adj_pos'.1 hpos
      exact ⟨o1 a (by rw [huv]; simp), o2 a b hpos⟩
    · intro hw3
      obtain ⟨u, hu, hh⟩ := hseen (.inr (a, b)) hw3
      obtain ⟨t, ht, rfl⟩ := (hmap u).1 hu
      rcases hits_edge hh with ⟨h1, -⟩ | hh
      · cases h1
      · exact ⟨t, ht, LogModels.adj_pos'.2 hh⟩
  · rw [c3]
    constructor
    · rintro ⟨t, ht, hat⟩
      exact (simulated_on_way hb pick _ fuel n starts stops htr ((hmap _).2 ⟨t, ht, rfl⟩)).1 a hat
    · intro hw3
      obtain ⟨u, hu, hh⟩ := hseen (.inl a) hw3
      obtain ⟨t, ht, rfl⟩ := (hmap u).1 hu
      exact ⟨t, ht, hits_node hh⟩

theorem card_or {Ω : Type} [Finite Ω] {P Q R : Ω → Prop} (h : ∀ w, P w → Q w → R w) :
    Nat.card { w // ¬ R w } ≤ Nat.card { w // ¬ P w } + Nat.card { w // ¬ Q w } := by
  classical
  rw [← Nat.card_sum]
  refine Nat.card_le_card_of_injective (fun w => if hw : P w.1 then .inr ⟨w.1, fun hc => w.2 (h _ hw hc)⟩ else .inl ⟨w.1, hw⟩) ?_
  intro u v huv
  apply Subtype.ext
  dsimp only at huv
  split at huv <;> split at huv <;> simp_all

/-- C180: if an end activity can be reached from every activity that a trace can come to, then the directly-follows graph of a sufficiently
large simulated log is, with a probability as close to 1 as wanted, the part of the graph that the simulation can come to. -/
theorem C180_rediscovered {g : Graph A} (hb : Built g) (starts stops : Option (List A)) (hne : starts.getD (sources g) ≠ [])
    (hs : ∀ s ∈ starts.getD (sources g), (view g).node s)
    (hway : ∀ a, OnTheWay g (starts.getD (sources g)) (stops.getD (sinks g)) a → CanEnd g (stops.getD (sinks g)) a)
    {N : Nat} (hN0 : 0 < N) (hd : (starts.getD (sources g)).length ∣ N) (hdeg : ∀ a, outDegree g a ≠ 0 → outDegree g a ∣ N) {ε : ℚ} (hε : 0 < ε) :
    ∃ n₀, ∀ n, n₀ ≤ n → ∃ L₀, ∀ L, L₀ ≤ L → ∀ fuel, L ≤ fuel →
      (Nat.card { w : Fin L → Fin N // ¬ ∃ traces, generateLog g pick (numbersOf w) fuel n starts stops = .ok traces ∧
        ∀ (I V : Type) (log : Log I A V), log.map Trace.activities = traces →
          Rediscovers g (starts.getD (sources g)) (stops.getD (sinks g)) log } : ℚ) ≤ ε * (N : ℚ) ^ L := by
  have hnon : Nonempty (Fin N) := ⟨⟨0, hN0⟩⟩
  have hs' : ∀ s ∈ starts.getD (sources g), s ∈ g.nodes.keys := fun s h => (view_node g s).1 (hs s h)
  obtain ⟨T, hT⟩ := wanted_list (stops := stops.getD (sinks g)) hb.wf hs'
  obtain ⟨K, hK⟩ := miss_all (fun t (w : List (Fin N)) => Good g (starts.getD (sources g)) (stops.getD (sinks g)) t w) T
    (fun t ht => good_vanish hb.wf hs' hway hN0 hd hdeg hne t ((hT t).1 ht)) (ε / 2) (by positivity)
  refine ⟨K, fun n hn => ?_⟩
  obtain ⟨L₀, hL₀⟩ := C179_returns hb starts stops hne hs hway n hN0 hd hdeg (ε := ε / 2) (by positivity)
  refine ⟨max K L₀, fun L hL fuel hfuel => ?_⟩
  have h1 := hL₀ L (le_trans (le_max_right _ _) hL) fuel hfuel
  have h2 : (Nat.card { w : Fin L → Fin N // ¬ ∀ t ∈ T, Good g (starts.getD (sources g)) (stops.getD (sinks g)) t ((List.ofFn w).take K) } : ℚ) ≤
      ε / 2 * (N : ℚ) ^ L := by
    obtain ⟨r, rfl⟩ := Nat.exists_eq_add_of_le (le_trans (le_max_left _ _) hL)
    have h3 := card_prefix (fun w : List (Fin N) => ¬ ∀ t ∈ T, Good g (starts.getD (sources g)) (stops.getD (sinks g)) t w) K r
    have h4 := hK K (Nat.le_refl _)
    rw [Fintype.card_fin] at h3 h4
    have h5 : (_ : ℚ) ≤ _ := Nat.cast_le (α := ℚ).2 h3
    rw [Nat.cast_mul, Nat.cast_pow] at h5
    refine h5.trans ?_
    rw [pow_add, ← mul_assoc]
    exact mul_le_mul_of_nonneg_right h4 (by positivity)
  have hunion := card_or (Ω := Fin L → Fin N)
    (P := fun w => ∃ traces, generateLog g pick (numbersOf w) fuel n starts stops = .ok traces)
    (Q := fun w => ∀ t ∈ T, Good g (starts.getD (sources g)) (stops.getD (sinks g)) t ((List.ofFn w).take K))
    (R := fun w => ∃ traces, generateLog g pick (numbersOf w) fuel n starts stops = .ok traces ∧
        ∀ (I V : Type) (log : Log I A V), log.map Trace.activities = traces →
          Rediscovers g (starts.getD (sources g)) (stops.getD (sinks g)) log) (by
    rintro w ⟨traces, htr⟩ hc
    refine ⟨traces, htr, fun I V log hlog => ?_⟩
    have hnum : numbersOf w = (List.ofFn w).map Fin.val := by unfold numbersOf; rw [List.map_ofFn]; rfl
    rw [hnum] at htr
    exact rediscovers_of_good hb starts stops hne (List.take_prefix K _) (by rw [List.length_take]; omega)
      (fun t ht => hc t ((hT t).2 ht)) htr log hlog)
  have h6 : (_ : ℚ) ≤ _ := Nat.cast_le (α := ℚ).2 hunion
  rw [Nat.cast_add] at h6
  linarith

/-- C180: whatever is chosen at random, the edges of the graph of a simulated log are edges of the graph that do not leave an end activity (so
self-loops of end activities are never found), and its activities are activities that a trace can come to -/
theorem C180_part {G I V : Type} {g : Graph A} (hb : Built g) (choose : G → Nat → Nat × G) (rng : G) (fuel n : Nat)
    (starts stops : Option (List A)) {traces : List (List A)} (hr : generateLog g choose rng fuel n starts stops = .ok traces)
    (log : Log I A V) (hlog : log.map Trace.activities = traces) :
    (∀ a b, (view (createFromLog log)).Edge a b → a ∉ stops.getD (sinks g) ∧ (view g).Edge a b) ∧
    ∀ a, (view (createFromLog log)).node a → OnTheWay g (starts.getD (sources g)) (stops.getD (sinks g)) a := by
  obtain ⟨-, c2, c3⟩ := C44_counts log
  have hmem : ∀ t ∈ log, t.activities ∈ traces := fun t ht => by rw [← hlog]; exact List.mem_map.2 ⟨t, ht, rfl⟩
  refine ⟨fun a b he => ?_, fun a hn => ?_⟩
  · obtain ⟨t, ht, hpos⟩ := (c2 a b).1 he
    exact (simulated_on_way hb choose rng fuel n starts stops hr (hmem t ht)).2 a b hpos
  · obtain ⟨t, ht, ha⟩ := (c3 a).1 hn
    exact (simulated_on_way hb choose rng fuel n starts stops hr (hmem t ht)).1 a ha

/-- C180: with the default start and end activities, if every activity can be reached from a source and reaches a sink, and no sink has a
self-loop, then the whole graph is found again -/
theorem C180_whole {g : Graph A} (hb : Built g) (hne : sources g ≠ []) (hfrom : ∀ a, (view g).node a → OnTheWay g (sources g) (sinks g) a)
    (hto : ∀ a, (view g).node a → CanEnd g (sinks g) a) (hloop : ∀ a ∈ sinks g, ¬ (view g).Edge a a)
    {N : Nat} (hN0 : 0 < N) (hd : (sources g).length ∣ N) (hdeg : ∀ a, outDegree g a ≠ 0 → outDegree g a ∣ N) {ε : ℚ} (hε : 0 < ε) :
    ∃ n₀, ∀ n, n₀ ≤ n → ∃ L₀, ∀ L, L₀ ≤ L → ∀ fuel, L ≤ fuel →
      (Nat.card { w : Fin L → Fin N // ¬ ∃ traces, generateLog g pick (numbersOf w) fuel n none none = .ok traces ∧
        ∀ (I V : Type) (log : Log I A V), log.map Trace.activities = traces →
          (∀ a b, (view (createFromLog log)).Edge a b ↔ (view g).Edge a b) ∧ ∀ a, (view (createFromLog log)).node a ↔ (view g).node a } : ℚ) ≤
        ε * (N : ℚ) ^ L := by
  have hnode : ∀ a, OnTheWay g (sources g) (sinks g) a → (view g).node a := by
    rintro a ⟨s, hs0, hr⟩
    rcases Relation.ReflTransGen.cases_tail hr with rfl | ⟨b, -, hb'⟩
    · exact (((C50_sources_sinks hb a).1).1 hs0).1
    · exact (view_node g a).2 (((view_edge g b a).1 hb'.2).nodes hb.wf).2
  obtain ⟨n₀, hn₀⟩ := C180_rediscovered hb none none hne (fun s h => (((C50_sources_sinks hb s).1).1 h).1) (fun a ha => hto a (hnode a ha)) hN0 hd hdeg hε
  refine ⟨n₀, fun n hn => ?_⟩
  obtain ⟨L₀, hL₀⟩ := hn₀ n hn
  refine ⟨L₀, fun L hL fuel hfuel => le_trans ?_ (hL₀ L hL fuel hfuel)⟩
  refine Nat.cast_le.2 (Nat.card_le_card_of_injective (fun w => ⟨w.1, ?_⟩) fun u v huv => Subtype.ext (by have := congrArg Subtype.val huv; exact this))
  rintro ⟨traces, htr, hred⟩
  refine w.2 ⟨traces, htr, fun I V log hlog => ?_⟩
  obtain ⟨r1, r2⟩ := hred I V log hlog
  refine ⟨fun a b => (r1 a b).trans ⟨fun hh => hh.2.2, fun he => ?_⟩, fun a => (r2 a).trans ⟨hnode a, hfrom a⟩⟩
  have ha : (view g).node a := (view_node g a).2 (((view_edge g a b).1 he).nodes hb.wf).1
  refine ⟨hfrom a ha, fun hsink => ?_, he⟩
  obtain rfl := ((C50_sources_sinks hb a).2.1.1 hsink).2 b he
  exact hloop b hsink he


/-- the graph 1 → 2, 1 → 3, 2 → 3 meets the hypotheses -/
example : ∃ n₀, ∀ n, n₀ ≤ n → ∃ L₀, ∀ L, L₀ ≤ L → ∀ fuel, L ≤ fuel →
      (Nat.card { w : Fin L → Fin 2 // ¬ ∃ traces, generateLog exWalk pick (numbersOf w) fuel n none none = .ok traces ∧
        ∀ (I V : Type) (log : Log I Nat V), log.map Trace.activities = traces → Rediscovers exWalk (sources exWalk) (sinks exWalk) log } : ℚ) ≤
        1 / 1000 * (2 : ℚ) ^ L :=
  C180_rediscovered exWalk_built none none exWalk_meets.1 exWalk_meets.2.1 exWalk_meets.2.2.1 (by decide) exWalk_meets.2.2.2.1 exWalk_meets.2.2.2.2
    (by norm_num)

end Prolothar.Dfg
