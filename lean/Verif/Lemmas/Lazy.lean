import Verif.Model.Lazy
import Verif.Props.Lts
/-
Lemmas about the generator of `transition_iterator` between other calls.
-/
set_option linter.unusedSectionVars false
set_option linter.unusedSimpArgs false
namespace Prolothar.Lazy
open Prolothar.Lts

section
variable {S E : Type} [DecidableEq S] [DecidableEq E]

theorem ask_eq (t : System S E) (s : S) (h : s ∈ t.rel.keys) : ask t s = t := by
  obtain ⟨d, hd⟩ := Dict.mem_keys_iff.1 h
  unfold ask touch
  rw [hd]

theorem ask_rel (t : System S E) (s : S) (h : s ∉ t.rel.keys) : (ask t s).rel = t.rel ++ [(s, [])] := by
  have hn := Dict.get?_eq_none_iff.2 h
  unfold ask touch
  rw [hn]
  dsimp only
  generalize t.rel = d at *
  clear hn
  induction d with
  | nil => rfl
  | cons p d ih =>
    simp only [Dict.keys, List.map_cons, List.mem_cons, not_or] at h
    simp only [Dict.put]
    rw [if_neg (fun e => h.1 e.symm)]
    simp only [List.cons_append, List.cons.injEq, true_and]
    exact ih h.2

theorem good_ask {t : System S E} (h : Good t) (s : S) : Good (ask t s) := by
  obtain ⟨h1, h2, _⟩ := touch_spec t.rel s h.rel h.inner
  exact ⟨h.states, h.starts, h.ends, h1, h2⟩

theorem next_ask {t : System S E} (h : Good t) (s x : S) (e : E) : Lts.next (ask t s) x e = Lts.next t x e := by
  obtain ⟨h1, h2, h3, h4, h5, h6⟩ := touch_spec t.rel s h.rel h.inner
  unfold Lts.next Lazy.ask
  by_cases hx : x = s
  · subst hx
    rw [h3]
    exact h5 e
  · rw [h6 x hx]

/-- keys are kept in their order -/
structure Ext (t0 t : System S E) : Prop where
  outer : t0.rel.keys <+: t.rel.keys
  inner : ∀ s d0, t0.rel.get? s = some d0 → ∃ d, t.rel.get? s = some d ∧ d0.keys <+: d.keys

theorem Ext.refl (t : System S E) : Ext t t := ⟨List.prefix_rfl, fun _ d h => ⟨d, h, List.prefix_rfl⟩⟩

theorem Ext.trans {a b c : System S E} (h : Ext a b) (k : Ext b c) : Ext a c := by
  refine ⟨h.outer.trans k.outer, fun s d hd => ?_⟩
  obtain ⟨d', h1, h2⟩ := h.inner s d hd
  obtain ⟨d'', h3, h4⟩ := k.inner s d' h1
  exact ⟨d'', h3, h2.trans h4⟩

theorem keys_put_prefix {κ ν : Type} [DecidableEq κ] (d : Dict κ ν) (k : κ) (v : ν) : d.keys <+: (d.put k v).keys := by
  rw [Dict.keys_put]
  split
  · exact List.prefix_rfl
  · exact List.prefix_append _ _

theorem Ext.ask {t : System S E} (s : S) : Ext t (ask t s) := by
  by_cases h : s ∈ t.rel.keys
  · rw [ask_eq t s h]
    exact .refl t
  · have hr : (Lazy.ask t s).rel = t.rel.put s [] := by
      unfold Lazy.ask touch
      rw [Dict.get?_eq_none_iff.2 h]
    refine ⟨?_, fun x d hd => ?_⟩
    · rw [hr]; exact keys_put_prefix _ _ _
    · have : s ≠ x := by
        rintro rfl
        exact h (Dict.mem_keys_iff.2 ⟨d, hd⟩)
      exact ⟨d, by rw [hr, Dict.get?_put_of_ne _ _ this]; exact hd, List.prefix_rfl⟩

theorem Ext.addTransition {t : System S E} (s : S) (e : E) (s' : S) : Ext t (addTransition t s e s') := by
  have h1 : Ext t (Lazy.ask t s) := .ask s
  refine h1.trans ⟨keys_put_prefix _ _ _, fun x d hd => ?_⟩
  unfold Lts.addTransition
  dsimp only
  have hs : (Lazy.ask t s).rel = (touch t.rel s).1 := rfl
  rw [hs] at hd
  by_cases hx : s = x
  · subst hx
    rw [Dict.get?_put_self]
    refine ⟨_, rfl, ?_⟩
    have : (touch t.rel s).1.get? s = some (touch t.rel s).2 := by
      unfold touch
      cases hg : t.rel.get? s with
      | some d => exact hg
      | none => exact Dict.get?_put_self _ _ _
    rw [this] at hd
    cases hd
    exact keys_put_prefix _ _ _
  · rw [Dict.get?_put_of_ne _ _ hx]
    exact ⟨d, hd, List.prefix_rfl⟩

theorem Ext.addState {t : System S E} (s : S) (a b : Bool) : Ext t (addState t s a b) :=
  ⟨List.prefix_rfl, fun _ d h => ⟨d, h, List.prefix_rfl⟩⟩

theorem Ext.loop (f : List E → S) (rest done : List E) (last : S) (t : System S E) : Ext t (loop f done last rest t) := by
  induction rest generalizing done last t with
  | nil => exact .refl t
  | cons e rest ih => exact ((Ext.addState _ _ _).trans (Ext.addTransition _ _ _)).trans (ih _ _ _)

theorem Ext.addSequence (f : List E → S) (t : System S E) (seq : List E) : Ext t (addSequence f t seq) :=
  (Ext.addState _ _ _).trans (Ext.loop f _ _ _ _)

/-! ### the generator while the size of the dictionary is right -/

/-- the entries of a list of states -/
def flat (l : Dict S (Dict E S)) : List (S × E × S) := l.flatMap fun p => p.2.map fun q => (p.1, q.1, q.2)

/-- what the generator has still to yield -/
def rest (t : System S E) : Gen S → List (S × E × S)
  | .fresh => transitions t
  | .suspended o s i => (((t.rel.get? s).getD []).drop i.pos).map (fun q => (s, q.1, q.2)) ++ flat (t.rel.drop o.pos)
  | .ended => []

theorem rest_suspended (t : System S E) (o : DictIter) (s : S) (i : DictIter) : rest t (.suspended o s i) =
    (((t.rel.get? s).getD []).drop i.pos).map (fun q => (s, q.1, q.2)) ++ flat (t.rel.drop o.pos) := rfl

/-- the iterators were created with the present sizes -/
def Fits (t : System S E) : Gen S → Prop
  | .suspended o s i => o.size = t.rel.length ∧ i.size = ((t.rel.get? s).getD []).length ∧ 0 < o.pos ∧
      t.rel.keys[o.pos - 1]? = some s ∧ i.pos ≤ ((t.rel.get? s).getD []).length
  | _ => True

theorem next_fits {κ ν : Type} (d : Dict κ ν) (i : DictIter) (h : i.size = d.length) :
    i.next d = match d[i.pos]? with
      | some e => .value (e, ⟨i.pos + 1, i.size⟩)
      | none => .stop := by
  unfold DictIter.next
  rw [if_neg (by simp [h])]
  cases d[i.pos]? <;> rfl

theorem next_misfits {κ ν : Type} (d : Dict κ ν) (i : DictIter) (h : i.size ≠ d.length) : i.next d = .runtime := by
  unfold DictIter.next
  rw [if_pos (Ne.symm h)]

theorem outerLoop_succ (t : System S E) (fuel : Nat) (o : DictIter) : outerLoop t (fuel + 1) o =
    match o.next t.rel with
    | .runtime => (.ended, .runtime)
    | .stop => (.ended, .stop)
    | .value ((s, d), o') =>
      match (DictIter.new d).next d with
      | .value ((e, s'), i) => (.suspended o' s i, .value (s, e, s'))
      | _ => outerLoop t fuel o' := rfl

theorem genNext_suspended (t : System S E) (o : DictIter) (s : S) (i : DictIter) : genNext t (.suspended o s i) =
    match i.next ((t.rel.get? s).getD []) with
    | .value ((e, s'), i') => (.suspended o s i', .value (s, e, s'))
    | .runtime => (.ended, .runtime)
    | .stop => outerLoop t (t.rel.length + 1) o := rfl

theorem outerLoop_rest {t : System S E} (ht : Good t) (fuel : Nat) (o : DictIter) (ho : o.size = t.rel.length)
    (hf : t.rel.length < fuel + o.pos) :
    match flat (t.rel.drop o.pos) with
    | [] => outerLoop t fuel o = (.ended, .stop)
    | x :: xs => ∃ o' i, outerLoop t fuel o = (.suspended o' x.1 i, .value x) ∧ Fits t (.suspended o' x.1 i) ∧
        rest t (.suspended o' x.1 i) = xs := by
  induction fuel generalizing o with
  | zero =>
    have : t.rel.drop o.pos = [] := List.drop_eq_nil_of_le (by omega)
    rw [this]
    rfl
  | succ fuel ih =>
    rw [outerLoop_succ, next_fits _ _ ho]
    cases hg : t.rel[o.pos]? with
    | none =>
      have : t.rel.drop o.pos = [] := List.drop_eq_nil_of_le (by simpa using hg)
      rw [this]
      rfl
    | some p =>
      obtain ⟨s, d⟩ := p
      have hlt : o.pos < t.rel.length := (List.getElem?_eq_some_iff.1 hg).1
      have hdrop : t.rel.drop o.pos = (s, d) :: t.rel.drop (o.pos + 1) := by
        rw [List.drop_eq_getElem_cons hlt, (List.getElem?_eq_some_iff.1 hg).2]
      have hget : t.rel.get? s = some d := Dict.get?_of_mem ht.rel (List.mem_of_getElem? hg)
      dsimp only
      rw [next_fits d (DictIter.new d) rfl]
      rw [hdrop]
      dsimp only [DictIter.new]
      cases d with
      | nil =>
        simp only [List.getElem?_nil]
        have := ih ⟨o.pos + 1, o.size⟩ ho (by simp; omega)
        simpa [flat] using this
      | cons q d =>
        simp only [List.getElem?_cons_zero]
        have hfl : flat ((s, q :: d) :: t.rel.drop (o.pos + 1)) =
            (s, q.1, q.2) :: (d.map (fun q => (s, q.1, q.2)) ++ flat (t.rel.drop (o.pos + 1))) := by simp [flat]
        rw [hfl]
        refine ⟨⟨o.pos + 1, o.size⟩, ⟨1, (q :: d).length⟩, rfl, ⟨ho, ?_, by simp, ?_, ?_⟩, ?_⟩
        · dsimp only
          rw [hget]; rfl
        · simp [Dict.keys, hg]
        · dsimp only
          rw [hget]; simp
        · unfold rest
          dsimp only
          rw [hget]
          simp

theorem genNext_rest {t : System S E} (ht : Good t) (g : Gen S) (hg : Fits t g) :
    match rest t g with
    | [] => genNext t g = (.ended, .stop)
    | x :: xs => ∃ o i, genNext t g = (.suspended o x.1 i, .value x) ∧ Fits t (.suspended o x.1 i) ∧
        rest t (.suspended o x.1 i) = xs := by
  cases g with
  | fresh =>
    have := outerLoop_rest ht (t.rel.length + 1) (DictIter.new t.rel) rfl (by simp [DictIter.new])
    simpa [rest, genNext, transitions, flat, DictIter.new] using this
  | ended => rfl
  | suspended o s i =>
    obtain ⟨h1, h2, h3, h4, _⟩ := hg
    rw [genNext_suspended, next_fits _ _ h2]
    cases hi : ((t.rel.get? s).getD [])[i.pos]? with
    | none =>
      have hn : ((t.rel.get? s).getD []).drop i.pos = [] := List.drop_eq_nil_of_le (by simpa using hi)
      have := outerLoop_rest ht (t.rel.length + 1) o h1 (by omega)
      rw [rest_suspended, hn]
      simpa using this
    | some q =>
      have hlt := (List.getElem?_eq_some_iff.1 hi).1
      have hd : ((t.rel.get? s).getD []).drop i.pos = q :: ((t.rel.get? s).getD []).drop (i.pos + 1) := by
        rw [List.drop_eq_getElem_cons hlt, (List.getElem?_eq_some_iff.1 hi).2]
      have hr : rest t (.suspended o s i) = (s, q.1, q.2) :: rest t (.suspended o s ⟨i.pos + 1, i.size⟩) := by
        rw [rest_suspended, hd]
        rfl
      rw [hr]
      exact ⟨o, ⟨i.pos + 1, i.size⟩, rfl, ⟨h1, h2, h3, h4, hlt⟩, rfl⟩

/-! ### the generator in an arbitrary history -/

/-- what holds at the head of the outer loop -/
structure Top (t0 t : System S E) (ys : List (S × E)) (o : DictIter) : Prop where
  nodup : ys.Nodup
  le : o.pos ≤ t.rel.length
  seen : ∀ y ∈ ys, y.1 ∈ t.rel.keys.take o.pos
  all : ∀ (j : Nat) (x : S), j < o.pos → t.rel.keys[j]? = some x → ∀ e, (Lts.next t0 x e).isSome → (x, e) ∈ ys

/-- what holds when the generator is suspended -/
structure At (t0 t : System S E) (ys : List (S × E)) (o : DictIter) (s : S) (i : DictIter) : Prop where
  nodup : ys.Nodup
  pos : 0 < o.pos
  le : o.pos ≤ t.rel.length
  key : t.rel.keys[o.pos - 1]? = some s
  seen : ∀ y ∈ ys, y.1 ∈ t.rel.keys.take o.pos
  here : ∀ y ∈ ys, y.1 = s → y.2 ∈ ((t.rel.get? s).getD []).keys.take i.pos
  all : ∀ (j : Nat) (x : S), j + 1 < o.pos → t.rel.keys[j]? = some x → ∀ e, (Lts.next t0 x e).isSome → (x, e) ∈ ys
  done : ∀ e ∈ ((t.rel.get? s).getD []).keys.take i.pos, (s, e) ∈ ys
  ile : i.pos ≤ ((t.rel.get? s).getD []).length

/-- the invariant -/
def Inv (t0 t : System S E) (ys : List (S × E)) : Gen S → Prop
  | .fresh => ys = []
  | .suspended o s i => At t0 t ys o s i
  | .ended => ys.Nodup

theorem keys_getElem? {κ ν : Type} [DecidableEq κ] (d : Dict κ ν) (j : Nat) : d.keys[j]? = d[j]?.map Prod.fst := by
  unfold Dict.keys; simp

theorem keys_length {κ ν : Type} [DecidableEq κ] (d : Dict κ ν) : d.keys.length = d.length := by
  unfold Dict.keys; simp

theorem take_prefix {α : Type} {a b : List α} (h : a <+: b) {n : Nat} (hn : n ≤ a.length) : b.take n = a.take n := by
  obtain ⟨c, rfl⟩ := h
  rw [List.take_append_of_le_length hn]

theorem getElem?_prefix {α : Type} {a b : List α} (h : a <+: b) {n : Nat} (hn : n < a.length) : b[n]? = a[n]? := by
  obtain ⟨c, rfl⟩ := h
  rw [List.getElem?_append_left hn]

/-- recorded pairs are found under their key -/
theorem next_mem {t : System S E} {x : S} {e : E} (h : (Lts.next t x e).isSome) :
    ∃ d, t.rel.get? x = some d ∧ e ∈ d.keys := by
  unfold Lts.next at h
  cases hg : t.rel.get? x with
  | none => rw [hg] at h; cases h
  | some d =>
    rw [hg] at h
    refine ⟨d, rfl, Dict.mem_keys_iff.2 ?_⟩
    exact Option.isSome_iff_exists.1 h

theorem outerLoop_inv {t0 t : System S E} (ht : Good t) (hx : Ext t0 t) (ys : List (S × E)) (fuel : Nat) (o : DictIter)
    (h : Top t0 t ys o) (hf : t.rel.length < fuel + o.pos) :
    (∃ o' s i e s', outerLoop t fuel o = (.suspended o' s i, .value (s, e, s')) ∧ Lts.next t s e = some s' ∧
      (s, e) ∉ ys ∧ At t0 t (ys ++ [(s, e)]) o' s i) ∨
    outerLoop t fuel o = (.ended, .runtime) ∨
    (outerLoop t fuel o = (.ended, .stop) ∧ ∀ x e, (Lts.next t0 x e).isSome → (x, e) ∈ ys) := by
  induction fuel generalizing o with
  | zero => have := h.le; omega
  | succ fuel ih =>
    rw [outerLoop_succ]
    by_cases hsz : o.size ≠ t.rel.length
    · rw [next_misfits _ _ hsz]
      exact .inr (.inl rfl)
    · rw [next_fits _ _ (not_not.1 hsz)]
      cases hg : t.rel[o.pos]? with
      | none =>
        refine .inr (.inr ⟨rfl, fun x e hxe => ?_⟩)
        obtain ⟨d, hd, _⟩ := next_mem hxe
        have hk : x ∈ t.rel.keys := hx.outer.subset (Dict.mem_keys_iff.2 ⟨d, hd⟩)
        obtain ⟨j, hj, hjx⟩ := List.getElem_of_mem hk
        have hl : t.rel.length ≤ o.pos := by simpa using hg
        rw [keys_length] at hj
        exact h.all j x (by omega) (by rw [List.getElem?_eq_getElem (by rw [keys_length]; omega), hjx]) e hxe
      | some p =>
        obtain ⟨s, d⟩ := p
        have hlt : o.pos < t.rel.length := (List.getElem?_eq_some_iff.1 hg).1
        have hget : t.rel.get? s = some d := Dict.get?_of_mem ht.rel (List.mem_of_getElem? hg)
        have hkey : t.rel.keys[o.pos]? = some s := by rw [keys_getElem?, hg]; rfl
        have hnew : s ∉ t.rel.keys.take o.pos := by
          intro hm
          obtain ⟨j, hj, hjs⟩ := List.getElem_of_mem hm
          rw [List.length_take] at hj
          rw [List.getElem_take] at hjs
          have hn : t.rel.keys.Nodup := ht.rel
          have h1 : t.rel.keys[j]? = t.rel.keys[o.pos]? := by
            rw [hkey, List.getElem?_eq_getElem (by omega), hjs]
          have := (List.nodup_iff_getElem?_ne_getElem?.1 hn) j o.pos (by omega) (by rw [keys_length]; omega)
          exact this h1
        have htake : t.rel.keys.take (o.pos + 1) = t.rel.keys.take o.pos ++ [s] := by
          rw [List.take_add_one, hkey]; rfl
        dsimp only
        rw [next_fits d (DictIter.new d) rfl]
        dsimp only [DictIter.new]
        cases d with
        | nil =>
          simp only [List.getElem?_nil]
          refine ih ⟨o.pos + 1, o.size⟩ ⟨h.nodup, by simp; omega, ?_, ?_⟩ (by simp; omega)
          · intro y hy
            dsimp only
            rw [htake]
            exact List.mem_append_left _ (h.seen y hy)
          · intro j x hj hjx e he
            dsimp only at hj
            by_cases hjo : j = o.pos
            · subst hjo
              rw [hkey] at hjx
              cases hjx
              exfalso
              obtain ⟨d0, hd0, hed⟩ := next_mem he
              obtain ⟨d, hd, hp⟩ := hx.inner s d0 hd0
              rw [hget] at hd
              cases hd
              have := hp.subset hed
              simp [Dict.keys] at this
            · exact h.all j x (by omega) hjx e he
        | cons q d =>
          simp only [List.getElem?_cons_zero]
          have hne : (s, q.1) ∉ ys := fun hm => hnew (h.seen _ hm)
          refine .inl ⟨⟨o.pos + 1, o.size⟩, s, ⟨1, (q :: d).length⟩, q.1, q.2, rfl, ?_, hne, ?_, ?_, ?_, ?_, ?_, ?_, ?_, ?_, ?_⟩
          · unfold Lts.next
            rw [hget]
            simp [Dict.get?]
          · rw [List.nodup_append]
            refine ⟨h.nodup, by simp, ?_⟩
            rintro a ha b hb rfl
            simp only [List.mem_singleton] at hb
            subst hb
            exact hne ha
          · simp
          · simp; omega
          · simpa using hkey
          · intro y hy
            dsimp only
            rw [htake]
            rcases List.mem_append.1 hy with hy | hy
            · exact List.mem_append_left _ (h.seen y hy)
            · simp only [List.mem_singleton] at hy
              subst hy
              simp
          · intro y hy hys
            rcases List.mem_append.1 hy with hy | hy
            · exact absurd (hys ▸ h.seen y hy) hnew
            · simp only [List.mem_singleton] at hy
              subst hy
              rw [hget]
              simp [Dict.keys]
          · intro j x hj hjx e he
            exact List.mem_append_left _ (h.all j x (by simpa using hj) hjx e he)
          · intro e he
            rw [hget] at he
            simp [Dict.keys] at he
            subst he
            simp
          · rw [hget]; simp

theorem genNext_inv {t0 t : System S E} (ht : Good t) (hx : Ext t0 t) (ys : List (S × E)) (g : Gen S)
    (h : Inv t0 t ys g) (hne : g ≠ .ended) :
    (∃ g' s e s', genNext t g = (g', .value (s, e, s')) ∧ Lts.next t s e = some s' ∧ (s, e) ∉ ys ∧
      g' ≠ .ended ∧ Inv t0 t (ys ++ [(s, e)]) g') ∨
    genNext t g = (.ended, .runtime) ∨
    (genNext t g = (.ended, .stop) ∧ ∀ x e, (Lts.next t0 x e).isSome → (x, e) ∈ ys) := by
  cases g with
  | ended => exact absurd rfl hne
  | fresh =>
    cases h
    rcases outerLoop_inv ht hx [] (t.rel.length + 1) (DictIter.new t.rel)
      ⟨.nil, by simp [DictIter.new], by simp, by simp [DictIter.new]⟩ (by omega) with
      ⟨o', s, i, e, s', h1, h2, h3, h4⟩ | h | h
    · exact .inl ⟨_, s, e, s', h1, h2, h3, by simp, h4⟩
    · exact .inr (.inl h)
    · exact .inr (.inr h)
  | suspended o s i =>
    replace h : At t0 t ys o s i := h
    obtain ⟨p, hp, hps⟩ : ∃ p, t.rel[o.pos - 1]? = some p ∧ p.1 = s := by
      have := h.key
      rw [keys_getElem?] at this
      simpa using this
    obtain ⟨s1, d⟩ := p
    cases hps
    have hget : t.rel.get? s1 = some d := Dict.get?_of_mem ht.rel (List.mem_of_getElem? hp)
    have hwf : Dict.WF d := ht.inner _ (List.mem_of_getElem? hp)
    have hhere := h.here
    have hdone := h.done
    simp only [hget, Option.getD_some] at hhere hdone
    rw [genNext_suspended]
    simp only [hget, Option.getD_some]
    by_cases hsz : i.size ≠ d.length
    · rw [next_misfits _ _ hsz]
      exact .inr (.inl rfl)
    · rw [next_fits _ _ (not_not.1 hsz)]
      cases hi : d[i.pos]? with
      | none =>
        have hl : d.length ≤ i.pos := by simpa using hi
        have htop : Top t0 t ys o := by
          refine ⟨h.nodup, h.le, h.seen, ?_⟩
          intro j x hj hjx e he
          by_cases hjo : j + 1 = o.pos
          · have : j = o.pos - 1 := by omega
            subst this
            rw [h.key] at hjx
            cases hjx
            obtain ⟨d0, hd0, hed⟩ := next_mem he
            obtain ⟨d', hd', hpre⟩ := hx.inner _ d0 hd0
            rw [hget] at hd'
            cases hd'
            refine hdone e ?_
            rw [List.take_of_length_le (by rw [keys_length]; exact hl)]
            exact hpre.subset hed
          · exact h.all j x (by omega) hjx e he
        rcases outerLoop_inv ht hx ys (t.rel.length + 1) o htop (by omega) with
          ⟨o', s, i, e, s', h1, h2, h3, h4⟩ | h | h
        · exact .inl ⟨_, s, e, s', h1, h2, h3, by simp, h4⟩
        · exact .inr (.inl h)
        · exact .inr (.inr h)
      | some q =>
        have hlt := (List.getElem?_eq_some_iff.1 hi).1
        have hkey : d.keys[i.pos]? = some q.1 := by rw [keys_getElem?, hi]; rfl
        have htake : d.keys.take (i.pos + 1) = d.keys.take i.pos ++ [q.1] := by
          rw [List.take_add_one, hkey]; rfl
        have hnew : q.1 ∉ d.keys.take i.pos := by
          intro hm
          obtain ⟨j, hj, hjs⟩ := List.getElem_of_mem hm
          rw [List.length_take] at hj
          rw [List.getElem_take] at hjs
          have h1 : d.keys[j]? = d.keys[i.pos]? := by
            rw [hkey, List.getElem?_eq_getElem (by omega), hjs]
          exact (List.nodup_iff_getElem?_ne_getElem?.1 hwf) j i.pos (by omega) (by rw [keys_length]; omega) h1
        have hne : (s1, q.1) ∉ ys := fun hm => hnew (hhere _ hm rfl)
        refine .inl ⟨_, s1, q.1, q.2, rfl, ?_, hne, by simp, ?_, h.pos, h.le, h.key, ?_, ?_, ?_, ?_, ?_⟩
        · unfold Lts.next
          rw [hget]
          exact Dict.get?_of_mem hwf (List.mem_of_getElem? hi)
        · rw [List.nodup_append]
          refine ⟨h.nodup, by simp, ?_⟩
          rintro a ha b hb rfl
          simp only [List.mem_singleton] at hb
          subst hb
          exact hne ha
        · intro y hy
          rcases List.mem_append.1 hy with hy | hy
          · exact h.seen y hy
          · simp only [List.mem_singleton] at hy
            subst hy
            refine List.mem_of_getElem? (i := o.pos - 1) ?_
            rw [List.getElem?_take, if_pos (by have := h.pos; omega)]
            exact h.key
        · intro y hy hys
          rw [hget]
          simp only [Option.getD_some]
          rw [htake]
          rcases List.mem_append.1 hy with hy | hy
          · exact List.mem_append_left _ (hhere y hy hys)
          · simp only [List.mem_singleton] at hy
            subst hy
            simp
        · intro j x hj hjx e he
          exact List.mem_append_left _ (h.all j x hj hjx e he)
        · intro e he
          rw [hget] at he
          simp only [Option.getD_some] at he
          rw [htake] at he
          rcases List.mem_append.1 he with he | he
          · exact List.mem_append_left _ (hdone e he)
          · simp only [List.mem_singleton] at he
            subst he
            simp
        · rw [hget]
          exact hlt

/-- other calls keep the invariant -/
theorem Inv.ext {t0 t t' : System S E} {ys : List (S × E)} {g : Gen S} (h : Inv t0 t ys g)
    (hx : Ext t t') : Inv t0 t' ys g := by
  cases g with
  | fresh => exact h
  | ended => exact h
  | suspended o s i =>
    replace h : At t0 t ys o s i := h
    have hi := h.ile
    have hlen : t.rel.keys.length = t.rel.length := keys_length _
    have hle : t.rel.length ≤ t'.rel.length := by
      have := hx.outer.length_le
      rwa [keys_length, keys_length] at this
    have hp := h.pos
    have hl := h.le
    have hk : s ∈ t.rel.keys := List.mem_of_getElem? h.key
    obtain ⟨d, hd⟩ := Dict.mem_keys_iff.1 hk
    obtain ⟨d', hd', hpre⟩ := hx.inner s d hd
    have htake : d'.keys.take i.pos = d.keys.take i.pos := take_prefix hpre (by
      rw [keys_length]; rw [hd] at hi; exact hi)
    refine ⟨h.nodup, hp, hl.trans hle, ?_, ?_, ?_, ?_, ?_, ?_⟩
    · rw [getElem?_prefix hx.outer (by omega)]; exact h.key
    · rw [take_prefix hx.outer (by omega)]; exact h.seen
    · have := h.here
      rw [hd] at this
      rw [hd']
      simp only [Option.getD_some] at this ⊢
      rw [htake]
      exact this
    · intro j x hj hjx
      rw [getElem?_prefix hx.outer (by omega)] at hjx
      exact h.all j x hj hjx
    · have := h.done
      rw [hd] at this
      rw [hd']
      simp only [Option.getD_some] at this ⊢
      rw [htake]
      exact this
    · rw [hd] at hi
      rw [hd']
      have := hpre.length_le
      rw [keys_length, keys_length] at this
      exact hi.trans this

theorem Inv.nodup {t0 t : System S E} {ys : List (S × E)} {g : Gen S} (h : Inv t0 t ys g) : ys.Nodup := by
  cases g with
  | fresh => cases h; exact .nil
  | ended => exact h
  | suspended o s i => exact (show At t0 t ys o s i from h).nodup

/-! ### histories -/

theorem after_good (f : List E → S) (ops : List (Op S E)) {t : System S E} (ht : Good t) : Good (after f ops t) := by
  induction ops generalizing t with
  | nil => exact ht
  | cons op ops ih =>
    cases op with
    | ask s => exact ih (good_ask ht s)
    | add seq => exact ih (addSequence_spec f ht seq).1
    | next => exact ih ht

theorem run_ended (f : List E → S) (ops : List (Op S E)) (t : System S E) :
    ∃ n, (run f ops t .ended).map Prod.snd = List.replicate n .stop := by
  induction ops generalizing t with
  | nil => exact ⟨0, rfl⟩
  | cons op ops ih =>
    cases op with
    | ask s => exact ih _
    | add seq => exact ih _
    | next =>
      obtain ⟨n, hn⟩ := ih t
      refine ⟨n + 1, ?_⟩
      simp only [run, genNext, List.map_cons, hn]
      rfl

theorem run_inv (f : List E → S) (ops : List (Op S E)) {t0 t : System S E} (ht : Good t) (hx : Ext t0 t)
    {ys : List (S × E)} {g : Gen S} (h : Inv t0 t ys g) (hne : g ≠ .ended) :
    ∃ (vs : List (S × E × S)) (last : List (Next (S × E × S))),
      (run f ops t g).map Prod.snd = vs.map .value ++ last ∧
      (ys ++ vs.map (fun x => (x.1, x.2.1))).Nodup ∧
      (∀ (i : Nat) (x : S × E × S), vs[i]? = some x → ∃ u, (run f ops t g)[i]?.map Prod.fst = some u ∧ answer u x.1 x.2.1 = some x.2.2) ∧
      (last = [] ∨ (∃ n, last = .runtime :: List.replicate n .stop) ∨
        (∃ n, last = .stop :: List.replicate n .stop) ∧
          ∀ s e, (Lts.next t0 s e).isSome → (s, e) ∈ ys ++ vs.map (fun x => (x.1, x.2.1))) := by
  induction ops generalizing t ys g with
  | nil => exact ⟨[], [], rfl, by simpa using h.nodup, by simp, .inl rfl⟩
  | cons op ops ih =>
    cases op with
    | ask s => exact ih (good_ask ht s) (hx.trans (.ask s)) (h.ext (.ask s)) hne
    | add seq => exact ih (addSequence_spec f ht seq).1 (hx.trans (.addSequence f t seq)) (h.ext (.addSequence f t seq)) hne
    | next =>
      rcases genNext_inv ht hx ys g h hne with ⟨g', s, e, s', h1, h2, h3, h4, h5⟩ | h1 | ⟨h1, h2⟩
      · obtain ⟨vs, last, k1, k2, k3, k4⟩ := ih ht hx h5 h4
        refine ⟨(s, e, s') :: vs, last, ?_, ?_, ?_, ?_⟩
        · simp only [run, h1, List.map_cons, k1, List.cons_append]
        · simpa using k2
        · intro i x hi
          simp only [run, h1]
          cases i with
          | zero =>
            simp only [List.getElem?_cons_zero, Option.some.injEq] at hi
            subst hi
            exact ⟨t, rfl, by rw [answer_eq ht]; exact h2⟩
          | succ i => exact k3 i x hi
        · simpa using k4
      · obtain ⟨n, hn⟩ := run_ended f ops t
        refine ⟨[], .runtime :: List.replicate n .stop, ?_, by simpa using h.nodup, by simp, .inr (.inl ⟨n, rfl⟩)⟩
        simp only [run, h1, List.map_cons, hn]
        rfl
      · obtain ⟨n, hn⟩ := run_ended f ops t
        refine ⟨[], .stop :: List.replicate n .stop, ?_, by simpa using h.nodup, by simp,
          .inr (.inr ⟨⟨n, rfl⟩, by simpa using h2⟩)⟩
        simp only [run, h1, List.map_cons, hn]
        rfl

/-- number of `next` calls in a history -/
def nexts (ops : List (Op S E)) : Nat := ops.countP fun op => match op with | .next => true | _ => false

theorem run_known (f : List E → S) (ops : List (Op S E)) {t : System S E} (ht : Good t) (g : Gen S) (hg : Fits t g)
    (ho : ∀ op ∈ ops, op = .next ∨ ∃ s ∈ t.rel.keys, op = .ask s) :
    (run f ops t g).map Prod.snd =
      ((rest t g).map Next.value ++ List.replicate (nexts ops) Next.stop).take (nexts ops) := by
  induction ops generalizing g with
  | nil => simp [run, nexts]
  | cons op ops ih =>
    have ho' : ∀ op ∈ ops, op = .next ∨ ∃ s ∈ t.rel.keys, op = .ask s := fun o h => ho o (List.mem_cons_of_mem _ h)
    rcases ho op (by simp) with rfl | ⟨s, hs, rfl⟩
    · have hn : nexts (Op.next :: ops) = nexts ops + 1 := by simp [nexts]
      rw [hn]
      have key := genNext_rest ht g hg
      cases hr : rest t g with
      | nil =>
        rw [hr] at key
        have := ih .ended trivial ho'
        simp only [run, key, List.map_cons]
        rw [this]
        simp [rest, List.replicate_succ]
      | cons x xs =>
        rw [hr] at key
        obtain ⟨o, i, k1, k2, k3⟩ := key
        have := ih _ k2 ho'
        simp only [run, k1, List.map_cons]
        rw [this, k3]
        simp only [List.cons_append, List.take_succ_cons, List.cons.injEq, true_and]
        rw [List.replicate_succ', ← List.append_assoc, List.take_append_of_le_length (l₁ := _ ++ List.replicate _ _) (by simp)]
    · have hn : nexts (Op.ask s :: ops) = nexts ops := by simp [nexts]
      rw [hn]
      show (run f ops (ask t s) g).map Prod.snd = _
      rw [ask_eq t s hs]
      exact ih g hg ho'

/-- after the `k`-th `next` the generator is suspended at the `k`-th transition -/
theorem run_append (f : List E → S) (k : Nat) (ops : List (Op S E)) {t : System S E} (ht : Good t) (g : Gen S)
    (hg : Fits t g) (hk : k < (rest t g).length) :
    ∃ x o i, (rest t g)[k]? = some x ∧ Fits t (.suspended o x.1 i) ∧ rest t (.suspended o x.1 i) = (rest t g).drop (k + 1) ∧
      (run f (List.replicate (k + 1) .next ++ ops) t g).map Prod.snd =
        ((rest t g).take (k + 1)).map Next.value ++ (run f ops t (.suspended o x.1 i)).map Prod.snd := by
  induction k generalizing g with
  | zero =>
    have key := genNext_rest ht g hg
    cases hr : rest t g with
    | nil => rw [hr] at hk; simp at hk
    | cons x xs =>
      rw [hr] at key
      obtain ⟨o, i, k1, k2, k3⟩ := key
      refine ⟨x, o, i, rfl, k2, by simpa using k3, ?_⟩
      show (run f (.next :: ops) t g).map Prod.snd = _
      simp only [run, k1, List.map_cons]
      simp
  | succ k ih =>
    have key := genNext_rest ht g hg
    cases hr : rest t g with
    | nil => rw [hr] at hk; simp at hk
    | cons x xs =>
      rw [hr] at key
      obtain ⟨o, i, k1, k2, k3⟩ := key
      obtain ⟨y, o', i', m1, m2, m3, m4⟩ := ih (.suspended o x.1 i) k2 (by rw [k3]; rw [hr] at hk; simpa using hk)
      rw [k3] at m1 m3 m4
      refine ⟨y, o', i', by simpa using m1, m2, by simpa using m3, ?_⟩
      rw [List.replicate_succ]
      show (run f (.next :: (List.replicate (k + 1) .next ++ ops)) t g).map Prod.snd = _
      simp only [run, k1, List.map_cons]
      rw [m4]
      simp

/-- a generator whose outer dictionary has grown goes on with the current state and then fails -/
theorem run_stale (f : List E → S) (m : Nat) {t : System S E} {o : DictIter} {s : S} {i : DictIter}
    (ho : o.size ≠ t.rel.length) (hi : i.size = ((t.rel.get? s).getD []).length) :
    (run f (List.replicate m .next) t (.suspended o s i)).map Prod.snd =
      ((((t.rel.get? s).getD []).drop i.pos).map (fun q : E × S => Next.value (s, q.1, q.2)) ++
        Next.runtime :: List.replicate m Next.stop).take m := by
  induction m generalizing i with
  | zero => simp [run]
  | succ m ih =>
    simp only [List.replicate_succ, run, List.map_cons, genNext_suspended]
    rw [next_fits _ _ hi]
    cases hg : ((t.rel.get? s).getD [])[i.pos]? with
    | none =>
      have hn : ((t.rel.get? s).getD []).drop i.pos = [] := List.drop_eq_nil_of_le (by simpa using hg)
      rw [hn]
      dsimp only
      rw [outerLoop_succ, next_misfits _ _ ho]
      have := run_known (S := S) (E := E)
      have he : (run f (List.replicate m .next) t .ended).map Prod.snd = List.replicate m .stop := by
        clear ih
        induction m with
        | zero => rfl
        | succ m ih =>
          simp only [List.replicate_succ, run, List.map_cons, genNext]
          rw [ih]
      rw [he]
      simp only [List.map_nil, List.nil_append, List.take_succ_cons, List.cons.injEq, true_and]
      rw [← List.replicate_succ, List.take_replicate]
      simp
    | some q =>
      have hlt := (List.getElem?_eq_some_iff.1 hg).1
      have hd : ((t.rel.get? s).getD []).drop i.pos = q :: ((t.rel.get? s).getD []).drop (i.pos + 1) := by
        rw [List.drop_eq_getElem_cons hlt, (List.getElem?_eq_some_iff.1 hg).2]
      rw [hd]
      dsimp only
      rw [ih (i := ⟨i.pos + 1, i.size⟩) hi]
      simp only [List.map_cons, List.cons_append, List.take_succ_cons, List.cons.injEq, true_and]
      rw [show (Next.runtime :: Next.stop :: List.replicate m (Next.stop : Next (S × E × S))) =
        (Next.runtime :: List.replicate m Next.stop) ++ [Next.stop] by
          rw [List.cons_append, ← List.replicate_succ', List.replicate_succ]]
      rw [← List.append_assoc, List.take_append_of_le_length (l₁ := _ ++ (_ :: _)) (by simp; omega)]

/-- the states with an entry of their own -/
theorem keys_addTransition (t : System S E) (s : S) (e : E) (s' x : S) :
    x ∈ (addTransition t s e s').rel.keys ↔ x ∈ t.rel.keys ∨ x = s := by
  unfold addTransition touch
  dsimp only
  cases hg : t.rel.get? s with
  | some d =>
    have hs : s ∈ t.rel.keys := Dict.mem_keys_iff.2 ⟨d, hg⟩
    dsimp only
    rw [Dict.mem_keys_put]
    tauto
  | none =>
    dsimp only
    rw [Dict.mem_keys_put, Dict.mem_keys_put]
    tauto

theorem Ext.next {t t' : System S E} (h : Ext t t') {s : S} {e : E} (hn : (Lts.next t s e).isSome) :
    (Lts.next t' s e).isSome := by
  obtain ⟨d, hd, he⟩ := next_mem hn
  obtain ⟨d', hd', hp⟩ := h.inner s d hd
  unfold Lts.next
  rw [hd']
  obtain ⟨v, hv⟩ := Dict.mem_keys_iff.1 (hp.subset he)
  simp [hv]

theorem keys_loop (f : List E → S) (rest done : List E) (last : S) {t : System S E} (ht : Good t) (x : S)
    (hx : x ∈ (loop f done last rest t).rel.keys) :
    x ∈ t.rel.keys ∨ ∃ e, (Lts.next (loop f done last rest t) x e).isSome := by
  induction rest generalizing done last t with
  | nil => exact .inl hx
  | cons e rest ih =>
    have h1 := (addState_spec ht (f (done ++ [e])) false rest.isEmpty).1
    obtain ⟨h2, h3⟩ := addTransition_spec h1 last e (f (done ++ [e]))
    simp only [loop] at hx ⊢
    rcases ih _ _ h2 hx with h | h
    · rw [keys_addTransition] at h
      rcases h with h | rfl
      · exact .inl h
      · refine .inr ⟨e, (Ext.loop f rest _ _ _).next ?_⟩
        rw [h3]
        simp
    · exact .inr h

theorem keys_addSequence (f : List E → S) {t : System S E} (ht : Good t) (seq : List E) (x : S)
    (hx : x ∈ (addSequence f t seq).rel.keys) : x ∈ t.rel.keys ∨ ∃ e, (Lts.next (addSequence f t seq) x e).isSome :=
  keys_loop f seq [] (f []) (addState_spec ht (f []) true seq.isEmpty).1 x hx

theorem Ext.after (f : List E → S) (ops : List (Op S E)) (t : System S E) : Ext t (after f ops t) := by
  induction ops generalizing t with
  | nil => exact .refl t
  | cons op ops ih =>
    cases op with
    | ask s => exact (Ext.ask s).trans (ih _)
    | add seq => exact (Ext.addSequence f t seq).trans (ih _)
    | next => exact ih t

theorem keys_after (f : List E → S) (ops : List (Op S E)) {t : System S E} (ht : Good t) (x : S)
    (hx : x ∈ (after f ops t).rel.keys) :
    x ∈ t.rel.keys ∨ (∃ e, (Lts.next (after f ops t) x e).isSome) ∨ Op.ask x ∈ ops := by
  induction ops generalizing t with
  | nil => exact .inl hx
  | cons op ops ih =>
    cases op with
    | ask s =>
      rcases ih (good_ask ht s) hx with h | h | h
      · by_cases hs : s ∈ t.rel.keys
        · rw [ask_eq t s hs] at h; exact .inl h
        · unfold Dict.keys at h
          rw [ask_rel t s hs] at h
          simp only [List.map_append, List.mem_append, List.map_cons, List.map_nil, List.mem_singleton] at h
          rcases h with h | rfl
          · exact .inl h
          · exact .inr (.inr (by simp))
      · exact .inr (.inl h)
      · exact .inr (.inr (by simp [h]))
    | add seq =>
      rcases ih (addSequence_spec f ht seq).1 hx with h | h | h
      · rcases keys_addSequence f ht seq x h with h | ⟨e, h⟩
        · exact .inl h
        · exact .inr (.inl ⟨e, (Ext.after f ops _).next h⟩)
      · exact .inr (.inl h)
      · exact .inr (.inr (by simp [h]))
    | next =>
      rcases ih ht hx with h | h | h
      · exact .inl h
      · exact .inr (.inl h)
      · exact .inr (.inr (by simp [h]))

theorem keys_of_next {t : System S E} {s : S} {e : E} (h : (Lts.next t s e).isSome) : s ∈ t.rel.keys := by
  obtain ⟨d, hd, _⟩ := next_mem h
  exact Dict.mem_keys_iff.2 ⟨d, hd⟩

theorem keys_of_ask (f : List E → S) (ops : List (Op S E)) (t : System S E) {x : S} (hx : Op.ask x ∈ ops) :
    x ∈ (after f ops t).rel.keys := by
  induction ops generalizing t with
  | nil => cases hx
  | cons op ops ih =>
    rcases List.mem_cons.1 hx with rfl | hx
    · refine (Ext.after f ops (ask t x)).outer.subset ?_
      by_cases hs : x ∈ t.rel.keys
      · rw [ask_eq t x hs]; exact hs
      · unfold Dict.keys
        rw [ask_rel t x hs]
        simp
    · exact ih _ hx

/-! ### the loop over the successors -/

theorem successor_stale (fuel : Nat) {t : System S E} {o : DictIter} {s : S} {i : DictIter}
    (ho : o.size < t.rel.length) (hi : i.size = ((t.rel.get? s).getD []).length) (hs : s ∈ t.rel.keys)
    (hp : i.pos ≤ ((t.rel.get? s).getD []).length) (hf : ((t.rel.get? s).getD []).length < fuel + i.pos) :
    (successorLoop fuel t (.suspended o s i)).2 = some false := by
  induction fuel generalizing t i with
  | zero => omega
  | succ fuel ih =>
    unfold successorLoop
    rw [genNext_suspended, next_fits _ _ hi]
    cases hg : ((t.rel.get? s).getD [])[i.pos]? with
    | none =>
      dsimp only
      rw [outerLoop_succ, next_misfits _ _ (by omega)]
    | some q =>
      dsimp only
      obtain ⟨d, hd⟩ := Dict.mem_keys_iff.1 hs
      have hd' : (ask t q.2).rel.get? s = some d := by
        by_cases hq : q.2 ∈ t.rel.keys
        · rw [ask_eq t _ hq]; exact hd
        · have hne : q.2 ≠ s := by rintro rfl; exact hq hs
          have hr : (ask t q.2).rel = t.rel.put q.2 [] := by
            unfold ask touch
            rw [Dict.get?_eq_none_iff.2 hq]
          rw [hr, Dict.get?_put_of_ne _ _ hne]
          exact hd
      have hl : t.rel.length ≤ (ask t q.2).rel.length := by
        have := (Ext.ask (t := t) q.2).outer.length_le
        rwa [keys_length, keys_length] at this
      have hlt := (List.getElem?_eq_some_iff.1 hg).1
      refine ih (by omega) ?_ ((Ext.ask q.2).outer.subset hs) ?_ ?_
      · dsimp only
        rw [hd']; rw [hd] at hi; exact hi
      · dsimp only
        rw [hd']; rw [hd] at hlt; exact hlt
      · dsimp only
        rw [hd']; rw [hd] at hf; simp only [Option.getD_some] at hf ⊢; omega

theorem successor_fits (fuel : Nat) {t : System S E} (ht : Good t) (g : Gen S) (hg : Fits t g)
    (hf : (rest t g).length < fuel) :
    ((∀ x ∈ rest t g, x.2.2 ∈ t.rel.keys) → successorLoop fuel t g = (rest t g, some true)) ∧
    ((∃ x ∈ rest t g, x.2.2 ∉ t.rel.keys) → (successorLoop fuel t g).2 = some false) := by
  induction fuel generalizing g with
  | zero => omega
  | succ fuel ih =>
    have key := genNext_rest ht g hg
    cases hr : rest t g with
    | nil =>
      rw [hr] at key
      dsimp only at key
      simp [successorLoop, key]
    | cons x xs =>
      rw [hr] at key
      obtain ⟨o, i, k1, k2, k3⟩ := key
      rw [hr] at hf
      by_cases hx : x.2.2 ∈ t.rel.keys
      · obtain ⟨h1, h2⟩ := ih _ k2 (by rw [k3]; simpa using hf)
        rw [k3] at h1 h2
        simp only [successorLoop, k1, ask_eq t _ hx]
        constructor
        · intro hall
          rw [h1 (fun y hy => hall y (by simp [hy]))]
        · rintro ⟨y, hy, hyk⟩
          rcases List.mem_cons.1 hy with rfl | hy
          · exact absurd hx hyk
          · exact h2 ⟨y, hy, hyk⟩
      · refine ⟨fun hall => absurd (hall x (by simp)) hx, fun _ => ?_⟩
        simp only [successorLoop, k1]
        obtain ⟨f1, f2, f3, f4, f5⟩ := k2
        have hs : x.1 ∈ t.rel.keys := List.mem_of_getElem? f4
        obtain ⟨d, hd⟩ := Dict.mem_keys_iff.1 hs
        have hne : x.2.2 ≠ x.1 := by
          intro he
          rw [he] at hx
          exact hx hs
        have hrel : (ask t x.2.2).rel = t.rel ++ [(x.2.2, [])] := ask_rel t _ hx
        have hrp : (ask t x.2.2).rel = t.rel.put x.2.2 [] := by
          unfold ask touch
          rw [Dict.get?_eq_none_iff.2 hx]
        have hd' : (ask t x.2.2).rel.get? x.1 = some d := by
          rw [hrp, Dict.get?_put_of_ne _ _ hne]; exact hd
        refine successor_stale fuel ?_ ?_ ?_ ?_ ?_
        · rw [hrel]; simp; omega
        · rw [hd']; rw [hd] at f2; exact f2
        · exact (Ext.ask _).outer.subset hs
        · rw [hd']; rw [hd] at f5; exact f5
        · rw [hd']
          rw [rest_suspended, hd] at k3
          have := congrArg List.length k3
          simp at this hf ⊢
          omega

end
end Prolothar.Lazy
