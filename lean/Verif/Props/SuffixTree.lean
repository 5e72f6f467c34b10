import Verif.Lemmas.SuffixTree
import Verif.Props.Patterns
/-
C94, C95, C92, C96: maximal repeats found with the suffix tree.
-/
namespace Prolothar.SuffixTree
open Prolothar.BoyerMoore Prolothar.Patterns Prolothar.Spec

variable {α : Type} [DecidableEq α]

omit [DecidableEq α] in
theorem Inv.length_le {word : List α} {k : Nat} {t : Tree} {ws : Nat → List α} (h : Inv word k t ws) {i : Nat} (hi : i < t.size) :
    (ws i).length ≤ word.length := by
  rcases Nat.eq_zero_or_pos i with rfl | hpos
  · rw [h.root]; simp
  · obtain ⟨j, _, hp⟩ := h.pre i hpos hi
    have := hp.length_le
    rw [List.length_drop] at this; omega

omit [DecidableEq α] in
theorem totalDescendants_spec {word : List α} {k : Nat} {t : Tree} {ws : Nat → List α} (h : Inv word k t ws) :
    ∀ fuel i, i < t.size → word.length - (ws i).length < fuel →
      ∃ n, totalDescendants t fuel i = .ok n ∧ (t.kids i).length ≤ n ∧ (t.kids i = [] → n = 0)
  | 0, _, _, hf => by omega
  | fuel + 1, i, hi, hf => by
    have key : ∀ cs : List Nat, (∀ c ∈ cs, c ∈ t.kids i) → ∃ ds, cs.mapM (totalDescendants t fuel) = .ok ds := by
      intro cs
      induction cs with
      | nil => exact fun _ => ⟨[], rfl⟩
      | cons c cs ih =>
        intro hcs
        obtain ⟨ds, hds⟩ := ih fun x hx => hcs x (by simp [hx])
        obtain ⟨_, h2, _, h4⟩ := h.toCore.trie.kid i hi c (hcs c (by simp))
        have := h.length_le h2
        obtain ⟨n, hn, _⟩ := totalDescendants_spec h fuel c h2 (by omega)
        exact ⟨n :: ds, by rw [List.mapM_cons, hn, hds]; rfl⟩
    obtain ⟨ds, hds⟩ := key (t.kids i) fun _ h => h
    refine ⟨(t.kids i).length + ds.sum, by rw [totalDescendants, hds]; rfl, by omega, ?_⟩
    intro he
    rw [he] at hds
    have : ds = [] := by simpa [pure, Except.pure] using hds.symm
    simp [he, this]

omit [DecidableEq α] in
theorem nodeWordLoop_spec {word : List α} {k : Nat} {t : Tree} {ws : Nat → List α} (h : Inv word k t ws) :
    ∀ fuel i cur, i < t.size → (ws i).length < fuel → nodeWordLoop word t fuel i cur = .ok (ws i ++ cur)
  | 0, _, _, _, hf => by omega
  | fuel + 1, i, cur, hi, hf => by
    rw [nodeWordLoop]
    rcases Nat.eq_zero_or_pos i with rfl | hpos
    · rw [if_neg (by simp), h.root]; rfl
    · rw [if_pos (by omega)]
      obtain ⟨p, hp, hip⟩ := h.par i hpos hi
      obtain ⟨_, _, hpar, s, e, hedge, hse, hen, hws⟩ := h.kid p hp i hip
      have hpo : t.parentOf i = .ok p := by unfold Tree.parentOf; rw [hpar]
      have hE : t.edge p i = .ok (s, e) := by unfold Tree.edge; rw [hedge]
      rw [hpo]
      show (t.edge p i >>= _) = _
      rw [hE]
      show nodeWordLoop word t fuel p (pySlice word s e ++ cur) = _
      have hlen := congrArg List.length hws
      rw [List.length_append, length_pySlice] at hlen
      rw [nodeWordLoop_spec h fuel p _ hp (by omega), hws, List.append_assoc]

omit [DecidableEq α] in
theorem occursAt_of_prefix_drop {w l : List α} {j : Nat} (h : w <+: l.drop j) (hj : j ≤ l.length) : OccursAt w l j := by
  obtain ⟨b, hb⟩ := h
  refine ⟨l.take j, b, ?_, by rw [List.length_take]; omega⟩
  rw [List.append_assoc, hb, List.take_append_drop]

omit [DecidableEq α] in
theorem prefix_drop_of_occursAt {w l : List α} {j : Nat} (h : OccursAt w l j) : w <+: l.drop j := by
  obtain ⟨a, b, hl, ha⟩ := h
  refine ⟨b, ?_⟩
  rw [hl, List.append_assoc, List.drop_left' ha]

omit [DecidableEq α] in
theorem prefix_snoc_of_prefix {w l : List α} {j : Nat} (h : w <+: l.drop j) {a : α} (ha : l[j + w.length]? = some a) :
    w ++ [a] <+: l.drop j := by
  obtain ⟨b, hb⟩ := h
  have : (l.drop j)[w.length]? = some a := by rw [List.getElem?_drop]; exact ha
  rw [← hb, List.getElem?_append_right (Nat.le_refl _), Nat.sub_self] at this
  cases b with
  | nil => simp at this
  | cons x b =>
    have hx : x = a := by simpa using this
    subst hx
    exact ⟨b, by rw [← hb]; simp⟩

omit [DecidableEq α] in
/-- inner nodes are exactly the right-branching words -/
theorem inner_iff {word : List α} (hw : Ends word) {t : Tree} {ws : Nat → List α} (h : Inv word word.length t ws) (w : List α) :
    (∃ i, 0 < i ∧ i < t.size ∧ t.kids i ≠ [] ∧ ws i = w) ↔
      w ≠ [] ∧ ∃ i j, i < word.length ∧ j < word.length ∧ ∃ a b, a ≠ b ∧ w ++ [a] <+: word.drop i ∧ w ++ [b] <+: word.drop j := by
  have htrie := h.toCore.trie
  constructor
  · rintro ⟨i, hi0, hi, hk, rfl⟩
    refine ⟨?_, ?_⟩
    · intro he
      have := htrie.inj hi h.pos (by rw [he, h.root])
      omega
    · have h2 := h.inner i hi0 hi hk
      match hkids : t.kids i, h2 with
      | c :: c' :: cs, _ =>
        have hc : c ∈ t.kids i := by rw [hkids]; simp
        have hc' : c' ∈ t.kids i := by rw [hkids]; simp
        have hne : c ≠ c' := by
          have := h.nodup i hi
          rw [hkids] at this
          rw [List.nodup_cons] at this
          rintro rfl; exact this.1 (by simp)
        have ext : ∀ c ∈ t.kids i, ∃ j < word.length, ∃ a, (ws c)[(ws i).length]? = some a ∧ ws i ++ [a] <+: word.drop j := by
          intro c hc
          obtain ⟨k1, k2, k3, k4⟩ := htrie.kid i hi c hc
          obtain ⟨j, hj, hpre⟩ := h.pre c k1 k2
          refine ⟨j, hj, (ws c)[(ws i).length], List.getElem?_eq_getElem k4, ?_⟩
          refine List.IsPrefix.trans ?_ hpre
          obtain ⟨b, hb⟩ := k3
          have hg : (ws c)[(ws i).length]? = some (ws c)[(ws i).length] := List.getElem?_eq_getElem k4
          have := prefix_snoc_of_prefix (w := ws i) (l := ws c) (j := 0) ⟨b, by rw [hb]; rfl⟩ (by rw [Nat.zero_add]; exact hg)
          exact this
        obtain ⟨j, hj, a, ha, hpa⟩ := ext c hc
        obtain ⟨j', hj', a', ha', hpa'⟩ := ext c' hc'
        refine ⟨j, j', hj, hj', a, a', ?_, hpa, hpa'⟩
        rintro rfl
        exact hne (h.first i hi c hc c' hc' (by rw [ha, ha']))
  · rintro ⟨hwne, i, j, hi, hj, a, b, hab, hpa, hpb⟩
    obtain ⟨l1, _, hl1, _, hw1⟩ := h.suf i hi
    obtain ⟨l2, _, hl2, _, hw2⟩ := h.suf j hj
    have hpw1 : w <+: ws l1 := by rw [hw1]; exact (List.prefix_append _ _).trans hpa
    have hpw2 : w <+: ws l2 := by rw [hw2]; exact (List.prefix_append _ _).trans hpb
    rcases htrie.locate _ l1 hl1 (Nat.le_refl _) w hpw1 with ⟨x, hx, hxw⟩ | ⟨p, hp, c, hc, h1, h2, h3, h4⟩
    · have hx0 : 0 < x := by
        rcases Nat.eq_zero_or_pos x with rfl | hh
        · rw [h.root] at hxw; exact absurd hxw.symm hwne
        · exact hh
      refine ⟨x, hx0, hx, ?_, hxw⟩
      intro hleaf
      obtain ⟨m, hm, hmw⟩ := h.leaf x hx0 hx hleaf
      rw [hxw] at hmw
      have hlen := hpa.length_le
      rw [List.length_append, List.length_drop, hmw, List.length_drop, List.length_singleton] at hlen
      rw [hw1, hmw] at hpw1
      exact hw.no_prefix (by omega) hm hpw1
    · exfalso
      obtain ⟨_, hcs, hpc, hpclt⟩ := htrie.kid p hp c hc
      have h5 : (ws c).take ((ws p).length + 1) <+: w :=
        take_prefix_of_le (List.take_prefix _ _) h4 (by rw [List.length_take]; omega)
      have h6 := htrie.follow hp hc hl2 (h5.trans hpw2)
      apply hab
      have e1 : (ws c)[w.length]? = some a := by
        rw [getElem?_of_prefix h3 h2, hw1, ← getElem?_of_prefix hpa (by simp)]
        simp
      have e2 : (ws c)[w.length]? = some b := by
        rw [getElem?_of_prefix h6 h2, hw2, ← getElem?_of_prefix hpb (by simp)]
        simp
      rw [e1] at e2
      exact Option.some.inj e2

/-- right-branching words of the completed sequence are the right maximal words of the sequence -/
theorem branching_iff {seq : List α} {d : α} (hd : d ∉ seq) (w : List α) :
    (∃ i j, i < (seq ++ [d]).length ∧ j < (seq ++ [d]).length ∧ ∃ a b, a ≠ b ∧ w ++ [a] <+: (seq ++ [d]).drop i ∧
      w ++ [b] <+: (seq ++ [d]).drop j) ↔ RightMaximal w seq := by
  have fwd : ∀ i a, w ++ [a] <+: (seq ++ [d]).drop i → OccursAt w seq i ∧ seq[i + w.length]?.getD d = a := by
    intro i a h
    have hle := h.length_le
    rw [List.length_append, List.length_drop, List.length_append, List.length_singleton, List.length_singleton] at hle
    refine ⟨occursAt_of_prefix_drop ?_ (by omega), ?_⟩
    · rw [List.drop_append_of_le_length (by omega)] at h
      have h1 := (List.prefix_append w [a]).trans h
      exact take_prefix_of_le h1 (List.prefix_append _ _) (by rw [List.length_drop]; omega)
    · have : ((seq ++ [d]).drop i)[w.length]? = some a := by
        rw [← getElem?_of_prefix h (by simp)]; simp
      rw [List.getElem?_drop] at this
      by_cases hc : i + w.length < seq.length
      · rw [List.getElem?_append_left hc] at this; rw [this]; rfl
      · rw [List.getElem?_append_right (by omega)] at this
        have e : i + w.length - seq.length = 0 := by omega
        rw [e] at this
        rw [List.getElem?_eq_none (by omega)]
        simpa using this
  have bwd : ∀ i, OccursAt w seq i → w ++ [seq[i + w.length]?.getD d] <+: (seq ++ [d]).drop i := by
    intro i h
    have hle := occursAt_le h
    have hp := prefix_drop_of_occursAt h
    refine prefix_snoc_of_prefix ?_ ?_
    · rw [List.drop_append_of_le_length (by omega)]
      exact hp.trans (List.prefix_append _ _)
    · by_cases hc : i + w.length < seq.length
      · rw [List.getElem?_append_left hc, List.getElem?_eq_getElem hc]; rfl
      · rw [List.getElem?_append_right (by omega)]
        have e : i + w.length - seq.length = 0 := by omega
        rw [e, List.getElem?_eq_none (l := seq) (by omega)]
        rfl
  constructor
  · rintro ⟨i, j, _, _, a, b, hab, ha, hb⟩
    obtain ⟨h1, h2⟩ := fwd i a ha
    obtain ⟨h3, h4⟩ := fwd j b hb
    refine ⟨i, j, h1, h3, ?_⟩
    intro hh
    rw [hh] at h2
    exact hab (h2.symm.trans h4)
  · rintro ⟨i, j, h1, h2, hne⟩
    have l1 := occursAt_le h1
    have l2 := occursAt_le h2
    refine ⟨i, j, by simp; omega, by simp; omega, _, _, ?_, bwd i h1, bwd j h2⟩
    intro hh
    apply hne
    cases hi : seq[i + w.length]? with
    | none =>
      cases hj : seq[j + w.length]? with
      | none => rfl
      | some y =>
        rw [hi, hj] at hh
        have : d = y := hh
        exact absurd (this ▸ List.mem_of_getElem? hj) hd
    | some x =>
      cases hj : seq[j + w.length]? with
      | none =>
        rw [hi, hj] at hh
        have : x = d := hh
        exact absurd (this ▸ List.mem_of_getElem? hi) hd
      | some y =>
        rw [hi, hj] at hh
        have : x = y := hh
        rw [this]

/-! ### collecting the words -/

omit [DecidableEq α] in
theorem values_put_none {d : Dict Nat (List (List α))} {n : Nat} {v : List (List α)} (h : d.get? n = none) :
    (d.put n v).values.flatten = d.values.flatten ++ v := by
  induction d with
  | nil => simp [Dict.put, Dict.values]
  | cons kv d ih =>
    obtain ⟨k, x⟩ := kv
    by_cases hk : k = n
    · rw [Dict.get?] at h; rw [if_pos hk] at h; cases h
    · rw [Dict.get?, if_neg hk] at h
      rw [Dict.put, if_neg hk]
      have := ih h
      simp only [Dict.values, List.map_cons, List.flatten_cons] at this ⊢
      rw [this, List.append_assoc]

omit [DecidableEq α] in
theorem values_put_some {d : Dict Nat (List (List α))} {n : Nat} {v : List (List α)} {w : List α} (h : d.get? n = some v) :
    (d.put n (v ++ [w])).values.flatten.Perm (d.values.flatten ++ [w]) := by
  induction d with
  | nil => cases h
  | cons kv d ih =>
    obtain ⟨k, x⟩ := kv
    by_cases hk : k = n
    · rw [Dict.get?, if_pos hk] at h
      rw [Dict.put, if_pos hk]
      have : x = v := Option.some.inj h
      subst this
      simp only [Dict.values, List.map_cons, List.flatten_cons]
      rw [List.append_assoc, List.append_assoc]
      exact (List.perm_append_comm).append_left x
    · rw [Dict.get?, if_neg hk] at h
      rw [Dict.put, if_neg hk]
      have := ih h
      simp only [Dict.values, List.map_cons, List.flatten_cons] at this ⊢
      rw [List.append_assoc]
      exact this.append_left x

omit [DecidableEq α] in
theorem nodup_of_flatten {vs : List (List (List α))} (h : vs.flatten.Nodup) {v : List (List α)} (hv : v ∈ vs) : v.Nodup :=
  (List.nodup_flatten.1 h).1 v hv

theorem keep_true {values : List (List α)} (hnd : values.Nodup) (hl : values.length ≠ 1) {v : List α} (hv : v ∈ values)
    (isElem : List α → α → Bool) (hE : ∀ v x, isElem v x = false) : keep isElem values v = .ok true := by
  have hall : ∀ b ∈ (values.filter fun word => word ≠ v).map (fun word => !(word.any (isElem v))), b = true := by
    intro b hb
    obtain ⟨w, _, rfl⟩ := List.mem_map.1 hb
    simp [hE]
  unfold keep
  cases hm : (values.filter fun word => word ≠ v).map (fun word => !(word.any (isElem v))) with
  | nil =>
    exfalso
    rw [List.map_eq_nil_iff, List.filter_eq_nil_iff] at hm
    have hall' : ∀ w ∈ values, w = v := fun w hw => by simpa using hm w hw
    match values, hnd, hl, hv, hall' with
    | [], _, _, hv, _ => cases hv
    | [_], _, hl, _, _ => exact hl rfl
    | a :: b :: l, hnd, _, _, hall' =>
      rw [List.nodup_cons] at hnd
      have h1 := hall' a (by simp)
      have h2 := hall' b (by simp)
      exact hnd.1 (by simp [h1, h2])
  | cons b bs =>
    rw [hm] at hall
    have : ∀ (bs : List Bool) (b : Bool), b = true → (∀ x ∈ bs, x = true) → bs.foldl (· && ·) b = true := by
      intro bs
      induction bs with
      | nil => intro b hb _; exact hb
      | cons c cs ih =>
        intro b hb hall
        rw [List.foldl_cons]
        exact ih _ (by simp [hb, hall c (by simp)]) fun x hx => hall x (by simp [hx])
    show Except.ok (bs.foldl (· && ·) b) = _
    rw [this bs b (hall b (by simp)) fun x hx => hall x (by simp [hx])]

theorem filterGroup_spec {values : List (List α)} (hnd : values.Nodup)
    (isElem : List α → α → Bool) (hE : ∀ v x, isElem v x = false) (repeats : List (List α)) :
    filterGroup isElem repeats values = .ok (repeats ++ values) := by
  unfold filterGroup
  by_cases hl : values.length = 1
  · rw [if_pos hl]; rfl
  · rw [if_neg hl]
    have : ∀ (l acc : List (List α)), (∀ v ∈ l, v ∈ values) → l.foldlM (fun acc v => do
        let b ← keep isElem values v
        if b then return acc ++ [v] else return acc) acc = (.ok (acc ++ l) : Py _) := by
      intro l
      induction l with
      | nil => intro acc _; simp [pure, Except.pure]
      | cons v l ih =>
        intro acc hs
        rw [List.foldlM_cons, keep_true hnd hl (hs v (by simp)) isElem hE]
        show List.foldlM _ (acc ++ [v]) l = _
        rw [ih _ fun x hx => hs x (by simp [hx])]
        simp
    exact this values repeats fun _ h => h

/-- the search for maximal repeats -/
theorem findMaximal_spec (d : α) (isElem : List α → α → Bool) (hE : ∀ v x, isElem v x = false) {seq : List α}
    (hne : seq ≠ []) (hd : d ∉ seq) (minLength : Nat) :
    ∃ r, findMaximal d isElem seq minLength = .ok r ∧ r.Nodup ∧
      ∀ w, w ∈ r ↔ w ≠ [] ∧ minLength ≤ w.length ∧ RightMaximal w seq := by
  have hends : Ends (seq ++ [d]) := ⟨seq, d, rfl, hd⟩
  obtain ⟨t, ws, hb, hinv⟩ := build_spec hends
  have hcreate : create d seq = .ok (seq ++ [d], t) := by
    unfold create
    obtain ⟨l, x, rfl⟩ : ∃ l x, seq = l ++ [x] := ⟨seq.dropLast, seq.getLast hne, (List.dropLast_append_getLast hne).symm⟩
    have hg : pyGet (l ++ [x]) (-1) = .ok x := by
      unfold pyGet
      simp
    rw [hg]
    have hx : x ≠ d := by rintro rfl; exact hd (by simp)
    show (do let t ← build (if x ≠ d then (l ++ [x]) ++ [d] else l ++ [x])
             return ((if x ≠ d then (l ++ [x]) ++ [d] else l ++ [x]), t)) = _
    rw [if_pos hx, hb]; rfl
  have hnode : ∀ i, 0 < i → i < t.size → t.kids i ≠ [] → nodeWord d (seq ++ [d]) t i = .ok (ws i) := by
    intro i h0 hi hk
    unfold nodeWord
    rw [nodeWordLoop_spec hinv _ i [] hi (by have := hinv.length_le hi; omega), List.append_nil]
    show Except.ok (if (ws i).getLast? = some d then (ws i).dropLast else ws i) = _
    rw [if_neg]
    intro hl
    obtain ⟨_, hbr⟩ := (inner_iff hends hinv (ws i)).1 ⟨i, h0, hi, hk, rfl⟩
    obtain ⟨p, _, hp, _, _⟩ := (branching_iff hd (ws i)).1 hbr
    obtain ⟨a, b, he, _⟩ := hp
    exact hd (by rw [he]; simp [List.mem_of_getLast? hl])
  have hwne : ∀ i, 0 < i → i < t.size → ws i ≠ [] := by
    intro i h0 hi he
    have := hinv.toCore.trie.inj hi hinv.pos (by rw [he, hinv.root])
    omega
  -- the collecting loop
  have hcol : ∀ (is : List Nat), (∀ i ∈ is, 0 < i ∧ i < t.size) → ∀ dct : Dict Nat (List (List α)),
      ∃ dct', is.foldlM (collect d (seq ++ [d]) t minLength) dct = .ok dct' ∧
        dct'.values.flatten.Perm (dct.values.flatten ++
          (is.filter fun i => decide (t.kids i ≠ [] ∧ minLength ≤ (ws i).length)).map ws) := by
    intro is
    induction is with
    | nil => intro _ dct; exact ⟨dct, rfl, by simp⟩
    | cons i is ih =>
      intro his dct
      obtain ⟨h0, hi⟩ := his i (by simp)
      have hlen := hinv.length_le hi
      obtain ⟨n, hn, hn1, hn2⟩ := totalDescendants_spec hinv ((seq ++ [d]).length + 1) i hi (by omega)
      have hstep : ∃ d1, collect d (seq ++ [d]) t minLength dct i = .ok d1 ∧ d1.values.flatten.Perm
          (dct.values.flatten ++ ([i].filter fun i => decide (t.kids i ≠ [] ∧ minLength ≤ (ws i).length)).map ws) := by
        unfold collect
        rw [hn]
        by_cases hk : t.kids i = []
        · refine ⟨dct, ?_, by simp [hk]⟩
          show (if n ≥ 2 then _ else _) = _
          rw [if_neg (by rw [hn2 hk]; omega)]; rfl
        · have h2 : n ≥ 2 := by have := hinv.inner i h0 hi hk; omega
          by_cases hm : minLength ≤ (ws i).length
          · have hstep' : (if n ≥ 2 then do
                let w ← nodeWord d (seq ++ [d]) t i
                if w.length ≥ minLength then
                  match dct.get? n with
                  | none => return dct.put n [w]
                  | some ws => return dct.put n (ws ++ [w])
                else return dct
              else return dct) = (match dct.get? n with
                  | none => .ok (dct.put n [ws i])
                  | some ws' => .ok (dct.put n (ws' ++ [ws i])) : Py _) := by
              rw [if_pos h2, hnode i h0 hi hk]
              show (if (ws i).length ≥ minLength then _ else _) = _
              rw [if_pos hm]
              rfl
            have hfilt : ([i].filter fun i => decide (t.kids i ≠ [] ∧ minLength ≤ (ws i).length)).map ws = [ws i] := by
              simp [hk, hm]
            rw [hfilt]
            cases hg : dct.get? n with
            | none =>
              refine ⟨_, hstep'.trans (by rw [hg]), ?_⟩
              rw [values_put_none hg]
            | some v =>
              refine ⟨_, hstep'.trans (by rw [hg]), ?_⟩
              exact values_put_some hg
          · refine ⟨dct, ?_, by simp [hm]⟩
            show (if n ≥ 2 then do
                let w ← nodeWord d (seq ++ [d]) t i
                if w.length ≥ minLength then
                  match dct.get? n with
                  | none => return dct.put n [w]
                  | some ws => return dct.put n (ws ++ [w])
                else return dct
              else return dct) = _
            rw [if_pos h2, hnode i h0 hi hk]
            show (if (ws i).length ≥ minLength then _ else _) = _
            rw [if_neg hm]; rfl
      obtain ⟨d1, e1, e2⟩ := hstep
      obtain ⟨d2, e3, e4⟩ := ih (fun x hx => his x (by simp [hx])) d1
      refine ⟨d2, by rw [List.foldlM_cons, e1]; exact e3, e4.trans ?_⟩
      refine (e2.append_right _).trans ?_
      rw [List.append_assoc, ← List.map_append, ← List.filter_append]
      exact List.Perm.refl _
  have hrange : ∀ i, i ∈ List.range' 1 (t.size - 1) ↔ 0 < i ∧ i < t.size := by
    intro i
    rw [List.mem_range'_1]
    have := hinv.pos
    omega
  obtain ⟨dct, hdct, hperm⟩ := hcol (List.range' 1 (t.size - 1)) (fun i hi => (hrange i).1 hi) []
  simp only [Dict.values, List.map_nil, List.flatten_nil, List.nil_append] at hperm
  have hnd : (((List.range' 1 (t.size - 1)).filter fun i => decide (t.kids i ≠ [] ∧ minLength ≤ (ws i).length)).map ws).Nodup := by
    refine List.Nodup.map_on ?_ (List.Nodup.filter _ List.nodup_range')
    intro x hx y hy hxy
    exact hinv.toCore.trie.inj ((hrange x).1 (List.mem_filter.1 hx).1).2 ((hrange y).1 (List.mem_filter.1 hy).1).2 hxy
  have hndv : dct.values.flatten.Nodup := (hperm.nodup_iff).2 hnd
  have hfil : ∀ (vs : List (List (List α))) acc, (∀ v ∈ vs, v.Nodup) → vs.foldlM (filterGroup isElem) acc = .ok (acc ++ vs.flatten) := by
    intro vs
    induction vs with
    | nil => intro acc _; simp [pure, Except.pure]
    | cons v vs ih =>
      intro acc h
      rw [List.foldlM_cons, filterGroup_spec (h v (by simp)) isElem hE]
      show List.foldlM _ (acc ++ v) vs = _
      rw [ih _ fun x hx => h x (by simp [hx])]
      simp
  refine ⟨dct.values.flatten, ?_, hndv, fun w => ?_⟩
  · unfold findMaximal
    rw [hcreate]
    show ((List.range' 1 (t.size - 1)).foldlM (collect d (seq ++ [d]) t minLength) [] >>= _) = _
    rw [hdct]
    show dct.values.foldlM (filterGroup isElem) [] = _
    rw [hfil _ _ fun v hv => nodup_of_flatten hndv hv, List.nil_append]
  · have hmem : w ∈ dct.values.flatten ↔ ∃ i, (0 < i ∧ i < t.size) ∧ (t.kids i ≠ [] ∧ minLength ≤ (ws i).length) ∧ ws i = w := by
      rw [show dct.values.flatten = (List.map Prod.snd dct).flatten from rfl, hperm.mem_iff, List.mem_map]
      refine exists_congr fun i => ?_
      rw [List.mem_filter, hrange, decide_eq_true_eq, and_assoc]
    rw [hmem, ← branching_iff hd w]
    constructor
    · rintro ⟨i, ⟨h0, hi⟩, ⟨hk, hm⟩, rfl⟩
      obtain ⟨h1, h2⟩ := (inner_iff hends hinv (ws i)).1 ⟨i, h0, hi, hk, rfl⟩
      exact ⟨h1, hm, h2⟩
    · rintro ⟨h1, hm, h2⟩
      obtain ⟨i, h0, hi, hk, rfl⟩ := (inner_iff hends hinv w).2 ⟨h1, h2⟩
      exact ⟨i, ⟨h0, hi⟩, ⟨hk, hm⟩, rfl⟩

/-! ### C94 maximal repeats -/

/-- C94: `find_maximal_repeats` on a non-empty sequence of strings without `'$'` returns, each once, exactly the
non-empty words of at least the minimal length which occur at two places with different continuations. (No
element of the sequence is a list, so `isElem` is false.) -/
theorem C94_maximal_repeats (dollar : α) {seq : List α} (hne : seq ≠ []) (hd : dollar ∉ seq) (minLength : Nat) :
    ∃ r, findMaximal dollar (fun _ _ => false) seq minLength = .ok r ∧ r.Nodup ∧
      ∀ w, w ∈ r ↔ w ≠ [] ∧ minLength ≤ w.length ∧ RightMaximal w seq :=
  findMaximal_spec dollar _ (fun _ _ => rfl) hne hd minLength

/-- C94: every repeated word is a part of a returned word, if it has the minimal length -/
theorem rightMaximal_extend {l : List α} : ∀ n (v : List α), l.length - v.length ≤ n → Repeated v l →
    ∃ x, RightMaximal (v ++ x) l := by
  intro n
  induction n with
  | zero =>
    rintro v hn ⟨i, j, hij, hi, hj⟩
    have h1 := occursAt_le hi
    have h2 := occursAt_le hj
    omega
  | succ n ih =>
    rintro v hn ⟨i, j, hij, hi, hj⟩
    by_cases hc : l[i + v.length]? = l[j + v.length]?
    · have h1 := occursAt_le hi
      have h2 := occursAt_le hj
      cases hi' : l[i + v.length]? with
      | none =>
        exfalso
        rw [hi'] at hc
        have a1 := List.getElem?_eq_none_iff.1 hi'
        have a2 := List.getElem?_eq_none_iff.1 hc.symm
        omega
      | some a =>
        rw [hi'] at hc
        have o1 : OccursAt (v ++ [a]) l i := occursAt_of_prefix_drop (prefix_snoc_of_prefix (prefix_drop_of_occursAt hi) hi') (by omega)
        have o2 : OccursAt (v ++ [a]) l j := occursAt_of_prefix_drop (prefix_snoc_of_prefix (prefix_drop_of_occursAt hj) hc.symm) (by omega)
        have := occursAt_le o1
        rw [List.length_append, List.length_singleton] at this
        obtain ⟨x, hx⟩ := ih (v ++ [a]) (by rw [List.length_append, List.length_singleton]; omega) ⟨i, j, hij, o1, o2⟩
        exact ⟨a :: x, by simpa using hx⟩
    · exact ⟨[], i, j, by simpa using hi, by simpa using hj, by simpa using hc⟩

omit [DecidableEq α] in
theorem rightMaximal_repeated {w l : List α} (h : RightMaximal w l) : Repeated w l := by
  obtain ⟨i, j, hi, hj, hne⟩ := h
  exact ⟨i, j, by rintro rfl; exact hne rfl, hi, hj⟩

/-- C94: hence every repeated word of the minimal length is a prefix of a returned one -/
theorem C94_covers (dollar : α) {seq : List α} (hne : seq ≠ []) (hd : dollar ∉ seq) (minLength : Nat) :
    ∃ r, findMaximal dollar (fun _ _ => false) seq minLength = .ok r ∧
      (∀ w ∈ r, Repeated w seq) ∧
      ∀ v, v ≠ [] → minLength ≤ v.length → Repeated v seq → ∃ w ∈ r, v <+: w := by
  obtain ⟨r, h1, _, h3⟩ := C94_maximal_repeats dollar hne hd minLength
  refine ⟨r, h1, fun w hw => rightMaximal_repeated ((h3 w).1 hw).2.2, fun v hv hm hr => ?_⟩
  obtain ⟨x, hx⟩ := rightMaximal_extend _ v (Nat.le_refl _) hr
  exact ⟨v ++ x, (h3 _).2 ⟨by simp [hv], by rw [List.length_append]; omega, hx⟩, List.prefix_append _ _⟩

/-- C94: the result is *not* the list of maximal repeats of the documentation (both the left and the right
neighbours of a maximal pair must differ): `[2]` only occurs as a part of `[1, 2]` and is returned. -/
theorem C94_not_left_maximal :
    findMaximal 0 (fun _ _ => false) [1, 2, 3, 1, 2, 4] 1 = .ok [[1, 2], [2]] := by decide

/-- C94: a sequence which contains the sentinel may raise an IndexError -/
theorem C94_sentinel_in_sequence : findMaximal 0 (fun _ _ => false) [0, 0, 1] 1 = .error .index := by decide

/-- C94: the empty sequence raises an IndexError -/
theorem C94_empty (dollar : α) (minLength : Nat) : findMaximal dollar (fun _ _ => false) [] minLength = .error .index := rfl

omit [DecidableEq α] in
/-- C94: `is_maximal_pair` never returns true for a list: it returns false for equal start indices and raises a TypeError for different ones -/
theorem C94_is_maximal_pair_unusable (sequence : List α) (a b : Nat × Nat) : isMaximalPair sequence a b ≠ .ok true ∧
    (a.1 = b.1 → isMaximalPair sequence a b = .ok false) ∧ (a.1 ≠ b.1 → isMaximalPair sequence a b = .error .type) := by
  unfold isMaximalPair
  refine ⟨by split <;> simp, fun h => by simp [h], fun h => by simp [h]⟩

example : RightMaximal [1, 2] [1, 2, 3, 1, 2, 4] :=
  ⟨0, 3, ⟨[], [3, 1, 2, 4], rfl, rfl⟩, ⟨[1, 2, 3], [4], rfl, rfl⟩, by decide⟩

/-! ### C95 super maximal repeats -/

/-- C95: `find_super_maximal_repeats` returns, each once and shortest first, exactly the words of at least the
minimal length which occur at least twice and are not part of a longer word that occurs at least twice. -/
theorem C95_super_maximal_repeats (dollar : α) {seq : List α} (hne : seq ≠ []) (hd : dollar ∉ seq) (minLength : Nat) :
    ∃ r, findSuperMaximal dollar (fun _ _ => false) seq minLength = .ok r ∧ r.Nodup ∧
      (r.Pairwise fun a b => a.length ≤ b.length) ∧
      ∀ w, w ∈ r ↔ w ≠ [] ∧ minLength ≤ w.length ∧ Repeated w seq ∧
        ∀ v, v ≠ w → (∃ a b, v = a ++ w ++ b) → ¬ Repeated v seq := by
  obtain ⟨ms, h1, h2, h3⟩ := C94_maximal_repeats dollar hne hd minLength
  obtain ⟨r, sorted, h4, _, h5, h6, h7⟩ := C91_super_maximal ms h2
  refine ⟨r, ?_, h5, h6, fun w => ?_⟩
  · unfold findSuperMaximal
    rw [h1]
    show (filterSuper ms >>= _) = _
    rw [h4]; rfl
  · rw [h7, h3]
    constructor
    · rintro ⟨⟨hw, hm, hr⟩, hall⟩
      refine ⟨hw, hm, rightMaximal_repeated hr, ?_⟩
      rintro v hv ⟨a, b, rfl⟩ hrep
      obtain ⟨x, hx⟩ := rightMaximal_extend _ _ (Nat.le_refl _) hrep
      have hmem : a ++ w ++ b ++ x ∈ ms := (h3 _).2 ⟨by simp [hw], by simp; omega, hx⟩
      refine hall _ hmem ?_ ⟨a, b ++ x, by simp⟩
      intro he
      apply hv
      have hl := congrArg List.length he
      simp only [List.length_append] at hl
      have ha : a = [] := List.length_eq_zero_iff.1 (by omega)
      have hb : b = [] := List.length_eq_zero_iff.1 (by omega)
      simp [ha, hb]
    · rintro ⟨hw, hm, ⟨i, j, hij, hi, hj⟩, hall⟩
      refine ⟨⟨hw, hm, ?_⟩, ?_⟩
      · obtain ⟨x, hx⟩ := rightMaximal_extend _ w (Nat.le_refl _) ⟨i, j, hij, hi, hj⟩
        by_cases hxn : x = []
        · subst hxn; simpa using hx
        · exact absurd (rightMaximal_repeated hx) (hall (w ++ x) (by simpa using hxn) ⟨[], x, by simp⟩)
      · intro o ho hne' hinf
        exact hall o hne' hinf (rightMaximal_repeated ((h3 o).1 ho).2.2)

example : findSuperMaximal 0 (fun _ _ => false) [1, 2, 3, 1, 2, 4] 1 = .ok [[1, 2]] := by decide

/-- C95: every repeated word of the minimal length is contained in a super maximal repeat -/
theorem C95_covers (dollar : α) {seq : List α} (hne : seq ≠ []) (hd : dollar ∉ seq) (minLength : Nat) :
    ∃ r, findSuperMaximal dollar (fun _ _ => false) seq minLength = .ok r ∧
      ∀ v, v ≠ [] → minLength ≤ v.length → Repeated v seq → ∃ w ∈ r, ∃ a b, w = a ++ v ++ b := by
  obtain ⟨r, h1, _, _, h2⟩ := C95_super_maximal_repeats dollar hne hd minLength
  refine ⟨r, h1, ?_⟩
  have key : ∀ n (v : List α), seq.length - v.length ≤ n → v ≠ [] → minLength ≤ v.length → Repeated v seq →
      ∃ w ∈ r, ∃ a b, w = a ++ v ++ b := by
    intro n
    induction n with
    | zero =>
      rintro v hn hv hm ⟨i, j, hij, hi, hj⟩
      have := occursAt_le hi
      have := occursAt_le hj
      omega
    | succ n ih =>
      intro v hn hv hm hrep
      by_cases hc : ∃ u, u ≠ v ∧ (∃ a b, u = a ++ v ++ b) ∧ Repeated u seq
      · obtain ⟨u, hu, ⟨a, b, rfl⟩, hur⟩ := hc
        have hlt : v.length < (a ++ v ++ b).length := by
          rcases Nat.lt_or_ge v.length (a ++ v ++ b).length with h | h
          · exact h
          · exfalso; apply hu
            simp only [List.length_append] at h
            have ha : a = [] := List.length_eq_zero_iff.1 (by omega)
            have hb : b = [] := List.length_eq_zero_iff.1 (by omega)
            simp [ha, hb]
        have hle : v.length < seq.length := by
          obtain ⟨i, _, _, hi, _⟩ := hur
          have := occursAt_le hi
          omega
        obtain ⟨w, hw, c, d, rfl⟩ := ih (a ++ v ++ b) (by omega) (by simp [hv]) (by omega) hur
        exact ⟨_, hw, c ++ a, b ++ d, by simp⟩
      · refine ⟨v, (h2 v).2 ⟨hv, hm, hrep, ?_⟩, [], [], by simp⟩
        intro u hu hinf hur
        exact hc ⟨u, hu, hinf, hur⟩
  exact fun v => key _ v (Nat.le_refl _)

/-! ### C92 near super maximal repeats of a sequence -/

/-- C92: `find_near_super_maximal_repeats` of a sequence: the super maximal repeats, and the right maximal
repeats that occur somewhere without touching any occurrence of a super maximal repeat. -/
theorem C92_of_sequence (dollar : α) {seq : List α} (hne : seq ≠ []) (hd : dollar ∉ seq) (minLength : Nat) :
    ∃ r supers, findNearSuper dollar (fun _ _ => false) seq minLength = .ok (r, supers) ∧ r.Nodup ∧
      (∀ w, w ∈ supers ↔ w ≠ [] ∧ minLength ≤ w.length ∧ Repeated w seq ∧
        ∀ v, v ≠ w → (∃ a b, v = a ++ w ++ b) → ¬ Repeated v seq) ∧
      ∀ w, w ∈ r ↔ (w ≠ [] ∧ minLength ≤ w.length ∧ RightMaximal w seq) ∧ (w ∈ supers ∨ FreeOcc seq supers w) := by
  obtain ⟨ms, h1, h2, h3⟩ := C94_maximal_repeats dollar hne hd minLength
  obtain ⟨r, supers, h4, h5, h6, h7⟩ := C92_near_super_maximal seq ms h2
  obtain ⟨r', h8, _, _, h9⟩ := C95_super_maximal_repeats dollar hne hd minLength
  have hr' : ∀ w, w ∈ supers ↔ w ∈ r' := by
    intro w
    obtain ⟨r'', sorted, k4, _, _, _, k7⟩ := C91_super_maximal ms h2
    have : r' = r'' := by
      unfold findSuperMaximal at h8
      rw [h1] at h8
      change (filterSuper ms >>= _) = _ at h8
      rw [k4] at h8
      exact (Except.ok.inj h8).symm
    rw [this, h6, k7]
  refine ⟨r, supers, ?_, h5, fun w => (hr' w).trans (h9 w), fun w => ?_⟩
  · unfold findNearSuper; rw [h1]; exact h4
  · rw [h7, h3]

example : findNearSuper 0 (fun _ _ => false) [1, 2, 3, 1, 2, 4, 2] 1 = .ok ([[2], [1, 2]], [[1, 2]]) := by decide

/-! ### C96 repeats over a log -/

/-- the concatenation of the traces -/
def conc (sep : α) : List (List α) → List α
  | [] => []
  | [t] => t
  | t :: t' :: ts => t ++ sep :: conc sep (t' :: ts)

omit [DecidableEq α] in
theorem concatLog_spec (sep : α) {log : List (List α)} (h : log ≠ []) : concatLog sep log = .ok (conc sep log) := by
  have key : ∀ (ts : List (List α)) (t a : List α), ts.foldl (fun a b => a ++ [sep] ++ b) (a ++ t) = a ++ conc sep (t :: ts) := by
    intro ts
    induction ts with
    | nil => intro t a; rfl
    | cons u ts ih =>
      intro t a
      rw [List.foldl_cons, ih u (a ++ t ++ [sep]), conc]
      simp
  cases log with
  | nil => exact absurd rfl h
  | cons t ts =>
    have := key ts t []
    rw [List.nil_append, List.nil_append] at this
    rw [concatLog, this]

/-- the position of a place of the log in the concatenation -/
def pos : List (List α) → Nat → Nat → Nat
  | [], _, i => i
  | _ :: _, 0, i => i
  | x :: xs, t + 1, i => x.length + 1 + pos xs t i

theorem occurs_conc {sep : α} {w : List α} (hw : w ≠ []) (hs : sep ∉ w) : ∀ (log : List (List α)) (q : Nat),
    OccursAt w (conc sep log) q ↔ ∃ t i tr, log[t]? = some tr ∧ OccursAt w tr i ∧ q = pos log t i := by
  have hwl : 0 < w.length := List.length_pos_iff.2 hw
  intro log
  induction log with
  | nil =>
    intro q
    constructor
    · intro h
      have := occursAt_le h
      rw [conc, List.length_nil] at this; omega
    · rintro ⟨t, i, tr, h, _⟩; simp at h
  | cons x xs ih =>
    intro q
    cases xs with
    | nil =>
      rw [conc]
      constructor
      · intro h; exact ⟨0, q, x, rfl, h, rfl⟩
      · rintro ⟨t, i, tr, h1, h2, h3⟩
        cases t with
        | zero => simp at h1; subst h1; rw [h3]; exact h2
        | succ t => simp at h1
    | cons y ys =>
      rw [conc]
      have split : OccursAt w (x ++ sep :: conc sep (y :: ys)) q ↔
          OccursAt w x q ∨ ∃ q', q = x.length + 1 + q' ∧ OccursAt w (conc sep (y :: ys)) q' := by
        constructor
        · rintro ⟨a, b, hab, ha⟩
          have hsep : (a ++ w ++ b)[x.length]? = some sep := by rw [← hab]; simp
          by_cases h1 : q + w.length ≤ x.length
          · left
            rw [occursAt_slice]
            refine ⟨h1, ?_⟩
            have : OccursAt w (x ++ sep :: conc sep (y :: ys)) q := ⟨a, b, hab, ha⟩
            have h2 := (occursAt_slice.1 this).2
            unfold pySlice at h2 ⊢
            rw [List.take_append_of_le_length h1] at h2
            exact h2
          · by_cases h2 : q ≤ x.length
            · exfalso
              rw [List.append_assoc, List.getElem?_append_right (by omega), List.getElem?_append_left (by omega)] at hsep
              exact hs (List.mem_of_getElem? hsep)
            · right
              refine ⟨q - (x.length + 1), by omega, ?_⟩
              have hh : OccursAt w (x ++ sep :: conc sep (y :: ys)) q := ⟨a, b, hab, ha⟩
              have hle := occursAt_le hh
              rw [List.length_append, List.length_cons] at hle
              refine occursAt_of_prefix_drop ?_ (by omega)
              have hp := prefix_drop_of_occursAt hh
              have e : x ++ sep :: conc sep (y :: ys) = (x ++ [sep]) ++ conc sep (y :: ys) := by simp
              rw [e] at hp
              have e2 : q = (x ++ [sep]).length + (q - (x.length + 1)) := by simp; omega
              rw [e2, List.drop_append, ] at hp
              rw [List.drop_eq_nil_of_le (by omega), List.nil_append, Nat.add_sub_cancel_left] at hp
              exact hp
        · rintro (⟨a, b, hab, ha⟩ | ⟨q', rfl, a, b, hab, ha⟩)
          · exact ⟨a, b ++ sep :: conc sep (y :: ys), by rw [hab]; simp, ha⟩
          · exact ⟨x ++ sep :: a, b, by rw [hab]; simp, by simp; omega⟩
      rw [split]
      constructor
      · rintro (h | ⟨q', rfl, h⟩)
        · exact ⟨0, q, x, rfl, h, rfl⟩
        · obtain ⟨t, i, tr, h1, h2, rfl⟩ := (ih q').1 h
          exact ⟨t + 1, i, tr, h1, h2, rfl⟩
      · rintro ⟨t, i, tr, h1, h2, h3⟩
        cases t with
        | zero => simp at h1; subst h1; left; rw [h3]; exact h2
        | succ t => exact .inr ⟨pos (y :: ys) t i, h3, (ih _).2 ⟨t, i, tr, by simpa using h1, h2, rfl⟩⟩

omit [DecidableEq α] in
theorem pos_inj : ∀ (log : List (List α)) (t t' i i' : Nat) (tr tr' : List α), log[t]? = some tr → log[t']? = some tr' →
    i ≤ tr.length → i' ≤ tr'.length → pos log t i = pos log t' i' → (t, i) = (t', i')
  | [], _, _, _, _, _, _, h, _, _, _, _ => by simp at h
  | x :: xs, 0, 0, i, i', _, _, _, _, _, _, h => by simp [pos] at h; simp [h]
  | x :: xs, 0, t' + 1, i, i', tr, tr', h1, h2, h3, h4, h => by
    simp [pos] at h; simp at h1; subst h1; omega
  | x :: xs, t + 1, 0, i, i', tr, tr', h1, h2, h3, h4, h => by
    simp [pos] at h; simp at h2; subst h2; omega
  | x :: xs, t + 1, t' + 1, i, i', tr, tr', h1, h2, h3, h4, h => by
    have := pos_inj xs t t' i i' tr tr' (by simpa using h1) (by simpa using h2) h3 h4 (by simp [pos] at h; exact h)
    simp at this ⊢; exact this

theorem repeated_conc {sep : α} {w : List α} (hw : w ≠ []) (hs : sep ∉ w) (log : List (List α)) :
    Repeated w (conc sep log) ↔ RepeatedInLog w log := by
  constructor
  · rintro ⟨p, q, hpq, hp, hq⟩
    obtain ⟨t, i, tr, h1, h2, rfl⟩ := (occurs_conc hw hs log p).1 hp
    obtain ⟨t', i', tr', h3, h4, rfl⟩ := (occurs_conc hw hs log q).1 hq
    refine ⟨t, t', i, i', tr, tr', ?_, h1, h3, h2, h4⟩
    intro he
    obtain ⟨rfl, rfl⟩ := Prod.mk.injEq .. ▸ he
    exact hpq rfl
  · rintro ⟨t, t', i, i', tr, tr', hne, h1, h3, h2, h4⟩
    refine ⟨pos log t i, pos log t' i', ?_, (occurs_conc hw hs log _).2 ⟨t, i, tr, h1, h2, rfl⟩,
      (occurs_conc hw hs log _).2 ⟨t', i', tr', h3, h4, rfl⟩⟩
    intro he
    have l1 := occursAt_le h2
    have l2 := occursAt_le h4
    exact hne (pos_inj log t t' i i' tr tr' h1 h3 (by omega) (by omega) he)

omit [DecidableEq α] in
theorem occursAt_singleton {a : α} {l : List α} {i : Nat} : OccursAt [a] l i ↔ l[i]? = some a := by
  constructor
  · rintro ⟨x, y, rfl, rfl⟩; simp
  · intro h
    have hi : i < l.length := by
      rcases Nat.lt_or_ge i l.length with h' | h'
      · exact h'
      · rw [List.getElem?_eq_none h'] at h; cases h
    refine ⟨l.take i, l.drop (i + 1), ?_, by rw [List.length_take]; omega⟩
    rw [List.getElem?_eq_getElem hi] at h
    have := Option.some.inj h
    rw [List.append_assoc, ← this, List.singleton_append, List.getElem_cons_drop, List.take_append_drop]

/-- the pieces of a word between its separators -/
theorem pieces_spec (r : List α) (sep : α) : ∀ (js : List Nat) (i : Nat), js.Pairwise (· < ·) →
    (∀ j ∈ js, i ≤ j ∧ r[j]? = some sep) → (∀ j, i ≤ j → r[j]? = some sep → j ∈ js) →
    (∀ w ∈ pieces r js i, sep ∉ w ∧ ∃ a b, r = a ++ w ++ b) ∧
    (∀ w q, w ≠ [] → sep ∉ w → i ≤ q → OccursAt w r q → ∃ v ∈ pieces r js i, ∃ a b, v = a ++ w ++ b)
  | [], i, _, _, hall => by
    refine ⟨?_, ?_⟩
    · intro w hw
      rw [pieces, List.mem_singleton] at hw
      subst hw
      refine ⟨?_, r.take i, [], by simp⟩
      intro hm
      obtain ⟨k, hk⟩ := List.mem_iff_getElem?.1 hm
      rw [List.getElem?_drop] at hk
      have := hall (i + k) (by omega) hk
      cases this
    · intro w q hw hs hq hocc
      refine ⟨r.drop i, by simp [pieces], ?_⟩
      obtain ⟨a, b, rfl, ha⟩ := hocc
      refine ⟨a.drop i, b, ?_⟩
      rw [List.append_assoc, List.drop_append_of_le_length (by omega), List.append_assoc]
  | j :: js, i, hsrt, hpos, hall => by
    rw [List.pairwise_cons] at hsrt
    obtain ⟨hij, hjs⟩ := hpos j (by simp)
    have hjlen : j < r.length := by
      rcases Nat.lt_or_ge j r.length with h' | h'
      · exact h'
      · rw [List.getElem?_eq_none h'] at hjs; cases hjs
    obtain ⟨ih1, ih2⟩ := pieces_spec r sep js (j + 1) hsrt.2
      (fun x hx => ⟨hsrt.1 x hx, (hpos x (by simp [hx])).2⟩)
      (fun x hx hs => by
        rcases List.mem_cons.1 (hall x (by omega) hs) with rfl | h
        · omega
        · exact h)
    refine ⟨?_, ?_⟩
    · intro w hw
      rw [pieces, List.mem_cons] at hw
      rcases hw with rfl | hw
      · refine ⟨?_, r.take i, r.drop j, ?_⟩
        · intro hm
          obtain ⟨k, hk⟩ := List.mem_iff_getElem?.1 hm
          have hkl : k < (pySlice r i j).length := by
            rcases Nat.lt_or_ge k (pySlice r i j).length with h' | h'
            · exact h'
            · rw [List.getElem?_eq_none h'] at hk; cases hk
          rw [length_pySlice] at hkl
          unfold pySlice at hk
          rw [List.getElem?_drop, List.getElem?_take, if_pos (by omega)] at hk
          rcases List.mem_cons.1 (hall (i + k) (by omega) hk) with h | h
          · omega
          · have := hsrt.1 _ h; omega
        · rw [List.append_assoc, ← drop_eq_slice hij, List.take_append_drop]
      · exact ih1 w hw
    · intro w q hw hs hq hocc
      by_cases hc : q + w.length ≤ j
      · refine ⟨pySlice r i j, by simp [pieces], pySlice r i q, pySlice r (q + w.length) j, ?_⟩
        have h1 := (occursAt_slice.1 hocc).2
        rw [slice_split hq (Nat.le_trans (Nat.le_add_right q w.length) hc),
          slice_split (a := q) (m := q + w.length) (by omega) hc, h1, List.append_assoc]
      · have hjq : j < q := by
          by_contra hge
          obtain ⟨a, b, rfl, ha⟩ := hocc
          rw [List.append_assoc, List.getElem?_append_right (by omega), List.getElem?_append_left (by omega)] at hjs
          exact hs (List.mem_of_getElem? hjs)
        obtain ⟨v, hv, h⟩ := ih2 w q hw hs (by omega) hocc
        exact ⟨v, by simp [pieces, hv], h⟩

omit [DecidableEq α] in
theorem repeated_of_infix {w l : List α} {a b : List α} (h : Repeated (a ++ w ++ b) l) : Repeated w l := by
  obtain ⟨i, j, hij, ⟨x, y, hx, hxl⟩, ⟨x', y', hx', hxl'⟩⟩ := h
  exact ⟨i + a.length, j + a.length, by omega, ⟨x ++ a, b ++ y, by rw [hx]; simp, by simp; omega⟩,
    ⟨x' ++ a, b ++ y', by rw [hx']; simp, by simp; omega⟩⟩

omit [DecidableEq α] in
theorem mem_conc {sep : α} {x : α} : ∀ {log : List (List α)}, x ∈ conc sep log → x = sep ∨ ∃ t ∈ log, x ∈ t
  | [], h => by simp [conc] at h
  | [t], h => .inr ⟨t, by simp, h⟩
  | t :: t' :: ts, h => by
    rw [conc, List.mem_append, List.mem_cons] at h
    rcases h with h | h | h
    · exact .inr ⟨t, by simp, h⟩
    · exact .inl h
    · rcases mem_conc h with h | ⟨u, hu, h⟩
      · exact .inl h
      · exact .inr ⟨u, List.mem_cons_of_mem _ hu, h⟩

omit [DecidableEq α] in
theorem conc_ne_nil {sep : α} {log : List (List α)} (h : log ≠ []) (h' : log ≠ [[]]) : conc sep log ≠ [] := by
  match log, h, h' with
  | [t], _, h' => rw [conc]; rintro rfl; exact h' rfl
  | t :: t' :: ts, _, _ => rw [conc]; simp

/-- C96: `get_maximal_repeats_over_log`, for a log whose traces contain neither `'$'` nor the separator: every
returned word has the minimal length, contains no separator and occurs at least twice in the log; every word
of the minimal length which occurs at least twice in the log is part of a returned word. No word is returned
twice. -/
theorem C96_repeats_over_log {dollar sep : α} (hds : dollar ≠ sep) {log : List (List α)} (hne : log ≠ []) (hne' : log ≠ [[]])
    (hclean : ∀ t ∈ log, dollar ∉ t ∧ sep ∉ t) {minLength : Nat} (hm : 1 ≤ minLength) :
    ∃ r, repeatsOverLog dollar (fun _ _ => false) sep log minLength = .ok r ∧ r.Nodup ∧
      (∀ w ∈ r, minLength ≤ w.length ∧ sep ∉ w ∧ RepeatedInLog w log) ∧
      ∀ v, minLength ≤ v.length → RepeatedInLog v log → ∃ w ∈ r, ∃ a b, w = a ++ v ++ b := by
  have hdc : dollar ∉ conc sep log := by
    intro h
    rcases mem_conc h with h | ⟨t, ht, h⟩
    · exact hds h
    · exact (hclean t ht).1 h
  obtain ⟨rs, h1, _, _, h2⟩ := C95_super_maximal_repeats dollar (conc_ne_nil (sep := sep) hne hne') hdc minLength
  obtain ⟨rs', h1', hcov⟩ := C95_covers dollar (conc_ne_nil (sep := sep) hne hne') hdc minLength
  rw [h1] at h1'
  obtain rfl := Except.ok.inj h1'
  have hps : ∀ r : List α, ∃ ps, (do
      let occ ← searchAll r [sep]
      return pieces r occ 0 : Py _) = .ok ps ∧ (∀ w ∈ ps, sep ∉ w ∧ ∃ a b, r = a ++ w ++ b) ∧
      (∀ w, w ≠ [] → sep ∉ w → (∃ a b, r = a ++ w ++ b) → ∃ v ∈ ps, ∃ a b, v = a ++ w ++ b) := by
    intro r
    obtain ⟨occ, ho, hsrt, hmem⟩ := C03_searchAll_sound_complete r [sep]
    obtain ⟨p1, p2⟩ := pieces_spec r sep occ 0 hsrt
      (fun j hj => ⟨by omega, occursAt_singleton.1 ((hmem j).1 hj)⟩)
      (fun j _ hj => (hmem j).2 (occursAt_singleton.2 hj))
    refine ⟨_, by rw [ho]; rfl, p1, ?_⟩
    rintro w hw hs ⟨a, b, hr⟩
    exact p2 w a.length hw hs (by omega) ⟨a, b, hr, rfl⟩
  have hmap : ∀ l : List (List α), ∃ pss, (l.mapM fun r => do
      let occ ← searchAll r [sep]
      return pieces r occ 0 : Py _) = .ok pss ∧
      (∀ w ∈ pss.flatten, ∃ r ∈ l, sep ∉ w ∧ ∃ a b, r = a ++ w ++ b) ∧
      ∀ r ∈ l, ∀ w, w ≠ [] → sep ∉ w → (∃ a b, r = a ++ w ++ b) → ∃ v ∈ pss.flatten, ∃ a b, v = a ++ w ++ b := by
    intro l
    induction l with
    | nil => exact ⟨[], rfl, by simp, by simp⟩
    | cons r l ih =>
      obtain ⟨pss, i1, i2, i3⟩ := ih
      obtain ⟨ps, j1, j2, j3⟩ := hps r
      refine ⟨ps :: pss, ?_, ?_, ?_⟩
      · rw [List.mapM_cons, j1, i1]; rfl
      · intro w hw
        rw [List.flatten_cons, List.mem_append] at hw
        rcases hw with hw | hw
        · exact ⟨r, by simp, j2 w hw⟩
        · obtain ⟨r', hr', h⟩ := i2 w hw
          exact ⟨r', by simp [hr'], h⟩
      · intro r' hr' w hw hs hinf
        rcases List.mem_cons.1 hr' with rfl | hr'
        · obtain ⟨v, hv, h⟩ := j3 w hw hs hinf
          exact ⟨v, by simp only [List.flatten_cons, List.mem_append]; exact .inl hv, h⟩
        · obtain ⟨v, hv, h⟩ := i3 r' hr' w hw hs hinf
          exact ⟨v, by simp only [List.flatten_cons, List.mem_append]; exact .inr hv, h⟩
  obtain ⟨pss, k1, k2, k3⟩ := hmap rs
  refine ⟨pss.flatten.dedup.filter fun w => decide (w.length ≥ minLength), ?_, (List.nodup_dedup _).filter _, ?_, ?_⟩
  · unfold repeatsOverLog
    rw [concatLog_spec sep hne]
    show (findSuperMaximal dollar (fun _ _ => false) (conc sep log) minLength >>= _) = _
    rw [h1]
    show ((rs.mapM fun r => do
      let occ ← searchAll r [sep]
      return pieces r occ 0) >>= _) = _
    rw [k1]; rfl
  · intro w hw
    rw [List.mem_filter, List.mem_dedup, decide_eq_true_eq] at hw
    obtain ⟨r, hr, hs, a, b, rfl⟩ := k2 w hw.1
    have hwne : w ≠ [] := by
      rintro rfl
      have := hw.2
      simp at this; omega
    exact ⟨hw.2, hs, (repeated_conc hwne hs log).1 (repeated_of_infix ((h2 _).1 hr).2.2.1)⟩
  · intro v hv hrep
    have hvne : v ≠ [] := by rintro rfl; simp at hv; omega
    have hs : sep ∉ v := by
      obtain ⟨t, _, _, _, tr, _, _, ht, _, ⟨a, b, rfl, _⟩, _⟩ := hrep
      intro hh
      exact (hclean _ (List.mem_of_getElem? ht)).2 (by simp [hh])
    obtain ⟨r, hr, hinf⟩ := hcov v hvne hv ((repeated_conc hvne hs log).2 hrep)
    obtain ⟨w, hw, a, b, hwe⟩ := k3 r hr v hvne hs hinf
    refine ⟨w, ?_, a, b, hwe⟩
    rw [List.mem_filter, List.mem_dedup, decide_eq_true_eq]
    refine ⟨hw, ?_⟩
    rw [hwe]; simp; omega

example : repeatsOverLog 0 (fun _ _ => false) 9 [[1, 2, 3], [4, 1, 2], [3, 3]] 2 = .ok [[1, 2]] := by decide

/-- C96: an empty log raises a TypeError, a log whose only trace is empty an IndexError -/
theorem C96_empty_log (dollar sep : α) (minLength : Nat) :
    repeatsOverLog dollar (fun _ _ => false) sep [] minLength = .error .type ∧
    repeatsOverLog dollar (fun _ _ => false) sep [[]] minLength = .error .index := ⟨rfl, rfl⟩

end Prolothar.SuffixTree
