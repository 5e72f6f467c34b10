import Verif.Props.Pm4py
import Verif.Props.LogTable
import Verif.Props.Arff
import Verif.Props.Transformer
import Verif.Props.Dfg
import Verif.Props.Petri
/-
Which exceptions reach the user for inputs outside of the hypotheses of the main theorems: C45, C62, C66, C117, C118, C126, C128.
-/

/-! ### C128 -/

namespace Prolothar.Pm4py
open Prolothar.Petri
variable {P T : Type}

theorem arcs_missing (net : PmNet P T) : ∀ (as : List (Arc P T)) (n : Net), (∃ a ∈ as, ¬ ArcIn net n a) → as.foldlM (arcBack net) n = .error .key
  | [], n, h => by obtain ⟨_, h, _⟩ := h; cases h
  | a :: as, n, h => by
    rw [List.foldlM_cons]
    by_cases ha : ArcIn net n a
    · have hr : ∃ b ∈ as, ¬ ArcIn net n b := by
        obtain ⟨b, hb, hn⟩ := h
        rcases List.mem_cons.1 hb with rfl | hb
        · exact absurd ha hn
        · exact ⟨b, hb, hn⟩
      have key : ∃ n', arcBack net n a = .ok n' ∧ n'.places = n.places ∧ n'.transitions = n.transitions := by
        rcases a with ⟨p, t⟩ | ⟨t, p⟩
        · refine ⟨{ n with
            out := upd n.out (net.placeName p) (setAdd (n.out (net.placeName p)) (net.transName t))
            pre := upd n.pre (net.transName t) (setAdd (n.pre (net.transName t)) (net.placeName p)) }, ?_, rfl, rfl⟩
          rw [arcBack, if_neg (not_not.2 ha.1), if_neg (not_not.2 ha.2)]
        · refine ⟨{ n with post := upd n.post (net.transName t) (setAdd (n.post (net.transName t)) (net.placeName p)) }, ?_, rfl, rfl⟩
          rw [arcBack, if_neg (not_not.2 ha.1), if_neg (not_not.2 ha.2)]
      obtain ⟨n', h1, h2, h3⟩ := key
      rw [h1]
      refine arcs_missing net as n' ?_
      obtain ⟨b, hb, hn⟩ := hr
      refine ⟨b, hb, fun hc => hn ?_⟩
      rcases b with ⟨p, t⟩ | ⟨t, p⟩
      · exact ⟨h3 ▸ hc.1, h2 ▸ hc.2⟩
      · exact ⟨h3 ▸ hc.1, h2 ▸ hc.2⟩
    · have : arcBack net n a = .error .key := by
        rcases a with ⟨p, t⟩ | ⟨t, p⟩
        · by_cases ht : net.transName t ∈ n.transitions
          · rw [arcBack, if_neg (not_not.2 ht), if_pos fun hp => ha ⟨ht, hp⟩]
          · rw [arcBack, if_pos ht]
        · by_cases ht : net.transName t ∈ n.transitions
          · rw [arcBack, if_neg (not_not.2 ht), if_pos fun hp => ha ⟨ht, hp⟩]
          · rw [arcBack, if_pos ht]
      rw [this]; rfl

/-- C128: an arc whose place or transition does not belong to pm4py's net raises a KeyError -/
theorem C128_dangling_arc (net : PmNet P T) (m : P → Int) (hp : (net.places.map net.placeName).Nodup)
    (ht : (net.transitions.map net.transName).Nodup) (hm : ∀ p ∈ net.places, 0 ≤ m p) {p : P} {t : T}
    (ha : .input p t ∈ net.arcs ∨ .output t p ∈ net.arcs)
    (hx : net.placeName p ∉ net.places.map net.placeName ∨ net.transName t ∉ net.transitions.map net.transName) :
    fromPm4py net m = .error .key := by
  obtain ⟨n1, a0, a1, a2, a3, a4, a5, a6, _⟩ := places_back net.placeName m net.places Net.empty (by simpa [Net.empty] using hp) hm
  obtain ⟨n2, b0, b1, b2, b3, b4, b5, b6, b7, _⟩ := transitions_back net.transName net.transLabel net.transitions n1
    (by rw [a2]; simpa [Net.empty] using ht)
  have hpl : n2.places = net.places.map net.placeName := by rw [b1, a1]; simp [Net.empty]
  have htr : n2.transitions = net.transitions.map net.transName := by rw [b2, a2]; simp [Net.empty]
  unfold fromPm4py
  rw [a0]
  show (net.transitions.foldlM _ n1 >>= _ : Py _) = _
  rw [b0]
  refine arcs_missing net net.arcs n2 ?_
  rcases ha with ha | ha
  · refine ⟨_, ha, fun hc => ?_⟩
    rcases hx with hx | hx
    · exact hx (hpl ▸ hc.2)
    · exact hx (htr ▸ hc.1)
  · refine ⟨_, ha, fun hc => ?_⟩
    rcases hx with hx | hx
    · exact hx (hpl ▸ hc.2)
    · exact hx (htr ▸ hc.1)

/-- an arc from a place that was not added to the net -/
example : fromPm4py (⟨["p"], ["t"], id, id, fun _ => none, [.input "p" "t", .output "t" "q"]⟩ : PmNet String String) (fun _ => 0) = .error .key :=
  C128_dangling_arc _ _ (by decide) (by decide) (by decide) (p := "q") (t := "t") (by decide) (by decide)

end Prolothar.Pm4py

/-! ### C66 -/

namespace Prolothar.Petri

/-- C66: `matches_marking` looks at the places in the order of the marking; it raises a KeyError iff it meets an unknown place before a place with a wrong
number of tokens -/
theorem C66_unknown_place (n : Net) (m : Dict String Int) :
    n.matchesMarking m = .error .key ↔ ∃ l p k r, m = l ++ (p, k) :: r ∧ p ∉ n.places ∧ ∀ e ∈ l, e.1 ∈ n.places ∧ n.tokens e.1 = e.2 := by
  induction m with
  | nil =>
    constructor
    · intro h; cases h
    · rintro ⟨l, p, k, r, h, _⟩; simp at h
  | cons e m ih =>
    obtain ⟨q, j⟩ := e
    rw [Net.matchesMarking]
    by_cases hq : q ∈ n.places
    · rw [if_neg (not_not.2 hq)]
      by_cases ht : n.tokens q = j
      · rw [if_neg (not_not.2 ht), ih]
        constructor
        · rintro ⟨l, p, k, r, rfl, h2, h3⟩
          refine ⟨(q, j) :: l, p, k, r, rfl, h2, fun e he => ?_⟩
          rcases List.mem_cons.1 he with rfl | he
          · exact ⟨hq, ht⟩
          · exact h3 e he
        · rintro ⟨l, p, k, r, h1, h2, h3⟩
          cases l with
          | nil => cases h1; exact absurd hq h2
          | cons e l => cases h1; exact ⟨l, p, k, r, rfl, h2, fun e he => h3 e (List.mem_cons_of_mem _ he)⟩
      · rw [if_pos ht]
        constructor
        · intro h; cases h
        · rintro ⟨l, p, k, r, h1, h2, h3⟩
          cases l with
          | nil => cases h1; exact absurd hq h2
          | cons e l => cases h1; exact absurd (h3 _ List.mem_cons_self).2 ht
    · rw [if_pos hq]
      exact ⟨fun _ => ⟨[], q, j, m, rfl, hq, by simp⟩, fun _ => rfl⟩

example : exNet.matchesMarking [("a", 1), ("z", 0)] = .error .key := (C66_unknown_place _ _).2 ⟨[("a", 1)], "z", 0, [], rfl, by decide, by decide⟩

end Prolothar.Petri

/-! ### C117, C118 -/

namespace Prolothar.LogTable
open Prolothar.EventLog
variable {V : Type}

/-- C117: if the first trace has no events there is no table -/
theorem C117_first_empty (t : Trace V V V) (log : Log V V V) (b : Bool) (h : t.events = []) : toFrame (t :: log) b = .error .index := by
  unfold toFrame
  simp only [h, bind, Except.bind]

theorem foldl_max_le : ∀ (l : List Nat) (a k : Nat), l.foldl max a ≤ k ↔ a ≤ k ∧ ∀ x ∈ l, x ≤ k
  | [], a, k => by simp
  | x :: l, a, k => by
    rw [List.foldl_cons, foldl_max_le l]
    simp only [List.mem_cons, forall_eq_or_imp, max_le_iff, and_assoc]

theorem tableRow_length (b : Bool) (t : Trace V V V) (e : Event V V) :
    (tableRow b t e).length = (if b then 1 else 0) + t.attributes.length + 1 + e.attributes.length := by
  unfold tableRow sortedItems
  cases b <;> simp [List.length_insertionSort] <;> omega

/-- C117: the columns are those of the first event. If an event and its trace have together more attributes than the first event and its trace, a ValueError is
raised; otherwise there is a table, and shorter rows are filled up with empty cells at their end. -/
theorem C117_ragged (t : Trace V V V) (log : Log V V V) (b : Bool) {e : Event V V} {es : List (Event V V)} (h : t.events = e :: es) :
    (toFrame (t :: log) b = .error .value ↔
      ∃ u ∈ t :: log, ∃ f ∈ u.events, t.attributes.length + e.attributes.length < u.attributes.length + f.attributes.length) ∧
    ((∀ u ∈ t :: log, ∀ f ∈ u.events, u.attributes.length + f.attributes.length ≤ t.attributes.length + e.attributes.length) →
      ∃ f, toFrame (t :: log) b = .ok f ∧
        f.columns.length = (if b then 1 else 0) + t.attributes.length + 1 + e.attributes.length ∧
        f.rows.length = (occurrences (t :: log)).length ∧
        ∀ (i : Nat) (p : Trace V V V × Event V V), (occurrences (t :: log))[i]? = some p →
          ∃ k, f.rows[i]? = some (tableRow b p.1 p.2 ++ List.replicate k none) ∧ (tableRow b p.1 p.2).length + k = f.columns.length) := by
  have hlen : ∀ (cols : List String), cols = (if b then ["trace"] else []) ++ t.attributes.keys.insertionSort (· ≤ ·) ++ ["Activity"] ++
      e.attributes.keys.insertionSort (· ≤ ·) → cols.length = (if b then 1 else 0) + t.attributes.length + 1 + e.attributes.length := by
    rintro cols rfl
    cases b <;> simp [List.length_insertionSort, Dict.keys] <;> omega
  generalize hcols : (if b then ["trace"] else []) ++ t.attributes.keys.insertionSort (· ≤ ·) ++ ["Activity"] ++ e.attributes.keys.insertionSort (· ≤ ·) = cols at hlen
  have hlen := hlen cols rfl
  have hrows : ((t :: log).flatMap fun t => t.events.map fun e => tableRow b t e) = (occurrences (t :: log)).map fun p => tableRow b p.1 p.2 := by
    unfold occurrences
    rw [List.map_flatMap]
    exact List.flatMap_congr fun t _ => by rw [List.map_map]; rfl
  have hto : toFrame (t :: log) b = makeFrame ((occurrences (t :: log)).map fun p => tableRow b p.1 p.2) cols := by
    unfold toFrame
    rw [hrows, ← hcols]
    simp only [h, bind, Except.bind]
  have hocc : ∀ p : Trace V V V × Event V V, p ∈ occurrences (t :: log) ↔ p.1 ∈ t :: log ∧ p.2 ∈ p.1.events := by
    intro p
    unfold occurrences
    rw [List.mem_flatMap]
    constructor
    · rintro ⟨u, hu, hp⟩
      obtain ⟨f, hf, rfl⟩ := List.mem_map.1 hp
      exact ⟨hu, hf⟩
    · rintro ⟨h1, h2⟩
      exact ⟨p.1, h1, List.mem_map.2 ⟨p.2, h2, rfl⟩⟩
  set rows := (occurrences (t :: log)).map fun p => tableRow b p.1 p.2 with hr
  have hmax : ∀ k, (rows.map List.length).foldl max 0 ≤ k ↔
      ∀ u ∈ t :: log, ∀ f ∈ u.events, (if b then 1 else 0) + u.attributes.length + 1 + f.attributes.length ≤ k := by
    intro k
    rw [foldl_max_le]
    simp only [Nat.zero_le, true_and]
    constructor
    · intro hk u hu f hf
      rw [← tableRow_length]
      exact hk _ (List.mem_map.2 ⟨_, List.mem_map.2 ⟨(u, f), (hocc _).2 ⟨hu, hf⟩, rfl⟩, rfl⟩)
    · intro hk x hx
      obtain ⟨r, hr', rfl⟩ := List.mem_map.1 hx
      obtain ⟨p, hp, rfl⟩ := List.mem_map.1 hr'
      rw [tableRow_length]
      exact hk _ ((hocc p).1 hp).1 _ ((hocc p).1 hp).2
  have hge : cols.length ≤ (rows.map List.length).foldl max 0 := by
    have := (hmax _).1 (Nat.le_refl _) t List.mem_cons_self e (by rw [h]; exact List.mem_cons_self)
    omega
  constructor
  · rw [hto]
    unfold makeFrame
    dsimp only
    constructor
    · intro hx
      by_contra hc
      push Not at hc
      have : (rows.map List.length).foldl max 0 ≤ cols.length := (hmax _).2 fun u hu f hf => by
        have := hc u hu f hf
        omega
      rw [if_neg (by omega)] at hx
      cases hx
    · rintro ⟨u, hu, f, hf, hlt⟩
      have := (hmax _).1 (Nat.le_refl _) u hu f hf
      rw [if_pos (by omega)]
  · intro hall
    have hm : (rows.map List.length).foldl max 0 = cols.length := le_antisymm ((hmax _).2 fun u hu f hf => by
      have := hall u hu f hf
      omega) hge
    refine ⟨⟨cols, rows.map fun r => r ++ List.replicate (cols.length - r.length) none⟩, ?_, hlen, by simp [hr], fun i p hp => ?_⟩
    · rw [hto]
      unfold makeFrame
      dsimp only
      rw [hm, if_neg (by simp)]
    · refine ⟨cols.length - (tableRow b p.1 p.2).length, ?_, ?_⟩
      · simp only [hr, List.getElem?_map, hp, Option.map_some]
      · have h1 := (hocc p).1 (List.mem_of_getElem? hp)
        have := hall _ h1.1 _ h1.2
        have := tableRow_length b p.1 p.2
        dsimp only
        omega

section
variable [LinearOrder V]

omit [LinearOrder V] in
theorem column_unknown {f : Frame V} {err : PyErr} {c : String} (h : c ∉ f.columns) : f.column err c = .error err := by
  unfold Frame.column; rw [if_neg h]

/-- C118: an unknown column of the trace ids raises a KeyError; if there is at least one trace, an unknown activity column, and the column of the
trace ids as activity column, raise an AttributeError -/
theorem C118_unknown_column (f : Frame V) (caseId activity : String) (eventCols traceCols : List String) :
    (caseId ∉ f.columns → fromFrame f caseId activity eventCols traceCols = .error .key) ∧
    (caseId ∈ f.columns → (∃ r ∈ f.rows, cell f.columns caseId r ≠ none) → (activity ∉ f.columns ∨ activity = caseId) →
      fromFrame f caseId activity eventCols traceCols = .error .attribute) := by
  constructor
  · intro h
    unfold fromFrame
    rw [column_unknown h]; rfl
  · rintro h ⟨r, hr, hn⟩ ha
    unfold fromFrame
    have h1 : f.column .key caseId = .ok (f.rows.map (cell f.columns caseId)) := by unfold Frame.column; rw [if_pos h]
    rw [h1]
    show ((groupKeys (f.rows.map (cell f.columns caseId))).mapM _ : Py _) = _
    have hne : groupKeys (f.rows.map (cell f.columns caseId)) ≠ [] := by
      obtain ⟨v, hv⟩ := Option.ne_none_iff_exists'.1 hn
      refine List.ne_nil_of_mem (a := v) ?_
      unfold groupKeys
      rw [List.mem_insertionSort, List.mem_dedup, List.mem_filterMap]
      exact ⟨some v, List.mem_map.2 ⟨r, hr, hv⟩, rfl⟩
    cases hk : groupKeys (f.rows.map (cell f.columns caseId)) with
    | nil => exact absurd hk hne
    | cons k ks =>
      rw [List.mapM_cons]
      have h2 : f.other caseId activity = .error .attribute := by
        unfold Frame.other
        split
        · rfl
        · next hc => exact column_unknown (ha.resolve_right hc)
      unfold readTrace
      rw [h2]; rfl
end

example : fromFrame (⟨["trace", "Activity"], [[some 1, some 2]]⟩ : Frame Nat) "trace" "activity" [] [] = .error .attribute :=
  (C118_unknown_column _ _ _ _ _).2 (by decide) ⟨[some 1, some 2], by simp, by decide⟩ (.inl (by decide))

/-- a log whose second event has one attribute more than the first -/
example : toFrame [(⟨0, [⟨1, [], none⟩, ⟨2, [("cost", 5)], none⟩], []⟩ : Trace Nat Nat Nat)] true = .error .value :=
  ((C117_ragged _ [] true rfl).1).2 ⟨_, List.mem_cons_self, ⟨2, [("cost", 5)], none⟩, by simp, by decide⟩

end Prolothar.LogTable

/-! ### C45 -/

namespace Prolothar.Dfg
variable {A : Type} [LinearOrder A]

/-- C45: an unknown start activity raises a ValueError -/
theorem C45_to_one_of_unknown (g : Graph A) {a : A} (ha : ¬ (view g).node a) (ends : A → Bool) : shortestPathToOneOf g a ends = .error .value := by
  have ha : ¬ g.nodes.has a = true := ha
  unfold shortestPathToOneOf
  rw [if_pos ha]

end Prolothar.Dfg

/-! ### C62 -/

namespace Prolothar.Data
open Prolothar.Spec.Data
variable {τ : Type}

theorem toNum_mapM_str : ∀ (l : List Val), (∃ s, .str s ∈ l) → l.mapM Val.toNum = .error .type
  | [], h => by obtain ⟨_, h⟩ := h; cases h
  | .str s :: l, _ => by rw [List.mapM_cons]; rfl
  | .num q :: l, h => by
    obtain ⟨s, hs⟩ := h
    rw [List.mapM_cons, toNum_mapM_str l ⟨s, by simpa using hs⟩]; rfl

/-- C62: if a numerical attribute has a value that is a string, the transformation raises a TypeError; the other numerical attributes are those of `C62_min_max`,
or have strings as well -/
theorem C62_string {lo hi : Rat} {h : Heap τ} {d : Dataset} (hc : Consistent h d)
    (hok : ∀ n ∈ d.numNames, (∃ s, Occurs h d n (.str s)) ∨ ∃ v w, Occurs h d n v ∧ Occurs h d n w ∧ v ≠ w)
    {n : String} (hn : n ∈ d.numNames) {s : String} (hs : Occurs h d n (.str s)) : minMaxScale lo hi h d = .error .type := by
  obtain ⟨at0, hat0, hcat0⟩ := (hc.numerical.2 n).1 hn
  refine fold_error hc (fun a => !a.categorical) (fun n => ∀ s, ¬ Occurs h d n (.str s)) .type (minMaxAttr lo hi) ?_
    hat0 (by rw [hcat0]; rfl) (fun hg => hg s hs)
  intro n at' hat hcat h1 d1 g1 g2 g3 g4
  have hnn : n ∈ d.numNames := (mem_numNames hc hat).2 (by simpa using hcat)
  have hocc : ∀ v, Occurs h1 d1 n v ↔ Occurs h d n v := by
    intro v
    unfold Occurs
    rw [g2]
    exact exists_congr fun a => and_congr_right fun ha => by rw [g4 a ha]
  constructor
  · intro hg
    have hnum : ∀ v, Occurs h d n v → ∃ q, v = .num q := by
      intro v hv
      cases v with
      | num q => exact ⟨q, rfl⟩
      | str s => exact absurd hv (hg s)
    obtain ⟨v, w, hv, hw, hvw⟩ := (hok n hnn).resolve_left fun ⟨s, hs⟩ => hg s hs
    have hne : d.instances ≠ [] := by
      obtain ⟨a, ha, _⟩ := hv
      exact List.ne_nil_of_mem ha
    obtain ⟨mn, mx, b1, b2, b3⟩ := exists_bounds hc (Dict.mem_keys_iff.2 ⟨at', hat⟩) hnum hne
    obtain ⟨s1, s2⟩ := minMaxAttr_spec (lo := lo) (hi := hi) g1 g3 (fun v hv => hnum v ((hocc v).1 hv)) ((hocc _).2 b1) ((hocc _).2 b2)
      fun q hq => b3 q ((hocc _).1 hq)
    obtain ⟨x, rfl⟩ := hnum v hv
    obtain ⟨y, rfl⟩ := hnum w hw
    have hx := b3 x hv
    have hy := b3 y hw
    have hlt : mn < mx := by
      rcases lt_or_eq_of_le (hx.1.trans hx.2) with hlt | heq
      · exact hlt
      · exfalso
        apply hvw
        rw [le_antisymm (hx.2.trans (heq ▸ hy.1)) (hy.2.trans (heq ▸ hx.1))]
    obtain ⟨h2, d2, e1, e2⟩ := s1 hlt
    exact ⟨h2, d2, _, _, e1, e2⟩
  · intro hg
    push Not at hg
    obtain ⟨s, hs⟩ := hg
    have hk : n ∈ d1.attrs.keys := Dict.mem_keys_iff.2 ⟨at', g3⟩
    unfold minMaxAttr
    dsimp only
    rw [column_ok g1 hk]
    show ((d1.instances.map (val h1 n)).mapM Val.toNum >>= _ : Py _) = _
    obtain ⟨a, ha, hv⟩ := (hocc _).2 hs
    rw [toNum_mapM_str _ ⟨s, List.mem_map.2 ⟨a, ha, ?_⟩⟩]
    · rfl
    · have := get?_val g1 hk ha
      rw [hv] at this
      exact (Option.some.inj this).symm

/-- the instance with the string "u" as value of the numerical attribute "x" -/
example (lo hi : Rat) : ∃ d, Dataset.addInstance sampleHeap (Dataset.new [] ["x"]) 0 = .ok d ∧ minMaxScale lo hi sampleHeap d = .error .type := by
  refine ⟨⟨[0], [("x", ⟨false, [.str "u"]⟩)], [], ["x"]⟩, rfl, ?_⟩
  have hc : Consistent sampleHeap ⟨[0], [("x", ⟨false, [.str "u"]⟩)], [], ["x"]⟩ :=
    addInstance_consistent (d := Dataset.new [] ["x"]) (a := 0) (new_consistent _ (by decide)) (by decide) rfl
  have hs : Occurs sampleHeap ⟨[0], [("x", ⟨false, [.str "u"]⟩)], [], ["x"]⟩ "x" (.str "u") := ⟨0, by decide, by decide⟩
  refine C62_string hc (fun n hn => .inl ⟨"u", ?_⟩) (n := "x") (by decide) hs
  rw [List.mem_singleton] at hn
  subst hn
  exact hs

end Prolothar.Data

/-! ### C126 -/

namespace Prolothar.Data
open Prolothar.Spec.Arff

/-- C126: only `{...}` and numeric attributes can be read: any other type of an attribute raises NotImplementedError. The lines before it are the relation and
further attributes that can be read. -/
theorem C126_unsupported_type {rel name type : Text} (hrel : OneLine rel) (hn : Simple name) (ht : Simple type) (h1 : type.head? ≠ some '{')
    (h2 : lower type ≠ "numeric".toList) (rest : List Text) (hrest : ∀ l ∈ rest, OneLine l) :
    createFromArff ("@RELATION ".toList ++ quoted rel ++ (("@ATTRIBUTE ".toList ++ name ++ " ".toList ++ type) :: rest).flatMap fun x => '\n' :: x) =
      .error .notImplemented := by
  have hlines : (splitLines ("@RELATION ".toList ++ quoted rel ++ (("@ATTRIBUTE ".toList ++ name ++ " ".toList ++ type) :: rest).flatMap fun x => '\n' :: x)).foldlM
      arffStep ⟨[], [], [], false, []⟩ = .error .notImplemented := by
    rw [foldlM_splitLines arffStep empty_step]
    · rw [List.foldlM_cons, relation_step _ _ rfl]
      show List.foldlM _ _ _ = _
      rw [List.foldlM_cons]
      have hsplit : splitChar ' ' ("@ATTRIBUTE ".toList ++ name ++ " ".toList ++ type) = ["@ATTRIBUTE".toList, name, type] := by
        have e : "@ATTRIBUTE ".toList ++ name ++ " ".toList ++ type = "@ATTRIBUTE".toList ++ ' ' :: (name ++ ' ' :: type) := by simp
        rw [e, splitChar_append (by decide), splitChar_append fun h => (hn _ h).2.1 rfl, splitChar_ne fun h => (ht _ h).2.1 rfl]
      have hstep : arffStep ⟨[], [], [], false, []⟩ ("@ATTRIBUTE ".toList ++ name ++ " ".toList ++ type) = .error .notImplemented := by
        unfold arffStep
        rw [if_neg (by simp), if_pos]
        · unfold attributeLine
          rw [hsplit]
          dsimp only
          rw [if_neg h1, if_neg h2]
        · unfold lower
          rw [List.append_assoc, List.append_assoc, List.map_append]
          exact (show "@attribute".toList <+: "@ATTRIBUTE ".toList.map Char.toLower by decide).trans (List.prefix_append _ _)
      rw [hstep]; rfl
    · intro x hm c hcm
      simp only [List.mem_cons] at hm
      rcases hm with rfl | rfl | hm
      · rcases List.mem_append.1 hcm with h | h
        · exact (show ∀ c ∈ "@RELATION ".toList, isBreak c = false by decide) c h
        · rcases quoted_mem.1 h with rfl | h
          · decide
          · exact notBreak (hrel c h)
      · rcases List.mem_append.1 hcm with h | h
        · rcases List.mem_append.1 h with h | h
          · rcases List.mem_append.1 h with h | h
            · exact (show ∀ c ∈ "@ATTRIBUTE ".toList, isBreak c = false by decide) c h
            · exact notBreak (hn c h).2.2
          · exact (show ∀ c ∈ " ".toList, isBreak c = false by decide) c h
        · exact notBreak (ht c h).2.2
      · exact notBreak (hrest x hm c hcm)
  unfold createFromArff
  rw [hlines]; rfl

example : createFromArff ("@RELATION ".toList ++ quoted "r".toList ++ ["@ATTRIBUTE ".toList ++ "name".toList ++ " ".toList ++ "string".toList].flatMap fun x => '\n' :: x) =
    .error .notImplemented :=
  C126_unsupported_type (by intro c hc; rw [← isBreak_iff]; revert c; decide) (by intro c hc; rw [← isBreak_iff]; revert c; decide)
    (by intro c hc; rw [← isBreak_iff]; revert c; decide) (by decide) (by decide) [] (by simp)

end Prolothar.Data
