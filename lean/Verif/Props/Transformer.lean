import Verif.Lemmas.OneHot
import Verif.Props.Dataset
import Verif.Lemmas.PetriWf
import Mathlib.Tactic.FieldSimp
import Mathlib.Tactic.Ring
/-
C60, C61, C62, C104, C106: dataset transformers.
-/
namespace Prolothar.Data
open Prolothar.Spec.Data

variable {τ : Type}

theorem mem_catNames {h : Heap τ} {d : Dataset} (hc : Consistent h d) {n : String} {at' : Attr} (hat : d.attrs.get? n = some at') :
    n ∈ d.catNames ↔ at'.categorical = true := by
  rw [hc.categorical.2]
  constructor
  · rintro ⟨a, h1, h2⟩; rw [hat] at h1; rw [Option.some.inj h1]; exact h2
  · exact fun hh => ⟨at', hat, hh⟩

theorem mem_numNames {h : Heap τ} {d : Dataset} (hc : Consistent h d) {n : String} {at' : Attr} (hat : d.attrs.get? n = some at') :
    n ∈ d.numNames ↔ at'.categorical = false := by
  rw [hc.numerical.2]
  constructor
  · rintro ⟨a, h1, h2⟩; rw [hat] at h1; rw [Option.some.inj h1]; exact h2
  · exact fun hh => ⟨at', hat, hh⟩

/-! ### C61 label encoding -/

theorem label_common {possible : Option (Dict String (List Val))} {h : Heap τ} {d : Dataset} (hc : Consistent h d)
    (l : String → List Val)
    (hl : ∀ n at', d.attrs.get? n = some at' → at'.categorical = true →
      possibleValues possible n at' = pySorted (l n) ∧ (l n).Nodup ∧ Comparable (l n) ∧ ∀ v, Occurs h d n v → v ∈ l n) :
    ∃ h' d', ∃ code : String → Val → Nat, labelEncode possible h d = .ok (h', d') ∧
      Recoded h d h' d' (fun n v => if n ∈ d.catNames then .num (code n v : Nat) else v) (fun _ => False) ∧
      ∀ n ∈ d.catNames, Numbering (l n) (code n) := by
  classical
  have hex : ∀ n, ∃ s, (∃ at', d.attrs.get? n = some at' ∧ at'.categorical = true) → pySorted (l n) = .ok s ∧ s.Perm (l n) ∧ s.Pairwise Lt := by
    intro n
    by_cases he : ∃ at', d.attrs.get? n = some at' ∧ at'.categorical = true
    · obtain ⟨at', h1, h2⟩ := he
      obtain ⟨_, k2, k3, _⟩ := hl n at' h1 h2
      obtain ⟨s, hs⟩ := pySorted_ok k3 k2
      exact ⟨s, fun _ => hs⟩
    · exact ⟨[], fun hh => absurd hh he⟩
  choose s hs using hex
  obtain ⟨h', d', e1, e2⟩ := fold_recoded hc (fun a => a.categorical) (fun _ => true) (fun n v => .num ((s n).idxOf v : Nat))
    (labelAttr possible) (by
      intro n at' hat hcat h1 d1 g1 g2 g3 g4
      obtain ⟨k1, k2, k3, k4⟩ := hl n at' hat hcat
      obtain ⟨q1, q2, q3⟩ := hs n ⟨at', hat, hcat⟩
      refine labelAttr_spec g1 g3 hcat (k1.trans q1) q2 q3 fun v hv => k4 v ?_
      obtain ⟨a, ha, hv⟩ := hv
      rw [g2] at ha
      exact ⟨a, ha, by rw [← g4 a ha]; exact hv⟩)
    (fun n v => if n ∈ d.catNames then .num ((s n).idxOf v : Nat) else v) (by
      intro n at' hat v
      simp only [mem_catNames hc hat])
    (fun _ => False) (by
      intro n at' _
      cases at'.categorical <;> simp)
  refine ⟨h', d', fun n v => (s n).idxOf v, e1, e2, fun n hn => ?_⟩
  obtain ⟨at', hat⟩ := (hc.categorical.2 n).1 hn
  obtain ⟨_, q2, q3⟩ := hs n ⟨at', hat⟩
  exact idxOf_numbering q2 q3

/-- C61: label encoding replaces the values of each categorical attribute by their numbers 0..m-1 in ascending order
of the m values that occur, and changes nothing else. -/
theorem C61_label_encoding {h : Heap τ} {d : Dataset} (hc : Consistent h d)
    (hcomp : ∀ n ∈ d.catNames, ∀ v w, Occurs h d n v → Occurs h d n w → v = w ∨ Lt v w ∨ Lt w v) :
    ∃ h' d', ∃ (code : String → Val → Nat) (vs : String → List Val), labelEncode none h d = .ok (h', d') ∧
      Recoded h d h' d' (fun n v => if n ∈ d.catNames then .num (code n v : Nat) else v) (fun _ => False) ∧
      ∀ n ∈ d.catNames, (vs n).Nodup ∧ (∀ v, v ∈ vs n ↔ Occurs h d n v) ∧ Numbering (vs n) (code n) := by
  have hv : ∀ n at', d.attrs.get? n = some at' → ((d.attrs.get? n).map (·.values)).getD [] = at'.values := by
    intro n at' hat; rw [hat]; rfl
  obtain ⟨h', d', code, e1, e2, e3⟩ := label_common (possible := none) hc (fun n => ((d.attrs.get? n).map (·.values)).getD []) (by
    intro n at' hat hcat
    obtain ⟨k1, k2⟩ := hc.values n at' hat
    rw [hv n at' hat]
    refine ⟨rfl, k1, fun v hv w hw => ?_, fun v => (k2 v).2⟩
    exact hcomp n ((mem_catNames hc hat).2 hcat) v w ((k2 v).1 hv) ((k2 w).1 hw))
  refine ⟨h', d', code, fun n => ((d.attrs.get? n).map (·.values)).getD [], e1, e2, fun n hn => ?_⟩
  obtain ⟨at', hat, _⟩ := (hc.categorical.2 n).1 hn
  have := e3 n hn
  obtain ⟨k1, k2⟩ := hc.values n at' hat
  refine ⟨?_, fun v => ?_, this⟩
  · show (((d.attrs.get? n).map (·.values)).getD []).Nodup
    rw [hv n at' hat]; exact k1
  · show v ∈ ((d.attrs.get? n).map (·.values)).getD [] ↔ _
    rw [hv n at' hat]; exact k2 v

/-- C61: with given sets of possible values, the numbers are those within the given sets -/
theorem C61_given_values {h : Heap τ} {d : Dataset} (hc : Consistent h d) (p : Dict String (List Val))
    (hp : ∀ n ∈ d.catNames, ∃ l, p.get? n = some l ∧ l.Nodup ∧ Comparable l ∧ ∀ v, Occurs h d n v → v ∈ l) :
    ∃ h' d', ∃ code : String → Val → Nat, labelEncode (some p) h d = .ok (h', d') ∧
      Recoded h d h' d' (fun n v => if n ∈ d.catNames then .num (code n v : Nat) else v) (fun _ => False) ∧
      ∀ n ∈ d.catNames, ∀ l, p.get? n = some l → Numbering l (code n) := by
  obtain ⟨h', d', code, e1, e2, e3⟩ := label_common (possible := some p) hc (fun n => (p.get? n).getD []) (by
    intro n at' hat hcat
    obtain ⟨l, k1, k2, k3, k4⟩ := hp n ((mem_catNames hc hat).2 hcat)
    rw [k1]
    refine ⟨?_, k2, k3, k4⟩
    unfold possibleValues Dict.getItem
    simp only [k1]; rfl)
  refine ⟨h', d', code, e1, e2, fun n hn l hl => ?_⟩
  have := e3 n hn
  rw [hl] at this; exact this

/-- C61: equal values get equal numbers (the number is a function of the value) and different values get different
numbers -/
theorem C61_injective {l : List Val} {code : Val → Nat} (hn : Numbering l code) (hc : Comparable l) {v w : Val} (hv : v ∈ l) (hw : w ∈ l) :
    code v = code w ↔ v = w := by
  refine ⟨fun he => ?_, fun he => by rw [he]⟩
  rcases hc v hv w hw with h | h | h
  · exact h
  · have := hn.mono v hv w hw h; omega
  · have := hn.mono w hw v hv h; omega

/-- C61: a value that is not in the given set raises a KeyError, unless the given set is 0..m-1 -/
theorem C61_unknown_value {h : Heap τ} {d : Dataset} (hc : Consistent h d) (p : Dict String (List Val))
    (hp : ∀ n ∈ d.catNames, ∃ l, p.get? n = some l ∧ l.Nodup ∧ Comparable l ∧ ¬ ∃ m : Nat, 0 < m ∧ ∀ v, v ∈ l ↔ ∃ i < m, v = .num (i : Nat))
    {n : String} (hn : n ∈ d.catNames) {l : List Val} (hl : p.get? n = some l) {v : Val} (hv : Occurs h d n v) (hvl : v ∉ l) :
    labelEncode (some p) h d = .error .key := by
  obtain ⟨at0, hat0, hcat0⟩ := (hc.categorical.2 n).1 hn
  refine fold_error hc (fun a => a.categorical) (fun n => ∀ l, p.get? n = some l → ∀ v, Occurs h d n v → v ∈ l) .key (labelAttr (some p)) ?_
    hat0 hcat0 (fun hg => hvl (hg l hl v hv))
  intro n at' hat hcat h1 d1 g1 g2 g3 g4
  have hocc : ∀ v, Occurs h1 d1 n v ↔ Occurs h d n v := by
    intro v
    unfold Occurs
    rw [g2]
    exact exists_congr fun a => and_congr_right fun ha => by rw [g4 a ha]
  obtain ⟨l, k1, k2, k3, k4⟩ := hp n ((mem_catNames hc hat).2 hcat)
  obtain ⟨s, s1, s2, s3⟩ := pySorted_ok k3 k2
  have hpv : possibleValues (some p) n at' = .ok s := by
    unfold possibleValues Dict.getItem
    simp only [k1]; exact s1
  constructor
  · intro hg
    obtain ⟨h2, d2, e1, e2⟩ := labelAttr_spec g1 g3 hcat hpv s2 s3 fun v hv => hg l k1 v ((hocc v).1 hv)
    exact ⟨h2, d2, _, _, e1, e2⟩
  · intro hg
    push Not at hg
    obtain ⟨l', hl', v, hv, hvl⟩ := hg
    rw [k1] at hl'
    obtain rfl := Option.some.inj hl'
    have hskip : ¬ (s ≠ [] ∧ s = (List.range s.length).map (fun i : Nat => Val.num (i : Rat))) := by
      rintro ⟨hne, he⟩
      refine k4 ⟨s.length, List.length_pos_of_ne_nil hne, fun w => ?_⟩
      rw [← s2.mem_iff, he, List.mem_map]
      simp [eq_comm]
    have hnk : n ∈ d1.attrs.keys := Dict.mem_keys_iff.2 ⟨_, g3⟩
    obtain ⟨a, ha, hav⟩ := (hocc v).2 hv
    unfold labelAttr
    simp only [bind, Except.bind]
    rw [hpv]
    simp only
    rw [if_neg hskip, column_ok g1 hnk]
    simp only
    have herr : ((d1.instances.map (val h1 n)).mapM (valueMap s).getItem) = .error .key := by
      have : ∀ L : List Nat, a ∈ L → (∀ b ∈ L, b ∈ d1.instances) → ((L.map (val h1 n)).mapM (valueMap s).getItem) = .error .key := by
        intro L
        induction L with
        | nil => intro hm; cases hm
        | cons b L ih =>
          intro hm hsub
          rw [List.map_cons, List.mapM_cons]
          by_cases hb : val h1 n b ∈ s
          · have hgi : (valueMap s).getItem (val h1 n b) = .ok (.num ((s.idxOf (val h1 n b) : Nat) : Rat)) := by
              unfold Dict.getItem; rw [get?_valueMap (pairwise_nodup s3), if_pos hb]
            rw [hgi]
            have hma : a ∈ L := by
              rcases List.mem_cons.1 hm with rfl | hm
              · have hva : val h1 n a = v := by unfold val; rw [hav]; rfl
                rw [hva] at hb
                exact absurd (s2.mem_iff.1 hb) hvl
              · exact hm
            simp only [bind, Except.bind]
            rw [ih hma fun b hb => hsub b (List.mem_cons_of_mem _ hb)]
          · have hgi : (valueMap s).getItem (val h1 n b) = .error .key := by
              unfold Dict.getItem; rw [get?_valueMap (pairwise_nodup s3), if_neg hb]
            rw [hgi]; rfl
      exact this _ ha fun b hb => hb
    rw [herr]

/-- C61: numbers and texts in one categorical attribute raise a TypeError -/
theorem C61_mixed {h : Heap τ} {d : Dataset} (hc : Consistent h d) {n : String} (hn : n ∈ d.catNames)
    {x : Rat} {y : String} (hx : Occurs h d n (.num x)) (hy : Occurs h d n (.str y)) :
    labelEncode none h d = .error .type := by
  obtain ⟨at0, hat0, hcat0⟩ := (hc.categorical.2 n).1 hn
  refine fold_error hc (fun a => a.categorical) (fun n => ∀ x y, Occurs h d n (.num x) → ¬ Occurs h d n (.str y)) .type (labelAttr none) ?_
    hat0 hcat0 (fun hg => hg x y hx hy)
  intro n at' hat hcat h1 d1 g1 g2 g3 g4
  obtain ⟨k1, k2⟩ := hc.values n at' hat
  constructor
  · intro hg
    have hcomp : Comparable at'.values := by
      intro v hv w hw
      have hv := (k2 v).1 hv
      have hw := (k2 w).1 hw
      match v, w, hv, hw with
      | .num a, .num b, _, _ =>
        rcases lt_trichotomy a b with h | h | h
        · exact .inr (.inl (.num h))
        · exact .inl (by rw [h])
        · exact .inr (.inr (.num h))
      | .str a, .str b, _, _ =>
        rcases lt_trichotomy a b with h | h | h
        · exact .inr (.inl (.str h))
        · exact .inl (by rw [h])
        · exact .inr (.inr (.str h))
      | .num a, .str b, hv, hw => exact absurd hw (hg a b hv)
      | .str a, .num b, hv, hw => exact absurd hv (hg b a hw)
    obtain ⟨s, s1, s2, s3⟩ := pySorted_ok hcomp k1
    obtain ⟨h2, d2, e1, e2⟩ := labelAttr_spec (possible := none) g1 g3 hcat s1 s2 s3 fun v hv => by
      obtain ⟨a, ha, hv⟩ := hv
      rw [g2] at ha
      exact (k2 v).2 ⟨a, ha, by rw [← g4 a ha]; exact hv⟩
    exact ⟨h2, d2, _, _, e1, e2⟩
  · intro hg
    push Not at hg
    obtain ⟨x, y, hx, hy⟩ := hg
    unfold labelAttr possibleValues
    simp only
    rw [mixed_sorted ((k2 _).2 hx) ((k2 _).2 hy) rfl rfl]; rfl

example : ((labelEncode none exHeap exData).toOption.map fun r => r.2.instances.map fun a => (r.1 a).features.get? "colour") =
    some [some (.num 1), some (.num 0), some (.num 1)] := by rfl

/-- the hypotheses of `C61_label_encoding` hold for the example dataset -/
theorem exData_comparable : ∀ n ∈ exData.catNames, ∀ v w, Occurs exHeap exData n v → Occurs exHeap exData n w → v = w ∨ Lt v w ∨ Lt w v := by
  have hocc : ∀ v, Occurs exHeap exData "colour" v → v = .str "red" ∨ v = .str "blue" := by
    rintro v ⟨a, ha, hv⟩
    have ha : a = 0 ∨ a = 1 ∨ a = 2 := by simpa [exData] using ha
    rcases ha with rfl | rfl | rfl <;> (cases hv; decide)
  intro n hn v w hv hw
  have hn : n = "colour" := by simpa [exData] using hn
  subst hn
  rcases hocc v hv with rfl | rfl <;> rcases hocc w hw with rfl | rfl
  · exact .inl rfl
  · exact .inr (.inr (.str (by decide)))
  · exact .inr (.inl (.str (by decide)))
  · exact .inl rfl

example := C61_label_encoding (C58_consistent exData_reachable) exData_comparable

/-! ### C60 one-hot encoding -/

/-- C60: every categorical attribute `n` (unless its possible values are 0 and 1) is replaced by one attribute per
possible value, which is 1 for the instances that had that value and 0 for the others. Nothing else is changed. The
names of the new attributes must be different from each other and from the names in use. -/
theorem C60_one_hot {possible : Option (Dict String (List Val))} {join : String} {str : Val → String} {h : Heap τ} {d : Dataset}
    (hc : Consistent h d) (vs : String → List Val)
    (hvs : ∀ n ∈ d.catNames, (vs n).Nodup ∧ Comparable (vs n) ∧
      match possible with
      | none => ∀ v, v ∈ vs n ↔ Occurs h d n v
      | some p => p.get? n = some (vs n))
    (hfresh : ∀ n ∈ d.catNames, ∀ v ∈ vs n, n ++ join ++ str v ∉ d.attrs.keys)
    (hdist : ∀ n ∈ d.catNames, ∀ n' ∈ d.catNames, ∀ v ∈ vs n, ∀ v' ∈ vs n',
      n ++ join ++ str v = n' ++ join ++ str v' → n = n' ∧ v = v') :
    ∃ h' d', oneHotEncode possible join str h d = .ok (h', d') ∧ Consistent h' d' ∧ d'.instances = d.instances ∧
      (∀ a, a ∉ d.instances → h' a = h a) ∧
      (∀ a ∈ d.instances, (h' a).id = (h a).id ∧ (h' a).target = (h a).target) ∧
      d'.numNames.Perm d.numNames ∧
      (∀ m, m ∈ d'.catNames ↔ (m ∈ d.catNames ∧ ∀ v, v ∈ vs m ↔ v = .num 0 ∨ v = .num 1) ∨
        ∃ n ∈ d.catNames, (¬ ∀ v, v ∈ vs n ↔ v = .num 0 ∨ v = .num 1) ∧ ∃ v ∈ vs n, m = n ++ join ++ str v) ∧
      (∀ a ∈ d.instances, ∀ n, n ∈ d'.attrs.keys → n ∈ d.attrs.keys → (h' a).features.get? n = (h a).features.get? n) ∧
      ∀ n ∈ d.catNames, (¬ ∀ v, v ∈ vs n ↔ v = .num 0 ∨ v = .num 1) → ∀ v ∈ vs n, ∀ a ∈ d.instances,
        (h' a).features.get? (n ++ join ++ str v) = some (.num (if (h a).features.get? n = some v then 1 else 0)) := by
  classical
  -- the sorted values
  have hex : ∀ n, ∃ s, n ∈ d.catNames → s.Perm (vs n) ∧ s.Pairwise Lt ∧
      ∀ at', d.attrs.get? n = some at' → possibleValues possible n at' = .ok s := by
    intro n
    by_cases hn : n ∈ d.catNames
    · obtain ⟨k1, k2, k3⟩ := hvs n hn
      cases possible with
      | some p =>
        obtain ⟨s, s1, s2, s3⟩ := pySorted_ok k2 k1
        refine ⟨s, fun _ => ⟨s2, s3, fun at' _ => ?_⟩⟩
        unfold possibleValues Dict.getItem
        simp only at k3
        simp only [k3]; exact s1
      | none =>
        simp only at k3
        obtain ⟨at0, hat0, _⟩ := (hc.categorical.2 n).1 hn
        obtain ⟨q1, q2⟩ := hc.values n at0 hat0
        have hperm : at0.values.Perm (vs n) := (List.perm_ext_iff_of_nodup q1 k1).2 fun v => (q2 v).trans (k3 v).symm
        obtain ⟨s, s1, s2, s3⟩ := pySorted_ok (l := at0.values)
          (fun a ha b hb => k2 a (hperm.mem_iff.1 ha) b (hperm.mem_iff.1 hb)) q1
        refine ⟨s, fun _ => ⟨s2.trans hperm, s3, fun at' hat => ?_⟩⟩
        rw [hat0] at hat
        obtain rfl := Option.some.inj hat
        exact s1
    · exact ⟨[], fun hh => absurd hh hn⟩
  choose s hs using hex
  have hmemcat : ∀ e ∈ d.attrs.filter (fun e => e.2.categorical), d.attrs.get? e.1 = some e.2 ∧ e.1 ∈ d.catNames := by
    intro e he
    rw [List.mem_filter] at he
    have := Dict.get?_of_mem hc.names he.1
    exact ⟨this, (mem_catNames hc this).2 he.2⟩
  have hcatmem : ∀ n ∈ d.catNames, ∃ e ∈ d.attrs.filter (fun e => e.2.categorical), e.1 = n := by
    intro n hn
    obtain ⟨at', hat, hcat⟩ := (hc.categorical.2 n).1 hn
    exact ⟨(n, at'), List.mem_filter.2 ⟨Dict.mem_of_get? hat, hcat⟩, rfl⟩
  have hskip : ∀ n ∈ d.catNames, (s n = [.num 0, .num 1] ↔ ∀ v, v ∈ vs n ↔ v = .num 0 ∨ v = .num 1) := by
    intro n hn
    obtain ⟨p1, p2, _⟩ := hs n hn
    constructor
    · intro he v
      rw [← p1.mem_iff, he]; simp
    · intro hh
      have hp : (s n).Perm [.num 0, .num 1] := by
        refine (List.perm_ext_iff_of_nodup (pairwise_nodup p2) (by decide)).2 fun v => ?_
        rw [p1.mem_iff, hh]; simp
      exact hp.eq_of_pairwise (le := Lt) (fun a b _ _ h1 h2 => absurd h2 h1.asymm) p2 (by
        rw [List.pairwise_cons]
        exact ⟨fun b hb => by rw [List.mem_singleton] at hb; subst hb; exact .num (by norm_num), by simp⟩)
  obtain ⟨h', d', e1, e2, e3⟩ := oneHot_loop (possible := possible) (join := join) (str := str) s
    (d.attrs.filter fun e => e.2.categorical) h d (hc.names.sublist ((List.filter_sublist).map _)) hc
    (fun e he => ⟨(hmemcat e he).1, (hs e.1 (hmemcat e he).2).2.2 _ (hmemcat e he).1⟩)
    (fun e he _ v hv => hfresh e.1 (hmemcat e he).2 v ((hs e.1 (hmemcat e he).2).1.mem_iff.1 hv))
    (fun e he _ => by
      have hn := (hmemcat e he).2
      refine (List.nodup_map_iff_inj_on (pairwise_nodup (hs e.1 hn).2.1)).2 fun v hv w hw he => ?_
      exact (hdist e.1 hn e.1 hn v ((hs _ hn).1.mem_iff.1 hv) w ((hs _ hn).1.mem_iff.1 hw) he).2)
    (fun e he e' he' _ _ v hv v' hv' heq => (hdist e.1 (hmemcat e he).2 e'.1 (hmemcat e' he').2 v
      ((hs _ (hmemcat e he).2).1.mem_iff.1 hv) v' ((hs _ (hmemcat e' he').2).1.mem_iff.1 hv') heq).1)
  have hval : ∀ n ∈ d.catNames, ∀ a ∈ d.instances, (h a).features.get? n = some (val h n a) := by
    intro n hn a ha
    exact get?_val hc ((mem_names hc).2 (.inl hn)) ha
  -- which attributes are touched
  have htouch : ∀ n, n ∈ d.attrs.keys → (∃ e ∈ d.attrs.filter (fun e => e.2.categorical), s e.1 ≠ [.num 0, .num 1] ∧
      (n = e.1 ∨ n ∈ (s e.1).map fun v => e.1 ++ join ++ str v)) → n ∈ d.catNames ∧ s n ≠ [.num 0, .num 1] ∧ d'.attrs.get? n = none := by
    rintro n hn ⟨e, he, hne, rfl | hm⟩
    · exact ⟨(hmemcat e he).2, hne, (e3 e he hne).1⟩
    · obtain ⟨v, hv, rfl⟩ := List.mem_map.1 hm
      exact absurd hn (hfresh e.1 (hmemcat e he).2 v ((hs _ (hmemcat e he).2).1.mem_iff.1 hv))
  refine ⟨h', d', e1, e2.consistent, e2.instances, e2.others, e2.keeps, ?_, fun m => ?_, fun a ha n hn' hn => ?_, fun n hn hne v hv a ha => ?_⟩
  · refine (List.perm_ext_iff_of_nodup e2.consistent.numerical.1 hc.numerical.1).2 fun n => ?_
    by_cases ht : ∃ e ∈ d.attrs.filter (fun e => e.2.categorical), s e.1 ≠ [.num 0, .num 1] ∧
      (n = e.1 ∨ n ∈ (s e.1).map fun v => e.1 ++ join ++ str v)
    · -- neither before nor after
      have h1 : n ∉ d.numNames := by
        intro hm
        have hk : n ∈ d.attrs.keys := (mem_names hc).2 (.inr hm)
        obtain ⟨hc1, _⟩ := htouch n hk ht
        have := catNum_nodup hc
        rw [List.nodup_append] at this
        exact this.2.2 n hc1 n hm rfl
      have h2 : n ∉ d'.numNames := by
        intro hm
        obtain ⟨at', hat, hnc⟩ := (e2.consistent.numerical.2 n).1 hm
        obtain ⟨e, he, hne, hh | hh⟩ := ht
        · rw [hh, (e3 e he hne).1] at hat; cases hat
        · obtain ⟨v, hv, rfl⟩ := List.mem_map.1 hh
          obtain ⟨at2, z1, z2⟩ := ((e3 e he hne).2.2 v hv).1
          rw [z1] at hat
          rw [← Option.some.inj hat, z2] at hnc; cases hnc
      exact ⟨fun hm => absurd hm h2, fun hm => absurd hm h1⟩
    · rw [e2.consistent.numerical.2, hc.numerical.2, e2.attrs n ht]
  · by_cases ht : ∃ e ∈ d.attrs.filter (fun e => e.2.categorical), s e.1 ≠ [.num 0, .num 1] ∧
      (m = e.1 ∨ m ∈ (s e.1).map fun v => e.1 ++ join ++ str v)
    · constructor
      · intro hm
        right
        obtain ⟨e, he, hne, hh | hh⟩ := ht
        · obtain ⟨at', hat, _⟩ := (e2.consistent.categorical.2 m).1 hm
          rw [hh, (e3 e he hne).1] at hat; cases hat
        · obtain ⟨v, hv, rfl⟩ := List.mem_map.1 hh
          have hn := (hmemcat e he).2
          exact ⟨e.1, hn, fun hx => hne ((hskip _ hn).2 hx), v, (hs _ hn).1.mem_iff.1 hv, rfl⟩
      · intro hm
        rcases hm with ⟨hm, hx⟩ | ⟨n, hn, hx, v, hv, rfl⟩
        · obtain ⟨_, h2, _⟩ := htouch m ((mem_names hc).2 (.inl hm)) ht
          exact absurd ((hskip m hm).2 hx) h2
        · obtain ⟨e, he, rfl⟩ := hcatmem n hn
          exact (e2.consistent.categorical.2 _).2 ((e3 e he fun hh => hx ((hskip _ hn).1 hh)).2.2 v ((hs _ hn).1.mem_iff.2 hv)).1
    · constructor
      · intro hm
        left
        rw [e2.consistent.categorical.2, e2.attrs m ht, ← hc.categorical.2] at hm
        refine ⟨hm, (hskip m hm).1 ?_⟩
        by_contra hne
        obtain ⟨e, he, rfl⟩ := hcatmem m hm
        exact ht ⟨e, he, hne, .inl rfl⟩
      · intro hm
        rcases hm with ⟨hm, _⟩ | ⟨n, hn, hx, v, hv, rfl⟩
        · rw [e2.consistent.categorical.2, e2.attrs m ht, ← hc.categorical.2]; exact hm
        · obtain ⟨e, he, rfl⟩ := hcatmem n hn
          exact absurd ⟨e, he, fun hh => hx ((hskip _ hn).1 hh), .inr (List.mem_map_of_mem ((hs _ hn).1.mem_iff.2 hv))⟩ ht
  · refine e2.values a ha n fun ht => ?_
    obtain ⟨_, _, h3⟩ := htouch n hn ht
    obtain ⟨at', hat⟩ := Dict.mem_keys_iff.1 hn'
    rw [h3] at hat; cases hat
  · obtain ⟨e, he, rfl⟩ := hcatmem n hn
    rw [((e3 e he fun hh => hne ((hskip _ hn).1 hh)).2.2 v ((hs _ hn).1.mem_iff.2 hv)).2 a ha, hval _ hn a ha]
    unfold ind
    by_cases hh : val h e.1 a = v
    · simp [hh]
    · simp [hh]

/-- C60: if the possible values contain the value of an instance, exactly one of its indicators is 1, the one of its
value -/
theorem C60_exactly_one {vs : List Val} (x : Val) (hx : x ∈ vs) (indicator : Val → Rat)
    (hi : ∀ v ∈ vs, indicator v = if some x = some v then 1 else 0) : indicator x = 1 ∧ ∀ v ∈ vs, v ≠ x → indicator v = 0 := by
  refine ⟨by rw [hi x hx]; simp, fun v hv hne => ?_⟩
  rw [hi v hv, if_neg (fun h => hne (Option.some.inj h).symm)]

/-- C60: the condition on the names is needed: with the attributes `a` and `a b`, the value `b c` of the first and the
value `c` of the second give an attribute of the same name, which shows only the second one -/
theorem C60_name_collision :
    let h : Heap Unit := fun a => if a = 0 then ⟨.num 0, [("a", .str "b c"), ("a b", .str "d")], ()⟩
      else ⟨.num 1, [("a", .str "x"), ("a b", .str "c")], ()⟩
    ((Dataset.new ["a", "a b"] []).sub h [0, 1] >>= fun d => oneHotEncode none " " (fun v => match v with | .str s => s | .num _ => "") h d).toOption.map
      (fun r => (r.2.catNames, (r.1 0).features.get? "a b c", (r.1 1).features.get? "a b c")) =
    some (["a b c", "a x", "a b c", "a b d"], some (.num 0), some (.num 1)) := by rfl

example : ((oneHotEncode none " " (fun v => match v with | .str s => s | .num _ => "") exHeap exData).toOption.map fun r =>
    (r.2.catNames, r.2.instances.map fun a => (r.1 a).features.get? "colour red")) =
    some (["colour blue", "colour red"], [some (.num 1), some (.num 0), some (.num 1)]) := by rfl

/-- the hypotheses of `C60_one_hot` hold for the example dataset -/
example := C60_one_hot (possible := some [("colour", [.str "red", .str "blue"])]) (join := " ")
  (str := fun v => match v with | .str s => s | .num _ => "") (C58_consistent exData_reachable) (fun _ => [.str "red", .str "blue"])
  (by
    intro n hn
    have hn : n = "colour" := by simpa [exData] using hn
    subst hn
    refine ⟨by decide, fun v hv w hw => ?_, rfl⟩
    have hv : v = .str "red" ∨ v = .str "blue" := by simpa using hv
    have hw : w = .str "red" ∨ w = .str "blue" := by simpa using hw
    rcases hv with rfl | rfl <;> rcases hw with rfl | rfl
    · exact .inl rfl
    · exact .inr (.inr (.str (by decide)))
    · exact .inr (.inl (.str (by decide)))
    · exact .inl rfl)
  (by decide) (by decide)

/-! ### C62 min-max scaling -/

theorem foldl_min (l : List Rat) : ∀ x, (l.foldl (fun m v => if v < m then v else m) x = x ∨ l.foldl (fun m v => if v < m then v else m) x ∈ l) ∧
    (l.foldl (fun m v => if v < m then v else m) x ≤ x ∧ ∀ y ∈ l, l.foldl (fun m v => if v < m then v else m) x ≤ y) := by
  induction l with
  | nil => intro x; simp
  | cons z l ih =>
    intro x
    rw [List.foldl_cons]
    obtain ⟨h1, h2, h3⟩ := ih (if z < x then z else x)
    refine ⟨?_, ?_, ?_⟩
    · rcases h1 with h1 | h1
      · rw [h1]; split <;> simp
      · exact .inr (List.mem_cons_of_mem _ h1)
    · refine h2.trans ?_
      split
      · next hlt => exact hlt.le
      · exact le_rfl
    · intro y hy
      rcases List.mem_cons.1 hy with rfl | hy
      · refine h2.trans ?_
        split
        · exact le_rfl
        · next hlt => exact not_lt.1 hlt
      · exact h3 y hy

theorem foldl_max (l : List Rat) : ∀ x, (l.foldl (fun m v => if m < v then v else m) x = x ∨ l.foldl (fun m v => if m < v then v else m) x ∈ l) ∧
    (x ≤ l.foldl (fun m v => if m < v then v else m) x ∧ ∀ y ∈ l, y ≤ l.foldl (fun m v => if m < v then v else m) x) := by
  induction l with
  | nil => intro x; simp
  | cons z l ih =>
    intro x
    rw [List.foldl_cons]
    obtain ⟨h1, h2, h3⟩ := ih (if x < z then z else x)
    refine ⟨?_, ?_, ?_⟩
    · rcases h1 with h1 | h1
      · rw [h1]; split <;> simp
      · exact .inr (List.mem_cons_of_mem _ h1)
    · refine le_trans ?_ h2
      split
      · next hlt => exact hlt.le
      · exact le_rfl
    · intro y hy
      rcases List.mem_cons.1 hy with rfl | hy
      · refine le_trans ?_ h2
        split
        · exact le_rfl
        · next hlt => exact not_lt.1 hlt
      · exact h3 y hy

theorem pyMin_ok {l : List Rat} (h : l ≠ []) : ∃ m, pyMin l = .ok m ∧ m ∈ l ∧ ∀ x ∈ l, m ≤ x := by
  cases l with
  | nil => exact absurd rfl h
  | cons x l =>
    obtain ⟨h1, h2, h3⟩ := foldl_min l x
    refine ⟨_, rfl, ?_, ?_⟩
    · rcases h1 with h1 | h1
      · rw [h1]; simp
      · exact List.mem_cons_of_mem _ h1
    · intro y hy
      rcases List.mem_cons.1 hy with rfl | hy
      · exact h2
      · exact h3 y hy

theorem pyMax_ok {l : List Rat} (h : l ≠ []) : ∃ m, pyMax l = .ok m ∧ m ∈ l ∧ ∀ x ∈ l, x ≤ m := by
  cases l with
  | nil => exact absurd rfl h
  | cons x l =>
    obtain ⟨h1, h2, h3⟩ := foldl_max l x
    refine ⟨_, rfl, ?_, ?_⟩
    · rcases h1 with h1 | h1
      · rw [h1]; simp
      · exact List.mem_cons_of_mem _ h1
    · intro y hy
      rcases List.mem_cons.1 hy with rfl | hy
      · exact h2
      · exact h3 y hy

/-- the number in a value -/
def numOf : Val → Rat
  | .num q => q
  | .str _ => 0

/-- all values of the attribute are numbers -/
theorem nums_column {h : Heap τ} {d : Dataset} (hc : Consistent h d) {n : String} (hn : n ∈ d.attrs.keys)
    (hnum : ∀ v, Occurs h d n v → ∃ q, v = .num q) :
    (d.instances.map (val h n)).mapM Val.toNum = .ok (d.instances.map fun a => numOf (val h n a)) := by
  rw [mapM_ok_map (g := numOf)]
  · rw [List.map_map]; rfl
  · intro v hv
    obtain ⟨a, ha, rfl⟩ := List.mem_map.1 hv
    obtain ⟨q, hq⟩ := hnum _ ⟨a, ha, get?_val hc hn ha⟩
    rw [hq]; rfl

/-- one step of the scaling -/
theorem minMaxAttr_spec {lo hi : Rat} {h : Heap τ} {d : Dataset} (hc : Consistent h d) {n : String} {at' : Attr}
    (hat : d.attrs.get? n = some at') (hnum : ∀ v, Occurs h d n v → ∃ q, v = .num q)
    {mn mx : Rat} (hmn : Occurs h d n (.num mn)) (hmx : Occurs h d n (.num mx))
    (hb : ∀ q, Occurs h d n (.num q) → mn ≤ q ∧ q ≤ mx) :
    (mn < mx → ∃ h2 d2, minMaxAttr lo hi (h, d) (n, at') = .ok (h2, d2) ∧
      RecodeOne n (fun v => .num ((numOf v - mn) / (mx - mn) * (hi - lo) + lo)) false h d h2 d2) ∧
    (mn = mx → minMaxAttr lo hi (h, d) (n, at') = .error .zeroDivision) := by
  have hn : n ∈ d.attrs.keys := Dict.mem_keys_iff.2 ⟨at', hat⟩
  have hocc : ∀ a ∈ d.instances, Occurs h d n (.num (numOf (val h n a))) := by
    intro a ha
    have h1 := get?_val hc hn ha
    obtain ⟨q, hq⟩ := hnum _ ⟨a, ha, h1⟩
    refine ⟨a, ha, ?_⟩
    rw [h1, hq]; rfl
  obtain ⟨a0, ha0, hv0⟩ := hmn
  obtain ⟨a1, ha1, hv1⟩ := hmx
  have hmem : ∀ {q : Rat} {a : Nat}, a ∈ d.instances → (h a).features.get? n = some (.num q) → q ∈ d.instances.map fun a => numOf (val h n a) := by
    intro q a ha hv
    refine List.mem_map.2 ⟨a, ha, ?_⟩
    unfold val; rw [hv]; rfl
  have hne : (d.instances.map fun a => numOf (val h n a)) ≠ [] := fun he => by
    have := hmem ha0 hv0
    rw [he] at this; cases this
  obtain ⟨m1, p1, p2, p3⟩ := pyMin_ok hne
  obtain ⟨m2, q1, q2, q3⟩ := pyMax_ok hne
  have e1 : m1 = mn := by
    obtain ⟨a, ha, rfl⟩ := List.mem_map.1 p2
    exact le_antisymm (p3 _ (hmem ha0 hv0)) (hb _ (hocc a ha)).1
  have e2 : m2 = mx := by
    obtain ⟨a, ha, rfl⟩ := List.mem_map.1 q2
    exact le_antisymm (hb _ (hocc a ha)).2 (q3 _ (hmem ha1 hv1))
  subst e1 e2
  constructor
  · intro hlt
    obtain ⟨h1, d1, h2, d2, r1, r2, r3⟩ := recode_spec false hc hn fun v => .num ((numOf v - m1) / (m2 - m1) * (hi - lo) + lo)
    refine ⟨h2, d2, ?_, r3⟩
    unfold minMaxAttr
    simp only [bind, Except.bind]
    rw [column_ok hc hn]
    simp only
    rw [nums_column hc hn hnum]
    simp only
    rw [p1]
    simp only
    rw [q1]
    simp only
    rw [mapM_ok_map (g := fun v => (v - m1) / (m2 - m1) * (hi - lo) + lo) (by
      intro v _
      unfold scaleValue
      rw [if_neg (by linarith)])]
    simp only
    rw [r1]
    simp only
    rw [List.map_map, List.map_map]
    exact r2
  · intro heq
    unfold minMaxAttr
    simp only [bind, Except.bind]
    rw [column_ok hc hn]
    simp only
    rw [nums_column hc hn hnum]
    simp only
    rw [p1]
    simp only
    rw [q1]
    simp only
    cases hl : d.instances.map fun a => numOf (val h n a) with
    | nil => exact absurd hl hne
    | cons x l =>
      rw [List.mapM_cons]
      unfold scaleValue
      rw [if_pos (by rw [heq]; ring)]
      rfl

/-- the smallest and the largest value of a numerical attribute exist -/
theorem exists_bounds {h : Heap τ} {d : Dataset} (hc : Consistent h d) {n : String} (hn : n ∈ d.attrs.keys)
    (hnum : ∀ v, Occurs h d n v → ∃ q, v = .num q) (hne : d.instances ≠ []) :
    ∃ mn mx, Occurs h d n (.num mn) ∧ Occurs h d n (.num mx) ∧ ∀ q, Occurs h d n (.num q) → mn ≤ q ∧ q ≤ mx := by
  have hocc : ∀ a ∈ d.instances, Occurs h d n (.num (numOf (val h n a))) := by
    intro a ha
    have h1 := get?_val hc hn ha
    obtain ⟨q, hq⟩ := hnum _ ⟨a, ha, h1⟩
    refine ⟨a, ha, ?_⟩
    rw [h1, hq]; rfl
  have hne' : (d.instances.map fun a => numOf (val h n a)) ≠ [] := by simpa using hne
  obtain ⟨m1, _, p2, p3⟩ := pyMin_ok hne'
  obtain ⟨m2, _, q2, q3⟩ := pyMax_ok hne'
  obtain ⟨a, ha, rfl⟩ := List.mem_map.1 p2
  obtain ⟨b, hb, rfl⟩ := List.mem_map.1 q2
  refine ⟨_, _, hocc a ha, hocc b hb, fun q hq => ?_⟩
  obtain ⟨c, hcm, hcv⟩ := hq
  have : q ∈ d.instances.map fun a => numOf (val h n a) := List.mem_map.2 ⟨c, hcm, by unfold val; rw [hcv]; rfl⟩
  exact ⟨p3 _ this, q3 _ this⟩

/-- C62: if every numerical attribute has at least two different values, min-max scaling replaces each value by the
affine map that takes the smallest value to `lo` and the largest to `hi`. -/
theorem C62_min_max {lo hi : Rat} {h : Heap τ} {d : Dataset} (hc : Consistent h d)
    (hnum : ∀ n ∈ d.numNames, ∀ v, Occurs h d n v → ∃ q, v = .num q)
    (htwo : ∀ n ∈ d.numNames, ∃ v w, Occurs h d n v ∧ Occurs h d n w ∧ v ≠ w) :
    ∃ h' d', ∃ scale : String → Val → Rat, minMaxScale lo hi h d = .ok (h', d') ∧
      Recoded h d h' d' (fun n v => if n ∈ d.numNames then .num (scale n v) else v) (fun _ => False) ∧
      ∀ n ∈ d.numNames, ∃ mn mx, mn < mx ∧ Occurs h d n (.num mn) ∧ Occurs h d n (.num mx) ∧
        (∀ q, Occurs h d n (.num q) → mn ≤ q ∧ q ≤ mx) ∧
        ∀ q, (scale n (.num q) - lo) * (mx - mn) = (q - mn) * (hi - lo) := by
  classical
  have hex : ∀ n, ∃ p : Rat × Rat, n ∈ d.numNames → p.1 < p.2 ∧ Occurs h d n (.num p.1) ∧ Occurs h d n (.num p.2) ∧
      ∀ q, Occurs h d n (.num q) → p.1 ≤ q ∧ q ≤ p.2 := by
    intro n
    by_cases hn : n ∈ d.numNames
    · have hk : n ∈ d.attrs.keys := (mem_names hc).2 (.inr hn)
      obtain ⟨v, w, hv, hw, hvw⟩ := htwo n hn
      obtain ⟨mn, mx, b1, b2, b3⟩ := exists_bounds hc hk (hnum n hn) (fun he => by obtain ⟨a, ha, _⟩ := hv; rw [he] at ha; cases ha)
      refine ⟨(mn, mx), fun _ => ⟨?_, b1, b2, b3⟩⟩
      obtain ⟨x, rfl⟩ := hnum n hn v hv
      obtain ⟨y, rfl⟩ := hnum n hn w hw
      have hx := b3 x hv
      have hy := b3 y hw
      rcases lt_or_eq_of_le (hx.1.trans hx.2) with hlt | heq
      · exact hlt
      · exfalso
        apply hvw
        rw [le_antisymm (hx.2.trans (heq ▸ hy.1)) (hy.2.trans (heq ▸ hx.1))]
    · exact ⟨(0, 0), fun hh => absurd hh hn⟩
  choose p hp using hex
  obtain ⟨h', d', e1, e2⟩ := fold_recoded hc (fun a => !a.categorical) (fun _ => false)
    (fun n v => .num ((numOf v - (p n).1) / ((p n).2 - (p n).1) * (hi - lo) + lo)) (minMaxAttr lo hi) (by
      intro n at' hat hcat h1 d1 g1 g2 g3 g4
      have hnn : n ∈ d.numNames := (mem_numNames hc hat).2 (by simpa using hcat)
      have hocc : ∀ v, Occurs h1 d1 n v ↔ Occurs h d n v := by
        intro v
        unfold Occurs
        rw [g2]
        exact exists_congr fun a => and_congr_right fun ha => by rw [g4 a ha]
      obtain ⟨b0, b1, b2, b3⟩ := hp n hnn
      exact (minMaxAttr_spec g1 g3 (fun v hv => hnum n hnn v ((hocc v).1 hv)) ((hocc _).2 b1) ((hocc _).2 b2)
        fun q hq => b3 q ((hocc _).1 hq)).1 b0)
    (fun n v => if n ∈ d.numNames then .num ((numOf v - (p n).1) / ((p n).2 - (p n).1) * (hi - lo) + lo) else v) (by
      intro n at' hat v
      simp only [mem_numNames hc hat]
      cases at'.categorical <;> simp)
    (fun _ => False) (by
      intro n at' _
      cases at'.categorical <;> simp)
  refine ⟨h', d', fun n v => (numOf v - (p n).1) / ((p n).2 - (p n).1) * (hi - lo) + lo, e1, e2, fun n hn => ?_⟩
  obtain ⟨b0, b1, b2, b3⟩ := hp n hn
  refine ⟨_, _, b0, b1, b2, b3, fun q => ?_⟩
  have : (p n).2 - (p n).1 ≠ 0 := by linarith
  simp only [numOf]
  field_simp
  ring

/-- C62: the values are mapped into [lo, hi], the smallest to lo, the largest to hi, and their order is preserved -/
theorem C62_range {lo hi mn mx : Rat} (hlh : lo < hi) (hm : mn < mx) {scale : Rat → Rat}
    (hs : ∀ q, (scale q - lo) * (mx - mn) = (q - mn) * (hi - lo)) :
    scale mn = lo ∧ scale mx = hi ∧ (∀ q, mn ≤ q → q ≤ mx → lo ≤ scale q ∧ scale q ≤ hi) ∧
      ∀ q q', q < q' ↔ scale q < scale q' := by
  have hd : 0 < mx - mn := by linarith
  have hf : ∀ q, scale q = lo + (q - mn) * (hi - lo) / (mx - mn) := by
    intro q
    have := hs q
    field_simp
    linarith
  have hl : 0 < hi - lo := by linarith
  have hk : 0 < (hi - lo) / (mx - mn) := div_pos hl hd
  have hf' : ∀ q, scale q = lo + (q - mn) * ((hi - lo) / (mx - mn)) := fun q => by rw [hf q]; ring
  have h1 : scale mn = lo := by rw [hf']; ring
  have h2 : scale mx = hi := by rw [hf]; field_simp; ring
  have hmono : ∀ q q', q < q' ↔ scale q < scale q' := by
    intro q q'
    rw [hf' q, hf' q']
    constructor
    · intro h
      have := mul_lt_mul_of_pos_right (sub_lt_sub_right h mn) hk
      linarith
    · intro h
      by_contra hge
      have := mul_le_mul_of_nonneg_right (sub_le_sub_right (not_lt.1 hge) mn) hk.le
      linarith
  refine ⟨h1, h2, fun q g1 g2 => ?_, hmono⟩
  rw [← h1, ← h2]
  exact ⟨not_lt.1 fun h => absurd ((hmono _ _).2 h) (not_lt.2 g1), not_lt.1 fun h => absurd ((hmono _ _).2 h) (not_lt.2 g2)⟩

/-- C62: if all values of a numerical attribute are equal, the transformation raises a ZeroDivisionError -/
theorem C62_constant {lo hi : Rat} {h : Heap τ} {d : Dataset} (hc : Consistent h d)
    (hnum : ∀ n ∈ d.numNames, ∀ v, Occurs h d n v → ∃ q, v = .num q) (hne : d.instances ≠ [])
    {n : String} (hn : n ∈ d.numNames) {x : Rat} (hx : ∀ v, Occurs h d n v → v = .num x) :
    minMaxScale lo hi h d = .error .zeroDivision := by
  obtain ⟨at0, hat0, hcat0⟩ := (hc.numerical.2 n).1 hn
  refine fold_error hc (fun a => !a.categorical) (fun n => ∃ v w, Occurs h d n v ∧ Occurs h d n w ∧ v ≠ w) .zeroDivision (minMaxAttr lo hi) ?_
    hat0 (by rw [hcat0]; rfl) (fun ⟨v, w, hv, hw, hvw⟩ => hvw ((hx v hv).trans (hx w hw).symm))
  intro n at' hat hcat h1 d1 g1 g2 g3 g4
  have hnn : n ∈ d.numNames := (mem_numNames hc hat).2 (by simpa using hcat)
  have hocc : ∀ v, Occurs h1 d1 n v ↔ Occurs h d n v := by
    intro v
    unfold Occurs
    rw [g2]
    exact exists_congr fun a => and_congr_right fun ha => by rw [g4 a ha]
  obtain ⟨mn, mx, b1, b2, b3⟩ := exists_bounds hc (Dict.mem_keys_iff.2 ⟨at', hat⟩) (hnum n hnn) hne
  obtain ⟨s1, s2⟩ := minMaxAttr_spec (lo := lo) (hi := hi) g1 g3 (fun v hv => hnum n hnn v ((hocc v).1 hv)) ((hocc _).2 b1) ((hocc _).2 b2)
    fun q hq => b3 q ((hocc _).1 hq)
  constructor
  · rintro ⟨v, w, hv, hw, hvw⟩
    obtain ⟨x, rfl⟩ := hnum n hnn v hv
    obtain ⟨y, rfl⟩ := hnum n hnn w hw
    have hx := b3 x hv
    have hy := b3 y hw
    have hlt : mn < mx := by
      rcases lt_or_eq_of_le (hx.1.trans hx.2) with hlt | heq
      · exact hlt
      · exfalso
        apply hvw
        rw [le_antisymm (hx.2.trans (heq ▸ hy.1)) (hy.2.trans (heq ▸ hx.1))]
    obtain ⟨h2, d2, e1, e2⟩ := s1 hlt
    exact ⟨h2, d2, _, _, e1, e2⟩
  · intro hg
    refine s2 ?_
    by_contra hne
    exact hg ⟨_, _, b1, b2, fun he => hne (by cases he; rfl)⟩

/-- C62: a dataset with a numerical attribute but without instances raises a ValueError -/
theorem C62_empty {lo hi : Rat} {h : Heap τ} {d : Dataset} (hc : Consistent h d) (he : d.instances = []) {n : String} (hn : n ∈ d.numNames) :
    minMaxScale lo hi h d = .error .value := by
  obtain ⟨at0, hat0, hcat0⟩ := (hc.numerical.2 n).1 hn
  refine fold_error hc (fun a => !a.categorical) (fun _ => False) .value (minMaxAttr lo hi) ?_ hat0 (by rw [hcat0]; rfl) id
  intro n at' hat hcat h1 d1 g1 g2 g3 g4
  refine ⟨fun hf => hf.elim, fun _ => ?_⟩
  unfold minMaxAttr Dataset.column
  simp only [g2, he]
  rfl

example : ((minMaxScale 0 1 exHeap exData).toOption.map fun r => r.2.instances.map fun a => (r.1 a).features.get? "size") =
    some [some (.num 0), some (.num 1), some (.num 1)] := by decide +kernel

/-- the hypotheses of `C62_min_max` hold for the example dataset -/
example := C62_min_max (lo := 0) (hi := 1) (C58_consistent exData_reachable)
  (by
    rintro n hn v ⟨a, ha, hv⟩
    have hn : n = "size" := by simpa [exData] using hn
    subst hn
    have ha : a = 0 ∨ a = 1 ∨ a = 2 := by simpa [exData] using ha
    rcases ha with rfl | rfl | rfl <;> (cases hv; exact ⟨_, rfl⟩))
  (by
    intro n hn
    have hn : n = "size" := by simpa [exData] using hn
    subst hn
    exact ⟨.num 1, .num 2, ⟨0, by decide, rfl⟩, ⟨1, by decide, rfl⟩, by decide⟩)

/-! ### C104 removing attributes -/

/-- C104: exactly the attributes with one value are removed -/
theorem C104_remove_constant {h : Heap τ} {d : Dataset} (hc : Consistent h d) :
    ∃ h' d', removeConstant h d = .ok (h', d') ∧ Consistent h' d' ∧ d'.instances = d.instances ∧
      (∀ a, a ∉ d.instances → h' a = h a) ∧
      (∀ a ∈ d.instances, (h' a).id = (h a).id ∧ (h' a).target = (h a).target) ∧
      ∀ n, ((∃ v, ∀ w, Occurs h d n w ↔ w = v) → d'.attrs.get? n = none ∧ ∀ a ∈ d.instances, (h' a).features.get? n = none) ∧
        ((¬ ∃ v, ∀ w, Occurs h d n w ↔ w = v) → d'.attrs.get? n = d.attrs.get? n ∧
          ∀ a ∈ d.instances, (h' a).features.get? n = (h a).features.get? n) := by
  obtain ⟨h', d', e1, e2, e3⟩ := removeSelected hc fun e => e.2.values.length == 1
  have hsel : ∀ n at', d.attrs.get? n = some at' → (((at'.values.length == 1) = true) ↔ ∃ v, ∀ w, Occurs h d n w ↔ w = v) := by
    intro n at' hat
    obtain ⟨k1, k2⟩ := hc.values n at' hat
    rw [beq_iff_eq, List.length_eq_one_iff]
    constructor
    · rintro ⟨v, hv⟩
      refine ⟨v, fun w => ?_⟩
      have := k2 w
      rw [hv, List.mem_singleton] at this
      exact this.symm
    · rintro ⟨v, hv⟩
      refine ⟨v, ?_⟩
      have : at'.values.Perm [v] := (List.perm_ext_iff_of_nodup k1 (by simp)).2 fun w => by
        rw [k2, List.mem_singleton]; exact hv w
      exact List.perm_singleton.1 this
  have hocc : ∀ n, d.attrs.get? n = none → ¬ ∃ v, ∀ w, Occurs h d n w ↔ w = v := by
    rintro n hn ⟨v, hv⟩
    obtain ⟨a, ha, hav⟩ := (hv v).2 rfl
    have := ((hc.features a ha).2 n).1 (Dict.mem_keys_iff.2 ⟨v, hav⟩)
    rw [Dict.get?_eq_none_iff] at hn
    exact hn this
  have htouch : ∀ n, (∃ e ∈ d.attrs, (e.2.values.length == 1) = true ∧ e.1 = n) ↔ ∃ v, ∀ w, Occurs h d n w ↔ w = v := by
    intro n
    constructor
    · rintro ⟨e, he, hs, rfl⟩
      exact (hsel e.1 e.2 (Dict.get?_of_mem hc.names he)).1 hs
    · intro hv
      cases hat : d.attrs.get? n with
      | none => exact absurd hv (hocc n hat)
      | some at' => exact ⟨(n, at'), Dict.mem_of_get? hat, (hsel n at' hat).2 hv, rfl⟩
  refine ⟨h', d', e1, e2.consistent, e2.instances, e2.others, e2.keeps, fun n => ⟨fun hv => ?_, fun hv => ?_⟩⟩
  · obtain ⟨e, he, hs, rfl⟩ := (htouch n).2 hv
    exact e3 e he hs
  · exact ⟨e2.attrs n fun ht => hv ((htouch n).1 ht), fun a ha => e2.values a ha n fun ht => hv ((htouch n).1 ht)⟩

/-- C104: selecting attributes keeps exactly the selected ones; names that are no attributes are ignored -/
theorem C104_select {h : Heap τ} {d : Dataset} (hc : Consistent h d) (names : List String) :
    ∃ h' d', selectAttributes names h d = .ok (h', d') ∧ Consistent h' d' ∧ d'.instances = d.instances ∧
      (∀ a, a ∉ d.instances → h' a = h a) ∧
      (∀ n, d'.attrs.get? n = if n ∈ names then d.attrs.get? n else none) ∧
      ∀ a ∈ d.instances, (h' a).id = (h a).id ∧ (h' a).target = (h a).target ∧
        ∀ n, (h' a).features.get? n = if n ∈ names then (h a).features.get? n else none := by
  obtain ⟨h', d', e1, e2, e3⟩ := removeSelected hc fun e => decide (e.1 ∉ names)
  refine ⟨h', d', e1, e2.consistent, e2.instances, e2.others, fun n => ?_, fun a ha => ⟨(e2.keeps a ha).1, (e2.keeps a ha).2, fun n => ?_⟩⟩
  · split
    · next hn => exact e2.attrs n (by rintro ⟨e, _, hs, rfl⟩; exact (of_decide_eq_true hs) hn)
    · next hn =>
      cases hat : d.attrs.get? n with
      | none =>
        by_cases ht : ∃ e ∈ d.attrs, decide (e.1 ∉ names) = true ∧ e.1 = n
        · obtain ⟨e, he, hs, rfl⟩ := ht; exact (e3 e he hs).1
        · rw [e2.attrs n ht]; exact hat
      | some at' => exact (e3 (n, at') (Dict.mem_of_get? hat) (decide_eq_true hn)).1
  · split
    · next hn => exact e2.values a ha n (by rintro ⟨e, _, hs, rfl⟩; exact (of_decide_eq_true hs) hn)
    · next hn =>
      cases hat : d.attrs.get? n with
      | none =>
        by_cases ht : ∃ e ∈ d.attrs, decide (e.1 ∉ names) = true ∧ e.1 = n
        · obtain ⟨e, he, hs, rfl⟩ := ht; exact (e3 e he hs).2 a ha
        · rw [e2.values a ha n ht, Dict.get?_eq_none_iff, (hc.features a ha).2, ← Dict.get?_eq_none_iff]; exact hat
      | some at' => exact (e3 (n, at') (Dict.mem_of_get? hat) (decide_eq_true hn)).2 a ha

example : ((selectAttributes ["size", "weight"] exHeap exData).toOption.map fun r => r.2.attrs.keys) = some ["size"] := by rfl

/-! ### C106 transform without inplace -/

/-- a transformer that changes only the instances of the dataset it is given -/
def Local (f : Heap τ → Dataset → Py (Heap τ × Dataset)) : Prop :=
  ∀ h d h' d', f h d = .ok (h', d') → d'.instances = d.instances ∧ ∀ a, a ∉ d.instances → h' a = h a

theorem local_foldlM {ι : Type} (step : Heap τ × Dataset → ι → Py (Heap τ × Dataset)) (hs : ∀ i, Local fun h d => step (h, d) i) (l : List ι) :
    Local fun h d => l.foldlM step (h, d) := by
  induction l with
  | nil => intro h d h' d' he; cases he; exact ⟨rfl, fun _ _ => rfl⟩
  | cons i l ih =>
    intro h d h' d' he
    simp only [List.foldlM_cons, bind, Except.bind] at he
    cases hst : step (h, d) i with
    | error e => rw [hst] at he; cases he
    | ok s =>
      rw [hst] at he
      obtain ⟨h1, h2⟩ := hs i h d s.1 s.2 hst
      obtain ⟨h3, h4⟩ := ih s.1 s.2 h' d' he
      refine ⟨h3.trans h1, fun a ha => ?_⟩
      rw [h4 a (by rw [h1]; exact ha), h2 a ha]

theorem local_setAll (name : String) : ∀ (l : List (Val × Nat)) (h : Heap τ) (a : Nat), a ∉ l.map (·.2) → setAll name h l a = h a
  | [], _, _, _ => rfl
  | (v, b) :: l, h, a, ha => by
    rw [List.map_cons, List.mem_cons, not_or] at ha
    show setAll name _ l a = _
    rw [local_setAll name l _ a ha.2]
    exact upd_ne _ _ ha.1

theorem local_addCategorical (name : String) (values : List Val) : Local (τ := τ) fun h d => d.addCategorical h name values := by
  intro h d h' d' he
  simp only [Dataset.addCategorical] at he
  split at he
  · cases he
  · cases he
    refine ⟨rfl, fun a ha => local_setAll name _ h a fun hm => ?_⟩
    obtain ⟨e, he, rfl⟩ := List.mem_map.1 hm
    exact ha (List.of_mem_zip he).2

theorem local_addNumerical (name : String) (values : List Val) : Local (τ := τ) fun h d => d.addNumerical h name values := by
  intro h d h' d' he
  simp only [Dataset.addNumerical] at he
  split at he
  · cases he
  · cases he
    refine ⟨rfl, fun a ha => local_setAll name _ h a fun hm => ?_⟩
    obtain ⟨e, he, rfl⟩ := List.mem_map.1 hm
    exact ha (List.of_mem_zip he).2

theorem local_removeFeatures (name : String) : ∀ (l : List Nat) (h h' : Heap τ), l.foldlM (fun h i => removeFeature h i name) h = .ok h' →
    ∀ a, a ∉ l → h' a = h a
  | [], _, _, he, _, _ => by cases he; rfl
  | b :: l, h, h', he, a, ha => by
    rw [List.mem_cons, not_or] at ha
    rw [List.foldlM_cons] at he
    unfold removeFeature at he
    cases hg : (h b).features.getItem name with
    | error e => rw [hg] at he; cases he
    | ok v =>
      rw [hg] at he
      simp only [bind, Except.bind, pure, Except.pure] at he
      rw [local_removeFeatures name l _ h' he a ha.2, upd_ne _ _ ha.1]

theorem local_removeAttribute (name : String) : Local (τ := τ) fun h d => d.removeAttribute h name := by
  intro h d h' d' he
  simp only [Dataset.removeAttribute] at he
  obtain ⟨at', _, he⟩ := Petri.bind_eq_ok he
  have hfin : ∃ cat num h1, d.instances.foldlM (fun h i => removeFeature h i name) h = .ok h1 ∧
      (h1, { d with attrs := d.attrs.del name, catNames := cat, numNames := num }) = (h', d') := by
    by_cases hcat : at'.categorical = true
    · simp only [hcat, if_true] at he
      obtain ⟨cat, _, he⟩ := Petri.bind_eq_ok he
      obtain ⟨num, _, he⟩ := Petri.bind_eq_ok he
      obtain ⟨h1, hh, he⟩ := Petri.bind_eq_ok he
      exact ⟨cat, num, h1, hh, Except.ok.inj he⟩
    · simp only [hcat] at he
      obtain ⟨cat, _, he⟩ := Petri.bind_eq_ok he
      obtain ⟨num, _, he⟩ := Petri.bind_eq_ok he
      obtain ⟨h1, hh, he⟩ := Petri.bind_eq_ok he
      exact ⟨cat, num, h1, hh, Except.ok.inj he⟩
  obtain ⟨cat, num, h1, hh, he⟩ := hfin
  cases he
  exact ⟨rfl, local_removeFeatures name _ _ _ hh⟩

theorem local_bind {α : Type} {f : Heap τ → Dataset → Py α} {g : α → Heap τ → Dataset → Py (Heap τ × Dataset)} (hg : ∀ x, Local (g x)) :
    Local fun h d => f h d >>= fun x => g x h d := by
  intro h d h' d' he
  simp only [bind, Except.bind] at he
  cases hf : f h d with
  | error e => rw [hf] at he; cases he
  | ok x => rw [hf] at he; exact hg x h d h' d' he

theorem local_comp {f g : Heap τ → Dataset → Py (Heap τ × Dataset)} (hf : Local f) (hg : Local g) :
    Local fun h d => f h d >>= fun s => g s.1 s.2 := by
  intro h d h' d' he
  simp only [bind, Except.bind] at he
  cases hfd : f h d with
  | error e => rw [hfd] at he; cases he
  | ok s =>
    rw [hfd] at he
    obtain ⟨h1, h2⟩ := hf h d s.1 s.2 hfd
    obtain ⟨h3, h4⟩ := hg s.1 s.2 h' d' he
    exact ⟨h3.trans h1, fun a ha => by rw [h4 a (by rw [h1]; exact ha), h2 a ha]⟩

theorem local_id : Local (τ := τ) fun h d => .ok (h, d) := by
  intro h d h' d' he; cases he; exact ⟨rfl, fun _ _ => rfl⟩

theorem local_sel {ι : Type} (l : Dataset → List ι) (step : Heap τ × Dataset → ι → Py (Heap τ × Dataset))
    (hs : ∀ i, Local fun h d => step (h, d) i) : Local fun h d => (l d).foldlM step (h, d) := by
  intro h d h' d' he
  exact local_foldlM step hs (l d) h d h' d' he

/-- C106: every transformer changes only the instances of the given dataset -/
theorem C106_local (possible : Option (Dict String (List Val))) (join : String) (str : Val → String) (fmt : Rat → String) (lo hi : Rat) (bins : Int)
    (names : List String) :
    Local (τ := τ) (labelEncode possible) ∧ Local (τ := τ) (oneHotEncode possible join str) ∧ Local (τ := τ) (minMaxScale lo hi) ∧
    Local (τ := τ) (quantileDiscretize bins fmt str) ∧ Local (τ := τ) removeConstant ∧ Local (τ := τ) (selectAttributes names) := by
  refine ⟨local_sel _ _ fun e => ?_, local_sel _ _ fun e => ?_, local_sel _ _ fun e => ?_, local_sel _ _ fun e => ?_,
    local_sel _ _ fun e => local_removeAttribute e.1, local_sel _ _ fun e => local_removeAttribute e.1⟩
  · refine local_bind fun pv => ?_
    split
    · exact local_id
    · exact local_bind fun col => local_bind (f := fun _ _ => col.mapM (valueMap pv).getItem) fun enc =>
        local_comp (local_removeAttribute e.1) (local_addCategorical e.1 enc)
  · refine local_bind fun pv => ?_
    split
    · exact local_id
    · exact local_comp (local_foldlM _ (fun v => local_bind fun col => local_addCategorical _ _) pv) (local_removeAttribute e.1)
  · exact local_bind fun col => local_bind (f := fun _ _ => col.mapM Val.toNum) fun nums => local_bind (f := fun _ _ => pyMin nums) fun mn =>
      local_bind (f := fun _ _ => pyMax nums) fun mx => local_bind (f := fun _ _ => nums.mapM (scaleValue lo hi mn mx)) fun sc =>
      local_comp (local_removeAttribute e.1) (local_addNumerical e.1 _)
  · exact local_bind fun col => local_bind fun attr => local_bind (f := fun _ _ => quantileLabels bins fmt str attr col) fun labels =>
      local_comp (local_removeAttribute e.1) (local_addCategorical e.1 labels)

/-- C106: without `inplace`, `transform` leaves all existing instances, in particular those of the given dataset, as
they are, so the given dataset stays consistent; its result consists of new instances. -/
theorem C106_not_inplace {f : Heap τ → Dataset → Py (Heap τ × Dataset)} (hf : Local f) {h : Heap τ} {d : Dataset} (hc : Consistent h d)
    {next : Nat} (hfr : ∀ a ∈ d.instances, a < next) {h' : Heap τ} {d' : Dataset} (he : transform f false next h d = .ok (h', d')) :
    (∀ a < next, h' a = h a) ∧ Consistent h' d ∧ (∀ a ∈ d'.instances, next ≤ a) ∧ d'.instances.length = d.instances.length := by
  obtain ⟨h1, d1, e1, e2, e3, e4, e5, e6, e7, _, e9⟩ := C102_copy hc hfr
  unfold transform at he
  simp only [bind, Except.bind, Bool.false_eq_true, if_false] at he
  rw [e1] at he
  obtain ⟨k1, k2⟩ := hf h1 d1 h' d' he
  have hold : ∀ a < next, h' a = h a := by
    intro a ha
    rw [k2 a (fun hm => by have := e7 a hm; omega), e6 a ha]
  refine ⟨hold, Consistent.congr hc fun a ha => hold a (hfr a ha), fun a ha => e7 a (by rw [← k1]; exact ha), ?_⟩
  have := congrArg List.length e9
  rw [List.length_map, List.length_map] at this
  rw [k1, this]

end Prolothar.Data
