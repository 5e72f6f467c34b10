import Verif.Model.QBins
import Verif.Props.Transformer
/-
C135: discretization with learned bins.
-/
namespace Prolothar.Data
open Prolothar.Spec.Data Prolothar.Spec.QBins

variable {τ : Type}

/-! ### consecutive intervals -/

theorem consecutive_tail {b : Ival} {bs : List Ival} (h : Consecutive (b :: bs)) : Consecutive bs :=
  ⟨fun c hc => h.1 c (List.mem_cons_of_mem _ hc), h.2.tail⟩

theorem consecutive_above {b : Ival} : ∀ {bs : List Ival}, Consecutive (b :: bs) → ∀ c ∈ bs, b.hi ≤ c.lo
  | [], _, c, hc => by cases hc
  | d :: bs, h, c, hc => by
    have h1 : b.hi = d.lo := (List.isChain_cons_cons.1 h.2).1
    rcases List.mem_cons.1 hc with rfl | hc
    · exact h1.le
    · have h2 := consecutive_above (consecutive_tail h) c hc
      have h3 := h.1 d (by simp)
      linarith

/-- consecutive intervals do not overlap -/
theorem consecutive_unique : ∀ {bs : List Ival}, Consecutive bs → ∀ b ∈ bs, ∀ c ∈ bs, ∀ q, b.Has q → c.Has q → b = c
  | [], _, b, hb, _, _, _, _, _ => by cases hb
  | d :: bs, h, b, hb, c, hc, q, h1, h2 => by
    have ha := consecutive_above h
    unfold Ival.Has at h1 h2
    rcases List.mem_cons.1 hb with hb' | hb' <;> rcases List.mem_cons.1 hc with hc' | hc'
    · rw [hb', hc']
    · have := ha c hc'; rw [hb'] at h1; linarith [h1.2, h2.1]
    · have := ha b hb'; rw [hc'] at h2; linarith [h2.2, h1.1]
    · exact consecutive_unique (consecutive_tail h) b hb' c hc' q h1 h2

/-- consecutive intervals have no gaps -/
theorem consecutive_cover : ∀ {bs : List Ival}, Consecutive bs → ∀ (f l : Ival), bs.head? = some f → bs.getLast? = some l → ∀ q, f.lo < q → q ≤ l.hi →
    ∃ b ∈ bs, b.Has q
  | [], _, f, l, hf, _, _, _, _ => by cases hf
  | [b], _, f, l, hf, hl, q, h1, h2 => by
    cases hf
    simp only [List.getLast?_singleton, Option.some.injEq] at hl
    subst hl
    exact ⟨_, by simp, h1, h2⟩
  | b :: c :: bs, h, f, l, hf, hl, q, h1, h2 => by
    cases hf
    by_cases hq : q ≤ b.hi
    · exact ⟨b, by simp, h1, hq⟩
    · have hbc : b.hi = c.lo := (List.isChain_cons_cons.1 h.2).1
      obtain ⟨x, hx, hxq⟩ := consecutive_cover (consecutive_tail h) c l rfl (by rw [← hl, List.getLast?_cons_cons]) q (by linarith) h2
      exact ⟨x, List.mem_cons_of_mem _ hx, hxq⟩

/-! ### labels -/

theorem indexTrue_spec (bins : List Ival) (q : Rat) :
    (∀ i, indexTrue (containsList bins q) = some i → ∃ b, bins[i]? = some b ∧ b.Has q) ∧
    (indexTrue (containsList bins q) = none → ∀ b ∈ bins, ¬ b.Has q) := by
  induction bins with
  | nil => exact ⟨fun i h => (by cases h), fun _ b hb => absurd hb List.not_mem_nil⟩
  | cons c bins ih =>
    unfold containsList at ih ⊢
    rw [List.map_cons]
    cases hd : (decide (c.lo < q) && decide (q ≤ c.hi)) with
    | true =>
      simp only [Bool.and_eq_true, decide_eq_true_eq] at hd
      refine ⟨fun i h => ?_, fun h => by simp [indexTrue] at h⟩
      simp only [indexTrue, Option.some.injEq] at h
      subst h
      exact ⟨c, rfl, hd⟩
    | false =>
      simp only [Bool.and_eq_false_iff, decide_eq_false_iff_not] at hd
      refine ⟨fun i h => ?_, fun h => ?_⟩
      · simp only [indexTrue, Option.map_eq_some_iff] at h
        obtain ⟨j, hj, rfl⟩ := h
        obtain ⟨b, hb, hq⟩ := ih.1 j hj
        exact ⟨b, by simpa using hb, hq⟩
      · simp only [indexTrue, Option.map_eq_none_iff] at h
        intro b hb
        rcases List.mem_cons.1 hb with rfl | hb
        · unfold Ival.Has; tauto
        · exact ih.2 h b hb

/-- the text that the transformation writes for `q` -/
def IsLabel (fmt : Ival → String) (bins : List Ival) (q : Rat) (s : String) : Prop :=
  (∀ b ∈ bins, b.Has q → s = fmt b) ∧ ((∀ b ∈ bins, ¬ b.Has q) → ∃ b, bins.getLast? = some b ∧ s = fmt b)

theorem binLabel_ok (fmt : Ival → String) {bins : List Ival} (hne : bins ≠ []) (hc : Consecutive bins) (q : Rat) :
    ∃ s, binLabel fmt bins (.num q) = .ok (.str s) ∧ IsLabel fmt bins q s := by
  have hs := indexTrue_spec bins q
  unfold binLabel
  simp only [Val.toNum, bind, Except.bind]
  cases hi : indexTrue (containsList bins q) with
  | some i =>
    obtain ⟨b, hb, hq⟩ := hs.1 i hi
    have hm : b ∈ bins := List.mem_of_getElem? hb
    refine ⟨fmt b, ?_, fun c hcm hcq => ?_, fun h => absurd hq (h b hm)⟩
    · have hg : pyGet (bins.map fmt) (i : Int) = .ok (fmt b) := pyGet_ofNat (by rw [List.getElem?_map, hb]; rfl)
      simp only [hg]
      rfl
    · rw [consecutive_unique hc c hcm b hm q hcq hq]
  | none =>
    have hn := hs.2 hi
    obtain ⟨l, hl⟩ : ∃ l, bins.getLast? = some l := ⟨_, List.getLast?_eq_some_getLast hne⟩
    refine ⟨fmt l, ?_, fun c hcm hcq => absurd hcq (hn c hcm), fun _ => ⟨l, hl, rfl⟩⟩
    simp only [List.getLast?_map, hl, Option.map_some]
    rfl

/-! ### the transformation -/

theorem qbinsAttr_ok {fmt : Ival → String} {dict : Dict String (List Ival)} {h : Heap τ} {d : Dataset} (hc : Consistent h d)
    {n : String} {at' : Attr} (hat : d.attrs.get? n = some at') {bins : List Ival} (hb : dict.get? n = some bins) {g : Val → Val}
    (hg : (d.instances.map (val h n)).mapM (binLabel fmt bins) = .ok (d.instances.map fun a => g (val h n a))) :
    ∃ h2 d2, qbinsAttr fmt dict (h, d) (n, at') = .ok (h2, d2) ∧ RecodeOne n g true h d h2 d2 := by
  have hn : n ∈ d.attrs.keys := Dict.mem_keys_iff.2 ⟨at', hat⟩
  obtain ⟨h1, d1, h2, d2, r1, r2, r3⟩ := recode_spec true hc hn g
  refine ⟨h2, d2, ?_, r3⟩
  unfold qbinsAttr
  simp only [bind, Except.bind, Dict.getItem]
  rw [hb]
  simp only
  rw [column_ok hc hn]
  simp only
  rw [hg]
  simp only
  rw [r1]
  exact r2

theorem labels_ok (fmt : Ival → String) {h : Heap τ} {d : Dataset} (hc : Consistent h d) {n : String} (hn : n ∈ d.attrs.keys)
    (hnum : ∀ v, Occurs h d n v → ∃ q, v = .num q) {bins : List Ival} {label : Rat → String}
    (hl : ∀ q, binLabel fmt bins (.num q) = .ok (.str (label q))) :
    (d.instances.map (val h n)).mapM (binLabel fmt bins) = .ok (d.instances.map fun a => Val.str (label (numOf (val h n a)))) := by
  rw [mapM_ok_map (g := fun v => Val.str (label (numOf v)))]
  · rw [List.map_map]; rfl
  · intro v hv
    obtain ⟨a, ha, rfl⟩ := List.mem_map.1 hv
    obtain ⟨q, hq⟩ := hnum _ ⟨a, ha, get?_val hc hn ha⟩
    rw [hq, hl q]; rfl

/-- C135: with consecutive bins for every numerical attribute, the numerical attributes become categorical and every value
becomes the text of the bin that contains it; a value outside of all bins, be it too large or too small, becomes the text of
the last bin. Nothing else changes. -/
theorem C135_transform (fmt : Ival → String) (dict : Dict String (List Ival)) {h : Heap τ} {d : Dataset} (hc : Consistent h d)
    (hnum : ∀ n ∈ d.numNames, ∀ v, Occurs h d n v → ∃ q, v = .num q)
    (hb : ∀ n ∈ d.numNames, ∃ bins, dict.get? n = some bins ∧ bins ≠ [] ∧ Consecutive bins) :
    ∃ h' d', ∃ label : String → Rat → String, qbinsTransform fmt dict h d = .ok (h', d') ∧
      Recoded h d h' d' (fun n v => if n ∈ d.numNames then .str (label n (numOf v)) else v) (fun n => n ∈ d.numNames) ∧
      ∀ n ∈ d.numNames, ∀ bins, dict.get? n = some bins → ∀ q,
        (∀ b ∈ bins, b.lo < q → q ≤ b.hi → label n q = fmt b) ∧
        ((∀ b ∈ bins, ¬ (b.lo < q ∧ q ≤ b.hi)) → ∃ b, bins.getLast? = some b ∧ label n q = fmt b) := by
  classical
  have hex : ∀ n q, ∃ s, ∀ bins, n ∈ d.numNames → dict.get? n = some bins → binLabel fmt bins (.num q) = .ok (.str s) ∧ IsLabel fmt bins q s := by
    intro n q
    by_cases hn : n ∈ d.numNames
    · obtain ⟨bins, k1, k2, k3⟩ := hb n hn
      obtain ⟨s, hs⟩ := binLabel_ok fmt k2 k3 q
      refine ⟨s, fun bins' _ h' => ?_⟩
      rw [k1] at h'
      cases h'
      exact hs
    · exact ⟨"", fun _ h => absurd h hn⟩
  choose label hlabel using hex
  obtain ⟨h', d', e1, e2⟩ := fold_recoded hc (fun a => !a.categorical) (fun _ => true) (fun n v => .str (label n (numOf v)))
    (qbinsAttr fmt dict) (by
      intro n at' hat hcat h1 d1 g1 g2 g3 g4
      have hcc : at'.categorical = false := by simpa using hcat
      have hnn : n ∈ d.numNames := (mem_numNames hc hat).2 hcc
      obtain ⟨bins, k1, _, _⟩ := hb n hnn
      refine qbinsAttr_ok (g := fun v => .str (label n (numOf v))) g1 g3 k1 ?_
      refine labels_ok fmt g1 (Dict.mem_keys_iff.2 ⟨_, g3⟩) ?_ (fun q => (hlabel n q bins hnn k1).1)
      rintro v ⟨a, ha, hv⟩
      rw [g2] at ha
      exact hnum n hnn v ⟨a, ha, by rw [← g4 a ha]; exact hv⟩)
    (fun n v => if n ∈ d.numNames then .str (label n (numOf v)) else v) (by
      intro n at' hat v
      simp only [mem_numNames hc hat]
      cases at'.categorical <;> simp)
    (fun n => n ∈ d.numNames) (by
      intro n at' hat
      rw [mem_numNames hc hat]
      cases at'.categorical <;> simp)
  refine ⟨h', d', label, e1, e2, fun n hn bins hbins q => ?_⟩
  obtain ⟨_, l1, l2⟩ := hlabel n q bins hn hbins
  exact ⟨fun b hb h1 h2 => l1 b hb ⟨h1, h2⟩, fun hno => l2 hno⟩

/-- C135: a numerical attribute without learned bins raises KeyError. -/
theorem C135_unknown_attribute (fmt : Ival → String) (dict : Dict String (List Ival)) {h : Heap τ} {d : Dataset} (hc : Consistent h d)
    (hnum : ∀ n ∈ d.numNames, ∀ v, Occurs h d n v → ∃ q, v = .num q)
    (hb : ∀ n bins, dict.get? n = some bins → bins ≠ [] ∧ Consecutive bins)
    {n : String} (hn : n ∈ d.numNames) (hno : dict.get? n = none) : qbinsTransform fmt dict h d = .error .key := by
  obtain ⟨at0, hat0, hcat0⟩ := (hc.numerical.2 n).1 hn
  refine fold_error hc (fun a => !a.categorical) (fun n => dict.get? n ≠ none) .key (qbinsAttr fmt dict) ?_ hat0 (by rw [hcat0]; rfl) (by simpa using hno)
  intro n at' hat hcat h1 d1 g1 g2 g3 g4
  have hcc : at'.categorical = false := by simpa using hcat
  have hnn : n ∈ d.numNames := (mem_numNames hc hat).2 hcc
  constructor
  · intro hg
    obtain ⟨bins, hbins⟩ := Option.ne_none_iff_exists'.1 hg
    have k := hb n bins hbins
    have hex : ∀ q, ∃ s, binLabel fmt bins (.num q) = .ok (.str s) := fun q => by
      obtain ⟨s, hs, _⟩ := binLabel_ok fmt k.1 k.2 q
      exact ⟨s, hs⟩
    choose label hlabel using hex
    obtain ⟨h2, d2, e1, e2⟩ := qbinsAttr_ok (fmt := fmt) (g := fun v => .str (label (numOf v))) g1 g3 hbins
      (labels_ok fmt g1 (Dict.mem_keys_iff.2 ⟨_, g3⟩) (by
        rintro v ⟨a, ha, hv⟩
        rw [g2] at ha
        exact hnum n hnn v ⟨a, ha, by rw [← g4 a ha]; exact hv⟩) hlabel)
    exact ⟨h2, d2, _, _, e1, e2⟩
  · intro hg
    simp only [ne_eq, not_not] at hg
    unfold qbinsAttr
    simp only [bind, Except.bind, Dict.getItem]
    rw [hg]

/-! ### training -/

theorem train_fold {qcut : List Rat → Int → Py (List Ival)} {bins : Int} {h : Heap τ} {d : Dataset} {res : String → List Ival} :
    ∀ (l : List (String × Attr)), (∀ e ∈ l, ∃ nums, (d.column h e.1 >>= fun c => c.mapM Val.toNum) = .ok nums ∧ qcut nums bins = .ok (res e.1)) →
      ∀ dict, ∃ dict', l.foldlM (trainAttr qcut bins h d) dict = .ok dict' ∧
        ∀ n, dict'.get? n = if n ∈ l.map (·.1) then some (res n) else dict.get? n
  | [], _, dict => ⟨dict, rfl, fun n => by simp⟩
  | e :: l, hl, dict => by
    obtain ⟨nums, h1, h2⟩ := hl e (by simp)
    have hs : trainAttr qcut bins h d dict e = .ok (dict.put e.1 (res e.1)) := by
      unfold trainAttr
      cases hcol : d.column h e.1 with
      | error x => rw [hcol] at h1; cases h1
      | ok col =>
        rw [hcol] at h1
        simp only [bind, Except.bind] at h1 ⊢
        rw [h1]
        simp only
        rw [h2]
        rfl
    obtain ⟨dict', k1, k2⟩ := train_fold l (fun x hx => hl x (List.mem_cons_of_mem _ hx)) (dict.put e.1 (res e.1))
    refine ⟨dict', ?_, fun n => ?_⟩
    · rw [List.foldlM_cons, hs]; exact k1
    · rw [k2 n]
      by_cases hne : n = e.1
      · subst hne
        simp [Dict.get?_put_self]
      · rw [Dict.get?_put_of_ne _ _ (Ne.symm hne)]
        simp only [List.map_cons, List.mem_cons, hne, false_or]

/-- C135: training learns, for every numerical attribute and for no other one, the bins that pandas computes from the values of
that attribute, and leaves the dataset as it is. -/
theorem C135_train (qcut : List Rat → Int → Py (List Ival)) (bins : Int) {h : Heap τ} {d : Dataset} (hc : Consistent h d)
    (hnum : ∀ n ∈ d.numNames, ∀ v, Occurs h d n v → ∃ q, v = .num q) {res : String → List Ival}
    (hq : ∀ n ∈ d.numNames, qcut (d.instances.map fun a => numOf (((h a).features.get? n).getD (.num 0))) bins = .ok (res n)) :
    ∃ dict, trainQbins qcut bins h d = .ok dict ∧ ∀ n, dict.get? n = if n ∈ d.numNames then some (res n) else none := by
  classical
  have hmem : ∀ n, n ∈ (d.attrs.filter fun e => !e.2.categorical).map (·.1) ↔ n ∈ d.numNames := by
    intro n
    rw [hc.numerical.2 n]
    simp only [List.mem_map, List.mem_filter, Bool.not_eq_true']
    constructor
    · rintro ⟨e, ⟨he, hcat⟩, rfl⟩
      exact ⟨e.2, Dict.get?_of_mem hc.names he, hcat⟩
    · rintro ⟨at', hat, hcat⟩
      exact ⟨(n, at'), ⟨Dict.mem_of_get? hat, hcat⟩, rfl⟩
  obtain ⟨dict, k1, k2⟩ := train_fold (qcut := qcut) (bins := bins) (h := h) (d := d) (res := res) (d.attrs.filter fun e => !e.2.categorical) (by
    intro e he
    have hn : e.1 ∈ d.numNames := (hmem e.1).1 (List.mem_map.2 ⟨e, he, rfl⟩)
    have hk : e.1 ∈ d.attrs.keys := by
      obtain ⟨at', hat, _⟩ := (hc.numerical.2 e.1).1 hn
      exact Dict.mem_keys_iff.2 ⟨at', hat⟩
    refine ⟨_, ?_, hq e.1 hn⟩
    rw [column_ok hc hk]
    exact nums_column hc hk (hnum e.1 hn)) []
  refine ⟨dict, k1, fun n => ?_⟩
  rw [k2 n]
  by_cases hn : n ∈ d.numNames
  · rw [if_pos hn, if_pos ((hmem n).2 hn)]
  · rw [if_neg hn, if_neg (fun h => hn ((hmem n).1 h))]; rfl

/-- C135: training and transforming the same dataset: if pandas returns consecutive bins that
start below the smallest value, then every value becomes the text of the bin that contains it, or of the last bin if the value is
above all bins. -/
theorem C135_train_transform (qcut : List Rat → Int → Py (List Ival)) (bins : Int) (fmt : Ival → String) {h : Heap τ} {d : Dataset} (hc : Consistent h d)
    (hnum : ∀ n ∈ d.numNames, ∀ v, Occurs h d n v → ∃ q, v = .num q) {res : String → List Ival}
    (hq : ∀ n ∈ d.numNames, qcut (d.instances.map fun a => numOf (((h a).features.get? n).getD (.num 0))) bins = .ok (res n))
    (hcons : ∀ n ∈ d.numNames, Consecutive (res n) ∧ ∃ f, (res n).head? = some f ∧ ∀ q, Occurs h d n (.num q) → f.lo < q) :
    ∃ dict h' d', ∃ label : String → Rat → String, trainQbins qcut bins h d = .ok dict ∧ qbinsTransform fmt dict h d = .ok (h', d') ∧
      Recoded h d h' d' (fun n v => if n ∈ d.numNames then .str (label n (numOf v)) else v) (fun n => n ∈ d.numNames) ∧
      ∀ n ∈ d.numNames, ∀ q, Occurs h d n (.num q) → ∃ b ∈ res n, label n q = fmt b ∧ b.lo < q ∧
        (q ≤ b.hi ∨ (res n).getLast? = some b) := by
  obtain ⟨dict, k1, k2⟩ := C135_train qcut bins hc hnum hq
  obtain ⟨h', d', label, t1, t2, t3⟩ := C135_transform fmt dict hc hnum (by
    intro n hn
    obtain ⟨c1, f, c2, _⟩ := hcons n hn
    exact ⟨res n, by rw [k2 n, if_pos hn], fun he => (by rw [he] at c2; cases c2), c1⟩)
  refine ⟨dict, h', d', label, k1, t1, t2, fun n hn q ho => ?_⟩
  obtain ⟨c1, f, c2, c3⟩ := hcons n hn
  have hne : res n ≠ [] := fun he => by rw [he] at c2; cases c2
  obtain ⟨l, hl⟩ : ∃ l, (res n).getLast? = some l := ⟨_, List.getLast?_eq_some_getLast hne⟩
  obtain ⟨l1, l2⟩ := t3 n hn (res n) (by rw [k2 n, if_pos hn]) q
  by_cases hle : q ≤ l.hi
  · obtain ⟨b, hb, hbq⟩ := consecutive_cover c1 f l c2 hl q (c3 q ho) hle
    exact ⟨b, hb, l1 b hb hbq.1 hbq.2, hbq.1, .inl hbq.2⟩
  · have hm : l ∈ res n := List.mem_of_getLast? hl
    have hlt := c1.1 l hm
    refine ⟨l, hm, ?_, by linarith, .inr hl⟩
    have hno : ∀ b ∈ res n, ¬ (b.lo < q ∧ q ≤ b.hi) := by
      rintro b hb ⟨_, h2⟩
      have : b.hi ≤ l.hi := by
        obtain ⟨l0, hl0⟩ := List.getLast?_eq_some_iff.1 hl
        have hch := c1
        clear l1 l2 t3 k2 hq
        generalize res n = bs at hch hb hl0
        subst hl0
        clear hm hl hne c1 c2 c3 h2 ho hn
        induction l0 with
        | nil => simp only [List.nil_append, List.mem_singleton] at hb; rw [hb]
        | cons x l0 ih =>
          rcases List.mem_cons.1 hb with rfl | hb
          · have := consecutive_above hch l (by simp)
            linarith
          · exact ih (consecutive_tail hch) hb
      linarith
    obtain ⟨b, hb, hlab⟩ := l2 hno
    rw [hl] at hb
    cases hb
    exact hlab

/-- C135: larger values get the label of the same or a later bin, as long as they lie in the range of the bins. -/
theorem C135_monotone {bins : List Ival} (hc : Consecutive bins) {i j : Nat} {b b' : Ival} (hi : bins[i]? = some b) (hj : bins[j]? = some b')
    {q q' : Rat} (h : b.lo < q ∧ q ≤ b.hi) (h' : b'.lo < q' ∧ q' ≤ b'.hi) (hqq : q ≤ q') : i ≤ j := by
  induction bins generalizing i j with
  | nil => simp at hi
  | cons c bins ih =>
    cases i with
    | zero => exact Nat.zero_le _
    | succ i =>
      cases j with
      | zero =>
        exfalso
        simp only [List.getElem?_cons_zero, Option.some.injEq] at hj
        subst hj
        have := consecutive_above hc b (List.mem_of_getElem? (by simpa using hi))
        linarith [h.1, h'.2]
      | succ j => exact Nat.succ_le_succ (ih (consecutive_tail hc) (by simpa using hi) (by simpa using hj))

/-- C135: the comment in the code only expects values above the largest bin there: but a value below the smallest bin is put
into the last bin, too. -/
theorem C135_too_small (fmt : Ival → String) {bins : List Ival} {f l : Ival} (hc : Consecutive bins) (hf : bins.head? = some f)
    (hl : bins.getLast? = some l) {q : Rat} (hq : q ≤ f.lo) : binLabel fmt bins (.num q) = .ok (.str (fmt l)) := by
  have hne : bins ≠ [] := fun he => by rw [he] at hf; cases hf
  obtain ⟨s, hs, _, h2⟩ := binLabel_ok fmt hne hc q
  obtain ⟨b, hb, rfl⟩ := h2 (by
    intro b hb hbq
    cases bins with
    | nil => cases hb
    | cons c bins =>
      cases hf
      rcases List.mem_cons.1 hb with rfl | hb
      · linarith [hbq.1]
      · have h1 := consecutive_above hc b hb
        have h2 := hc.1 f (by simp)
        linarith [hbq.1])
  rw [hl] at hb
  cases hb
  exact hs

/-- three bins -/
example : Consecutive [⟨0, 1⟩, ⟨1, 3⟩, ⟨3, 7⟩] := by
  refine ⟨?_, ?_⟩
  · decide
  · simp
example : (([.num 1, .num 2, .num 3, .num 4, .num 9, .num (-1)] : List Val).mapM
    (binLabel (fun b => if b.lo = 0 then "a" else if b.lo = 1 then "b" else "c") [⟨0, 1⟩, ⟨1, 3⟩, ⟨3, 7⟩])).toOption =
    some [.str "a", .str "b", .str "b", .str "c", .str "c", .str "c"] := by decide +kernel

/-- the hypotheses of `C135_train_transform` hold for the example dataset and a `qcut` that returns two bins -/
example := C135_train_transform (fun _ _ => .ok [⟨0, 1⟩, ⟨1, 100⟩]) 2 (fun _ => "bin") (C58_consistent exData_reachable)
  (res := fun _ => [⟨0, 1⟩, ⟨1, 100⟩])
  (by
    rintro n hn v ⟨a, ha, hv⟩
    have hn : n = "size" := by simpa [exData] using hn
    subst hn
    have ha : a = 0 ∨ a = 1 ∨ a = 2 := by simpa [exData] using ha
    rcases ha with rfl | rfl | rfl <;> (cases hv; exact ⟨_, rfl⟩))
  (fun _ _ => rfl)
  (by
    intro n hn
    have hn : n = "size" := by simpa [exData] using hn
    subst hn
    refine ⟨⟨by decide, by simp⟩, ⟨0, 1⟩, rfl, ?_⟩
    rintro q ⟨a, ha, hv⟩
    have ha : a = 0 ∨ a = 1 ∨ a = 2 := by simpa [exData] using ha
    rcases ha with rfl | rfl | rfl <;> (cases hv; decide))

end Prolothar.Data
