import Verif.Model.SavePlots
import Verif.Props.ResultCollector
/-
C141: the files written by the result collector.
-/
namespace Prolothar.ResultCollector
open Prolothar.Spec.ResultCollector
variable {C : Type}

/-! ### the sequence of file operations -/

inductive Op where
  | text (name : String) (lines : List String)
  | pdf (name : String) (p : Plot)

def applyOp (dir : Dir) : Op → Dir
  | .text n ls => appendText dir n ls
  | .pdf n p => dir.put n (.pdf p)

def textOps (m : Mode C) (color : String → String) (xName type : String) (miners : Dict String (Dict Rat C)) : List Op :=
  (plotted miners (dataOf m color miners)).map fun p => .text (type ++ ".txt") (block m xName p.1 p.2)

def oneOps (m : Mode C) (color : String → String) (xName : String) (labels : Dict Nat String) (type : String) (miners : Dict String (Dict Rat C))
    (legend : Bool) (o : Bool × Bool) : List Op :=
  if (o.1 || o.2) && !anySeveral m miners then []
  else (if o.1 || o.2 || legend then [] else textOps m color xName type miners) ++
    [.pdf (plotName type legend o.1 o.2) (plotOf m color labels miners legend (o.1 || o.2))]

def modeOptions (m : Mode C) : List (Bool × Bool) := if m.isLine then [(true, false), (false, true), (false, false)] else [(false, false)]

def typeOps (m : Mode C) (color : String → String) (xName : String) (labels : Dict Nat String) (type : String) (miners : Dict String (Dict Rat C)) : List Op :=
  [true, false].flatMap fun legend => (modeOptions m).flatMap (oneOps m color xName labels type miners legend)

theorem saveOne_ops (m : Mode C) (color : String → String) (xName : String) (labels : Dict Nat String) (type : String)
    (miners : Dict String (Dict Rat C)) (legend : Bool) (dir : Dir) (o : Bool × Bool) :
    saveOne m color xName labels type miners legend dir o = (oneOps m color xName labels type miners legend o).foldl applyOp dir := by
  unfold saveOne oneOps
  split
  · rfl
  · rw [List.foldl_append]
    split
    · rfl
    · unfold textOps
      rw [List.foldl_map]
      rfl

theorem foldl_flatMap {α β γ : Type} (l : List α) (ops : α → List β) (f : γ → α → γ) (g : γ → β → γ) (h : ∀ c a, f c a = (ops a).foldl g c) (c : γ) :
    l.foldl f c = (l.flatMap ops).foldl g c := by
  induction l generalizing c with
  | nil => rfl
  | cons a l ih => rw [List.foldl_cons, ih, List.flatMap_cons, List.foldl_append, h]

theorem savePlots_ops (m : Mode C) (color : String → String) (xName : String) (s : State C) (dir : Dir) :
    savePlots m color xName s dir = (s.results.flatMap fun e => typeOps m color xName s.labels e.1 e.2).foldl applyOp dir := by
  unfold savePlots
  refine foldl_flatMap _ _ _ _ (fun dir e => ?_) _
  unfold typeOps
  refine foldl_flatMap _ _ _ _ (fun dir legend => ?_) _
  unfold saveType
  exact foldl_flatMap _ _ (saveOne m color xName s.labels e.1 e.2 legend) _ (fun dir o => saveOne_ops m color xName s.labels e.1 e.2 legend dir o) _

/-- the lines of a text file, none if there is no such file -/
def linesOf (dir : Dir) (name : String) : List String :=
  match dir.get? name with
  | some (.text l) => l
  | _ => []

def opLines (name : String) : Op → List String
  | .text n ls => if n = name then ls else []
  | .pdf _ _ => []

def opName : Op → String
  | .text n _ => n
  | .pdf n _ => n

theorem apply_other (dir : Dir) (op : Op) (name : String) (h : opName op ≠ name) : (applyOp dir op).get? name = dir.get? name := by
  cases op with
  | text n ls =>
    show (appendText dir n ls).get? name = _
    unfold appendText
    split <;> exact Dict.get?_put_of_ne _ _ h
  | pdf n p => exact Dict.get?_put_of_ne _ _ h

theorem apply_others (ops : List Op) (dir : Dir) (name : String) (h : ∀ op ∈ ops, opName op ≠ name) : (ops.foldl applyOp dir).get? name = dir.get? name := by
  induction ops generalizing dir with
  | nil => rfl
  | cons op ops ih =>
    rw [List.foldl_cons, ih _ fun o ho => h o (List.mem_cons_of_mem _ ho)]
    exact apply_other _ _ _ (h op List.mem_cons_self)

theorem apply_lines (ops : List Op) (dir : Dir) (name : String) (h : ∀ n p, Op.pdf n p ∈ ops → n ≠ name) :
    linesOf (ops.foldl applyOp dir) name = linesOf dir name ++ ops.flatMap (opLines name) := by
  induction ops generalizing dir with
  | nil => simp
  | cons op ops ih =>
    rw [List.foldl_cons, ih _ fun n p ho => h n p (List.mem_cons_of_mem _ ho), List.flatMap_cons, ← List.append_assoc]
    congr 1
    cases op with
    | text n ls =>
      by_cases hn : n = name
      · subst hn
        show linesOf (appendText dir n ls) n = linesOf dir n ++ opLines n (.text n ls)
        have hol : opLines n (.text n ls) = ls := if_pos rfl
        rw [hol]
        unfold appendText linesOf
        cases hg : dir.get? n with
        | none => simp only [Dict.get?_put_self]; rfl
        | some f =>
          cases f with
          | text l => simp only [Dict.get?_put_self]
          | pdf p => simp only [Dict.get?_put_self]; rfl
      · unfold linesOf
        rw [apply_other _ _ _ (by exact hn)]
        simp [opLines, hn]
    | pdf n p =>
      have hn := h n p List.mem_cons_self
      unfold linesOf
      rw [apply_other _ _ _ (by exact hn)]
      simp [opLines]

/-! ### names -/

theorem append_right_inj' {a b c : String} (h : a ++ c = b ++ c) : a = b := by
  have := congrArg String.toList h
  rw [String.toList_append, String.toList_append] at this
  exact String.ext (List.append_cancel_right this)

theorem pdf_ne_txt (a b : String) : a ++ ".pdf" ≠ b ++ ".txt" := by
  intro h
  have := congrArg (fun s => s.toList.getLast?) h
  simp only [String.toList_append] at this
  have h1 : (".pdf" : String).toList = ['.', 'p', 'd', 'f'] := rfl
  have h2 : (".txt" : String).toList = ['.', 't', 'x', 't'] := rfl
  rw [h1, h2] at this
  simp at this

theorem mem_typeOps_pdf {m : Mode C} {color : String → String} {xName : String} {labels : Dict Nat String} {type : String}
    {miners : Dict String (Dict Rat C)} {n : String} {p : Plot} : Op.pdf n p ∈ typeOps m color xName labels type miners ↔
      ∃ legend std err, (std, err) ∈ modeOptions m ∧ ¬ ((std || err) && !anySeveral m miners) = true ∧ n = plotName type legend std err ∧
        p = plotOf m color labels miners legend (std || err) := by
  unfold typeOps
  simp only [List.mem_flatMap]
  constructor
  · rintro ⟨legend, _, ⟨std, err⟩, ho, hop⟩
    unfold oneOps at hop
    split at hop
    · cases hop
    · rename_i hc
      rcases List.mem_append.mp hop with hop | hop
      · split at hop
        · cases hop
        · unfold textOps at hop
          obtain ⟨_, _, h⟩ := List.mem_map.mp hop
          cases h
      · cases List.mem_singleton.mp hop
        exact ⟨legend, std, err, ho, hc, rfl, rfl⟩
  · rintro ⟨legend, std, err, ho, hc, rfl, rfl⟩
    refine ⟨legend, by cases legend <;> simp, (std, err), ho, ?_⟩
    unfold oneOps
    rw [if_neg hc]
    exact List.mem_append_right _ (List.mem_singleton.mpr rfl)

theorem plotName_pdf (type : String) (legend std err : Bool) : ∃ a, plotName type legend std err = a ++ ".pdf" := ⟨_, rfl⟩

theorem typeOps_lines (m : Mode C) (color : String → String) (xName : String) (labels : Dict Nat String) (type : String)
    (miners : Dict String (Dict Rat C)) (name : String) : (typeOps m color xName labels type miners).flatMap (opLines name) =
      if type ++ ".txt" = name then (plotted miners (dataOf m color miners)).flatMap fun p => block m xName p.1 p.2 else [] := by
  have ht : (textOps m color xName type miners).flatMap (opLines name) =
      if type ++ ".txt" = name then (plotted miners (dataOf m color miners)).flatMap fun p => block m xName p.1 p.2 else [] := by
    unfold textOps
    rw [List.flatMap_map]
    by_cases hn : type ++ ".txt" = name
    · simp [opLines, hn]
    · simp [opLines, hn]
  have h1 : ∀ legend o, (oneOps m color xName labels type miners legend o).flatMap (opLines name) =
      if o.1 || o.2 || legend then [] else if type ++ ".txt" = name then (plotted miners (dataOf m color miners)).flatMap fun p => block m xName p.1 p.2 else [] := by
    intro legend o
    unfold oneOps
    obtain ⟨a, b⟩ := o
    cases a <;> cases b <;> cases legend <;> cases anySeveral m miners <;> simp [opLines, ht]
  unfold typeOps modeOptions
  cases m.isLine <;> simp [List.flatMap_append, h1]

/-- C141: `save_plots` appends to the text file of a result type one block for every plotted miner, in the order of the columns, and does so
once; what was in the file before stays. -/
theorem C141_text (m : Mode C) (color : String → String) (xName : String) (s : State C) (hs : s.results.WF) (dir : Dir)
    (type : String) (miners : Dict String (Dict Rat C)) (ht : s.results.get? type = some miners) :
    linesOf (savePlots m color xName s dir) (type ++ ".txt") =
      linesOf dir (type ++ ".txt") ++ (plotted miners (dataOf m color miners)).flatMap fun p => block m xName p.1 p.2 := by
  rw [savePlots_ops, apply_lines]
  · congr 1
    have key : ∀ l : Dict String (Dict String (Dict Rat C)), l.WF →
        (l.flatMap fun e => typeOps m color xName s.labels e.1 e.2).flatMap (opLines (type ++ ".txt")) =
          match l.get? type with
          | some miners => (plotted miners (dataOf m color miners)).flatMap fun p => block m xName p.1 p.2
          | none => [] := by
      intro l hl
      induction l with
      | nil => rfl
      | cons e l ih =>
        obtain ⟨k, v⟩ := e
        have hl' : k ∉ Dict.keys l ∧ Dict.WF l := List.nodup_cons.mp hl
        rw [List.flatMap_cons, List.flatMap_append, ih hl'.2, typeOps_lines]
        by_cases hk : k = type
        · subst hk
          have : Dict.get? l k = none := Dict.get?_eq_none_iff.mpr hl'.1
          rw [this]
          simp [Dict.get?]
        · have : ¬ k ++ ".txt" = type ++ ".txt" := fun h => hk (append_right_inj' h)
          rw [if_neg this]
          simp [Dict.get?, hk]
    rw [key _ hs, ht]
  · intro n p hop
    obtain ⟨e, _, hop⟩ := List.mem_flatMap.mp hop
    obtain ⟨legend, std, err, _, _, rfl, _⟩ := mem_typeOps_pdf.mp hop
    exact pdf_ne_txt _ _

/-- the names of the pdf files of a result type: with and without legend; for line plots also with bars, if some miner has more than one value
at a position -/
def IsPlotOf (m : Mode C) (miners : Dict String (Dict Rat C)) (std err : Bool) : Prop :=
  (std = false ∧ err = false) ∨ (m.isLine = true ∧ (std ≠ err) ∧ ∃ e ∈ miners, ∃ x ∈ e.2, 1 < m.len x.2)

theorem options_iff (m : Mode C) (miners : Dict String (Dict Rat C)) (std err : Bool) :
    ((std, err) ∈ modeOptions m ∧ ¬ ((std || err) && !anySeveral m miners) = true) ↔ IsPlotOf m miners std err := by
  have : anySeveral m miners = true ↔ ∃ e ∈ miners, ∃ x ∈ e.2, 1 < m.len x.2 := by
    simp [anySeveral, List.any_eq_true]
  unfold IsPlotOf
  rw [← this]
  unfold modeOptions
  cases m.isLine <;> cases std <;> cases err <;> cases anySeveral m miners <;> simp

theorem apply_last (ops : List Op) (dir : Dir) (n : String) (p : Plot) (hm : Op.pdf n p ∈ ops) (h : ∀ op ∈ ops, opName op = n → op = .pdf n p) :
    (ops.foldl applyOp dir).get? n = some (.pdf p) := by
  induction ops using List.reverseRecOn with
  | nil => cases hm
  | append_singleton ops op ih =>
    rw [List.foldl_append]
    by_cases hop : opName op = n
    · have := h op (by simp) hop
      subst this
      exact Dict.get?_put_self _ _ _
    · show (applyOp (ops.foldl applyOp dir) op).get? n = _
      rw [apply_other _ _ _ hop]
      refine ih ?_ fun o ho => h o (List.mem_append_left _ ho)
      rcases List.mem_append.mp hm with h' | h'
      · exact h'
      · cases List.mem_singleton.mp h'
        exact absurd rfl hop

theorem suffix_inj {type : String} {l l' a a' b b' : Bool} (h : plotName type l a b = plotName type l' a' b') (hab : ¬ (a && b) = true)
    (hab' : ¬ (a' && b') = true) : l = l' ∧ a = a' ∧ b = b' := by
  have := congrArg String.toList h
  unfold plotName at this
  simp only [String.toList_append, List.append_assoc] at this
  have h2 := List.append_cancel_left this
  revert h2 hab hab'
  clear this h
  cases l <;> cases a <;> cases b <;> cases l' <;> cases a' <;> cases b' <;> decide

/-- C141: the plots of every result type are in their files, unless another result type has a plot with the same file name. -/
theorem C141_pdf (m : Mode C) (color : String → String) (xName : String) (s : State C) (hs : s.results.WF) (dir : Dir)
    (type : String) (miners : Dict String (Dict Rat C)) (ht : s.results.get? type = some miners) (legend std err : Bool) (ho : IsPlotOf m miners std err)
    (hname : ∀ type' ∈ s.results.keys, ∀ legend' std' err', plotName type' legend' std' err' = plotName type legend std err → type' = type) :
    (savePlots m color xName s dir).get? (plotName type legend std err) = some (.pdf (plotOf m color s.labels miners legend (std || err))) := by
  have hxor : ∀ {miners std err}, IsPlotOf m miners std err → ¬ (std && err) = true := by
    rintro ms a b (⟨rfl, rfl⟩ | ⟨_, h, _⟩)
    · simp
    · cases a <;> cases b <;> simp_all
  rw [savePlots_ops]
  apply apply_last
  · refine List.mem_flatMap.mpr ⟨(type, miners), Dict.mem_of_get? ht, ?_⟩
    obtain ⟨h1, h2⟩ := (options_iff m miners std err).mpr ho
    exact mem_typeOps_pdf.mpr ⟨legend, std, err, h1, h2, rfl, rfl⟩
  · intro op hop hn
    obtain ⟨⟨type', miners'⟩, he, hop⟩ := List.mem_flatMap.mp hop
    cases op with
    | text n ls =>
      exfalso
      have hn' : n = plotName type legend std err := hn
      have : ∃ b, n = b ++ ".txt" := by
        unfold typeOps at hop
        simp only [List.mem_flatMap] at hop
        obtain ⟨legend', _, o, _, hop⟩ := hop
        unfold oneOps at hop
        split at hop
        · cases hop
        · rcases List.mem_append.mp hop with hop | hop
          · split at hop
            · cases hop
            · unfold textOps at hop
              obtain ⟨_, _, h⟩ := List.mem_map.mp hop
              cases h
              exact ⟨_, rfl⟩
          · cases List.mem_singleton.mp hop
      obtain ⟨b, rfl⟩ := this
      obtain ⟨a, ha⟩ := plotName_pdf type legend std err
      rw [ha] at hn'
      exact pdf_ne_txt _ _ hn'.symm
    | pdf n p =>
      have hn' : n = plotName type legend std err := hn
      obtain ⟨legend', std', err', h1, h2, rfl, rfl⟩ := mem_typeOps_pdf.mp hop
      have ht' := hname type' (List.mem_map.mpr ⟨_, he, rfl⟩) legend' std' err' hn'
      subst ht'
      have hm : s.results.get? type' = some miners' := Dict.get?_of_mem hs he
      rw [ht] at hm
      cases hm
      obtain ⟨rfl, rfl, rfl⟩ := suffix_inj hn' (hxor ((options_iff m miners std' err').mp ⟨h1, h2⟩)) (hxor ho)
      rfl

/-- C141: no other file is touched. -/
theorem C141_other_files (m : Mode C) (color : String → String) (xName : String) (s : State C) (dir : Dir) (name : String)
    (h1 : ∀ type ∈ s.results.keys, name ≠ type ++ ".txt") (h2 : ∀ type ∈ s.results.keys, ∀ legend std err, name ≠ plotName type legend std err) :
    (savePlots m color xName s dir).get? name = dir.get? name := by
  rw [savePlots_ops]
  apply apply_others
  intro op hop
  obtain ⟨⟨type, miners⟩, he, hop⟩ := List.mem_flatMap.mp hop
  have hk : type ∈ s.results.keys := List.mem_map.mpr ⟨_, he, rfl⟩
  cases op with
  | pdf n p =>
    obtain ⟨legend, std, err, _, _, rfl, _⟩ := mem_typeOps_pdf.mp hop
    exact (h2 type hk legend std err).symm
  | text n ls =>
    unfold typeOps at hop
    simp only [List.mem_flatMap] at hop
    obtain ⟨legend', _, o, _, hop⟩ := hop
    unfold oneOps at hop
    split at hop
    · cases hop
    · rcases List.mem_append.mp hop with hop | hop
      · split at hop
        · cases hop
        · unfold textOps at hop
          obtain ⟨_, _, h⟩ := List.mem_map.mp hop
          cases h
          exact (h1 type hk).symm
      · cases List.mem_singleton.mp hop

/-! ### contents of a plot -/

/-- C141: the bars of different miners are shifted differently, and the shifts are symmetric around the position: none is 0 for an even
number of miners, the one in the middle is 0 for an odd number. -/
theorem C141_dodge (n i j : Nat) (hi : i < n) :
    (dodge i n = dodge j n → j < n → i = j) ∧ dodge (n - 1 - i) n = - dodge i n ∧ (dodge i n = 0 ↔ 2 * i + 1 = n) := by
  unfold dodge
  simp only
  refine ⟨?_, ?_, ?_⟩ <;> split <;> (try split) <;> omega

/-- C141: the ticks of the x-axis are the labelled positions in ascending order, each with its label; without labels the ticks are left to the plotting library -/
theorem C141_ticks (m : Mode C) (color : String → String) (labels : Dict Nat String) (hl : labels.WF) (miners : Dict String (Dict Rat C)) (legend bars : Bool) :
    ((plotOf m color labels miners legend bars).ticks = none ↔ labels = []) ∧
    ∀ ts, (plotOf m color labels miners legend bars).ticks = some ts →
      (ts.map Prod.fst).Pairwise (· < ·) ∧ ∀ x l, (x, l) ∈ ts ↔ labels.get? x = some l := by
  have ht : (plotOf m color labels miners legend bars).ticks = ticksOf labels := rfl
  rw [ht]
  unfold ticksOf
  refine ⟨by split <;> simp_all, fun ts hts => ?_⟩
  split at hts
  · cases hts
  · obtain rfl := Option.some.inj hts
    have hp : (labels.insertionSort fun a b => a.1 ≤ b.1).Perm labels := List.perm_insertionSort _ _
    have : Std.Total (fun p q : Nat × String => p.1 ≤ q.1) := ⟨fun p q => le_total p.1 q.1⟩
    have : IsTrans (Nat × String) (fun p q : Nat × String => p.1 ≤ q.1) := ⟨fun _ _ _ a b => le_trans a b⟩
    have hs : (labels.insertionSort fun a b => a.1 ≤ b.1).Pairwise fun a b => a.1 ≤ b.1 := List.pairwise_insertionSort _ _
    have hn : ((labels.insertionSort fun a b => a.1 ≤ b.1).map Prod.fst).Nodup := (hp.map Prod.fst).nodup_iff.2 hl
    refine ⟨?_, fun x l => ?_⟩
    · have h1 : ((labels.insertionSort fun a b => a.1 ≤ b.1).map Prod.fst).Pairwise (· ≤ ·) := List.pairwise_map.2 hs
      exact (h1.and hn).imp fun h => lt_of_le_of_ne h.1 h.2
    · rw [hp.mem_iff]
      exact ⟨fun h => Dict.get?_of_mem hl h, Dict.mem_of_get?⟩

example (m : Mode C) (color : String → String) : ∃ ts, (plotOf m color [(2, "b"), (1, "a")] [] true false).ticks = some ts :=
  Option.ne_none_iff_exists'.1 fun h => by simpa using (C141_ticks m color [(2, "b"), (1, "a")] (by unfold Dict.WF; decide) [] true false).1.1 h

theorem dataOf_columns (m : Mode C) (color : String → String) {miners : Dict String (Dict Rat C)} (hw : miners.WF) {c : String × List Rat}
    (hc : c ∈ (dataOf m color miners).1) : ∃ d, miners.get? c.1 = some d ∧ c.2 = (m.getXY d).2 := by
  have : c ∈ (miners.map fun e => (e.1, m.getXY e.2)).map fun e => (e.1, e.2.2) := by
    unfold dataOf plotData at hc
    simp only at hc
    split at hc
    · exact hc
    · exact (List.mem_filter.mp hc).1
  rw [List.map_map] at this
  obtain ⟨⟨k, d⟩, he, rfl⟩ := List.mem_map.mp this
  exact ⟨d, Dict.get?_of_mem hw he, rfl⟩

/-- C141: the y axis is fixed to the range from 0 to 1 exactly if all plotted values are in this range. -/
theorem C141_axis (m : Mode C) (color : String → String) (labels : Dict Nat String) (miners : Dict String (Dict Rat C)) (hw : miners.WF) (legend bars : Bool) :
    (plotOf m color labels miners legend bars).unit = true ↔
      ∀ c ∈ (plotOf m color labels miners legend bars).data.1, ∀ y ∈ c.2, 0 ≤ y ∧ y ≤ 1 := by
  unfold plotOf unitAxis plotted
  simp only [List.map_map, List.all_map, List.all_eq_true, Function.comp, decide_eq_true_eq]
  constructor
  · intro h c hc y hy
    obtain ⟨d, hd, hcd⟩ := dataOf_columns m color hw hc
    have := h c hc
    rw [hd] at this
    exact this y (by rw [hcd] at hy; exact hy)
  · intro h c hc y hy
    obtain ⟨d, hd, hcd⟩ := dataOf_columns m color hw hc
    rw [hd] at hy
    exact h c hc y (by rw [hcd]; exact hy)

/-- C141: bars are drawn exactly at the positions where a plotted miner has more than one value, and only in plots with bars. -/
theorem C141_bars (m : Mode C) (color : String → String) (labels : Dict Nat String) (miners : Dict String (Dict Rat C)) (hw : miners.WF)
    (legend bars : Bool) (i : Nat) (c : String × List Rat) (hc : (plotOf m color labels miners legend bars).data.1[i]? = some c) (x : Rat) :
    (∃ b ∈ (plotOf m color labels miners legend bars).bars, b.x = x ∧ b.dodge = dodge i miners.length) ↔
      bars = true ∧ ∃ d v, miners.get? c.1 = some d ∧ (x, v) ∈ d ∧ 1 < m.len v := by
  have hlen : (dataOf m color miners).1.length ≤ miners.length := by
    unfold dataOf plotData
    simp only
    split
    · simp
    · refine le_trans (List.length_filter_le _ _) (by simp)
  have hc' : (dataOf m color miners).1[i]? = some c := hc
  obtain ⟨d, hd, _⟩ := dataOf_columns m color hw (List.mem_of_getElem? hc')
  have hps : (plotted miners (dataOf m color miners))[i]? = some (c.1, d) := by
    unfold plotted
    rw [List.getElem?_map, hc']
    simp [hd]
  have hi' : i < miners.length := lt_of_lt_of_le (List.getElem?_eq_some_iff.mp hc').1 hlen
  have hmem : ∀ b, b ∈ (plotOf m color labels miners legend bars).bars ↔ ∃ (k : Nat) (n : String) (d : Dict Rat C),
      (plotted miners (dataOf m color miners))[k]? = some (n, d) ∧ b ∈ minerBars m bars (dataOf m color miners).2.2 miners.length (k, d) := by
    intro b
    show b ∈ (((plotted miners (dataOf m color miners)).zipIdx.map fun p => (p.2, p.1.2)).flatMap _) ↔ _
    rw [List.mem_flatMap]
    constructor
    · rintro ⟨_, h1, h2⟩
      obtain ⟨⟨⟨n, d⟩, k⟩, h3, rfl⟩ := List.mem_map.mp h1
      exact ⟨k, n, d, by simpa using (List.mk_mem_zipIdx_iff_getElem?.mp h3), h2⟩
    · rintro ⟨k, n, d, h1, h2⟩
      exact ⟨(k, d), List.mem_map.mpr ⟨((n, d), k), List.mk_mem_zipIdx_iff_getElem?.mpr h1, rfl⟩, h2⟩
  have hsort : ∀ (d : Dict Rat C) e, e ∈ sortedItems d ↔ e ∈ d := fun d e => (List.perm_insertionSort _ _).mem_iff
  constructor
  · rintro ⟨b, hb, rfl, hbd⟩
    obtain ⟨k, n, d', hk, hb⟩ := (hmem b).mp hb
    unfold minerBars at hb
    split at hb
    · rename_i hbars
      obtain ⟨⟨x, v⟩, hx, rfl⟩ := List.mem_map.mp hb
      obtain ⟨hx1, hx2⟩ := List.mem_filter.mp hx
      have hk' : k < miners.length := by
        have := (List.getElem?_eq_some_iff.mp hk).1
        unfold plotted at this
        rw [List.length_map] at this
        omega
      have : k = i := (C141_dodge miners.length k i hk').1 hbd hi'
      subst this
      rw [hps] at hk
      cases hk
      exact ⟨hbars, d, v, hd, (hsort _ _).mp hx1, by simpa using hx2⟩
    · cases hb
  · rintro ⟨hb, d', v, hd', hx, hlen⟩
    rw [hd] at hd'
    cases hd'
    refine ⟨⟨(dataOf m color miners).2.2.getD i "", dodge i miners.length, x⟩, (hmem _).mpr ⟨i, c.1, d, hps, ?_⟩, rfl, rfl⟩
    unfold minerBars
    rw [if_pos hb]
    exact List.mem_map.mpr ⟨(x, v), List.mem_filter.mpr ⟨(hsort _ _).mpr hx, by simpa using hlen⟩, rfl⟩

/-- C141: after every history of results the dictionaries have every result type and every miner once. -/
theorem C141_history (create : C) (push : C → Rat → C) (h : List Added) : (collect create push h).results.WF ∧
    ∀ type miners, (collect create push h).results.get? type = some miners → miners.WF := by
  induction h using List.reverseRecOn with
  | nil => exact ⟨Dict.WF.nil, fun _ _ h => by cases h⟩
  | append_singleton h a ih =>
    unfold collect at ih ⊢
    rw [List.foldl_append]
    generalize h.foldl (fun s a => addResult create push a.miner a.type a.x a.value s) new = s at ih ⊢
    refine ⟨ih.1.put _ _, fun type miners hg => ?_⟩
    change Dict.get? (s.results.put a.type _) type = some miners at hg
    rw [Dict.get?_put] at hg
    split at hg
    · cases hg
      refine Dict.WF.put ?_ _ _
      rw [ensure_get]
      cases he : s.results.get? a.type with
      | none => exact Dict.WF.nil
      | some d => exact ih.2 _ _ he
    · exact ih.2 _ _ hg

/-- C141: the miners in the text file (and in the plots) are those with the most plotted values; the others are left out. -/
theorem C141_plotted (m : Mode C) (color : String → String) {miners : Dict String (Dict Rat C)} (hw : miners.WF) :
    plotted miners (dataOf m color miners) =
      miners.filter fun e => decide (∀ f ∈ miners, (m.getXY f.2).2.length ≤ (m.getXY e.2).2.length) := by
  unfold plotted dataOf
  rw [C71_columns, List.filter_map, List.map_map, List.map_map]
  rw [show ((fun e : String × (List Rat × List Rat) => decide (∀ f ∈ miners.map fun e => (e.1, m.getXY e.2), f.2.2.length ≤ e.2.2.length)) ∘
      fun e : String × Dict Rat C => (e.1, m.getXY e.2)) = fun e => decide (∀ f ∈ miners, (m.getXY f.2).2.length ≤ (m.getXY e.2).2.length) from ?_]
  · conv_rhs => rw [← List.map_id (List.filter _ miners)]
    apply List.map_congr_left
    rintro ⟨k, d⟩ he
    have := Dict.get?_of_mem hw (List.mem_filter.mp he).1
    simp [this]
  · funext e
    apply decide_eq_decide.mpr
    constructor
    · intro h f hf
      exact h _ (List.mem_map.mpr ⟨f, hf, rfl⟩)
    · intro h f hf
      obtain ⟨g, hg, rfl⟩ := List.mem_map.mp hf
      exact h g hg

/-- a line plot of lists of values -/
def exMode : Mode (List Rat) where
  isLine := true
  getXY d := ((sortedItems d).map (·.1), (sortedItems d).map fun e => e.2.headD 0)
  len := List.length
  stddev _ := "s"
  stderr _ := "e"
  minimum _ := "a"
  maximum _ := "b"
  count c := toString c.length
  value q := toString q.num
  xs l := toString (l.map Rat.num)

private theorem sortedItems_eq {C : Type} {d l : Dict Rat C} (hp : l.Perm d) (hs : l.Pairwise fun a b => a.1 < b.1) : sortedItems d = l := by
  have hp' : (sortedItems d).Perm l := (List.perm_insertionSort _ _).trans hp.symm
  have : Std.Total (fun p q : Rat × C => p.1 ≤ q.1) := ⟨fun p q => le_total p.1 q.1⟩
  have : IsTrans (Rat × C) (fun p q : Rat × C => p.1 ≤ q.1) := ⟨fun _ _ _ a b => le_trans a b⟩
  have h1 : (sortedItems d).Pairwise fun a b => a.1 ≤ b.1 := List.pairwise_insertionSort _ _
  have hn : (l.map Prod.fst).Nodup := List.nodup_iff_pairwise_ne.mpr (List.pairwise_map.mpr (hs.imp fun h => ne_of_lt h))
  have h2 : (sortedItems d).Pairwise fun a b => a.1 < b.1 := by
    have hn' : ((sortedItems d).map Prod.fst).Nodup := (hp'.map Prod.fst).nodup_iff.2 hn
    exact (h1.and (List.pairwise_map.mp (List.nodup_iff_pairwise_ne.mp hn'))).imp fun h => lt_of_le_of_ne h.1 h.2
  exact hp'.eq_of_pairwise (fun a b _ _ x y => absurd x (lt_asymm y)) h2 hs

/-- C141: the block of a miner in a line plot. If `l` lists the positions of the miner in ascending order, the block has a line with the
positions and one with the plotted values, two lines with the standard deviations and errors of the positions with several values if there
are such positions, and lines with the minimum, the maximum and the number of values of every position. -/
theorem C141_block (m : Mode C) (hm : m.isLine = true) (xName miner : String) {d l : Dict Rat C} (hd : d ≠ []) (hp : l.Perm d)
    (hs : l.Pairwise fun a b => a.1 < b.1) :
    block m xName miner d =
      [xName ++ ": " ++ m.xs (m.getXY d).1, "values for " ++ miner ++ ": " ++ ", ".intercalate ((m.getXY d).2.map m.value)] ++
      (if ∃ e ∈ d, 1 < m.len e.2 then
        ["stddevs for " ++ miner ++ ": " ++ ", ".intercalate ((l.filter fun e => decide (1 < m.len e.2)).map fun e => m.stddev e.2),
         "stderrs for " ++ miner ++ ": " ++ ", ".intercalate ((l.filter fun e => decide (1 < m.len e.2)).map fun e => m.stderr e.2)]
      else []) ++
      ["min for " ++ miner ++ ": " ++ ", ".intercalate (l.map fun e => m.minimum e.2),
       "max for " ++ miner ++ ": " ++ ", ".intercalate (l.map fun e => m.maximum e.2),
       "nr of values for " ++ miner ++ ": " ++ ", ".intercalate (l.map fun e => m.count e.2)] := by
  have hl : l ≠ [] := fun h => hd (by subst h; exact hp.symm.eq_nil)
  have hex : (∃ e ∈ d, 1 < m.len e.2) ↔ (l.filter fun e => decide (1 < m.len e.2)) ≠ [] := by
    rw [Ne, List.filter_eq_nil_iff]
    simp only [decide_eq_true_eq, not_forall, not_not, exists_prop, hp.mem_iff]
  unfold block
  rw [sortedItems_eq hp hs]
  have hne : ∀ f : Rat × C → String, ∀ h : String, optLine h miner (l.map f) = [h ++ " for " ++ miner ++ ": " ++ ", ".intercalate (l.map f)] :=
    fun f h => by unfold optLine joinComma; rw [if_neg (by simpa using hl)]
  simp only [hm, if_true, hne]
  have e1 : "stddevs for " = "stddevs" ++ " for " := by decide +kernel
  have e2 : "stderrs for " = "stderrs" ++ " for " := by decide +kernel
  have e3 : "min for " = "min" ++ " for " := by decide +kernel
  have e4 : "max for " = "max" ++ " for " := by decide +kernel
  have e5 : "nr of values for " = "nr of values" ++ " for " := by decide +kernel
  rw [e1, e2, e3, e4, e5]
  unfold joinComma
  by_cases h : ∃ e ∈ d, 1 < m.len e.2
  · have h' := hex.mp h
    rw [if_pos h]
    unfold optLine joinComma
    rw [if_neg (by simpa using h'), if_neg (by simpa using h')]
    simp
  · have h' := not_not.mp fun x => h (hex.mpr x)
    rw [if_neg h, h']
    simp [optLine]

/-- C141: the block of a miner in a scatter plot has two lines. -/
theorem C141_block_scatter (m : Mode C) (hm : m.isLine = false) (xName miner : String) (d : Dict Rat C) :
    block m xName miner d =
      [xName ++ ": " ++ m.xs (m.getXY d).1, "values for " ++ miner ++ ": " ++ ", ".intercalate ((m.getXY d).2.map m.value)] := by
  unfold block joinComma
  simp [hm]

example : ∃ d l : Dict Rat (List Rat), d ≠ [] ∧ l.Perm d ∧ (l.Pairwise fun a b => a.1 < b.1) ∧ exMode.isLine = true ∧
    (∃ e ∈ d, 1 < exMode.len e.2) ∧ l ≠ d :=
  ⟨[(2, [4, 5]), (1, [3])], [(1, [3]), (2, [4, 5])], by simp, List.Perm.swap _ _ _, by simp, rfl, ⟨_, .head _, by decide⟩, by simp⟩

/-- C141, deviation: in the text file, standard deviations are only listed for positions with several values, so they cannot be assigned to
positions: here there are two positions and one standard deviation, for the second position. -/
theorem C141_stddev_misaligned : block exMode "x" "m" [(1, [3]), (2, [4, 5])] =
    ["x: [1, 2]", "values for m: 3, 4", "stddevs for m: s", "stderrs for m: e", "min for m: a, a", "max for m: b, b", "nr of values for m: 1, 2"] := by
  decide +kernel

/-- C141, deviation: the plot of the result type `f_with_legend` replaces the plot of `f` with a legend. -/
theorem C141_name_collision : ∃ h : List Added, ∀ dir,
    (savePlots exMode (fun _ => "black") "x" (collect [] (fun c v => c ++ [v]) h) dir).get? (plotName "f" true false false) =
      some (.pdf (plotOf exMode (fun _ => "black") [] [("m", [(1, [5])])] false false)) ∧
    (collect [] (fun c v => c ++ [v]) h).results.get? "f" = some [("m", [(1, [3])])] := by
  refine ⟨[⟨"m", "f", .num 1, 3⟩, ⟨"m", "f_with_legend", .num 1, 5⟩], fun dir => ⟨?_, by decide +kernel⟩⟩
  have hst : (collect [] (fun c v => c ++ [v]) [⟨"m", "f", .num 1, 3⟩, ⟨"m", "f_with_legend", .num 1, 5⟩] : State (List Rat)) =
      ⟨[("f", [("m", [(1, [3])])]), ("f_with_legend", [("m", [(1, [5])])])], []⟩ := by rfl
  have hn : plotName "f" true false false = plotName "f_with_legend" false false false := by decide
  rw [hst, hn]
  rw [savePlots_ops]
  show ((_ ++ (_ ++ [])).foldl applyOp dir).get? _ = _
  rw [List.append_nil, List.foldl_append]
  apply apply_last
  · exact mem_typeOps_pdf.mpr ⟨false, false, false, by decide, by decide, rfl, rfl⟩
  · intro op hop hnm
    cases op with
    | text n ls =>
      exfalso
      unfold typeOps at hop
      simp only [List.mem_flatMap] at hop
      obtain ⟨legend', _, o, _, hop⟩ := hop
      unfold oneOps at hop
      split at hop
      · cases hop
      · rcases List.mem_append.mp hop with hop | hop
        · split at hop
          · cases hop
          · unfold textOps at hop
            obtain ⟨_, _, h⟩ := List.mem_map.mp hop
            cases h
            exact pdf_ne_txt _ _ (Eq.symm hnm)
        · cases List.mem_singleton.mp hop
    | pdf n p =>
      obtain ⟨legend', std', err', h1, h2, rfl, rfl⟩ := mem_typeOps_pdf.mp hop
      have h3 := (options_iff exMode _ std' err').mp ⟨h1, h2⟩
      have hx : ¬ (std' && err') = true := by
        rcases h3 with ⟨rfl, rfl⟩ | ⟨_, h, _⟩
        · simp
        · cases std' <;> cases err' <;> simp_all
      obtain ⟨rfl, rfl, rfl⟩ := suffix_inj (show plotName "f_with_legend" legend' std' err' = _ from hnm) hx (by simp)
      rfl

/-- the hypotheses of `C141_text` and `C141_pdf` are met by a collected history -/
example : (collect [] (fun c v => c ++ [v]) [⟨"m", "f", .num 1, 3⟩, ⟨"k", "f", .str "a", 1⟩, ⟨"m", "g", .num 1, 3⟩, ⟨"m", "g", .num 1, 5⟩] : State (List Rat)).results.get? "g" =
    some [("m", [(1, [3, 5])])] ∧ IsPlotOf exMode [("m", [(1, [3, 5])])] true false :=
  ⟨by rfl, .inr ⟨rfl, by decide, _, List.mem_singleton.mpr rfl, _, List.mem_singleton.mpr rfl, by decide⟩⟩

end Prolothar.ResultCollector
