import Verif.Lemmas.Transformer
/-
Sorting and numbering attribute values.
-/
namespace Prolothar.Data
open Prolothar.Spec.Data

variable {τ : Type}

theorem Val.le_total (a b : Val) : a.le b = true ∨ b.le a = true := by
  cases a <;> cases b <;> simp [Val.le, _root_.le_total]

theorem Val.le_trans {a b c : Val} (h1 : a.le b = true) (h2 : b.le c = true) : a.le c = true := by
  cases a <;> cases b <;> cases c <;> simp [Val.le] at h1 h2 ⊢ <;> exact _root_.le_trans h1 h2

instance : Std.Total (fun a b : Val => Val.le a b = true) := ⟨Val.le_total⟩
instance : IsTrans Val (fun a b : Val => Val.le a b = true) := ⟨fun _ _ _ => Val.le_trans⟩

theorem _root_.Prolothar.Spec.Data.Lt.irrefl {a : Val} : ¬ Lt a a := by
  intro h
  cases h with
  | num h => exact lt_irrefl _ h
  | str h => exact lt_irrefl _ h

theorem _root_.Prolothar.Spec.Data.Lt.asymm {a b : Val} (h : Lt a b) : ¬ Lt b a := by
  intro h'
  cases h with
  | num h => cases h' with | num h' => exact lt_asymm h h'
  | str h => cases h' with | str h' => exact lt_asymm h h'

theorem _root_.Prolothar.Spec.Data.Lt.not_le {a b : Val} (h : Lt a b) : ¬ b.le a = true := by
  cases h with
  | num h => simpa [Val.le] using h
  | str h => simpa [Val.le] using h

theorem _root_.Prolothar.Spec.Data.Lt.kind {a b : Val} (h : Lt a b) : a.isNum = b.isNum := by cases h <;> rfl

theorem comparable_kind {l : List Val} (hc : Comparable l) : l.all Val.isNum = true ∨ l.all (fun v => !v.isNum) = true := by
  cases l with
  | nil => exact .inl rfl
  | cons x l =>
    have : ∀ y ∈ x :: l, y.isNum = x.isNum := by
      intro y hy
      rcases hc x (by simp) y hy with rfl | h | h
      · rfl
      · exact h.kind.symm
      · exact h.kind
    cases hx : x.isNum
    · right
      rw [List.all_eq_true]
      intro y hy; rw [this y hy, hx]; rfl
    · left
      rw [List.all_eq_true]
      intro y hy; rw [this y hy, hx]

theorem pySorted_ok {l : List Val} (hc : Comparable l) (hnd : l.Nodup) :
    ∃ s, pySorted l = .ok s ∧ s.Perm l ∧ s.Pairwise Lt := by
  refine ⟨_, if_pos (.inr (comparable_kind hc)), List.perm_insertionSort _ _, ?_⟩
  have h1 := List.pairwise_insertionSort (fun a b => Val.le a b = true) l
  have h2 : (l.insertionSort fun a b => Val.le a b = true).Nodup := (List.perm_insertionSort _ _).nodup_iff.2 hnd
  have h3 : ∀ x ∈ l.insertionSort (fun a b => Val.le a b = true), x ∈ l := fun x hx => (List.perm_insertionSort _ _).mem_iff.1 hx
  refine (List.Pairwise.and h1 h2).imp_of_mem ?_
  intro a b ha hb hab
  rcases hc a (h3 a ha) b (h3 b hb) with h | h | h
  · exact absurd h hab.2
  · exact h
  · exact absurd hab.1 h.not_le

theorem mixed_sorted {l : List Val} {a b : Val} (ha : a ∈ l) (hb : b ∈ l) (h1 : a.isNum = true) (h2 : b.isNum = false) :
    pySorted l = .error .type := by
  refine if_neg ?_
  rintro (h | h | h)
  · match l, ha, hb, h with
    | [x], ha, hb, _ =>
      rw [List.mem_singleton] at ha hb
      subst ha; subst hb; rw [h1] at h2; cases h2
  · rw [List.all_eq_true] at h
    rw [h b hb] at h2; cases h2
  · rw [List.all_eq_true] at h
    have := h a ha
    rw [h1] at this; cases this

theorem get?_foldl_zipIdx (v : Val) : ∀ (l : List Val) (k : Nat) (m : Dict Val Val), l.Nodup →
    ((l.zipIdx k).foldl (fun (m : Dict Val Val) e => m.put e.1 (Val.num (e.2 : Nat))) m).get? v =
      if v ∈ l then some (.num ((k + l.idxOf v : Nat) : Rat)) else m.get? v
  | [], k, m, _ => by simp
  | x :: l, k, m, hnd => by
    rw [List.nodup_cons] at hnd
    rw [List.zipIdx_cons, List.foldl_cons, get?_foldl_zipIdx v l (k + 1) _ hnd.2]
    by_cases hx : x = v
    · subst hx
      rw [if_neg hnd.1, Dict.get?_put_self, if_pos (by simp)]
      simp
    · rw [Dict.get?_put_of_ne _ _ hx]
      by_cases hm : v ∈ l
      · rw [if_pos hm, if_pos (by simp [hm]), List.idxOf_cons_ne _ hx]
        congr 3; omega
      · rw [if_neg hm, if_neg (by simp [hm, Ne.symm hx])]

theorem get?_valueMap {pv : List Val} (hnd : pv.Nodup) (v : Val) :
    (valueMap pv).get? v = if v ∈ pv then some (.num ((pv.idxOf v : Nat) : Rat)) else none := by
  unfold valueMap
  rw [get?_foldl_zipIdx v pv 0 [] hnd]
  simp; rfl

theorem pairwise_nodup {s : List Val} (hs : s.Pairwise Lt) : s.Nodup :=
  hs.imp fun h e => by subst e; exact Lt.irrefl h

theorem idxOf_numbering {l s : List Val} (hp : s.Perm l) (hs : s.Pairwise Lt) : Numbering l fun v => s.idxOf v where
  range v hv := by rw [← hp.length_eq]; exact List.idxOf_lt_length_iff.2 (hp.mem_iff.2 hv)
  mono v hv w hw h := by
    have hv := List.idxOf_lt_length_iff.2 (hp.mem_iff.2 hv)
    have hw := List.idxOf_lt_length_iff.2 (hp.mem_iff.2 hw)
    by_contra hge
    rcases Nat.lt_or_ge (s.idxOf w) (s.idxOf v) with hlt | hle
    · have := (List.pairwise_iff_getElem.1 hs) _ _ hw hv hlt
      rw [List.getElem_idxOf, List.getElem_idxOf] at this
      exact h.asymm this
    · have he : s.idxOf v = s.idxOf w := by omega
      have h1 : s[s.idxOf v] = v := List.getElem_idxOf hv
      have h2 : s[s.idxOf w] = w := List.getElem_idxOf hw
      have : v = w := by rw [← h1, ← h2]; congr 1
      subst this; exact Lt.irrefl h
  onto i hi := by
    have hi' : i < s.length := by rw [hp.length_eq]; exact hi
    exact ⟨s[i], hp.mem_iff.1 (List.getElem_mem hi'), by rw [(pairwise_nodup hs).idxOf_getElem]⟩

theorem idxOf_range {m : Nat} {v : Val} (hv : v ∈ (List.range m).map fun i : Nat => Val.num (i : Rat)) :
    Val.num ((((List.range m).map fun i : Nat => Val.num (i : Rat)).idxOf v : Nat) : Rat) = v := by
  have hlt := List.idxOf_lt_length_iff.2 hv
  have := List.getElem_idxOf hlt
  rw [List.getElem_map, List.getElem_range] at this
  exact this

/-- a step of the label encoding -/
theorem labelAttr_spec {possible : Option (Dict String (List Val))} {h : Heap τ} {d : Dataset} (hc : Consistent h d) {name : String} {at' : Attr}
    (hat : d.attrs.get? name = some at') (hcat : at'.categorical = true) {l s : List Val}
    (hpv : possibleValues possible name at' = .ok s) (hp : s.Perm l) (hs : s.Pairwise Lt)
    (hocc : ∀ v, Occurs h d name v → v ∈ l) :
    ∃ h2 d2, labelAttr possible (h, d) (name, at') = .ok (h2, d2) ∧
      RecodeOne name (fun v => .num ((s.idxOf v : Nat) : Rat)) true h d h2 d2 := by
  have hn : name ∈ d.attrs.keys := Dict.mem_keys_iff.2 ⟨at', hat⟩
  by_cases hskip : s ≠ [] ∧ s = (List.range s.length).map (fun i : Nat => Val.num (i : Rat))
  · refine ⟨h, d, ?_, hcat ▸ recode_skip hc hat ?_⟩
    · unfold labelAttr
      simp only [bind, Except.bind]
      rw [hpv]
      simp only
      rw [if_pos hskip]; rfl
    · intro a ha v hv
      have hm : v ∈ s := hp.mem_iff.2 (hocc v ⟨a, ha, hv⟩)
      have h2 := hskip.2
      generalize s.length = m at h2
      subst h2
      exact idxOf_range hm
  · obtain ⟨h1, d1, h2, d2, e1, e2, e3⟩ := recode_spec true hc hn fun v => .num ((s.idxOf v : Nat) : Rat)
    refine ⟨h2, d2, ?_, e3⟩
    unfold labelAttr
    simp only [bind, Except.bind]
    rw [hpv]
    simp only
    rw [if_neg hskip, column_ok hc hn]
    simp only
    rw [mapM_ok_map (g := fun v => .num ((s.idxOf v : Nat) : Rat)) (by
      intro v hv
      obtain ⟨a, ha, rfl⟩ := List.mem_map.1 hv
      unfold Dict.getItem
      rw [get?_valueMap (pairwise_nodup hs), if_pos (hp.mem_iff.2 (hocc _ ⟨a, ha, get?_val hc hn ha⟩))])]
    simp only
    rw [e1]
    simp only
    rw [List.map_map]
    exact e2

end Prolothar.Data
