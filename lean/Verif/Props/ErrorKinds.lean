import Verif.Props.Frame
import Verif.Props.Plots
import Verif.Props.Petri
/-
Exceptions for rare arguments: data frames with two columns of the same name, heatmaps without cells, second variables of a net.
-/
namespace Prolothar.Data

/-- C142: a data frame with at least one row, in which a requested column name occurs twice, is rejected with a TypeError (if all requested columns exist). -/
theorem C142_duplicate_column (f : Frame) (cat num : List String) (hsub : ∀ n ∈ cat ++ num, n ∈ f.columns) (hlen : f.index.length = f.rows.length)
    (hrow : ∀ r ∈ f.rows, r.length = f.columns.length) (hne : f.index ≠ []) (hd : ∃ n ∈ cat ++ num, 1 < f.columns.count n) :
    createFromFrame f cat num = .error .type := by
  have hrf : ∀ (row : List Val), row.length = f.columns.length → ∀ (names : List String) (g : Dict String Val), (∀ n ∈ names, n ∈ f.columns) →
      (∃ n ∈ names, 1 < f.columns.count n) →
      names.foldlM (fun f' n => do let v ← rowGet f.columns row n; return f'.put n v) g = (.error .type : Py (Dict String Val)) := by
    intro row hrl names
    induction names with
    | nil => rintro g _ ⟨_, h, _⟩; cases h
    | cons m names ih =>
      rintro g hs ⟨k, hk, hkc⟩
      rw [List.foldlM_cons]
      by_cases hm : 1 < f.columns.count m
      · have : rowGet f.columns row m = .error .type := by unfold rowGet; rw [if_pos hm]
        rw [this]; rfl
      · have hmem : m ∈ Dict.keys (f.columns.zip row) := by
          unfold Dict.keys
          rw [List.map_fst_zip (by omega)]
          exact hs m List.mem_cons_self
        obtain ⟨v, hv⟩ := Dict.mem_keys_iff.1 hmem
        have : rowGet f.columns row m = .ok v := by
          unfold rowGet Dict.getItem
          rw [if_neg hm, hv]
        rw [this]
        refine ih _ (fun n hn => hs n (List.mem_cons_of_mem _ hn)) ⟨k, ?_, hkc⟩
        rcases List.mem_cons.mp hk with rfl | h
        · exact absurd hkc hm
        · exact h
  unfold createFromFrame
  match hz : f.index.zip f.rows with
  | [] =>
    have := congrArg List.length hz
    rw [List.length_zip, hlen, Nat.min_self] at this
    exact absurd (List.length_eq_zero_iff.mp (hlen.trans this)) hne
  | e :: l =>
    have hl : e.2.length = f.columns.length := hrow e.2 (List.of_mem_zip (a := e.1) (b := e.2) (l₁ := f.index) (by rw [hz]; simp)).2
    rw [List.foldlM_cons]
    unfold frameStep rowFeatures
    rw [hrf e.2 hl (cat ++ num) [] hsub hd]
    rfl

example : createFromFrame ⟨[.num 0], ["a", "b", "a"], [[.num 1, .num 2, .num 3]]⟩ ["b"] ["a"] = .error .type :=
  C142_duplicate_column _ _ _ (by decide) (by decide) (by decide) (by decide) ⟨"a", by decide, by decide⟩

end Prolothar.Data

namespace Prolothar.Plots

/-- C136: a heatmap without cells cannot be annotated without a threshold: ValueError. -/
theorem C136_no_cells (norm : Rat → Rat) (image : List (List Rat)) (data : HeatData) (rows : List (List Rat))
    (hd : (data = .missing ∧ rows = image) ∨ data = .array rows) (hr : ∀ r ∈ rows, r = []) : annotate norm image data none = .error .value := by
  have hch : chosen image data = some rows := by
    rcases hd with ⟨rfl, rfl⟩ | rfl <;> rfl
  have hf : rows.flatten = [] := by
    rw [List.flatten_eq_nil_iff]; exact hr
  unfold annotate
  simp only [hch, normThreshold, maxOf, hf, bind, Except.bind]

example : annotate id [[], []] .missing none = .error .value := C136_no_cells _ _ _ [[], []] (.inl ⟨rfl, rfl⟩) (by simp)

end Prolothar.Plots

namespace Prolothar.Petri

/-- C101: a variable can be added exactly if the net has no variable of this name; then the name refers to the new variable object,
all other names refer to the same objects as before, and nothing else changes. Otherwise ValueError. -/
theorem C101_add_variable (n : Net) (name : String) (a : Nat) :
    ((∃ b, n.vars.get? name = some b) → n.addVariable name a = .error .value) ∧
    (n.vars.get? name = none → ∃ n', n.addVariable name a = .ok n' ∧ n'.vars.get? name = some a ∧
      (∀ m, m ≠ name → n'.vars.get? m = n.vars.get? m) ∧ n' = { n with vars := n'.vars }) := by
  unfold Net.addVariable
  refine ⟨fun ⟨b, hb⟩ => ?_, fun h => ?_⟩
  · rw [if_pos (by unfold Dict.has; rw [hb]; rfl)]
  · rw [if_neg (by unfold Dict.has; rw [h]; simp)]
    exact ⟨_, rfl, Dict.get?_put_self .., fun m hm => Dict.get?_put_of_ne _ _ (Ne.symm hm), rfl⟩

example : (Net.empty.addVariable "x" 0 >>= fun n => n.addVariable "x" 1) = .error .value := rfl

/-- C101: `add_place` with a new id and a number of tokens that is not negative adds exactly this place, with the given label and tokens and without
outgoing arcs; nothing else changes. -/
theorem C101_add_place (n : Net) (id label : String) (k : Int) (hk : 0 ≤ k) (hid : id ∉ n.places) :
    ∃ n', n.addPlace id label k = .ok n' ∧ n'.places = n.places ++ [id] ∧ n'.tokens id = k ∧ n'.placeLabel id = label ∧ n'.out id = [] ∧
      (∀ p, p ≠ id → n'.tokens p = n.tokens p ∧ n'.placeLabel p = n.placeLabel p ∧ n'.out p = n.out p) ∧
      n' = { n with places := n'.places, placeLabel := n'.placeLabel, tokens := n'.tokens, out := n'.out } := by
  unfold Net.addPlace
  rw [if_neg (by omega), if_neg hid]
  exact ⟨_, rfl, rfl, upd_self .., upd_self .., upd_self .., fun p hp => ⟨upd_ne _ _ hp, upd_ne _ _ hp, upd_ne _ _ hp⟩, rfl⟩

/-- C101: `add_transition` with a new id adds exactly this transition, with the given label (the id by default), visibility, no arcs and a guard that
always accepts; nothing else changes. -/
theorem C101_add_transition (n : Net) (id : String) (label : Option String) (v : Bool) (hid : id ∉ n.transitions) :
    ∃ n', n.addTransition id label v = .ok n' ∧ n'.transitions = n.transitions ++ [id] ∧ n'.visible id = v ∧ n'.pre id = [] ∧ n'.post id = [] ∧
      n'.guard id = .always ∧ (∀ l, label = some l → n'.transLabel id = l) ∧ (label = none → n'.transLabel id = id) ∧
      (∀ t, t ≠ id → n'.visible t = n.visible t ∧ n'.pre t = n.pre t ∧ n'.post t = n.post t ∧ n'.guard t = n.guard t ∧
        n'.transLabel t = n.transLabel t) ∧
      n' = { n with transitions := n'.transitions, transLabel := n'.transLabel, visible := n'.visible, pre := n'.pre, post := n'.post,
                    guard := n'.guard } := by
  unfold Net.addTransition
  rw [if_neg hid]
  refine ⟨_, rfl, rfl, upd_self .., upd_self .., upd_self .., upd_self .., ?_, ?_,
    fun p hp => ⟨upd_ne _ _ hp, upd_ne _ _ hp, upd_ne _ _ hp, upd_ne _ _ hp, upd_ne _ _ hp⟩, rfl⟩
  · rintro l rfl; exact upd_self ..
  · rintro rfl; exact upd_self ..

/-- C101: `add_connection` changes arcs only. -/
theorem C101_connection_arcs_only {n n' : Net} {s t e : String} (h : n.addConnection s t e = .ok n') :
    n' = { n with out := n'.out, pre := n'.pre, post := n'.post } := by
  unfold Net.addConnection at h
  split at h
  · cases h
  · split at h
    · cases h
    · split at h
      · cases h
      · injection h with h
        subst h
        rfl

example : ∃ n, (Net.empty.addPlace "p" "start" 1 >>= fun n => n.addTransition "t" none true) = .ok n ∧ n.tokens "p" = 1 ∧ n.transLabel "t" = "t" :=
  ⟨_, rfl, by decide, by decide⟩

end Prolothar.Petri
