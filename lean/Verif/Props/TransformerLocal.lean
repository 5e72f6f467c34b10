import Verif.Props.QBins
import Verif.Props.SequenceNoise
/-
C106 for the remaining transformers: the discretization with learned bins and the noise on target sequences.
-/
namespace Prolothar.Data
open Prolothar.Spec.Data Prolothar.Spec.QBins
variable {τ : Type}

/-- C106: the discretization with learned bins changes only the instances of the given dataset -/
theorem C106_local_bins (fmt : Ival → String) (dict : Dict String (List Ival)) : Local (τ := τ) (qbinsTransform fmt dict) := by
  refine local_sel _ _ fun e => ?_
  exact local_bind (f := fun _ _ => dict.getItem e.1) fun bins => local_bind fun col =>
    local_bind (f := fun _ _ => col.mapM (binLabel fmt bins)) fun labels =>
    local_comp (local_removeAttribute e.1) (local_addCategorical e.1 labels)

/-- C106: the noise transformers change only the instances of the given dataset, and the dataset itself stays as it is. Here `f` is what the
noise does to the target sequence of the instance with the given number. -/
theorem C106_local_noise {σ : Type} (f : Nat → List σ → Py (List σ)) : Local (noiseAll f) := by
  have key : ∀ (l : List (Nat × Nat)) (h h' : Heap (List σ)),
      l.foldlM (fun h e => do
        let t ← f e.2 (h e.1).target
        return upd h e.1 { h e.1 with target := t }) h = .ok h' → ∀ a, a ∉ l.map (·.1) → h' a = h a := by
    intro l
    induction l with
    | nil => intro h h' he a _; cases he; rfl
    | cons e l ih =>
      intro h h' he a ha
      rw [List.foldlM_cons] at he
      obtain ⟨h1, e1, he⟩ := Petri.bind_eq_ok he
      obtain ⟨t, _, e1⟩ := Petri.bind_eq_ok e1
      cases e1
      rw [List.map_cons, List.mem_cons, not_or] at ha
      rw [ih _ _ he a ha.2, upd_ne _ _ ha.1]
  intro h d h' d' he
  unfold noiseAll at he
  obtain ⟨h1, e1, he⟩ := Petri.bind_eq_ok he
  cases he
  refine ⟨rfl, fun a ha => key _ _ _ e1 a ?_⟩
  rw [List.zipIdx_map_fst]
  exact ha

/-- the theorems can be combined: without `inplace`, the noise leaves the given dataset as it is -/
example {σ : Type} (f : Nat → List σ → Py (List σ)) {h : Heap (List σ)} {d : Dataset} (hc : Consistent h d)
    {next : Nat} (hfr : ∀ a ∈ d.instances, a < next) {h' : Heap (List σ)} {d' : Dataset}
    (he : transform (noiseAll f) false next h d = .ok (h', d')) : ∀ a ∈ d.instances, h' a = h a := fun a ha =>
  (C106_not_inplace (C106_local_noise f) hc hfr he).1 a (hfr a ha)

end Prolothar.Data
