import Verif.Lemmas.Dataset
import Mathlib.Data.List.Perm.Subperm
/-
Datasets that are made of the instances of a consistent dataset.
-/
namespace Prolothar.Data
open Prolothar.Spec.Data

variable {τ : Type}

theorem catNum_nodup {h : Heap τ} {d : Dataset} (hc : Consistent h d) : (d.catNames ++ d.numNames).Nodup := by
  refine List.nodup_append.2 ⟨hc.categorical.1, hc.numerical.1, ?_⟩
  rintro n hn m hm rfl
  obtain ⟨a1, h1, h2⟩ := (hc.categorical.2 n).1 hn
  obtain ⟨a2, h3, h4⟩ := (hc.numerical.2 n).1 hm
  rw [h1] at h3
  rw [← Option.some.inj h3, h2] at h4
  cases h4

theorem mem_names {h : Heap τ} {d : Dataset} (hc : Consistent h d) {n : String} : n ∈ d.attrs.keys ↔ n ∈ d.catNames ∨ n ∈ d.numNames := by
  rw [hc.categorical.2, hc.numerical.2, Dict.mem_keys_iff]
  constructor
  · rintro ⟨at', hat⟩
    cases hb : at'.categorical
    · exact .inr ⟨at', hat, hb⟩
    · exact .inl ⟨at', hat, hb⟩
  · rintro (⟨at', h1, _⟩ | ⟨at', h1, _⟩) <;> exact ⟨at', h1⟩

/-- `s` has the attributes of `d` -/
def SameAttrs (d s : Dataset) : Prop :=
  s.catNames = d.catNames ∧ s.numNames = d.numNames ∧ ∀ n, n ∈ s.attrs.keys ↔ n ∈ d.attrs.keys

theorem new_sameAttrs {h : Heap τ} {d : Dataset} (hc : Consistent h d) : SameAttrs d (Dataset.new d.catNames d.numNames) :=
  ⟨rfl, rfl, fun n => by rw [mem_keys_new, mem_names hc]⟩

/-- adding an instance with the features of `d` and a new id to a dataset with the same attributes -/
theorem add_same {h : Heap τ} {d s : Dataset} {a : Nat} (hs : Consistent h s) (hsa : SameAttrs d s)
    (hf : (h a).features.keys.Nodup ∧ ∀ n, n ∈ (h a).features.keys ↔ n ∈ d.attrs.keys)
    (hid : ∀ b ∈ s.instances, (h b).id ≠ (h a).id) :
    ∃ s', s.addInstance h a = .ok s' ∧ Consistent h s' ∧ SameAttrs d s' ∧ s'.instances = s.instances ++ [a] := by
  have he := addInstance_ok (h := h) (d := s) (a := a) (fun n => by rw [hf.2, hsa.2.2]) hid
  refine ⟨_, he, addInstance_consistent hs hf.1 he, ⟨hsa.1, hsa.2.1, fun n => ?_⟩, rfl⟩
  show n ∈ (addedAttrs s.attrs _).keys ↔ _
  rw [keys_addedAttrs]; exact hsa.2.2 n

/-- ids identify the instances of a dataset -/
theorem id_inj {h : Heap τ} {d : Dataset} (hc : Consistent h d) {a b : Nat} (ha : a ∈ d.instances) (hb : b ∈ d.instances)
    (he : (h a).id = (h b).id) : a = b := by
  by_contra hne
  have := hc.ids
  rw [List.Nodup, List.pairwise_map] at this
  have key : ∀ l : List Nat, l.Pairwise (fun x y => (h x).id ≠ (h y).id) → a ∈ l → b ∈ l → False := by
    intro l
    induction l with
    | nil => intro _ h1; cases h1
    | cons x l ih =>
      intro hpw h1 h2
      rw [List.pairwise_cons] at hpw
      rcases List.mem_cons.1 h1 with rfl | h1'
      · rcases List.mem_cons.1 h2 with rfl | h2'
        · exact hne rfl
        · exact hpw.1 b h2' he
      · rcases List.mem_cons.1 h2 with rfl | h2'
        · exact hpw.1 a h1' he.symm
        · exact ih hpw.2 h1' h2'
  exact key _ this ha hb

theorem sub_spec {h : Heap τ} {d : Dataset} (hc : Consistent h d) {l : List Nat} (hnd : l.Nodup) (hl : ∀ a ∈ l, a ∈ d.instances) :
    ∃ s, d.sub h l = .ok s ∧ Consistent h s ∧ SameAttrs d s ∧ s.instances = l := by
  have key : ∀ (l : List Nat) (s : Dataset), Consistent h s → SameAttrs d s → (s.instances ++ l).Nodup →
      (∀ a ∈ s.instances ++ l, a ∈ d.instances) →
      ∃ s', l.foldlM (Dataset.addInstance h) s = .ok s' ∧ Consistent h s' ∧ SameAttrs d s' ∧ s'.instances = s.instances ++ l := by
    intro l
    induction l with
    | nil => exact fun s h1 h2 _ _ => ⟨s, rfl, h1, h2, by simp⟩
    | cons a l ih =>
      intro s h1 h2 h3 h4
      have ha := h4 a (by simp)
      obtain ⟨s1, e1, e2, e3, e4⟩ := add_same (a := a) h1 h2 (hc.features a ha) (by
        intro b hb he
        have := id_inj hc (h4 b (by simp [hb])) ha he
        subst this
        rw [List.nodup_append] at h3
        exact h3.2.2 b hb b (by simp) rfl)
      obtain ⟨s2, f1, f2, f3, f4⟩ := ih s1 e2 e3 (by rw [e4]; simpa using h3) (by rw [e4]; simpa using h4)
      exact ⟨s2, by rw [List.foldlM_cons, e1]; exact f1, f2, f3, by rw [f4, e4]; simp⟩
  obtain ⟨s, e1, e2, e3, e4⟩ := key l (Dataset.new d.catNames d.numNames) (new_consistent h (catNum_nodup hc)) (new_sameAttrs hc)
    (by simpa [Dataset.new] using hnd) (by simpa [Dataset.new] using hl)
  exact ⟨s, e1, e2, e3, by rw [e4]; simp [Dataset.new]⟩

end Prolothar.Data
