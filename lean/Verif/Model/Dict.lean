import Verif.Model.Py
import Mathlib.Data.List.Basic
import Mathlib.Data.List.Nodup
/-
Python's dict: an insertion ordered list of entries with distinct keys. Like `Py.lean` this models
the language, not repository code.
-/
namespace Prolothar

/-- a python dictionary, in insertion order (language) -/
abbrev Dict (κ ν : Type) := List (κ × ν)

namespace Dict
set_option linter.unusedSectionVars false
variable {κ ν : Type} [DecidableEq κ]

/-- `d.get(k)` -/
def get? : Dict κ ν → κ → Option ν
  | [], _ => none
  | (k', v) :: d, k => if k' = k then some v else get? d k

/-- `d[k] = v`: overwrites in place or appends -/
def put : Dict κ ν → κ → ν → Dict κ ν
  | [], k, v => [(k, v)]
  | (k', v') :: d, k, v => if k' = k then (k', v) :: d else (k', v') :: put d k v

/-- `d.pop(k, None)` -/
def del : Dict κ ν → κ → Dict κ ν
  | [], _ => []
  | (k', v') :: d, k => if k' = k then d else (k', v') :: del d k

/-- `list(d.keys())` -/
def keys (d : Dict κ ν) : List κ := d.map Prod.fst

/-- `list(d.values())` -/
def values (d : Dict κ ν) : List ν := d.map Prod.snd

/-- `d[k]` -/
def getItem (d : Dict κ ν) (k : κ) : Py ν :=
  match d.get? k with
  | some v => .ok v
  | none => .error .key

/-- `k in d` -/
def has (d : Dict κ ν) (k : κ) : Bool := (d.get? k).isSome

/-- every dict has distinct keys -/
def WF (d : Dict κ ν) : Prop := d.keys.Nodup

/-- python equality of dicts: same keys, same values -/
def Same (d e : Dict κ ν) : Prop := ∀ k, d.get? k = e.get? k

theorem get?_put (d : Dict κ ν) (k : κ) (v : ν) (x : κ) :
    (d.put k v).get? x = if k = x then some v else d.get? x := by
  induction d with
  | nil => simp [put, get?]
  | cons p d ih =>
    obtain ⟨k', v'⟩ := p
    simp only [put]
    by_cases h : k' = k
    · subst h
      simp only [if_true, get?]
      by_cases hx : k' = x <;> simp [hx]
    · simp only [h, if_false, get?]
      by_cases hx : k' = x
      · subst hx; simp [Ne.symm h]
      · simp only [hx, if_false, ih]

theorem get?_put_self (d : Dict κ ν) (k : κ) (v : ν) : (d.put k v).get? k = some v := by
  simp [get?_put]

theorem get?_put_of_ne (d : Dict κ ν) {k x : κ} (v : ν) (h : k ≠ x) :
    (d.put k v).get? x = d.get? x := by simp [get?_put, h]

theorem mem_keys_iff {d : Dict κ ν} {k : κ} : k ∈ d.keys ↔ ∃ v, d.get? k = some v := by
  induction d with
  | nil => simp [keys, get?]
  | cons p d ih =>
    obtain ⟨k', v'⟩ := p
    simp only [keys, List.map_cons, List.mem_cons, get?]
    by_cases h : k' = k
    · subst h; simp
    · simp only [h, if_false, ← ih, keys]
      constructor
      · rintro (rfl | h'); exact absurd rfl h; exact h'
      · exact fun h' => .inr h'

theorem get?_eq_none_iff {d : Dict κ ν} {k : κ} : d.get? k = none ↔ k ∉ d.keys := by
  rw [mem_keys_iff]
  cases h : d.get? k <;> simp

theorem has_iff {d : Dict κ ν} {k : κ} : d.has k = true ↔ k ∈ d.keys := by
  rw [mem_keys_iff, has, Option.isSome_iff_exists]

theorem keys_put (d : Dict κ ν) (k : κ) (v : ν) :
    (d.put k v).keys = if k ∈ d.keys then d.keys else d.keys ++ [k] := by
  induction d with
  | nil => simp [put, keys]
  | cons p d ih =>
    obtain ⟨k', v'⟩ := p
    simp only [put]
    by_cases h : k' = k
    · subst h; simp [keys]
    · simp only [h, if_false]
      have h1 : keys ((k', v') :: Dict.put d k v) = k' :: keys (Dict.put d k v) := rfl
      have h2 : keys ((k', v') :: d) = k' :: keys d := rfl
      rw [h1, h2, ih]
      by_cases hk : k ∈ keys d
      · simp [hk]
      · simp [hk, Ne.symm h]

theorem mem_keys_put {d : Dict κ ν} {k : κ} {v : ν} {x : κ} :
    x ∈ (d.put k v).keys ↔ x = k ∨ x ∈ d.keys := by
  rw [keys_put]
  split
  · constructor
    · exact fun h => .inr h
    · rintro (rfl | h) <;> assumption
  · simp [or_comm]

theorem WF.nil : WF ([] : Dict κ ν) := List.nodup_nil

theorem WF.put {d : Dict κ ν} (h : d.WF) (k : κ) (v : ν) : (d.put k v).WF := by
  unfold WF at *
  rw [keys_put]
  split
  · exact h
  · next hk => exact List.nodup_append.2 ⟨h, by simp, by rintro a ha b hb rfl; simp at hb; subst hb; exact hk ha⟩

theorem keys_del (d : Dict κ ν) (k : κ) : (d.del k).keys = d.keys.erase k := by
  induction d with
  | nil => rfl
  | cons p d ih =>
    obtain ⟨k', v'⟩ := p
    have h2 : keys ((k', v') :: d) = k' :: keys d := rfl
    rw [h2, List.erase_cons]
    simp only [del]
    by_cases h : k' = k
    · simp [h]
    · simp only [h, if_false, beq_iff_eq]
      rw [← ih]; rfl

theorem WF.del {d : Dict κ ν} (h : d.WF) (k : κ) : (d.del k).WF := by
  unfold WF at *
  rw [keys_del]
  exact h.erase k

theorem get?_del {d : Dict κ ν} (h : d.WF) (k x : κ) :
    (d.del k).get? x = if k = x then none else d.get? x := by
  induction d with
  | nil => simp [Dict.del, get?]
  | cons p d ih =>
    obtain ⟨k', v'⟩ := p
    have hn : k' ∉ keys d ∧ WF d := by
      unfold WF keys at h; simp only [List.map_cons, List.nodup_cons] at h; exact h
    simp only [Dict.del]
    by_cases hk : k' = k
    · subst hk
      simp only [if_true, get?]
      by_cases hx : k' = x
      · subst hx; simp only [if_true]; exact get?_eq_none_iff.2 hn.1
      · simp [hx]
    · simp only [hk, if_false, get?, ih hn.2]
      by_cases hx : k' = x
      · subst hx; simp [Ne.symm hk]
      · simp [hx]

theorem get?_of_mem {d : Dict κ ν} (h : d.WF) {k : κ} {v : ν} (hm : (k, v) ∈ d) : d.get? k = some v := by
  induction d with
  | nil => cases hm
  | cons p d ih =>
    obtain ⟨k', v'⟩ := p
    have hn : k' ∉ keys d ∧ WF d := by
      unfold WF keys at h; simp only [List.map_cons, List.nodup_cons] at h; exact h
    rcases List.mem_cons.1 hm with h1 | h1
    · cases h1; simp [get?]
    · have : k' ≠ k := by
        rintro rfl
        exact hn.1 (List.mem_map.2 ⟨_, h1, rfl⟩)
      simp [get?, this, ih hn.2 h1]

theorem mem_of_get? {d : Dict κ ν} {k : κ} {v : ν} (h : d.get? k = some v) : (k, v) ∈ d := by
  induction d with
  | nil => cases h
  | cons p d ih =>
    obtain ⟨k', v'⟩ := p
    simp only [get?] at h
    split at h
    · next hk => cases h; subst hk; simp
    · exact List.mem_cons_of_mem _ (ih h)

theorem mem_iff_get? {d : Dict κ ν} (h : d.WF) {k : κ} {v : ν} : (k, v) ∈ d ↔ d.get? k = some v :=
  ⟨get?_of_mem h, mem_of_get?⟩

end Dict
end Prolothar
