import Verif.Spec.Shuffle
import Verif.Props.EventLog
import Verif.Props.Dataset
import Verif.Props.KMedoid
import Mathlib.SetTheory.Cardinal.Finite
import Mathlib.Data.Fintype.BigOperators
/-
C177: if the shuffle is fair, the random parts of logs and datasets and the initial medoids are fair samples.
-/
namespace Prolothar.FairParts
open Prolothar.Spec.Shuffle Nat
variable {α : Type}

theorem arranged_perm (l : List α) (σ : Equiv.Perm (Fin l.length)) : (arranged l σ).Perm l := by
  have h := Equiv.Perm.ofFn_comp_perm σ l.get
  rw [List.ofFn_get] at h
  exact h

theorem mem_take_arranged {l : List α} {σ : Equiv.Perm (Fin l.length)} {k : Nat} {t : α} :
    t ∈ (arranged l σ).take k ↔ ∃ i : Fin l.length, (i : Nat) < k ∧ l.get (σ i) = t := by
  unfold arranged
  rw [List.mem_take_iff_getElem]
  constructor
  · rintro ⟨i, hi, rfl⟩
    rw [List.length_ofFn] at hi
    exact ⟨⟨i, by omega⟩, by simp; omega, by simp⟩
  · rintro ⟨i, hi, rfl⟩
    exact ⟨i, by rw [List.length_ofFn]; omega, by simp⟩

/-- permutations that map one set onto another one of the same size -/
theorem card_onto {n : Nat} (p q : Fin n → Prop) [DecidablePred p] [DecidablePred q]
    (h : Fintype.card { i // p i } = Fintype.card { i // q i }) :
    Nat.card { σ : Equiv.Perm (Fin n) // ∀ i, p i ↔ q (σ i) } = (Fintype.card { i // p i })! * (n - Fintype.card { i // p i })! := by
  have e : { σ : Equiv.Perm (Fin n) // ∀ i, p i ↔ q (σ i) } ≃ ({ i // p i } ≃ { i // q i }) × ({ i // ¬ p i } ≃ { i // ¬ q i }) :=
    { toFun := fun σ => (Equiv.subtypeEquiv σ.1 σ.2, Equiv.subtypeEquiv σ.1 fun i => not_congr (σ.2 i))
      invFun := fun f => ⟨Equiv.subtypeCongr f.1 f.2, fun i => by
        by_cases hi : p i
        · simp only [hi, true_iff]
          have : Equiv.subtypeCongr f.1 f.2 i = f.1 ⟨i, hi⟩ := by simp [Equiv.subtypeCongr, hi]
          rw [this]
          exact (f.1 ⟨i, hi⟩).2
        · simp only [hi, false_iff]
          have : Equiv.subtypeCongr f.1 f.2 i = f.2 ⟨i, hi⟩ := by simp [Equiv.subtypeCongr, hi]
          rw [this]
          exact (f.2 ⟨i, hi⟩).2⟩
      left_inv := by
        rintro ⟨σ, hσ⟩
        ext i
        by_cases hi : p i <;> simp [Equiv.subtypeCongr, hi]
      right_inv := by
        rintro ⟨f, g⟩
        refine Prod.ext ?_ ?_
        · ext ⟨i, hi⟩
          simp [Equiv.subtypeCongr, hi]
        · ext ⟨i, hi⟩
          simp [Equiv.subtypeCongr, hi] }
  have h' : Fintype.card { i // ¬ p i } = Fintype.card { i // ¬ q i } := by
    rw [Fintype.card_subtype_compl, Fintype.card_subtype_compl, h]
  rw [Nat.card_congr e, Nat.card_eq_fintype_card, Fintype.card_prod, Fintype.card_equiv (Fintype.equivOfCardEq h), Fintype.card_equiv (Fintype.equivOfCardEq h'),
    Fintype.card_subtype_compl, Fintype.card_fin]

theorem card_below {n k : Nat} (hk : k ≤ n) : Fintype.card { i : Fin n // (i : Nat) < k } = k := by
  have e : { i : Fin n // (i : Nat) < k } ≃ Fin k :=
    { toFun := fun i => ⟨i.1, i.2⟩
      invFun := fun i => ⟨⟨i, by omega⟩, i.2⟩
      left_inv := fun _ => rfl
      right_inv := fun _ => rfl }
  rw [Fintype.card_congr e, Fintype.card_fin]

theorem card_positions {l S : List α} (hl : l.Nodup) (hS : S.Nodup) (hsub : ∀ t ∈ S, t ∈ l) [DecidablePred fun i : Fin l.length => l.get i ∈ S] :
    Fintype.card { i : Fin l.length // l.get i ∈ S } = S.length := by
  classical
  have e : { i : Fin l.length // l.get i ∈ S } ≃ { t // t ∈ S } :=
    Equiv.ofBijective (fun i => ⟨l.get i.1, i.2⟩) ⟨by
      rintro ⟨i, hi⟩ ⟨j, hj⟩ hij
      have : l.get i = l.get j := congrArg Subtype.val hij
      exact Subtype.ext (List.nodup_iff_injective_get.1 hl this), by
      rintro ⟨t, ht⟩
      obtain ⟨i, hi⟩ := List.mem_iff_get.1 (hsub t ht)
      exact ⟨⟨i, hi ▸ ht⟩, Subtype.ext hi⟩⟩
  rw [Fintype.card_congr e, ← List.toFinset_card_of_nodup hS, ← Fintype.card_coe]
  exact Fintype.card_congr (Equiv.subtypeEquivRight fun t => List.mem_toFinset.symm)

/-- each set of `k` elements is the set of the first `k` elements for k! (n-k)! of the n! permutations -/
theorem card_take {l S : List α} (hl : l.Nodup) (hS : S.Nodup) (hsub : ∀ t ∈ S, t ∈ l) :
    Nat.card { σ : Equiv.Perm (Fin l.length) // ∀ t, t ∈ (arranged l σ).take S.length ↔ t ∈ S } = S.length ! * (l.length - S.length)! := by
  classical
  have hle : S.length ≤ l.length := (List.subperm_of_subset hS hsub).length_le
  have hp := card_below hle
  have hq := card_positions hl hS hsub
  have := card_onto (fun i : Fin l.length => (i : Nat) < S.length) (fun i => l.get i ∈ S) (hp.trans hq.symm)
  rw [hp] at this
  rw [← this]
  refine Nat.card_congr (Equiv.subtypeEquivRight fun σ => ?_)
  constructor
  · intro h i
    rw [← h, mem_take_arranged]
    constructor
    · intro hi
      exact ⟨i, hi, rfl⟩
    · rintro ⟨j, hj, hij⟩
      have : σ j = σ i := List.nodup_iff_injective_get.1 hl hij
      rwa [σ.injective this] at hj
  · intro h t
    rw [mem_take_arranged]
    constructor
    · rintro ⟨i, hi, rfl⟩
      exact (h i).1 hi
    · intro ht
      obtain ⟨m, rfl⟩ := List.mem_iff_get.1 (hsub t ht)
      refine ⟨σ.symm m, ?_, by rw [Equiv.apply_symm_apply]⟩
      rw [h, Equiv.apply_symm_apply]
      exact ht

/-- each element is among the first `k` for k (n-1)! of the n! permutations -/
theorem card_mem_take {l : List α} (hl : l.Nodup) {t : α} (ht : t ∈ l) {k : Nat} (hk : k ≤ l.length) :
    Nat.card { σ : Equiv.Perm (Fin l.length) // t ∈ (arranged l σ).take k } = k * (l.length - 1)! := by
  classical
  obtain ⟨m, rfl⟩ := List.mem_iff_get.1 ht
  have e : { σ : Equiv.Perm (Fin l.length) // l.get m ∈ (arranged l σ).take k } ≃ (a : { a : Fin l.length // (a : Nat) < k }) × { σ : Equiv.Perm (Fin l.length) // ∀ i, i = a.1 ↔ σ i = m } :=
    { toFun := fun σ => ⟨⟨σ.1.symm m, by
        obtain ⟨i, hi, hm⟩ := mem_take_arranged.1 σ.2
        have : σ.1 i = m := List.nodup_iff_injective_get.1 hl hm
        have : σ.1.symm m = i := by rw [Equiv.symm_apply_eq, this]
        rw [this]
        exact hi⟩, σ.1, fun i => by rw [Equiv.eq_symm_apply]⟩
      invFun := fun s => ⟨s.2.1, mem_take_arranged.2 ⟨s.1.1, s.1.2, by rw [(s.2.2 s.1.1).1 rfl]⟩⟩
      left_inv := fun σ => rfl
      right_inv := by
        rintro ⟨⟨a, ha⟩, σ, hσ⟩
        have : a = σ.symm m := by rw [Equiv.eq_symm_apply]; exact (hσ a).1 rfl
        subst this
        rfl }
  rw [Nat.card_congr e, Nat.card_sigma]
  have h1 : ∀ a : { a : Fin l.length // (a : Nat) < k }, Nat.card { σ : Equiv.Perm (Fin l.length) // ∀ i, i = a.1 ↔ σ i = m } = (l.length - 1)! := by
    intro a
    have := card_onto (fun i : Fin l.length => i = a.1) (fun i => i = m) (by rw [Fintype.card_subtype_eq, Fintype.card_subtype_eq])
    rw [this, Fintype.card_subtype_eq, factorial_one, one_mul]
  rw [Finset.sum_congr rfl fun a _ => h1 a, Finset.sum_const, Finset.card_univ, card_below hk]
  rfl

section
open Prolothar.EventLog
variable {I A V : Type}

/-- C177: with a fair shuffle each set of traces of the size of the train log is the train log with the same probability k!(n-k)!/n!, i.e. one in "n choose k" -/
theorem C177_train_sets {log : Log I A V} (hl : log.Nodup) {p : ℚ} (h0 : 0 ≤ p) (h1 : p ≤ 1) {S : Log I A V} (hS : S.Nodup) (hsub : ∀ t ∈ S, t ∈ log)
    (hk : (S.length : ℤ) = ⌊(log.length : ℚ) * (1 - p)⌋) :
    Nat.card { σ : Equiv.Perm (Fin log.length) //
      ∃ train test, trainTestSplit (fun _ => arranged log σ) log p = .ok (train, test) ∧ ∀ t, t ∈ train ↔ t ∈ S } =
    S.length ! * (log.length - S.length)! := by
  rw [← card_take hl hS hsub]
  refine Nat.card_congr (Equiv.subtypeEquivRight fun σ => ?_)
  unfold trainTestSplit
  rw [if_pos ⟨h0, h1⟩]
  dsimp only
  rw [(arranged_perm log σ).length_eq, ← hk, Int.toNat_natCast]
  constructor
  · rintro ⟨train, test, h, hS⟩
    simp only [Except.ok.injEq, Prod.mk.injEq] at h
    rw [h.1]
    exact hS
  · intro h
    exact ⟨_, _, rfl, h⟩

/-- C177: every trace has the same probability k/n to be in the train log -/
theorem C177_train_trace {log : Log I A V} (hl : log.Nodup) {p : ℚ} (h0 : 0 ≤ p) (h1 : p ≤ 1) {t : Trace I A V} (ht : t ∈ log) :
    Nat.card { σ : Equiv.Perm (Fin log.length) //
      ∃ train test, trainTestSplit (fun _ => arranged log σ) log p = .ok (train, test) ∧ t ∈ train } =
    ⌊(log.length : ℚ) * (1 - p)⌋.toNat * (log.length - 1)! := by
  have hk : ⌊(log.length : ℚ) * (1 - p)⌋.toNat ≤ log.length := by
    rw [Int.toNat_le]
    have : (log.length : ℚ) * (1 - p) ≤ log.length := mul_le_of_le_one_right (by positivity) (by linarith)
    exact_mod_cast (Int.floor_le _).trans this
  rw [← card_mem_take hl ht hk]
  refine Nat.card_congr (Equiv.subtypeEquivRight fun σ => ?_)
  unfold trainTestSplit
  rw [if_pos ⟨h0, h1⟩]
  dsimp only
  rw [(arranged_perm log σ).length_eq]
  constructor
  · rintro ⟨train, test, h, hS⟩
    simp only [Except.ok.injEq, Prod.mk.injEq] at h
    rw [h.1]
    exact hS
  · intro h
    exact ⟨_, _, rfl, h⟩

end

section
open Prolothar.Data Prolothar.Spec.Data
variable {τ : Type}

/-- C177: with a fair shuffle each set of instances of the right size is the train dataset with the same probability -/
theorem C177_dataset_sets {h : Heap τ} {d : Dataset} (hc : Consistent h d) {p : Rat} (hp : 0 < p ∧ p < 1) {S : List Nat} (hS : S.Nodup) (hsub : ∀ a ∈ S, a ∈ d.instances)
    (hk : (S.length : ℤ) = ⌊(d.instances.length : Rat) - d.instances.length * p⌋) :
    Nat.card { σ : Equiv.Perm (Fin d.instances.length) //
      ∃ train test, d.split h p (arranged d.instances σ) = .ok (train, test) ∧ ∀ a, a ∈ train.instances ↔ a ∈ S } =
    S.length ! * (d.instances.length - S.length)! := by
  rw [← card_take hc.nodup hS hsub]
  refine Nat.card_congr (Equiv.subtypeEquivRight fun σ => ?_)
  have hperm := arranged_perm d.instances σ
  have hnd : (arranged d.instances σ).Nodup := hperm.nodup_iff.2 hc.nodup
  obtain ⟨s1, h1, _, _, e1⟩ := sub_spec hc (hnd.sublist (List.take_sublist S.length _)) fun a ha => hperm.mem_iff.1 (List.mem_of_mem_take ha)
  obtain ⟨s2, h2, _, _, e2⟩ := sub_spec hc (hnd.sublist (List.drop_sublist S.length _)) fun a ha => hperm.mem_iff.1 (List.mem_of_mem_drop ha)
  have hs : d.split h p (arranged d.instances σ) = .ok (s1, s2) := by
    unfold Dataset.split
    rw [if_neg (not_not.2 hp)]
    dsimp only
    rw [← hk, Int.toNat_natCast, h1, h2]
    rfl
  rw [hs]
  constructor
  · rintro ⟨train, test, h, hS⟩
    simp only [Except.ok.injEq, Prod.mk.injEq] at h
    rw [← e1, h.1]
    exact hS
  · intro h
    exact ⟨s1, s2, rfl, e1 ▸ h⟩

/-- C177: with a fair shuffle `random_subset` returns each set of instances of the requested size with the same probability, so it contains every instance with probability size/n -/
theorem C177_random_subset {h : Heap τ} {d : Dataset} (hc : Consistent h d) :
    (∀ S : List Nat, S.Nodup → (∀ a ∈ S, a ∈ d.instances) →
      Nat.card { σ : Equiv.Perm (Fin d.instances.length) //
        ∃ s, d.randomSubset h S.length (arranged d.instances σ) = .ok s ∧ ∀ a, a ∈ s.instances ↔ a ∈ S } =
      S.length ! * (d.instances.length - S.length)!) ∧
    (∀ (k : Nat) (a : Nat), k ≤ d.instances.length → a ∈ d.instances →
      Nat.card { σ : Equiv.Perm (Fin d.instances.length) //
        ∃ s, d.randomSubset h k (arranged d.instances σ) = .ok s ∧ a ∈ s.instances } = k * (d.instances.length - 1)!) := by
  have key : ∀ (k : Nat), k ≤ d.instances.length → ∀ σ : Equiv.Perm (Fin d.instances.length),
      ∃ s, d.randomSubset h k (arranged d.instances σ) = .ok s ∧ s.instances = (arranged d.instances σ).take k := by
    intro k hk σ
    have hperm := arranged_perm d.instances σ
    have hnd : (arranged d.instances σ).Nodup := hperm.nodup_iff.2 hc.nodup
    obtain ⟨s1, h1, _, _, e1⟩ := sub_spec hc (hnd.sublist (List.take_sublist k _)) fun a ha => hperm.mem_iff.1 (List.mem_of_mem_take ha)
    refine ⟨s1, ?_, e1⟩
    unfold Dataset.randomSubset
    rw [if_neg (by omega), Int.toNat_natCast, h1]
  constructor
  · intro S hS hsub
    rw [← card_take hc.nodup hS hsub]
    refine Nat.card_congr (Equiv.subtypeEquivRight fun σ => ?_)
    obtain ⟨s, hs, e⟩ := key S.length (List.subperm_of_subset hS hsub).length_le σ
    rw [hs, ← e]
    constructor
    · rintro ⟨s', h, hS⟩
      cases h
      exact hS
    · intro h
      exact ⟨s, rfl, h⟩
  · intro k a hk ha
    rw [← card_mem_take hc.nodup ha hk]
    refine Nat.card_congr (Equiv.subtypeEquivRight fun σ => ?_)
    obtain ⟨s, hs, e⟩ := key k hk σ
    rw [hs, ← e]
    constructor
    · rintro ⟨s', h, hS⟩
      cases h
      exact hS
    · intro h
      exact ⟨s, rfl, h⟩

end

/-- C177: with a fair shuffle every set of k of the n objects is the set of initial medoids of the (fuzzy) k-medoid clustering with the same probability -/
theorem C177_initial_medoids {n : Nat} {S : List Nat} (hS : S.Nodup) (hne : S ≠ []) (hsub : ∀ i ∈ S, i < n) :
    Nat.card { σ : Equiv.Perm (Fin (List.range n).length) //
      ∃ centers, KMedoid.selectCenters n (some S.length) (arranged (List.range n) σ) = .ok centers ∧ ∀ i, i ∈ centers ↔ i ∈ S } =
    S.length ! * (n - S.length)! := by
  have hsub' : ∀ i ∈ S, i ∈ List.range n := fun i hi => List.mem_range.2 (hsub i hi)
  have hle := (List.subperm_of_subset hS hsub').length_le
  have hpos := List.length_pos_of_ne_nil hne
  have h := card_take List.nodup_range hS hsub'
  rw [List.length_range] at hle
  have hlen : (List.range n).length = n := List.length_range
  refine Eq.trans (Nat.card_congr (Equiv.subtypeEquivRight fun σ => ?_)) (h.trans (by rw [hlen]))
  have : KMedoid.selectCenters n (some S.length) (arranged (List.range n) σ) = .ok ((arranged (List.range n) σ).take S.length) := by
    unfold KMedoid.selectCenters
    dsimp only [Option.getD_some]
    rw [if_neg (by omega), if_neg (by omega), Int.toNat_natCast]
  rw [this]
  constructor
  · rintro ⟨c, h, hS⟩
    cases h
    exact hS
  · intro h
    exact ⟨_, rfl, h⟩

/-- of the 24 orders of four objects, 4 select the objects 0 and 2 -/
example : Nat.card { σ : Equiv.Perm (Fin (List.range 4).length) //
      ∃ centers, KMedoid.selectCenters 4 (some 2) (arranged (List.range 4) σ) = .ok centers ∧ ∀ i, i ∈ centers ↔ i ∈ [0, 2] } = 4 :=
  C177_initial_medoids (n := 4) (S := [0, 2]) (by decide) (by decide) (by decide)

/-- a log of three empty traces with different ids -/
def exThree : EventLog.Log Nat String Nat := [⟨1, [], []⟩, ⟨2, [], []⟩, ⟨3, [], []⟩]

/-- with a third of the traces for testing, each pair of traces is the train log for 2 of the 6 orders -/
example : Nat.card { σ : Equiv.Perm (Fin exThree.length) //
      ∃ train test, EventLog.trainTestSplit (fun _ => arranged exThree σ) exThree (1 / 3) = .ok (train, test) ∧
        ∀ t, t ∈ train ↔ t ∈ ([⟨1, [], []⟩, ⟨3, [], []⟩] : EventLog.Log Nat String Nat) } = 2 := by
  refine C177_train_sets (log := exThree) (p := 1 / 3) ?_ (by norm_num) (by norm_num) (S := [⟨1, [], []⟩, ⟨3, [], []⟩]) ?_ ?_ ?_
  · simp [exThree]
  · simp
  · simp [exThree]
  · norm_num [exThree]

/-- and the first trace is in the train log for 4 of them -/
example : Nat.card { σ : Equiv.Perm (Fin exThree.length) //
      ∃ train test, EventLog.trainTestSplit (fun _ => arranged exThree σ) exThree (1 / 3) = .ok (train, test) ∧ (⟨1, [], []⟩ : EventLog.Trace Nat String Nat) ∈ train } = 4 := by
  have h := C177_train_trace (log := exThree) (p := 1 / 3) (t := ⟨1, [], []⟩) (by simp [exThree]) (by norm_num) (by norm_num) (by simp [exThree])
  have hf : ⌊((exThree.length : Nat) : ℚ) * (1 - 1 / 3)⌋.toNat = 2 := by norm_num [exThree]; rfl
  rw [hf] at h
  exact h.trans (by decide)

/-- of the 6 orders of the three instances, 2 give the random subset of the instances 0 and 2, 2 give the train dataset of these instances -/
example : Nat.card { σ : Equiv.Perm (Fin Data.exData.instances.length) //
      ∃ s, Data.exData.randomSubset Data.exHeap 2 (arranged Data.exData.instances σ) = .ok s ∧ ∀ a, a ∈ s.instances ↔ a ∈ [0, 2] } = 2 ∧
    Nat.card { σ : Equiv.Perm (Fin Data.exData.instances.length) //
      ∃ train test, Data.exData.split Data.exHeap (1 / 3) (arranged Data.exData.instances σ) = .ok (train, test) ∧ ∀ a, a ∈ train.instances ↔ a ∈ [0, 2] } = 2 :=
  have hc := Data.C58_consistent Data.exData_reachable
  ⟨(C177_random_subset hc).1 [0, 2] (by decide) (by decide),
    C177_dataset_sets hc (p := 1 / 3) (by norm_num) (S := [0, 2]) (by decide) (by decide) (by decide +kernel)⟩

end Prolothar.FairParts
