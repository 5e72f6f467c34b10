import Verif.Model.PrimeFactors
import Mathlib.Data.Nat.Factors
import Mathlib.Tactic.Ring
import Mathlib.Tactic.Linarith
set_option linter.unusedSimpArgs false
/- Helper lemmas for `Verif/Props/PrimeFactors.lean`. -/
namespace Prolothar.PrimeFactors

/-- the state reached while factorising `N`: collected primes `fs` (ascending, below all remaining
primes), remaining cofactor `m` whose prime factors are all `≥ f` -/
structure Inv (N f m : Nat) (fs : List Nat) : Prop where
  pos : 0 < m
  prod : fs.prod * m = N
  prime : ∀ p ∈ fs, p.Prime
  sorted : fs.Pairwise (· ≤ ·)
  below : ∀ p ∈ fs, p ≤ f
  rest : ∀ p, p.Prime → p ∣ m → f ≤ p

theorem divideOut_spec (rnd : Int → Int)
    (N f : Nat) (hf2 : 2 ≤ f) :
    ∀ (fuel m : Nat) (fs : List Nat), m < fuel → (∀ k, k ∣ m → k < m → rnd k = k) → Inv N f m fs →
      ∃ (m' : Nat) (fs' : List Nat), divideOut rnd f fuel m (fs.map Nat.cast) = .ok ((m' : Int), fs'.map Nat.cast) ∧
        Inv N f m' fs' ∧ ¬ f ∣ m' ∧ m' ∣ m := by
  intro fuel
  induction fuel with
  | zero => intro m fs h; omega
  | succ fuel ih =>
    intro m fs hlt hB inv
    by_cases hd : f ∣ m
    · obtain ⟨c, rfl⟩ := hd
      have hc0 : 0 < c := Nat.pos_of_ne_zero (by rintro rfl; simpa using inv.pos)
      have hcm : c < f * c := by nlinarith
      have hcB : rnd c = c := hB c (Dvd.intro_left f rfl) hcm
      have hfp : f.Prime := by
        have h1 : f.minFac.Prime := Nat.minFac_prime (by omega)
        have h2 := inv.rest _ h1 ((Nat.minFac_dvd f).trans (Dvd.intro c rfl))
        have h3 := Nat.minFac_le (n := f) (by omega)
        have : f.minFac = f := by omega
        rw [← this]; exact h1
      obtain ⟨m', fs', h1, h2, h3, h4⟩ := ih c (fs ++ [f]) (by omega)
        (fun k hk hk2 => hB k (hk.trans (Dvd.intro_left f rfl)) (by omega))
        { pos := hc0
          prod := by rw [← inv.prod]; simp; ring
          prime := by
            intro p hp'; rcases List.mem_append.1 hp' with h | h
            · exact inv.prime p h
            · rw [List.mem_singleton.1 h]; exact hfp
          sorted := by
            rw [List.pairwise_append]
            refine ⟨inv.sorted, by simp, ?_⟩
            intro a ha b hb; rw [List.mem_singleton.1 hb]; exact inv.below a ha
          below := by
            intro p hp'; rcases List.mem_append.1 hp' with h | h
            · exact inv.below p h
            · rw [List.mem_singleton.1 h]
          rest := fun p hp' hd => inv.rest p hp' (hd.trans (Dvd.intro_left f rfl)) }
      refine ⟨m', fs', ?_, h2, h3, h4.trans (Dvd.intro_left f rfl)⟩
      have e1 : ((f * c : Nat) : Int) % (f : Int) = 0 := by
        rw [Int.natCast_mul]; exact Int.mul_emod_right _ _
      have e2 : ((f * c : Nat) : Int) / (f : Int) = (c : Int) := by
        rw [Int.natCast_mul]; exact Int.mul_ediv_cancel_left _ (by omega)
      rw [divideOut, if_pos e1, e2, hcB]
      simpa using h1
    · refine ⟨m, fs, ?_, inv, hd, dvd_rfl⟩
      rw [divideOut, if_neg]
      intro h
      exact hd (by exact_mod_cast Int.dvd_of_emod_eq_zero h)

theorem Inv.next {N f m : Nat} {fs : List Nat} (inv : Inv N f m fs) (hnd : ¬ f ∣ m)
    (hodd : f % 2 = 1) (h2 : ¬ 2 ∣ m) : Inv N (f + 2) m fs :=
  { inv with
    below := fun p hp => (inv.below p hp).trans (by omega)
    rest := by
      intro p hp hd
      have h := inv.rest p hp hd
      rcases hp.eq_two_or_odd with h3 | h3
      · subst h3; exact absurd hd h2
      · have : p ≠ f := by rintro rfl; exact hnd hd
        omega }

theorem trialLoop_spec (rnd : Int → Int) (N inner : Nat) :
    ∀ (fuel f m : Nat) (fs : List Nat), 3 ≤ f → f % 2 = 1 → 0 < fuel → m + 3 < fuel + f → m < inner →
      (∀ k, k ∣ m → k < m → rnd k = k) → Inv N f m fs → ¬ 2 ∣ m →
      ∃ (m' : Nat) (fs' : List Nat) (f' : Nat),
        trialLoop rnd inner fuel f m (fs.map Nat.cast) = .ok ((m' : Int), fs'.map Nat.cast) ∧
        Inv N f' m' fs' ∧ m' < f' * f' := by
  intro fuel
  induction fuel with
  | zero => intro f m fs h3 _ h0; omega
  | succ fuel ih =>
    intro f m fs hf3 hodd _ hlt hlt2 hB inv h2m
    rw [trialLoop]
    by_cases hle : f * f ≤ m
    · have hle' : (f : Int) * f ≤ m := by exact_mod_cast hle
      rw [if_pos hle']
      obtain ⟨m1, fs1, e1, inv1, hnd, hdv⟩ := divideOut_spec rnd N f (by omega) inner m fs
        hlt2 hB inv
      have hm1 : m1 ≤ m := Nat.le_of_dvd inv.pos hdv
      have h2m1 : ¬ 2 ∣ m1 := fun h => h2m (h.trans hdv)
      simp only [e1, bind, Except.bind]
      have := ih (f + 2) m1 fs1 (by omega) (by omega) (by nlinarith) (by omega) (by omega)
        (fun k hk hk2 => hB k (hk.trans hdv) (by omega)) (inv1.next hnd hodd h2m1) h2m1
      exact_mod_cast this
    · have hle' : ¬ (f : Int) * f ≤ m := by exact_mod_cast hle
      rw [if_neg hle']
      exact ⟨m, fs, f, rfl, inv, by omega⟩

theorem Inv.final {N f m : Nat} {fs : List Nat} (inv : Inv N f m fs) (h : m < f * f) :
    let r := if (m : Int) > 1 then fs ++ [m] else fs
    r.prod = N ∧ (∀ p ∈ r, p.Prime) ∧ r.Pairwise (· ≤ ·) := by
  by_cases hm : 1 < m
  · have hm' : (m : Int) > 1 := by exact_mod_cast hm
    simp only [if_pos hm']
    have hprime : m.Prime := by
      by_contra hnp
      have h1 := inv.rest _ (Nat.minFac_prime (n := m) (by omega)) (Nat.minFac_dvd m)
      have h2 := Nat.minFac_sq_le_self inv.pos hnp
      have : f * f ≤ m.minFac ^ 2 := by rw [pow_two]; exact Nat.mul_le_mul h1 h1
      omega
    refine ⟨by simpa using inv.prod, ?_, ?_⟩
    · intro p hp'; rcases List.mem_append.1 hp' with h | h
      · exact inv.prime p h
      · rw [List.mem_singleton.1 h]; exact hprime
    · rw [List.pairwise_append]
      refine ⟨inv.sorted, by simp, ?_⟩
      intro a ha b hb; rw [List.mem_singleton.1 hb]
      exact (inv.below a ha).trans (inv.rest m hprime dvd_rfl)
  · have hm' : ¬ (m : Int) > 1 := by exact_mod_cast hm
    simp only [if_neg hm']
    have : m = 1 := by have := inv.pos; omega
    exact ⟨by have := inv.prod; rw [‹m = 1›] at this; simpa using this, inv.prime, inv.sorted⟩

theorem divideOut_two_zero (rnd : Int → Int) (h0 : rnd 0 = 0) :
    ∀ (fuel : Nat) (fs : List Int), divideOut rnd 2 fuel 0 fs = .error .diverge := by
  intro fuel
  induction fuel with
  | zero => intro fs; rfl
  | succ fuel ih => intro fs; rw [divideOut, if_pos (by decide)]; simpa [h0] using ih _

/-- the factorisation if all proper divisors are exactly representable -/
theorem primeFactors_core (rnd : Int → Int)
    (n : Nat) (hn : 1 ≤ n) (hB : ∀ k, k ∣ n → k < n → rnd k = k) (fuel : Nat) (hfuel : n < fuel) :
    ∃ fs : List Nat, primeFactors rnd fuel n = .ok (fs.map Nat.cast) ∧ fs.prod = n ∧
      (∀ p ∈ fs, p.Prime) ∧ fs.Pairwise (· ≤ ·) := by
  obtain ⟨m1, fs1, e1, inv1, hnd, hdv⟩ := divideOut_spec rnd n 2 le_rfl fuel n [] hfuel hB
    { pos := hn, prod := by simp, prime := by simp, sorted := by simp, below := by simp
      rest := fun p hp _ => hp.two_le }
  have hm1 : m1 ≤ n := Nat.le_of_dvd hn hdv
  have inv3 : Inv n 3 m1 fs1 :=
    { inv1 with
      below := fun p hp => (inv1.below p hp).trans (by omega)
      rest := by
        intro p hp hd
        have := hp.two_le
        have : p ≠ 2 := by rintro rfl; exact hnd hd
        omega }
  obtain ⟨m2, fs2, f2, e2, inv2, hlt⟩ := trialLoop_spec rnd n fuel fuel 3 m1 fs1 le_rfl rfl
    (by omega) (by omega) (by omega) (fun k hk hk2 => hB k (hk.trans hdv) (by omega)) inv3 hnd
  refine ⟨_, ?_, inv2.final hlt⟩
  have e1' : divideOut rnd 2 fuel (n : Int) [] = .ok ((m1 : Int), fs1.map Nat.cast) := by
    simpa using e1
  have e2' : trialLoop rnd fuel fuel 3 (m1 : Int) (fs1.map Nat.cast) = .ok ((m2 : Int), fs2.map Nat.cast) := by
    simpa using e2
  unfold primeFactors
  simp only [e1', e2', bind, Except.bind]
  by_cases h : (m2 : Int) > 1
  · simp [h]
  · simp [h]

theorem eq_primeFactorsList {n : Nat} {fs : List Nat} (h2 : fs.prod = n) (h3 : ∀ p ∈ fs, p.Prime)
    (h4 : fs.Pairwise (· ≤ ·)) : fs = n.primeFactorsList :=
  List.Perm.eq_of_pairwise (le := (· ≤ ·)) (fun a b _ _ h1 h2 => le_antisymm h1 h2) h4
    (Nat.primeFactorsList_sorted n).pairwise (Nat.primeFactorsList_unique h2 h3)

end Prolothar.PrimeFactors
