import Verif.Props.Utils
import Mathlib.Probability.ProbabilityMassFunction.Constructions
/-
C205: the distribution of the samples of `BufferingChoice`. Probabilities are Mathlib's probability mass functions.
-/
namespace Prolothar.Utils
variable {α : Type}

/-- `n` independent draws with the distribution `p` -/
noncomputable def iid (p : PMF α) : Nat → PMF (List α)
  | 0 => PMF.pure []
  | n + 1 => p.bind fun x => (iid p n).map (x :: ·)

/-- a generator that returns the given batches one after the other: `Generator.choice` of numpy (random_utils.py 63-64), if the batches are
what it is going to draw. It must be asked for as many elements as the batch has. -/
def serve (_ : List α) (size : Int) : List (List α) → Py (List α × List (List α))
  | [] => .error .value
  | b :: rest => if size = b.length then .ok (b, rest) else .error .value

/-- constructor and `n` calls of `next_sample`, random_utils.py 25-65 -/
def drawSamples (options : List α) (nProbs : Nat) (size : Int) (n : Nat) (batches : List (List α)) : Py (List α) :=
  match newChoice options nProbs size batches with
  | .ok c => (samples serve n c).1
  | .error e => .error e

theorem samples_serve (options : List α) (size : Int) : ∀ (n : Nat) (buffer : List α) (batches : List (List α)),
    1 ≤ size → (∀ b ∈ batches, size = b.length) → n ≤ buffer.length + batches.flatten.length →
    (samples serve n ⟨options, size, batches, buffer⟩).1 = .ok ((buffer ++ batches.flatten).take n)
  | 0, _, _, _, _, _ => by simp [samples]
  | n + 1, x :: buffer, batches, hs, hb, hn => by
    have ih := samples_serve options size n buffer batches hs hb (by simp only [List.length_cons] at hn; omega)
    rw [samples]
    have hnext : nextSample serve (⟨options, size, batches, x :: buffer⟩ : Choice α (List (List α))) = (.ok x, ⟨options, size, batches, buffer⟩) := rfl
    rw [hnext]
    dsimp only
    revert ih
    rcases samples serve n (⟨options, size, batches, buffer⟩ : Choice α (List (List α))) with ⟨e | xs, c⟩
    · intro ih; cases ih
    · intro ih; cases ih; rfl
  | n + 1, [], [], hs, hb, hn => by simp at hn
  | n + 1, [], [] :: batches, hs, hb, hn => by
    have := hb [] (by simp)
    simp at this
    omega
  | n + 1, [], (x :: b) :: batches, hs, hb, hn => by
    have ih := samples_serve options size n b batches hs (fun c hc => hb c (by simp [hc]))
      (by simp only [List.length_nil, List.flatten_cons, List.length_append, List.length_cons] at hn; omega)
    rw [samples]
    have hnext : nextSample serve (⟨options, size, (x :: b) :: batches, []⟩ : Choice α (List (List α))) = (.ok x, ⟨options, size, batches, b⟩) := by
      have hsz := hb (x :: b) (by simp)
      simp only [nextSample, serve, if_pos hsz]
    rw [hnext]
    dsimp only
    revert ih
    rcases samples serve n (⟨options, size, batches, b⟩ : Choice α (List (List α))) with ⟨e | xs, c⟩
    · intro ih; cases ih
    · intro ih; cases ih; rfl

theorem map_congr_support {β : Type} {p : PMF α} {f g : α → β} (h : ∀ x ∈ p.support, f x = g x) : p.map f = p.map g := by
  unfold PMF.map
  ext b
  rw [PMF.bind_apply, PMF.bind_apply]
  refine tsum_congr fun a => ?_
  by_cases ha : p a = 0
  · rw [ha, zero_mul, zero_mul]
  · rw [Function.comp_apply, Function.comp_apply, h a ((PMF.mem_support_iff _ _).2 ha)]

/-- all elements of the list of draws are possible, and there are `n` -/
theorem iid_support {p : PMF α} : ∀ {n : Nat} {l : List α}, l ∈ (iid p n).support → l.length = n ∧ ∀ x ∈ l, x ∈ p.support
  | 0, l, h => by
    rw [iid, PMF.mem_support_pure_iff] at h
    subst h; simp
  | n + 1, l, h => by
    rw [iid, PMF.mem_support_bind_iff] at h
    obtain ⟨x, hx, h⟩ := h
    rw [PMF.support_map] at h
    obtain ⟨l', hl', rfl⟩ := h
    obtain ⟨i1, i2⟩ := iid_support hl'
    exact ⟨by simp [i1], by simpa using ⟨hx, i2⟩⟩

theorem map_bind' {β γ : Type} (p : PMF α) (f : α → PMF β) (g : β → γ) : (p.bind f).map g = p.bind fun x => (f x).map g :=
  PMF.map_bind p f g

/-- draws one after the other -/
theorem iid_append (p : PMF α) : ∀ m n, (iid p (m + n)) = (iid p m).bind fun l => (iid p n).map (l ++ ·)
  | 0, n => by
    rw [iid, PMF.pure_bind, Nat.zero_add]
    exact (PMF.map_id _).symm
  | m + 1, n => by
    rw [show m + 1 + n = (m + n) + 1 by omega, iid, iid, PMF.bind_bind]
    congr 1
    funext x
    rw [iid_append p m n, map_bind', PMF.bind_map]
    congr 1
    funext l
    rw [Function.comp_apply, PMF.map_comp]
    rfl

theorem iid_take (p : PMF α) (n k : Nat) : (iid p (n + k)).map (List.take n) = iid p n := by
  rw [iid_append, map_bind']
  have h : ∀ l ∈ (iid p n).support, ((iid p k).map (l ++ ·)).map (List.take n) = PMF.pure l := by
    intro l hl
    rw [PMF.map_comp]
    have hf : (List.take n ∘ fun x => l ++ x) = Function.const _ l := by
      funext x
      simp [← (iid_support hl).1]
    rw [hf, PMF.map_const]
  have h2 : (iid p n).bind (fun l => ((iid p k).map (l ++ ·)).map (List.take n)) = (iid p n).bind PMF.pure := by
    ext b
    rw [PMF.bind_apply, PMF.bind_apply]
    refine tsum_congr fun a => ?_
    by_cases ha : (iid p n) a = 0
    · rw [ha, zero_mul, zero_mul]
    · rw [h a ((PMF.mem_support_iff _ _).2 ha)]
  rw [h2, PMF.bind_pure]

theorem iid_flatten (p : PMF α) (size : Nat) : ∀ m, (iid (iid p size) m).map List.flatten = iid p (m * size)
  | 0 => by
    rw [iid, PMF.pure_map, Nat.zero_mul, iid]; rfl
  | m + 1 => by
    rw [iid, map_bind', show (m + 1) * size = size + m * size by rw [Nat.add_mul, Nat.one_mul, Nat.add_comm], iid_append]
    congr 1
    funext l
    rw [← iid_flatten p size m, PMF.map_comp, PMF.map_comp]
    rfl

/-- C205: if numpy's generator returns batches of independent draws with the distribution `p`, then the samples that a caller gets are
independent draws with the distribution `p`, whatever the buffer size is: the buffer can not be noticed. (`m` batches are enough for `n`
samples.) -/
theorem C205_samples (p : PMF α) (options : List α) {size : Nat} (hs : 1 ≤ size) {n m : Nat} (hn : n ≤ m * size) :
    (iid (iid p size) m).map (drawSamples options options.length size n) = (iid p n).map .ok := by
  have h1 : (iid (iid p size) m).map (drawSamples options options.length size n) =
      (iid (iid p size) m).map fun bs => .ok (bs.flatten.take n) := by
    refine map_congr_support fun bs hbs => ?_
    obtain ⟨b1, b2⟩ := iid_support hbs
    have hlen : ∀ b ∈ bs, b.length = size := fun b hb => (iid_support (b2 b hb)).1
    unfold drawSamples
    rw [(C132_constructor options options.length (size : Int) bs).1 ⟨rfl, by omega⟩]
    dsimp only
    rw [samples_serve options size n [] bs]
    · rfl
    · omega
    · intro b hb
      rw [hlen b hb]
    · have : bs.flatten.length = m * size := by
        rw [List.length_flatten, List.map_congr_left hlen, List.map_const', List.sum_replicate, b1]
        simp
      rw [this]
      simpa using hn
  rw [h1]
  obtain ⟨k, hk⟩ : ∃ k, m * size = n + k := ⟨m * size - n, by omega⟩
  have h2 : (iid (iid p size) m).map (fun bs => (Except.ok (bs.flatten.take n) : Py (List α))) =
      (((iid (iid p size) m).map List.flatten).map (List.take n)).map .ok := by
    rw [PMF.map_comp, PMF.map_comp]; rfl
  rw [h2, iid_flatten, hk, iid_take]

/-- C205: so the probability to get the samples `xs` is the product of the probabilities of its elements -/
theorem C205_probability (p : PMF α) (options : List α) {size : Nat} (hs : 1 ≤ size) (xs : List α) {m : Nat} (hn : xs.length ≤ m * size) :
    ((iid (iid p size) m).map (drawSamples options options.length size xs.length)) (.ok xs) = (xs.map p).prod := by
  rw [C205_samples p options hs hn]
  have hok : ∀ q : PMF (List α), (q.map (Except.ok : List α → Py (List α))) (.ok xs) = q xs := by
    intro q
    classical
    rw [PMF.map_apply, tsum_eq_single xs]
    · simp
    · intro b hb
      rw [if_neg]
      intro hc
      exact hb (Except.ok.inj hc).symm
  rw [hok]
  clear hok hn
  induction xs with
  | nil => simp [iid]
  | cons x xs ih =>
    classical
    rw [List.length_cons, iid, PMF.bind_apply, tsum_eq_single x]
    · rw [PMF.map_apply, tsum_eq_single xs]
      · rw [if_pos rfl, ih, List.map_cons, List.prod_cons]
      · intro b hb
        rw [if_neg]
        intro hc
        exact hb (List.cons.inj hc).2.symm
    · intro y hy
      rw [PMF.map_apply, ENNReal.tsum_eq_zero.2, mul_zero]
      intro l
      rw [if_neg]
      intro hc
      exact hy (List.cons.inj hc).1.symm

/-- C205: with the probability `w i` for the option with the index `i` (options may be equal), each sample is `x` with the sum of the
probabilities of the options that equal `x`: here for the sample after any first samples -/
theorem C205_next [DecidableEq α] (options : List α) (w : PMF (Fin options.length)) {size : Nat} (hs : 1 ≤ size) (xs : List α) (x : α) {m : Nat}
    (hn : xs.length + 1 ≤ m * size) :
    ((iid (iid (w.map options.get) size) m).map (drawSamples options options.length size (xs ++ [x]).length)) (.ok (xs ++ [x])) =
      ((iid (iid (w.map options.get) size) m).map (drawSamples options options.length size xs.length)) (.ok xs) *
        ∑ i : Fin options.length, if x = options[i] then w i else 0 := by
  rw [C205_probability _ options hs (xs ++ [x]) (by simpa using hn), C205_probability _ options hs xs (by omega), List.map_append,
    List.prod_append]
  congr 1
  rw [List.map_singleton, List.prod_singleton, PMF.map_apply, tsum_fintype]
  refine Finset.sum_congr rfl fun i _ => ?_
  by_cases hx : x = options[i]
  · rw [if_pos hx, if_pos (by simpa using hx)]
  · rw [if_neg hx, if_neg (by simpa using hx)]

/-- C205: in particular the probability of any samples does not depend on the buffer size -/
theorem C205_buffer_size (p : PMF α) (options : List α) {size size' : Nat} (hs : 1 ≤ size) (hs' : 1 ≤ size') {n m m' : Nat}
    (hn : n ≤ m * size) (hn' : n ≤ m' * size') :
    (iid (iid p size) m).map (drawSamples options options.length size n) =
      (iid (iid p size') m').map (drawSamples options options.length size' n) := by
  rw [C205_samples p options hs hn, C205_samples p options hs' hn']

/-- the hypotheses are met: three samples of two options with a buffer of two -/
example : ((iid (iid (PMF.pure true) 2) 2).map (drawSamples [true, false] 2 2 3)) (.ok [true, true, true]) = 1 :=
  (C205_probability (PMF.pure true) [true, false] (size := 2) (by omega) [true, true, true] (m := 2) (by simp)).trans (by simp)

/-- the batches really are split at the boundaries of the buffer -/
example : drawSamples [1, 2, 3] 3 2 3 [[3, 1], [2, 2]] = .ok [3, 1, 2] := by decide

end Prolothar.Utils
