import Verif.Lemmas.Permutation
import Verif.Lemmas.RSK2
import Verif.Lemmas.Descent
import Mathlib.Tactic.NormNum

/-!
# Property theorems: random permutation, RSK, descent-type processes
-/

namespace Verif.Props
open Verif Verif.Model Verif.Spec

/-! ## C01 `uniform_permutation` -/

/-- C01 (every outcome): whatever the draws, `uniform_permutation(N)` is a rearrangement of
`0..N-1`. -/
theorem C01_uniform_permutation_is_permutation {R : Type*} [Field R] (N : ℕ) (t : List ℕ) (w : R)
    (h : (t, w) ∈ uniformPermutation R N) : t.Perm (List.range N) := by
  apply fyLoop_perm (N - 1) (List.range N) _ t w h
  simp only [List.length_range]; omega

/-- C01 (law): each of the `N!` rearrangements of `0..N-1` has probability exactly `1 / N!`, and
anything else has probability zero. -/
theorem C01_uniform_permutation_is_uniform {R : Type*} [Field R] [CharZero R] (N : ℕ)
    (t : List ℕ) [Decidable (t.Perm (List.range N))] :
    (uniformPermutation R N).prob (· = t)
      = if t.Perm (List.range N) then 1 / (N.factorial : R) else 0 := by
  classical
  rcases Nat.eq_zero_or_pos N with rfl | hN
  · by_cases h : t = []
    · subst h; simp [uniformPermutation, fyLoop, Dist.prob]
    · simp [uniformPermutation, fyLoop, Dist.prob, h, Ne.symm h]
  · unfold uniformPermutation
    rw [fyLoop_prob (N-1) (List.range N) t List.nodup_range (by simp; omega)]
    have e : N - 1 + 1 = N := by omega
    rw [e]
    by_cases h : t.Perm (List.range N)
    · have : t.length = N := by simpa using h.length_eq
      have hd : t.drop N = (List.range N).drop N := by
        rw [List.drop_eq_nil_of_le (by omega), List.drop_eq_nil_of_le (by simp)]
      rw [if_pos ⟨h, hd⟩, if_pos h]
    · rw [if_neg (fun hc => h hc.1), if_neg h]

/-- The hypotheses of C01 are met by a concrete, non-identity outcome. -/
example : ([2, 0, 1], (1 / 6 : ℚ)) ∈ uniformPermutation ℚ 3 ∧ [2, 0, 1].Perm (List.range 3) := by
  constructor
  · simp [uniformPermutation, fyLoop, Dist.bind, Dist.randint, Dist.choice, Dist.ret, swapAt,
      List.range_succ]
    norm_num
  · decide

/-! ## C02-C04 `RSK` -/

variable {α : Type*} [LinearOrder α]

/-- C02: `RSK` never raises, its two tableaux have the same shape, the first is semistandard with
the entries of the input, the second is standard. -/
theorem C02_rsk_pair_of_tableaux (seq : List α) :
    ∃ P Q, rsk seq = some (P, Q) ∧ shape P = shape Q ∧ Semistandard P ∧ Standard seq.length Q ∧
      P.flatten.Perm seq := by
  obtain ⟨P, Q, h1, h2, -, h4, h5⟩ := rskLoop_spec seq 1 [] [] trivial
  obtain ⟨i1, i2, i3, i4⟩ := h2.semistandard
  refine ⟨P, Q, h1, h2.shape_eq, ⟨h2.isPartition, i1, i2⟩, ⟨?_, i3, i4, ?_⟩, ?_⟩
  · rw [← h2.shape_eq]; exact h2.isPartition
  · simpa using h5
  · simpa using h4

/-- C03: the pair of tableaux determines the sequence. -/
theorem C03_rsk_injective (s t : List α) (h : rsk s = rsk t) : s = t := by
  obtain ⟨P, Q, e, -, -, -, hp⟩ := C02_rsk_pair_of_tableaux s
  obtain ⟨P', Q', e', -, -, -, hp'⟩ := C02_rsk_pair_of_tableaux t
  rw [e, e'] at h
  simp only [Option.some.injEq, Prod.mk.injEq] at h
  have hl : s.length = t.length := by
    rw [← hp.length_eq, ← hp'.length_eq, h.1]
  have he : rskLoop 1 [] [] s = rskLoop 1 [] [] t := by
    change rsk s = rsk t
    rw [e, e', h.1, h.2]
  exact (rskLoop_injective s t 1 [] [] [] [] trivial trivial hl he).2.2

/-- C04 (Schensted): the first row of `P` is as long as a longest non-decreasing subsequence. -/
theorem C04_rsk_first_row (seq : List α) :
    ∃ P Q, rsk seq = some (P, Q) ∧
      (∃ u, NondecSub u seq ∧ u.length = (P.headD []).length) ∧
      (∀ u, NondecSub u seq → u.length ≤ (P.headD []).length) := by
  obtain ⟨P, Q, h1, -, h3, -, -⟩ := rskLoop_spec seq 1 [] [] trivial
  have hinv := FirstRowInv.init.foldl seq
  simp only [List.headD_nil] at h3
  rw [← h3, List.nil_append] at hinv
  refine ⟨P, Q, h1, ?_, ?_⟩
  · rcases Nat.eq_zero_or_pos (P.headD []).length with h0 | hpos
    · exact ⟨[], ⟨by simp, by simp⟩, by rw [h0]; rfl⟩
    · obtain ⟨u, hu, hl, -⟩ := hinv.attained ((P.headD []).length - 1) _
        (List.getElem?_eq_getElem (by omega))
      exact ⟨u, hu, by omega⟩
  · intro u hu
    rcases List.eq_nil_or_concat u with rfl | ⟨u', v, rfl⟩
    · simp
    · obtain ⟨w, hw, -⟩ := hinv.best _ v hu (by simp)
      obtain ⟨hlt, -⟩ := List.getElem?_eq_some_iff.1 hw
      omega

/-- A concrete case: `RSK([2, 0, 1, 1])`. -/
example : rsk [2, 0, 1, 1] = some ([[0, 1, 1], [2]], [[1, 3, 4], [2]]) := by decide +kernel

/-! ## C05 `CarriesProcess` -/

/-- C05: for digits below the base, the sample is strictly increasing and contains exactly the
positions `1 ≤ i < size` at which adding the `i`-th digit to the running units digit (the sum of the
previous digits modulo the base) overflows the base. -/
theorem C05_carries_are_carry_positions (base : ℕ) (hb : 0 < base) (A : List ℕ)
    (hA : ∀ a ∈ A, a < base) :
    (carriesOf base A).Pairwise (· < ·) ∧
    ∀ i, i ∈ carriesOf base A ↔
      1 ≤ i ∧ i < A.length ∧ base ≤ (A.take i).sum % base + A.getD i 0 :=
  ⟨descents_sorted _, fun _ => mem_carriesOf hb hA⟩

/-- C05 (bookkeeping): the number of recorded carries is the amount carried out of the units column,
`⌊(sum of all digits) / base⌋`. -/
theorem C05_carries_count (base : ℕ) (hb : 0 < base) (A : List ℕ) (hA : ∀ a ∈ A, a < base) :
    (carriesOf base A).length = A.sum / base :=
  carries_count hb A hA

/-- Every draw of `CarriesProcess.sample` is a carry set of some digits below the base. -/
theorem C05_carries_every_draw {R : Type*} [Field R] (base size : ℕ) (l : List ℕ) (w : R)
    (h : (l, w) ∈ carriesSample R base size) :
    ∃ A : List ℕ, A.length = size ∧ (∀ a ∈ A, a < base) ∧ l = carriesOf base A := by
  simp only [carriesSample, Dist.map, List.mem_map, Prod.mk.injEq, Prod.exists] at h
  obtain ⟨A, w', hA, rfl, -⟩ := h
  refine ⟨A, iid_length _ _ _ hA, ?_, rfl⟩
  intro a ha
  obtain ⟨v, hv⟩ := iid_mem _ _ _ hA a ha
  simp only [Dist.randint, Dist.choice, List.mem_map, List.mem_range, Prod.mk.injEq] at hv
  obtain ⟨b, hb, rfl, -⟩ := hv
  exact hb

example : carriesOf 10 [5, 7, 0, 9] = [1, 3] ∧ (∀ a ∈ [5, 7, 0, 9], a < 10) := by decide

/-! ## C06 `DescentProcess` -/

/-- C06: the sample of `DescentProcess` is the descent set of a permutation of `0..size-1`: strictly
increasing, and `i` is recorded exactly when `1 ≤ i < size` and `σ(i) > σ(i+1)` (1-based). -/
theorem C06_descent_sample {R : Type*} [Field R] (size : ℕ) (l : List ℕ) (w : R)
    (h : (l, w) ∈ descentSample R size) :
    ∃ sigma : List ℕ, sigma.Perm (List.range size) ∧ l.Pairwise (· < ·) ∧
      ∀ i, i ∈ l ↔ 1 ≤ i ∧ i < size ∧ sigma.getD i 0 < sigma.getD (i - 1) 0 := by
  simp only [descentSample, Dist.map, List.mem_map, Prod.mk.injEq, Prod.exists] at h
  obtain ⟨t, w', ht, rfl, -⟩ := h
  have hp := C01_uniform_permutation_is_permutation size t w' ht
  refine ⟨t, hp, descents_sorted _, fun i => ?_⟩
  have hl : t.length = size := by simpa using hp.length_eq
  rw [mem_descents, hl]

example : descents [2, 0, 3, 1] = [1, 3] := by decide

/-! ## C07 `VirtualDescentProcess` -/

/-- C07: the constructor accepts exactly `x_0 ∈ [0, 1]`. -/
theorem C07_virtual_init {R : Type*} [Field R] [LinearOrder R] (x0 : R) :
    virtualInit x0 = none ↔ ¬ (0 ≤ x0 ∧ x0 ≤ 1) := by
  simp [virtualInit]

/-- C07: a sample is a strictly increasing list of indices below `size`, and for some permutation
and coins it is exactly the set `{i : ¬Y_i ∧ (Y_{i+1} ∨ σ_i > σ_{i+1})}`. -/
theorem C07_virtual_sample {R : Type*} [Field R] [LinearOrder R] (x0 : R) (size : ℕ) (l : List ℕ)
    (w : R) (h : (l, w) ∈ virtualSample x0 size) :
    l.Pairwise (· < ·) ∧ (∀ i ∈ l, i < size) ∧
    ∃ (sigma : List ℕ) (Y : List Bool), sigma.Perm (List.range (size + 1)) ∧ Y.length = size + 1 ∧
      ∀ i, i ∈ l ↔ i < size ∧ Y.getD i false = false ∧
        (Y.getD (i + 1) false = true ∨ sigma.getD (i + 1) 0 < sigma.getD i 0) := by
  simp only [virtualSample, Dist.bind, Dist.ret, List.mem_flatMap, List.mem_map, Prod.mk.injEq,
    Prod.exists, List.map_cons, List.map_nil, List.mem_singleton] at h
  obtain ⟨t, w', ht, l', w'', ⟨Y, w3, hY, rfl, -⟩, rfl, -⟩ := h
  refine ⟨?_, ?_, t, Y, C01_uniform_permutation_is_permutation _ t w' ht, iid_length _ _ _ hY, ?_⟩
  · exact List.pairwise_lt_range.filter _
  · intro i hi; exact (mem_virtualOf.1 hi).1
  · intro i; exact mem_virtualOf

example : virtualOf 3 [2, 0, 3, 1] [false, false, true, false] = [0, 1] := by decide

/-! ## C59 the advertised Bernoulli parameter -/

/-- C59 (carries): every position `1..size-1` is a carry with probability `_bernoulli_param`. -/
theorem C59_carries_marginal {R : Type*} [Field R] [CharZero R] (base size i : ℕ) (hb : 0 < base)
    (h1 : 1 ≤ i) (h2 : i < size) :
    (carriesSample R base size).prob (i ∈ ·) = carriesBernoulliParam R base := by
  classical
  obtain ⟨j, rfl⟩ : ∃ j, i = j + 1 := ⟨i - 1, by omega⟩
  unfold Dist.prob carriesSample carriesBernoulliParam
  rw [Dist.E_map, ← carryAt_succ (R := R) base hb j size 0 h2]
  apply Dist.E_congr
  intro A w hA
  have hlen := iid_length _ _ _ hA
  have hlt : ∀ a ∈ A, a < base := by
    intro a ha
    obtain ⟨v, hv⟩ := iid_mem _ _ _ hA a ha
    simp only [Dist.randint, Dist.choice, List.mem_map, List.mem_range, Prod.mk.injEq] at hv
    obtain ⟨b, hb, rfl, -⟩ := hv
    exact hb
  simp only [mem_carriesOf hb hlt]
  simp [carryAt, hlen, h2]

/-- C59 (descents): every position `1..size-1` is a descent with probability `_bernoulli_param`. -/
theorem C59_descent_marginal {R : Type*} [Field R] [CharZero R] (size i : ℕ)
    (h1 : 1 ≤ i) (h2 : i < size) :
    (descentSample R size).prob (i ∈ ·) = descentBernoulliParam R := by
  classical
  obtain ⟨j, rfl⟩ : ∃ j, i = j + 1 := ⟨i - 1, by omega⟩
  unfold Dist.prob descentSample descentBernoulliParam
  rw [Dist.E_map, ← descent_half (R := R) size j h2]
  apply Dist.E_congr
  intro t w ht
  have hp := C01_uniform_permutation_is_permutation size t w ht
  have hl : t.length = size := by simpa using hp.length_eq
  simp only [mem_descents, hl]
  simp [h2]

/-- C59 (virtual descents, the law the code really has): with `q = 2 x_0 (1 - x_0)`, every index
below `size` is kept with probability `(1 - (1 - q)²) / 2`. -/
theorem C59_virtual_marginal {R : Type*} [Field R] [LinearOrder R] [CharZero R] (x0 : R)
    (h0 : 0 ≤ x0) (h1 : x0 ≤ 1) (size i : ℕ) (hi : i < size) :
    (virtualSample x0 size).prob (i ∈ ·) = 1 / 2 * (1 - (1 - 2 * x0 * (1 - x0)) ^ 2) :=
  virtual_marginal h0 h1 size i hi

/-- C59 (finding): for `VirtualDescentProcess` the inclusion probability agrees with
`_bernoulli_param = (1 - x_0²) / 2` only for `x_0 = 1/2` (the default) and `x_0 = 1`; for any other
admissible `x_0` the advertised parameter is wrong. -/
theorem C59_virtual_bernoulli_param_wrong {R : Type*} [Field R] [LinearOrder R]
    [IsStrictOrderedRing R] (x0 : R) (h0 : 0 ≤ x0) (h1 : x0 ≤ 1) (size i : ℕ) (hi : i < size) :
    (virtualSample x0 size).prob (i ∈ ·) = virtualBernoulliParam x0 ↔ x0 = 1 / 2 ∨ x0 = 1 := by
  rw [virtual_marginal h0 h1 size i hi, virtualBernoulliParam]
  have hpos : 0 < 1 - 2 * x0 * (1 - x0) + x0 := by nlinarith [sq_nonneg (x0 - 1/2)]
  constructor
  · intro h
    have hfac : (1 - 2 * x0 * (1 - x0) + x0) * ((2 * x0 - 1) * (x0 - 1)) = 0 := by
      linear_combination (-2) * h
    rcases mul_eq_zero.1 hfac with h | h
    · exact absurd h hpos.ne'
    · rcases mul_eq_zero.1 h with h | h
      · left; linarith
      · right; linarith
  · rintro (rfl | rfl) <;> norm_num

/-- A witness of the mismatch: `x_0 = 0`: nothing is ever sampled although the parameter says 1/2. -/
example : (virtualSample (0 : ℚ) 3).prob (1 ∈ ·) = 0 ∧ virtualBernoulliParam (0 : ℚ) = 1 / 2 := by
  constructor
  · rw [virtual_marginal le_rfl (by norm_num) 3 1 (by norm_num)]; norm_num
  · norm_num [virtualBernoulliParam]

/-! ## C08 `PoissonizedPlancherel` -/

/-- C08: the recorded diagram is a partition of the length of the permutation, and the recorded
sample is a strictly decreasing list of half-integers `λ_i - i + 1/2` from which the diagram is
recovered. -/
theorem C08_plancherel_sample (sigma : List ℕ) :
    ∃ young sampl, plancherelOf sigma = some (young, sampl) ∧ IsPartition young ∧
      young.sum = sigma.length ∧ sampl.length = young.length ∧ sampl.Pairwise (· > ·) ∧
      (∀ (i l : ℕ) (s : ℚ), young[i]? = some l → sampl[i]? = some s → s = (l : ℚ) - ((i : ℚ) + 1) + 1 / 2) := by
  obtain ⟨P, Q, h1, h2, h3, h4, h5⟩ := C02_rsk_pair_of_tableaux sigma
  refine ⟨shape P, (shape P).mapIdx fun (i l : ℕ) => (l : ℚ) - ((i : ℚ) + 1 / 2), ?_, h3.shape, ?_,
    by simp, ?_, ?_⟩
  · simp [plancherelOf, h1, shape]
  · rw [← h5.length_eq, shape, List.length_flatten]
  · rw [List.pairwise_iff_getElem]
    intro i j hi hj hij
    simp only [List.getElem_mapIdx]
    have := List.pairwise_iff_getElem.1 h3.shape.2 i j (by simpa using hi) (by simpa using hj) hij
    have hq : (((shape P)[j]'(by simpa using hj) : ℕ) : ℚ) ≤ ((shape P)[i]'(by simpa using hi) : ℕ) := by
      exact_mod_cast this
    have hij' : (i : ℚ) < j := by exact_mod_cast hij
    show _ < _
    linarith
  · intro i l s hl hs
    simp only [List.getElem?_mapIdx, hl, Option.map_some, Option.some.injEq] at hs
    rw [← hs]; ring

/-- C08: two permutations with different diagrams give different samples. -/
theorem C08_plancherel_injective (s t : List ℕ) (y y' : List ℕ) (p : List ℚ)
    (hs : plancherelOf s = some (y, p)) (ht : plancherelOf t = some (y', p)) : y = y' := by
  obtain ⟨a, b, e, -, -, hl, -, hv⟩ := C08_plancherel_sample s
  obtain ⟨a', b', e', -, -, hl', -, hv'⟩ := C08_plancherel_sample t
  rw [hs] at e; rw [ht] at e'
  simp only [Option.some.injEq, Prod.mk.injEq] at e e'
  obtain ⟨rfl, rfl⟩ := e
  obtain ⟨rfl, rfl⟩ := e'
  apply List.ext_getElem (by omega)
  intro i hi hi'
  have h1 := hv i _ _ (List.getElem?_eq_getElem hi) (List.getElem?_eq_getElem (by omega))
  have h2 := hv' i _ _ (List.getElem?_eq_getElem hi') (List.getElem?_eq_getElem (by omega))
  rw [h1] at h2
  have : ((y[i] : ℕ) : ℚ) = (y'[i] : ℕ) := by linarith
  exact_mod_cast this

example : plancherelOf [2, 0, 3, 1] = some ([2, 2], [3 / 2, 1 / 2]) := by
  decide +kernel

end Verif.Props
