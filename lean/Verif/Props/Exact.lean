import Verif.Lemmas.Selection
import Verif.Lemmas.GenericLU
import Verif.Lemmas.Nonneg
import Mathlib.Algebra.BigOperators.Fin

/-!
# Property theorems: elementary symmetric polynomials, eigenvector selection, generic sampler
-/

set_option linter.unusedSectionVars false

namespace Verif.Props
open Verif Verif.Model Verif.Spec

section
variable {R : Type*} [Field R] [LinearOrder R] [IsStrictOrderedRing R]

/-! ## C14 -/

/-- C14: entry `[k, n]` of the table is the `k`-th elementary symmetric polynomial of the first `n`
eigenvalues (sum over the `k`-subsets of the product), and exactly the entries `k ≤ size`, `n ≤ N`
exist. -/
theorem C14_elementary_symmetric_polynomials (N : ℕ) (lam : ℕ → R) (size k n : ℕ) :
    elementarySymmetricPolynomials N lam size k n
      = if k ≤ size ∧ n ≤ N then
          some (∑ J ∈ (Finset.range n).powersetCard k, ∏ j ∈ J, lam j) else none := by
  split
  · rename_i h; exact esp_eq N lam size k n h.1 h.2
  · rename_i h; rw [elementarySymmetricPolynomials, if_neg h]

example : elementarySymmetricPolynomials 3 (fun i => (i : ℚ) + 2) 2 2 3 = some 26 := by
  rw [C14_elementary_symmetric_polynomials, if_pos (by decide)]
  congr 1
  rw [show (Finset.range 3).powersetCard 2 = {{0,1},{0,2},{1,2}} from by decide]
  rw [Finset.sum_insert (by decide), Finset.sum_insert (by decide), Finset.sum_singleton,
    Finset.prod_pair (by decide), Finset.prod_pair (by decide), Finset.prod_pair (by decide)]
  norm_num

/-! ## C15, C16 -/

/-- number of eigenvalues above the tolerance used by the rank check -/
abbrev rankAbove (N : ℕ) (lam : ℕ → R) (tol : R) : ℕ :=
  ((List.range N).filter fun i => decide (lam i > tol)).length

theorem esum_pos_of_rank {N : ℕ} {lam : ℕ → R} {tol : R} (htol : 0 ≤ tol)
    (hlam : ∀ i < N, 0 ≤ lam i) {k : ℕ} (hk : k ≤ rankAbove N lam tol) : 0 < esum lam k N := by
  rw [esum_pos_iff hlam]
  refine le_trans hk ?_
  apply List.Sublist.length_le
  apply List.monotone_filter_right
  intro i hi
  simp only [decide_eq_true_eq] at hi ⊢
  exact lt_of_le_of_lt htol hi

/-- law of the selector, for every functional of the outcome -/
theorem kDppEigVecsSelector_E (N : ℕ) (lam : ℕ → R) (hlam : ∀ i < N, 0 ≤ lam i) (tol : R)
    (htol : 0 ≤ tol) (k : ℕ) (hk : 1 ≤ k) (hr : k ≤ rankAbove N lam tol)
    (Epoly : Option (Table R))
    (hE : ∀ T, Epoly = some T → ∀ k' ≤ k, ∀ n ≤ N,
      T k' n = some (∑ J ∈ (Finset.range n).powersetCard k', ∏ j ∈ J, lam j))
    (f : Outcome (List ℕ) → R) :
    esum lam k N * (kDppEigVecsSelector N lam tol k Epoly).E f
      = ∑ J ∈ (Finset.range N).powersetCard k, (∏ j ∈ J, lam j) * f (Outcome.ok (sl J)) := by
  unfold kDppEigVecsSelector
  rw [if_neg (by exact not_lt.2 hr), Dist.E_map]
  have hT : ∀ k' ≤ k, ∀ n' ≤ N,
      (Epoly.getD (elementarySymmetricPolynomials N lam k)) k' n' = some (esum lam k' n') := by
    intro k' hk' n' hn'
    cases Epoly with
    | none => exact esp_eq N lam k k' n' hk' hn'
    | some T => exact hE T rfl k' hk' n' hn'
  have := kSelLoop_E lam (Epoly.getD (elementarySymmetricPolynomials N lam k)) N k hk hT hlam []
    (List.replicate k 0) (by simp) (fun o => f (match o with
      | some l => Outcome.ok l
      | none => Outcome.indexError))
  simp only [List.append_nil] at this
  exact this

theorem kSelLoop_nonneg (lam : ℕ → R) (E : Table R) (n k : ℕ) (ind : List ℕ) :
    Dist.Nonneg (kSelLoop lam E n k ind) := by
  induction n generalizing k ind with
  | zero => rw [kSelLoop]; exact Dist.Nonneg.ret _
  | succ n ih =>
    rw [kSelLoop]
    split
    · apply Dist.Nonneg.bind (Dist.Nonneg.bern _)
      intro b
      split
      · split
        · exact Dist.Nonneg.ret _
        · split
          · exact Dist.Nonneg.ret _
          · exact ih _ _
      · exact ih _ _
    · exact Dist.Nonneg.ret _

theorem kDppEigVecsSelector_nonneg (N : ℕ) (lam : ℕ → R) (tol : R) (k : ℕ)
    (Epoly : Option (Table R)) : Dist.Nonneg (kDppEigVecsSelector N lam tol k Epoly) := by
  unfold kDppEigVecsSelector
  split
  · exact Dist.Nonneg.ret _
  · exact Dist.Nonneg.map (kSelLoop_nonneg _ _ _ _ _)

/-- C15 (success): with at least `k ≥ 1` eigenvalues above the tolerance, every possible outcome of
the selector is a strictly increasing list of exactly `k` valid indices, of positive eigenvalues:
no error, no leftover slot. `Epoly` may be a cached table as long as it covers `k`. -/
theorem C15_k_selector_outcome (N : ℕ) (lam : ℕ → R) (hlam : ∀ i < N, 0 ≤ lam i) (tol : R)
    (htol : 0 ≤ tol) (k : ℕ) (hk : 1 ≤ k) (hr : k ≤ rankAbove N lam tol)
    (Epoly : Option (Table R))
    (hE : ∀ T, Epoly = some T → ∀ k' ≤ k, ∀ n ≤ N,
      T k' n = some (∑ J ∈ (Finset.range n).powersetCard k', ∏ j ∈ J, lam j))
    (o : Outcome (List ℕ)) (ho : (kDppEigVecsSelector N lam tol k Epoly).Possible o) :
    ∃ l : List ℕ, o = Outcome.ok l ∧ l.length = k ∧ l.Pairwise (· < ·) ∧
      ∀ i ∈ l, i < N ∧ 0 < lam i := by
  classical
  by_contra hc
  have hpos := esum_pos_of_rank htol hlam hr
  refine Dist.not_possible_of_prob_zero (kDppEigVecsSelector_nonneg N lam tol k Epoly)
    (p := fun o => ¬ ∃ l : List ℕ, o = Outcome.ok l ∧ l.length = k ∧ l.Pairwise (· < ·) ∧
      ∀ i ∈ l, i < N ∧ 0 < lam i) ?_ ho hc
  rw [Dist.prob_eq]
  have h := kDppEigVecsSelector_E N lam hlam tol htol k hk hr Epoly hE
    (fun a => if ¬ ∃ l : List ℕ, a = Outcome.ok l ∧ l.length = k ∧ l.Pairwise (· < ·) ∧
      (∀ i ∈ l, i < N ∧ 0 < lam i) then (1:R) else 0)
  have h0 : ∑ J ∈ (Finset.range N).powersetCard k, (∏ j ∈ J, lam j) *
      (if ¬ ∃ l : List ℕ, Outcome.ok (sl J) = Outcome.ok l ∧ l.length = k ∧ l.Pairwise (· < ·) ∧
      (∀ i ∈ l, i < N ∧ 0 < lam i) then (1:R) else 0) = 0 := by
    apply Finset.sum_eq_zero
    intro J hJ
    obtain ⟨h1, h2⟩ := Finset.mem_powersetCard.1 hJ
    by_cases hz : ∏ j ∈ J, lam j = 0
    · rw [hz, zero_mul]
    · rw [if_neg, mul_zero]
      rw [not_not]
      refine ⟨sl J, rfl, by simpa using h2, Finset.sortedLT_sort J |>.pairwise, ?_⟩
      intro i hi
      have hiJ : i ∈ J := (Finset.mem_sort _).1 hi
      have hiN := Finset.mem_range.1 (h1 hiJ)
      exact ⟨hiN, lt_of_le_of_ne (hlam i hiN) (Ne.symm (Finset.prod_ne_zero_iff.1 hz i hiJ))⟩
  rw [h0] at h
  exact (mul_eq_zero.1 h).resolve_left hpos.ne'

/-- C15 (failure): with fewer than `k` eigenvalues above the tolerance the selector raises
`ValueError`, and does so only then. -/
theorem C15_k_selector_rank_check (N : ℕ) (lam : ℕ → R) (tol : R) (k : ℕ)
    (Epoly : Option (Table R)) :
    (kDppEigVecsSelector N lam tol k Epoly).Possible Outcome.valueError
      ↔ rankAbove N lam tol < k := by
  unfold kDppEigVecsSelector
  by_cases h : k > rankAbove N lam tol
  · rw [if_pos h]
    simp only [Dist.Possible.ret_iff, true_iff]; exact h
  · rw [if_neg h, Dist.Possible.map_iff]
    constructor
    · rintro ⟨o, -, ho⟩
      cases o <;> simp at ho
    · intro hc; exact absurd hc h

/-- C16: the selector returns the increasing list of `J` with probability `∏_{j ∈ J} λ_j / e_k(λ)`,
for every `J` of size `k`. -/
theorem C16_k_selector_law (N : ℕ) (lam : ℕ → R) (hlam : ∀ i < N, 0 ≤ lam i) (tol : R)
    (htol : 0 ≤ tol) (k : ℕ) (hk : 1 ≤ k) (hr : k ≤ rankAbove N lam tol)
    (Epoly : Option (Table R))
    (hE : ∀ T, Epoly = some T → ∀ k' ≤ k, ∀ n ≤ N,
      T k' n = some (∑ J ∈ (Finset.range n).powersetCard k', ∏ j ∈ J, lam j))
    (J : Finset ℕ) (hJ : J ⊆ Finset.range N) (hJk : J.card = k) :
    (kDppEigVecsSelector N lam tol k Epoly).prob (fun o => ∃ l, o = Outcome.ok l ∧ l.toFinset = J)
      = (∏ j ∈ J, lam j) / ∑ J' ∈ (Finset.range N).powersetCard k, ∏ j ∈ J', lam j := by
  classical
  have hpos := esum_pos_of_rank htol hlam hr
  rw [eq_div_iff (by exact hpos.ne'), mul_comm, Dist.prob_eq]
  refine (kDppEigVecsSelector_E N lam hlam tol htol k hk hr Epoly hE _).trans ?_
  rw [Finset.sum_eq_single J]
  · rw [if_pos ⟨sl J, rfl, Finset.sort_toFinset _ _⟩, mul_one]
  · intro J' _ hne
    rw [if_neg, mul_zero]
    rintro ⟨l, hl, rfl⟩
    apply hne
    simp only [Outcome.ok.injEq] at hl
    rw [← hl, Finset.sort_toFinset]
  · intro h
    exact absurd (Finset.mem_powersetCard.2 ⟨hJ, hJk⟩) h

/-- A concrete case of C15/C16: three eigenvalues, `k = 2`. -/
example : (kDppEigVecsSelector 3 (fun i => (i : ℚ) + 2) 0 2 none).prob
    (fun o => ∃ l, o = Outcome.ok l ∧ l.toFinset = {0, 2}) = 8 / 26 := by
  rw [C16_k_selector_law 3 _ (fun i _ => by positivity) 0 le_rfl 2 (by norm_num)
    (by simp [rankAbove, List.range_succ]; norm_num) none (by simp) {0,2} (by decide) (by decide)]
  rw [show (Finset.range 3).powersetCard 2 = {{0,1},{0,2},{1,2}} from by decide]
  rw [Finset.sum_insert (by decide), Finset.sum_insert (by decide), Finset.sum_singleton,
    Finset.prod_pair (by decide), Finset.prod_pair (by decide), Finset.prod_pair (by decide)]
  norm_num

/-- Finding (C15, boundary `size = 0`): for `k = 0` the selector can fail with an `IndexError`
instead of returning an empty selection, as soon as the last eigenvalue is positive. -/
theorem C15_k_selector_size_zero_raises (N : ℕ) (lam : ℕ → R) (tol : R) (hl : 0 < lam N) :
    (kDppEigVecsSelector (N + 1) lam tol 0 none).Possible Outcome.indexError := by
  unfold kDppEigVecsSelector
  rw [if_neg (by simp), Dist.Possible.map_iff]
  refine ⟨none, ?_, rfl⟩
  rw [Option.getD_none, kSelLoop]
  simp only [Nat.zero_sub, esp_eq (N+1) lam 0 0 _ le_rfl (Nat.le_succ N),
    esp_eq (N+1) lam 0 0 _ le_rfl (le_refl (N+1)), esum_zero]
  rw [Dist.Possible.bind_iff]
  refine ⟨true, Dist.Possible.bern_iff.2 (by simpa using hl), ?_⟩
  simp [Dist.Possible.ret_iff]

/-! ## C17 -/

/-- C17: `dpp_eig_vecs_selector` keeps exactly the eigenvectors of `J` with probability
`∏_{j ∈ J} λ_j ∏_{j ∉ J} (1 - λ_j)`. -/
theorem C17_selector_law (n : ℕ) (lam : ℕ → R) (h : ∀ i < n, 0 ≤ lam i ∧ lam i ≤ 1)
    (J : Finset ℕ) (hJ : J ⊆ Finset.range n) :
    (dppEigVecsSelector lam n).prob (fun l => l.toFinset = J)
      = (∏ j ∈ J, lam j) * ∏ j ∈ Finset.range n \ J, (1 - lam j) := by
  classical
  rw [Dist.prob_eq, dppEigVecsSelector_E lam n h, Finset.sum_eq_single J]
  · rw [if_pos (Finset.sort_toFinset _ _), mul_one]
  · intro J' _ hne
    rw [if_neg, mul_zero]
    rw [Finset.sort_toFinset]; exact hne
  · intro hc
    exact absurd (Finset.mem_powerset.2 hJ) hc

/-- C17: the selected list is strictly increasing, without repetition, for every outcome of the
draws. -/
theorem C17_selector_every_draw (n : ℕ) (lam : ℕ → R) (l : List ℕ) (w : R)
    (h : (l, w) ∈ dppEigVecsSelector lam n) : l.Pairwise (· < ·) ∧ ∀ i ∈ l, i < n := by
  induction n generalizing l w with
  | zero =>
    simp only [dppEigVecsSelector, Dist.ret, List.mem_singleton, Prod.mk.injEq] at h
    obtain ⟨rfl, -⟩ := h; simp
  | succ n ih =>
    rw [dppEigVecsSelector] at h
    obtain ⟨⟨l', v⟩, h1, h2⟩ := List.mem_flatMap.1 h
    obtain ⟨⟨l2, v2⟩, h3, h4⟩ := List.mem_map.1 h2
    obtain ⟨⟨b, v3⟩, h5, h6⟩ := List.mem_flatMap.1 h3
    simp only [Dist.ret, List.map_cons, List.map_nil, List.mem_singleton, Prod.mk.injEq] at h4 h6
    obtain ⟨rfl, -⟩ := h4
    obtain ⟨rfl, -⟩ := h6
    obtain ⟨i1, i2⟩ := ih l' v h1
    cases b
    · simp only [Bool.false_eq_true, if_false]
      exact ⟨i1, fun i hi => Nat.lt_succ_of_lt (i2 i hi)⟩
    · simp only [if_true]
      constructor
      · rw [List.pairwise_append]
        refine ⟨i1, by simp, ?_⟩
        intro a ha b hb
        simp only [List.mem_singleton] at hb
        subst hb; exact i2 a ha
      · intro i hi
        rcases List.mem_append.1 hi with h | h
        · exact Nat.lt_succ_of_lt (i2 i h)
        · simp only [List.mem_singleton] at h; omega

/-- C17: the probabilities over all subsets sum to one. -/
theorem C17_selector_total (n : ℕ) (lam : ℕ → R) (h : ∀ i < n, 0 ≤ lam i ∧ lam i ≤ 1) :
    ∑ J ∈ (Finset.range n).powerset,
      (dppEigVecsSelector lam n).prob (fun l => l.toFinset = J) = 1 := by
  rw [Finset.sum_congr rfl (fun J hJ => C17_selector_law n lam h J (Finset.mem_powerset.1 hJ))]
  have := Finset.prod_add lam (fun i => 1 - lam i) (Finset.range n)
  rw [← this]
  simp

example : (dppEigVecsSelector (fun i => 1 / ((i:ℚ) + 2)) 3).prob (fun l => l.toFinset = {0, 2})
    = 1 / 12 := by
  rw [C17_selector_law 3 _ (fun i _ => ⟨by positivity, by rw [div_le_one (by positivity)]; have : (0:ℚ) ≤ i := by positivity
                                                          linarith⟩) _ (by decide)]
  rw [show Finset.range 3 \ {0, 2} = {1} by decide, Finset.prod_pair (by decide), Finset.prod_singleton]
  norm_num

end

/-! ## C18, C19, C60 generic sampler -/

section
variable {R : Type*} [Field R] [LinearOrder R] [IsStrictOrderedRing R] {N : ℕ}

/-- C18 (every outcome): the returned list is strictly increasing (a sublist of `0..N-1`). -/
theorem C18_generic_sampler_sorted (K : Matrix (Fin N) (Fin N) R) (o) (w : R)
    (h : (o, w) ∈ dppSamplerGenericKernel K) : o.1.Pairwise (· < ·) :=
  List.Pairwise.sublist (luLoop_sublist _ _ _ _ h) (List.pairwise_lt_finRange N)

/-- C18 (law): if the numbers `(-1)^{|Sᶜ|} det(K - I_{Sᶜ})` are all non-negative (that is, if a DPP
with correlation kernel `K` exists at all), the sampler outputs exactly the set `S` with that
probability, for every `S`.  `K` need not be symmetric and pivots may vanish. -/
theorem C18_generic_sampler_law (K : Matrix (Fin N) (Fin N) R)
    (hK : ∀ S, 0 ≤ exactProb K S) (S : Finset (Fin N)) :
    (dppSamplerGenericKernel K).prob (fun o => o.1.toFinset = S) = exactProb K S := by
  have hu : (List.finRange N).toFinset = Finset.univ := by ext; simp
  have h := luLoop_prob (List.finRange N) (List.pairwise_lt_finRange N) K
    (by intro T _; rw [hu, minor_mixRows_univ]; exact hK T) S (by rw [hu]; exact Finset.subset_univ _)
  rw [hu, minor_mixRows_univ] at h
  exact h

/-- C19: for every `T`, the sampler outputs a superset of `T` with probability `det K_T`: it is the
DPP with correlation kernel `K`. -/
theorem C19_generic_sampler_inclusion (K : Matrix (Fin N) (Fin N) R)
    (hK : ∀ S, 0 ≤ exactProb K S) (T : Finset (Fin N)) :
    (dppSamplerGenericKernel K).prob (fun o => T ⊆ o.1.toFinset) = minor K T := by
  rw [sum_superset_prob, ← sum_mixRows K T Finset.univ (Finset.subset_univ _)]
  apply Finset.sum_congr rfl
  intro S _
  rw [C18_generic_sampler_law K hK, minor_mixRows_univ]

/-- C18/C19 hypothesis: every real symmetric contraction (`0 ≤ K ≤ I` as quadratic forms) is
covered. -/
theorem C18_symmetric_contraction (K : Matrix (Fin N) (Fin N) R) (hs : ∀ i j, K i j = K j i)
    (h0 : ∀ x : Fin N → R, 0 ≤ ∑ i, ∑ j, x i * K i j * x j)
    (h1 : ∀ x : Fin N → R, ∑ i, ∑ j, x i * K i j * x j ≤ ∑ i, x i * x i) (S : Finset (Fin N)) :
    0 ≤ exactProb K S := by
  rw [← minor_mixRows_univ]
  apply mixRows_nonneg _ K hs h0
  intro x
  rw [quad_one]
  have := h1 x
  simp only [quad]
  have e : ∑ i, x i ^ 2 = ∑ i, x i * x i := Finset.sum_congr rfl (fun i _ => by ring)
  rw [e]
  linarith

/-- C60: for every possible outcome `(X, A)` of the generic sampler, the returned matrix stores the
`LU` factorisation of `K - I_{Xᶜ}`: with `L` its strictly lower part plus the identity and `U` its
upper part, `L U = K - I_{Xᶜ}`. -/
theorem C60_generic_sampler_lu (K : Matrix (Fin N) (Fin N) R)
    (o : List (Fin N) × Matrix (Fin N) (Fin N) R)
    (ho : (dppSamplerGenericKernel K).Possible o) :
    (Matrix.of fun a s => if s < a then o.2 a s else if a = s then 1 else 0) *
        (Matrix.of fun s c => if s ≤ c then o.2 s c else 0)
      = K - Matrix.diagonal (fun i => if i ∈ o.1 then 0 else 1) := by
  obtain ⟨w, hw, hne⟩ := ho
  ext a c
  have h := luLoop_recon (List.finRange N) (List.pairwise_lt_finRange N) (by simp) K o w hw hne a c
  have hu : (List.finRange N).toFinset = Finset.univ := by ext; simp
  rw [hu] at h
  simp only [recon, Finset.compl_empty, Finset.notMem_empty, false_and, if_false, add_zero,
    Finset.compl_univ, Finset.sum_empty, Finset.mem_univ, true_and, if_true, zero_add,
    List.mem_finRange] at h
  rw [Matrix.mul_apply, Matrix.sub_apply, Matrix.diagonal_apply]
  simp only [Matrix.of_apply]
  rw [h]
  congr 1
  by_cases hac : a = c
  · subst hac
    by_cases hm : a ∈ o.1 <;> simp [hm]
  · simp [hac]

/-- A concrete non-symmetric kernel meeting the hypothesis of C18 and C19. -/
example : let K : Matrix (Fin 2) (Fin 2) ℚ := !![1/2, 1/4; -1/4, 1/2]
    (∀ S, 0 ≤ exactProb K S) ∧
      (dppSamplerGenericKernel K).prob (fun o => o.1.toFinset = {0, 1}) = 5 / 16 := by
  have hK : ∀ S, 0 ≤ exactProb (!![1/2, 1/4; -1/4, 1/2] : Matrix (Fin 2) (Fin 2) ℚ) S := by
    intro S
    rw [exactProb, Matrix.det_fin_two]
    have : S = ∅ ∨ S = {0} ∨ S = {1} ∨ S = {0,1} := by revert S; decide
    rcases this with rfl | rfl | rfl | rfl
    · rw [show ((∅ : Finset (Fin 2))ᶜ).card = 2 by decide]; simp; norm_num
    · rw [show (({0} : Finset (Fin 2))ᶜ).card = 1 by decide]; simp; norm_num
    · rw [show (({1} : Finset (Fin 2))ᶜ).card = 1 by decide]; simp; norm_num
    · rw [show (({0,1} : Finset (Fin 2))ᶜ).card = 0 by decide]; simp; norm_num
  refine ⟨hK, ?_⟩
  rw [C18_generic_sampler_law _ hK, exactProb, Matrix.det_fin_two,
    show (({0,1} : Finset (Fin 2))ᶜ).card = 0 by decide]
  simp; norm_num

end
end Verif.Props
