import Verif.Spec.TracyWidom
import Mathlib.Analysis.Matrix.Spectrum
import Mathlib.Analysis.Matrix.PosDef
import Mathlib.Analysis.SpecialFunctions.Integrals.Basic
import Mathlib.MeasureTheory.Integral.IntervalIntegral.Basic
import Mathlib.Algebra.Polynomial.Roots
import Mathlib.Data.Finset.Sort
import Mathlib.Topology.Algebra.Polynomial
import Mathlib.Data.Fin.Tuple.Sort
import Mathlib.Algebra.Polynomial.BigOperators

/-!
Existence of Gauss-Legendre quadratures (the contract on `leggauss` can be met for every number of nodes).
-/

set_option linter.unusedVariables false

namespace Verif.Lemmas.TW
open MeasureTheory Verif.Spec Matrix Polynomial

/-- moments -/
noncomputable def mom (k : ℕ) : ℝ := ∫ t in (-1 : ℝ)..1, t ^ k

theorem poly_int (p : ℝ[X]) : ∫ t in (-1 : ℝ)..1, p.eval t = ∑ i ∈ Finset.range (p.natDegree + 1), p.coeff i * mom i := by
  simp_rw [eval_eq_sum_range]
  rw [intervalIntegral.integral_finset_sum]
  · refine Finset.sum_congr rfl fun i _ => ?_
    rw [intervalIntegral.integral_const_mul]
    rfl
  · intro i _
    exact (Continuous.intervalIntegrable (by fun_prop) _ _)

theorem int_pos {p : ℝ[X]} (hp : p ≠ 0) (h : ∀ t ∈ Set.Ioo (-1 : ℝ) 1, 0 ≤ p.eval t) : 0 < ∫ t in (-1 : ℝ)..1, p.eval t := by
  have hne : ∃ t ∈ Set.Ioo (-1 : ℝ) 1, p.eval t ≠ 0 := by
    by_contra hc
    push Not at hc
    have hinf : Set.Infinite {x | p.IsRoot x} := (Set.Ioo_infinite (show (-1 : ℝ) < 1 by norm_num)).mono fun x hx => hc x hx
    exact hp (eq_zero_of_infinite_isRoot p hinf)
  obtain ⟨t, ht, hpt⟩ := hne
  have h' : ∀ t ∈ Set.Ioc (-1 : ℝ) 1, 0 ≤ p.eval t := by
    intro t ht
    rcases eq_or_lt_of_le ht.2 with h1 | h1
    · rw [h1]
      have hcl : (1 : ℝ) ∈ closure (Set.Ioo (-1 : ℝ) 1) := by rw [closure_Ioo (by norm_num)]; simp
      have : closure (Set.Ioo (-1 : ℝ) 1) ⊆ {t | 0 ≤ p.eval t} :=
        closure_minimal (fun t ht => h t ht) (isClosed_le continuous_const p.continuous)
      exact this hcl
    · exact h t ⟨ht.1, h1⟩
  exact intervalIntegral.integral_pos (by norm_num) p.continuous.continuousOn h' ⟨t, ⟨ht.1.le, ht.2.le⟩, lt_of_le_of_ne (h t ht) (Ne.symm hpt)⟩

variable {m : ℕ}

/-- Hankel matrix -/
noncomputable def hank (m d : ℕ) : Matrix (Fin m) (Fin m) ℝ := Matrix.of fun i j => mom (i + j + d)

theorem hank_quad (d : ℕ) (x : Fin m → ℝ) : x ⬝ᵥ (hank m d) *ᵥ x = ∫ t in (-1 : ℝ)..1, t ^ d * (∑ i : Fin m, x i * t ^ (i : ℕ)) ^ 2 := by
  have e : ∀ t : ℝ, t ^ d * (∑ i : Fin m, x i * t ^ (i : ℕ)) ^ 2 = ∑ i : Fin m, ∑ j : Fin m, x i * x j * t ^ ((i : ℕ) + j + d) := by
    intro t
    rw [sq, Finset.sum_mul_sum, Finset.mul_sum]
    refine Finset.sum_congr rfl fun i _ => ?_
    rw [Finset.mul_sum]
    refine Finset.sum_congr rfl fun j _ => ?_
    rw [pow_add, pow_add]; ring
  simp_rw [e]
  rw [intervalIntegral.integral_finset_sum fun i _ => Continuous.intervalIntegrable (by fun_prop) _ _]
  simp only [dotProduct, mulVec]
  refine Finset.sum_congr rfl fun i _ => ?_
  rw [intervalIntegral.integral_finset_sum fun i _ => Continuous.intervalIntegrable (by fun_prop) _ _, Finset.mul_sum]
  refine Finset.sum_congr rfl fun j _ => ?_
  rw [intervalIntegral.integral_const_mul, hank, of_apply, mom]
  ring

theorem hank_symm (d : ℕ) : (hank m d).IsHermitian := by
  ext i j
  simp [hank, add_comm]

theorem hank_posDef : (hank m 0).PosDef := by
  refine PosDef.of_dotProduct_mulVec_pos (hank_symm 0) fun x hx => ?_
  rw [star_trivial, hank_quad]
  let p : ℝ[X] := ∑ i : Fin m, C (x i) * X ^ (i : ℕ)
  have hc : ∀ i : Fin m, p.coeff i = x i := by
    intro i
    simp only [p, finset_sum_coeff, coeff_C_mul_X_pow]
    rw [Finset.sum_eq_single i]
    · simp
    · intro j _ hj
      rw [if_neg]
      intro h; exact hj (Fin.ext h.symm)
    · simp
  have hp : p ≠ 0 := by
    intro h
    apply hx
    funext i
    rw [← hc i, h]
    simp
  have := int_pos (p := p ^ 2) (pow_ne_zero 2 hp) (fun t _ => by rw [eval_pow]; positivity)
  refine lt_of_lt_of_eq this (intervalIntegral.integral_congr fun t _ => ?_)
  simp [p, eval_finset_sum]

theorem spec_real {A : Matrix (Fin m) (Fin m) ℝ} (hA : A.IsHermitian) : ∃ U : Matrix (Fin m) (Fin m) ℝ, U * Uᵀ = 1 ∧ Uᵀ * U = 1 ∧
    A = U * diagonal hA.eigenvalues * Uᵀ := by
  let U : Matrix (Fin m) (Fin m) ℝ := hA.eigenvectorUnitary
  have hU : U * Uᵀ = 1 := by
    have := (Matrix.mem_unitaryGroup_iff).1 hA.eigenvectorUnitary.2
    rwa [star_eq_conjTranspose, conjTranspose_eq_transpose_of_trivial] at this
  have hU' : Uᵀ * U = 1 := by
    have := (Matrix.mem_unitaryGroup_iff').1 hA.eigenvectorUnitary.2
    rwa [star_eq_conjTranspose, conjTranspose_eq_transpose_of_trivial] at this
  have hsp : A = U * diagonal hA.eigenvalues * Uᵀ := by
    have h1 := hA.spectral_theorem
    rw [Unitary.conjStarAlgAut_apply] at h1
    rw [← conjTranspose_eq_transpose_of_trivial, ← star_eq_conjTranspose]
    exact h1
  exact ⟨U, hU, hU', hsp⟩

theorem sq_root {A : Matrix (Fin m) (Fin m) ℝ} (hA : A.PosSemidef) : ∃ B : Matrix (Fin m) (Fin m) ℝ, A = Bᵀ * B := by
  obtain ⟨U, _, _, h⟩ := spec_real hA.isHermitian
  refine ⟨diagonal (fun i => √(hA.isHermitian.eigenvalues i)) * Uᵀ, ?_⟩
  rw [transpose_mul, transpose_transpose, diagonal_transpose, Matrix.mul_assoc, ← Matrix.mul_assoc (diagonal _) (diagonal _), diagonal_mul_diagonal,
    ← Matrix.mul_assoc]
  conv_lhs => rw [h]
  congr 3
  funext i
  exact (Real.mul_self_sqrt (hA.eigenvalues_nonneg i)).symm

/-- There is a quadrature with `m` nodes and nonnegative weights, exact up to degree `2 m - 1`. -/
theorem exists_quad (hm : 0 < m) : ∃ (x w : Fin m → ℝ), (∀ i, 0 ≤ w i) ∧ ∀ k < 2 * m, ∑ i, w i * x i ^ k = mom k := by
  obtain ⟨B, hB⟩ := sq_root (hank_posDef (m := m)).posSemidef
  have hdet : IsUnit B.det := by
    have h1 := (hank_posDef (m := m)).det_pos
    rw [hB, det_mul, det_transpose] at h1
    exact isUnit_iff_ne_zero.2 fun h0 => by rw [h0] at h1; simp at h1
  have hBi : B * B⁻¹ = 1 := mul_nonsing_inv B hdet
  have hiB : B⁻¹ * B = 1 := nonsing_inv_mul B hdet
  let J : Matrix (Fin m) (Fin m) ℝ := B⁻¹ᵀ * hank m 1 * B⁻¹
  have hJ : J.IsHermitian := by
    have h := hank_symm (m := m) 1
    rw [IsHermitian, conjTranspose_eq_transpose_of_trivial] at h ⊢
    simp only [J, transpose_mul, transpose_transpose, h, Matrix.mul_assoc]
  let v : ℕ → Fin m → ℝ := fun b => if h : b < m then B *ᵥ Pi.single ⟨b, h⟩ 1 else 0
  have hstep : ∀ b, b + 1 < m → J *ᵥ v b = v (b + 1) := by
    intro b hb
    simp only [v, dif_pos hb, dif_pos (show b < m by omega), J]
    rw [mulVec_mulVec, Matrix.mul_assoc, Matrix.mul_assoc, hiB, Matrix.mul_one, ← mulVec_mulVec]
    have h1 : hank m 1 *ᵥ Pi.single ⟨b, by omega⟩ 1 = hank m 0 *ᵥ Pi.single ⟨b + 1, hb⟩ 1 := by
      ext i
      simp [hank]
      ring_nf
    rw [h1, hB, mulVec_mulVec, ← Matrix.mul_assoc, ← transpose_mul, hBi, transpose_one, Matrix.one_mul]
  have hpow : ∀ b, b < m → (J ^ b) *ᵥ v 0 = v b := by
    intro b
    induction b with
    | zero => intro _; simp
    | succ b ih => intro hb; rw [pow_succ', ← mulVec_mulVec, ih (by omega), hstep b hb]
  have hJt : Jᵀ = J := by rwa [IsHermitian, conjTranspose_eq_transpose_of_trivial] at hJ
  have hmain : ∀ a b, a < m → b < m → v 0 ⬝ᵥ (J ^ (a + b + 1)) *ᵥ v 0 = mom (a + b + 1) := by
    intro a b ha hb
    have e : (J ^ (a + b + 1)) *ᵥ v 0 = (J ^ a) *ᵥ (J *ᵥ v b) := by
      rw [← hpow b hb, mulVec_mulVec, mulVec_mulVec, ← pow_succ, ← pow_add, show a + 1 + b = a + b + 1 by omega]
    rw [e, dotProduct_mulVec, ← mulVec_transpose, transpose_pow, hJt, hpow a ha]
    simp only [v, dif_pos ha, dif_pos hb, J]
    rw [mulVec_mulVec, Matrix.mul_assoc, Matrix.mul_assoc, hiB, Matrix.mul_one, dotProduct_mulVec, vecMul_mulVec, ← Matrix.mul_assoc,
      ← transpose_mul, hiB, transpose_one, Matrix.one_mul]
    simp [hank]
  have hzero : v 0 ⬝ᵥ v 0 = mom 0 := by
    simp only [v, dif_pos hm]
    rw [dotProduct_mulVec, vecMul_mulVec, ← hB]
    simp [hank]
  have hall : ∀ k < 2 * m, v 0 ⬝ᵥ (J ^ k) *ᵥ v 0 = mom k := by
    intro k hk
    rcases Nat.eq_zero_or_pos k with rfl | hk0
    · simpa using hzero
    · have := hmain ((k - 1) / 2) (k - 1 - (k - 1) / 2) (by omega) (by omega)
      rwa [show (k - 1) / 2 + (k - 1 - (k - 1) / 2) + 1 = k by omega] at this
  -- spectral decomposition
  obtain ⟨U, hU, hU', hsp⟩ := spec_real hJ
  have hJk : ∀ k, J ^ k = U * diagonal (fun i => hJ.eigenvalues i ^ k) * Uᵀ := by
    intro k
    induction k with
    | zero => simp [hU]
    | succ k ih =>
      have h3 : U * diagonal (fun i => hJ.eigenvalues i ^ k) * Uᵀ * (U * diagonal hJ.eigenvalues * Uᵀ)
          = U * (diagonal (fun i => hJ.eigenvalues i ^ k) * (Uᵀ * U) * diagonal hJ.eigenvalues) * Uᵀ := by
        simp only [Matrix.mul_assoc]
      rw [pow_succ, ih]
      refine (congrArg (fun M => U * diagonal (fun i => hJ.eigenvalues i ^ k) * Uᵀ * M) hsp).trans ?_
      beta_reduce
      rw [h3, hU', Matrix.mul_one, diagonal_mul_diagonal]
      simp only [pow_succ]
  refine ⟨hJ.eigenvalues, fun i => (Uᵀ *ᵥ v 0) i ^ 2, fun i => sq_nonneg _, fun k hk => ?_⟩
  rw [← hall k hk, hJk, ← mulVec_mulVec, ← mulVec_mulVec, dotProduct_mulVec, ← mulVec_transpose]
  simp only [dotProduct, mulVec_diagonal]
  refine Finset.sum_congr rfl fun i _ => ?_
  ring

theorem quad_poly {x w : Fin m → ℝ} (h : ∀ k < 2 * m, ∑ i, w i * x i ^ k = mom k) (p : ℝ[X]) (hp : p.natDegree < 2 * m) :
    ∑ i, w i * p.eval (x i) = ∫ t in (-1 : ℝ)..1, p.eval t := by
  rw [poly_int]
  simp_rw [eval_eq_sum_range, Finset.mul_sum]
  rw [Finset.sum_comm]
  refine Finset.sum_congr rfl fun k hk => ?_
  rw [← h k (by rw [Finset.mem_range] at hk; omega), Finset.mul_sum]
  exact Finset.sum_congr rfl fun i _ => by ring

/-- Gauss-Legendre quadratures exist for every positive number of nodes. -/
theorem gauss_exists (hm : 0 < m) : ∃ x w : Fin m → ℝ, IsGaussLegendre m x w := by
  obtain ⟨x, w, hw, hmom⟩ := exists_quad hm
  have hq := quad_poly hmom
  -- all the nodes are distinct and all the weights are positive
  let T : Finset (Fin m) := Finset.univ.filter fun i => w i ≠ 0
  have hcard : m ≤ (T.image x).card := by
    by_contra hc
    push Not at hc
    let q : ℝ[X] := ∏ s ∈ T.image x, (X - C s)
    have hmon : q.Monic := monic_prod_of_monic _ _ fun s _ => monic_X_sub_C s
    have hdeg : q.natDegree = (T.image x).card := natDegree_finsetProd_X_sub_C_eq_card _ id
    have h1 := hq (q ^ 2) (by rw [hmon.natDegree_pow, hdeg]; omega)
    have h2 := int_pos (p := q ^ 2) (pow_ne_zero 2 hmon.ne_zero) (fun t _ => by rw [eval_pow]; positivity)
    rw [← h1] at h2
    refine h2.ne' (Finset.sum_eq_zero fun i _ => ?_)
    by_cases hwi : w i = 0
    · rw [hwi, zero_mul]
    · have : q.eval (x i) = 0 := by
        rw [eval_prod]
        refine Finset.prod_eq_zero (i := x i) (Finset.mem_image_of_mem _ (by simp [T, hwi])) (by simp)
      rw [eval_pow, this]; ring
  have hT : T = Finset.univ := by
    apply Finset.eq_univ_of_card
    have h1 := Finset.card_image_le (s := T) (f := x)
    have h2 := Finset.card_le_univ T
    rw [Fintype.card_fin] at h2 ⊢
    omega
  have hpos : ∀ i, 0 < w i := fun i => by
    have : i ∈ T := by rw [hT]; simp
    exact lt_of_le_of_ne (hw i) (Ne.symm (Finset.mem_filter.1 this).2)
  have hinj : Function.Injective x := by
    rw [hT] at hcard
    have := Finset.card_image_iff.1 (le_antisymm (Finset.card_image_le (s := Finset.univ) (f := x)) (by rw [Finset.card_univ, Fintype.card_fin]; exact hcard))
    intro a b hab
    exact this (by simp) (by simp) hab
  have hside : ∀ (i : Fin m) (l : ℝ[X]), l.natDegree = 1 → (∀ t ∈ Set.Ioo (-1 : ℝ) 1, 0 < l.eval t) → 0 < l.eval (x i) := by
    intro i l hl hlp
    let q : ℝ[X] := ∏ j ∈ Finset.univ.erase i, (X - C (x j))
    have hmon : q.Monic := monic_prod_of_monic _ _ fun s _ => monic_X_sub_C _
    have hdeg : q.natDegree = m - 1 := by
      rw [natDegree_finsetProd_X_sub_C_eq_card, Finset.card_erase_of_mem (Finset.mem_univ i)]; simp
    have hl0 : l ≠ 0 := by rintro rfl; simp at hl
    have h1 := hq (q ^ 2 * l) (by
      have := natDegree_mul_le (p := q ^ 2) (q := l)
      rw [hmon.natDegree_pow, hdeg, hl] at this; omega)
    have h2 := int_pos (p := q ^ 2 * l) (mul_ne_zero (pow_ne_zero 2 hmon.ne_zero) hl0)
      (fun t ht => by rw [eval_mul, eval_pow]; exact mul_nonneg (sq_nonneg _) (hlp t ht).le)
    rw [← h1, Finset.sum_eq_single i] at h2
    · rw [eval_mul, eval_pow] at h2
      by_contra hc
      push Not at hc
      have : w i * (q.eval (x i) ^ 2 * l.eval (x i)) ≤ 0 :=
        mul_nonpos_of_nonneg_of_nonpos (hw i) (mul_nonpos_of_nonneg_of_nonpos (sq_nonneg _) hc)
      linarith
    · intro j _ hj
      have : q.eval (x j) = 0 := by
        rw [eval_prod]
        exact Finset.prod_eq_zero (i := j) (Finset.mem_erase.2 ⟨hj, Finset.mem_univ _⟩) (by simp)
      rw [eval_mul, eval_pow, this]; ring
    · simp
  have hmem : ∀ i, x i ∈ Set.Ioo (-1 : ℝ) 1 := by
    intro i
    constructor
    · have := hside i (X + C 1) (natDegree_X_add_C 1) (fun t ht => by simp; linarith [ht.1])
      simp at this; linarith
    · have := hside i (C 1 - X) (by rw [← natDegree_neg, neg_sub]; exact natDegree_X_sub_C 1) (fun t ht => by simp; linarith [ht.2])
      simp at this; linarith
  refine ⟨x ∘ Tuple.sort x, w ∘ Tuple.sort x, ⟨?_, fun i => hmem _, fun i => hpos _, fun p hp => ?_⟩⟩
  · exact (Tuple.monotone_sort x).strictMono_of_injective (hinj.comp (Tuple.sort x).injective)
  · rw [← hq p hp]
    exact Equiv.sum_comp (Tuple.sort x) fun i => w i * p.eval (x i)

end Verif.Lemmas.TW
