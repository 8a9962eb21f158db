import Verif.Lemmas.JacMom
import Mathlib.LinearAlgebra.Vandermonde
import Mathlib.LinearAlgebra.Matrix.Block
import Mathlib.Topology.Instances.Matrix
import Mathlib.Analysis.Calculus.Deriv.Pow
import Mathlib.Analysis.Calculus.Deriv.Slope
import Mathlib.Algebra.Order.BigOperators.Group.LocallyFinite
import Mathlib.Algebra.BigOperators.Fin

/-!
# Determinants for the change of variables: Hankel and confluent Vandermonde
-/

namespace Verif.Lemmas
open Finset Matrix Filter Topology

/-- Vandermonde product -/
noncomputable def vdm {N : ℕ} (v : Fin N → ℝ) : ℝ := ∏ i, ∏ j ∈ Ioi i, (v j - v i)

variable {N : ℕ}

theorem vdm_sq (v : Fin N → ℝ) : vdm v ^ 2 = ∏ i, ∏ j ∈ {i}ᶜ, |v j - v i| := by
  rw [← prod_prod_Ioi_mul_eq_prod_prod_off_diag, ← sq_abs, vdm, abs_prod, ← prod_pow]
  refine prod_congr rfl fun i _ => ?_
  rw [abs_prod, ← prod_pow]
  refine prod_congr rfl fun j _ => ?_
  rw [sq, abs_sub_comm (v i)]

theorem vdm_pos {v : Fin N → ℝ} (h : StrictMono v) : 0 < vdm v :=
  prod_pos fun _ _ => prod_pos fun _ hj => sub_pos.2 (h (mem_Ioi.1 hj))

/-- Hankel determinant: product of the coefficients in terms of nodes and weights -/
theorem hankel {a B : ℕ → ℝ} {lam w : Fin N → ℝ} (h : ∀ k < 2 * N, ∑ j, w j * lam j ^ k = mom a B k) :
    vdm lam ^ 2 * ∏ j, w j = ∏ k ∈ range N, kryH B k := by
  set H : Matrix (Fin N) (Fin N) ℝ := Matrix.of fun i j => mom a B (i + j) with hH
  have h1 : H = (vandermonde lam)ᵀ * (diagonal w * vandermonde lam) := by
    ext i j
    rw [Matrix.mul_apply, hH, Matrix.of_apply, ← h (i + j) (by omega)]
    refine sum_congr rfl fun l _ => ?_
    rw [Matrix.transpose_apply, Matrix.diagonal_mul, vandermonde_apply, vandermonde_apply, pow_add]
    ring
  set U : Matrix (Fin N) (Fin N) ℝ := Matrix.of fun l i => kry a B i l with hU
  have h2 : H = Uᵀ * (diagonal (fun l : Fin N => kryH B l) * U) := by
    ext i j
    have hi := i.2
    have hN : N - 1 + 1 = N := by omega
    rw [Matrix.mul_apply, hH, Matrix.of_apply]
    rw [mom_add (n := N - 1) (by omega : (i : ℕ) ≤ N - 1), hN, ← Fin.sum_univ_eq_sum_range
      (fun l => kry a B i l * kry a B j l * kryH B l)]
    refine sum_congr rfl fun l _ => ?_
    rw [Matrix.transpose_apply, Matrix.diagonal_mul, hU, Matrix.of_apply, Matrix.of_apply]
    ring
  have hUdet : U.det = 1 := by
    rw [Matrix.det_of_isUpperTriangular]
    · exact prod_eq_one fun i _ => by rw [hU, Matrix.of_apply, kry_diag]
    · intro i j hij
      rw [hU, Matrix.of_apply, kry_zero_of_lt (show (j : ℕ) < i from hij)]
  have e1 : H.det = vdm lam ^ 2 * ∏ j, w j := by
    rw [h1, Matrix.det_mul, Matrix.det_mul, Matrix.det_transpose, Matrix.det_diagonal, det_vandermonde, ← vdm]
    ring
  have e2 : H.det = ∏ k ∈ range N, kryH B k := by
    rw [h2, Matrix.det_mul, Matrix.det_mul, Matrix.det_transpose, Matrix.det_diagonal, hUdet, one_mul, mul_one,
      Fin.prod_univ_eq_prod_range (fun l => kryH B l)]
  rw [← e1, e2]

/-- `inr k ↦ 2 k`, `inl k ↦ 2 k + 1` -/
def rk (N : ℕ) : Fin N ⊕ Fin N → Fin (2 * N)
  | .inr k => ⟨2 * k, by omega⟩
  | .inl k => ⟨2 * k + 1, by omega⟩

theorem rk_bij (N : ℕ) : Function.Bijective (rk N) := by
  rw [Fintype.bijective_iff_injective_and_card]
  refine ⟨?_, by simp; omega⟩
  rintro (i | i) (j | j) h <;> simp only [rk, Fin.mk.injEq] at h <;> congr 1 <;> first | omega | (apply Fin.ext; omega)

/-- the equivalence -/
noncomputable def rkE (N : ℕ) : Fin N ⊕ Fin N ≃ Fin (2 * N) := Equiv.ofBijective _ (rk_bij N)

theorem rkE_apply (c : Fin N ⊕ Fin N) : rkE N c = rk N c := rfl

/-- absolute value of a Vandermonde determinant indexed by `Fin N ⊕ Fin N` -/
theorem abs_det_vdm (v : Fin N ⊕ Fin N → ℝ) :
    |(Matrix.of fun r c : Fin N ⊕ Fin N => v c ^ (rk N r : ℕ)).det| ^ 2 = ∏ c, ∏ c' ∈ {c}ᶜ, |v c' - v c| := by
  have h1 : (Matrix.of fun r c : Fin N ⊕ Fin N => v c ^ (rk N r : ℕ))
      = ((vandermonde (v ∘ (rkE N).symm))ᵀ).submatrix (rkE N) (rkE N) := by
    ext r c
    simp [vandermonde_apply, ← rkE_apply]
  rw [h1, Matrix.det_submatrix_equiv_self, Matrix.det_transpose, det_vandermonde, sq_abs, ← vdm, vdm_sq]
  refine (Fintype.prod_equiv (rkE N) _ _ fun c => ?_).symm
  refine prod_nbij (rkE N) ?_ ?_ ?_ ?_
  · intro c' hc'; simpa using hc'
  · exact (rkE N).injective.injOn
  · intro d hd
    refine ⟨(rkE N).symm d, ?_, by simp⟩
    simp only [coe_compl, coe_singleton, Set.mem_compl_iff, Set.mem_singleton_iff] at hd ⊢
    rintro rfl
    simp at hd
  · intro c' _; simp

/-- nodes `lam j` and `lam j + h` -/
def dbl (lam : Fin N → ℝ) (h : ℝ) : Fin N ⊕ Fin N → ℝ := Sum.elim (fun j => lam j + h) lam

theorem prod_dbl (lam : Fin N → ℝ) (h : ℝ) : ∏ c, ∏ c' ∈ {c}ᶜ, |dbl lam h c' - dbl lam h c|
    = (vdm lam ^ 2 * |h| ^ N * ∏ i, ∏ j ∈ {i}ᶜ, |lam j - lam i + h|) ^ 2 := by
  classical
  have hl : ∀ i : Fin N, ∏ c' ∈ {Sum.inl i}ᶜ, |dbl lam h c' - dbl lam h (Sum.inl i)|
      = (∏ j ∈ {i}ᶜ, |lam j - lam i|) * (|h| * ∏ j ∈ {i}ᶜ, |lam i - lam j + h|) := by
    intro i
    have : ({Sum.inl i}ᶜ : Finset (Fin N ⊕ Fin N)) = ({i}ᶜ : Finset (Fin N)).disjSum univ := by
      ext (j | j) <;> simp
    rw [this, prod_disjSum]
    congr 1
    · exact prod_congr rfl fun j _ => by simp [dbl]
    · rw [← prod_erase_mul univ _ (mem_univ i), mul_comm, show (univ.erase i : Finset (Fin N)) = {i}ᶜ by ext; simp]
      congr 1
      · simp [dbl]
      · exact prod_congr rfl fun j _ => by simp only [dbl, Sum.elim_inl, Sum.elim_inr]; rw [abs_sub_comm]; congr 1; ring
  have hr : ∀ i : Fin N, ∏ c' ∈ {Sum.inr i}ᶜ, |dbl lam h c' - dbl lam h (Sum.inr i)|
      = (∏ j ∈ {i}ᶜ, |lam j - lam i|) * (|h| * ∏ j ∈ {i}ᶜ, |lam j - lam i + h|) := by
    intro i
    have : ({Sum.inr i}ᶜ : Finset (Fin N ⊕ Fin N)) = univ.disjSum ({i}ᶜ : Finset (Fin N)) := by
      ext (j | j) <;> simp
    rw [this, prod_disjSum, mul_comm]
    congr 1
    rw [← prod_erase_mul univ _ (mem_univ i), mul_comm, show (univ.erase i : Finset (Fin N)) = {i}ᶜ by ext; simp]
    congr 1
    · simp [dbl]
    · exact prod_congr rfl fun j _ => by simp only [dbl, Sum.elim_inl, Sum.elim_inr]; congr 1; ring
  rw [Fintype.prod_sum_type]
  simp only [hl, hr, prod_mul_distrib, prod_const, card_univ, Fintype.card_fin, ← vdm_sq]
  have hsw : ∏ i : Fin N, ∏ j ∈ {i}ᶜ, |lam i - lam j + h| = ∏ i : Fin N, ∏ j ∈ {i}ᶜ, |lam j - lam i + h| :=
    prod_comm' (by intro x y; simp [eq_comm])
  rw [hsw]
  ring

/-- the matrix of the derivatives of the moments -/
noncomputable def confl (lam : Fin N → ℝ) : Matrix (Fin N ⊕ Fin N) (Fin N ⊕ Fin N) ℝ := Matrix.of fun r c =>
  Sum.elim (fun j => ((rk N r : ℕ) : ℝ) * lam j ^ ((rk N r : ℕ) - 1)) (fun j => lam j ^ (rk N r : ℕ)) c

/-- the same with difference quotients -/
noncomputable def conflh (lam : Fin N → ℝ) (h : ℝ) : Matrix (Fin N ⊕ Fin N) (Fin N ⊕ Fin N) ℝ := Matrix.of fun r c =>
  Sum.elim (fun j => h⁻¹ * ((lam j + h) ^ (rk N r : ℕ) - lam j ^ (rk N r : ℕ))) (fun j => lam j ^ (rk N r : ℕ)) c

theorem abs_det_conflh (lam : Fin N → ℝ) {h : ℝ} (h0 : h ≠ 0) :
    |(conflh lam h).det| = vdm lam ^ 2 * ∏ i, ∏ j ∈ {i}ᶜ, |lam j - lam i + h| := by
  have hmul : (Matrix.of fun r c : Fin N ⊕ Fin N => dbl lam h c ^ (rk N r : ℕ))
      = conflh lam h * fromBlocks (h • (1 : Matrix (Fin N) (Fin N) ℝ)) 0 1 1 := by
    ext r (j | j)
    · rw [Matrix.mul_apply, Fintype.sum_sum_type]
      simp only [fromBlocks_apply₁₁, fromBlocks_apply₂₁, Matrix.smul_apply, Matrix.one_apply, smul_eq_mul, mul_ite, mul_one,
        mul_zero, sum_ite_eq', mem_univ, if_true]
      simp only [conflh, Matrix.of_apply, Sum.elim_inl, Sum.elim_inr, dbl]
      field_simp
      ring
    · rw [Matrix.mul_apply, Fintype.sum_sum_type]
      simp only [fromBlocks_apply₁₂, fromBlocks_apply₂₂, Matrix.zero_apply, Matrix.one_apply, mul_ite, mul_one,
        mul_zero, sum_ite_eq', mem_univ, if_true, sum_const_zero, zero_add]
      simp [conflh, dbl]
  have hdet := abs_det_vdm (dbl lam h)
  rw [prod_dbl, hmul, Matrix.det_mul, det_fromBlocks_zero₁₂, Matrix.det_smul, Matrix.det_one] at hdet
  simp only [Fintype.card_fin, mul_one, abs_mul, abs_pow] at hdet
  have hn : (0 : ℝ) < |h| ^ N := pow_pos (abs_pos.2 h0) _
  have hnn : 0 ≤ vdm lam ^ 2 * |h| ^ N * ∏ i, ∏ j ∈ {i}ᶜ, |lam j - lam i + h| := by positivity
  have := (pow_left_inj₀ (by positivity) hnn two_ne_zero).1 hdet
  have h3 : |(conflh lam h).det| * |h| ^ N = (vdm lam ^ 2 * ∏ i, ∏ j ∈ {i}ᶜ, |lam j - lam i + h|) * |h| ^ N := by
    rw [this]; ring
  exact mul_right_cancel₀ hn.ne' h3

/-- confluent Vandermonde determinant -/
theorem abs_det_confl (lam : Fin N → ℝ) : |(confl lam).det| = vdm lam ^ 4 := by
  have hlim : Tendsto (fun h => |(conflh lam h).det|) (𝓝[≠] 0) (𝓝 |(confl lam).det|) := by
    refine (continuous_abs.tendsto _).comp ?_
    refine (Continuous.matrix_det continuous_id).continuousAt.tendsto.comp ?_
    refine tendsto_pi_nhds.2 fun r => tendsto_pi_nhds.2 fun c => ?_
    rcases c with j | j
    · have hd := hasDerivAt_iff_tendsto_slope_zero.1 (hasDerivAt_pow (rk N r : ℕ) (lam j))
      simpa [conflh, confl, smul_eq_mul] using hd
    · simp [conflh, confl]
  have hlim2 : Tendsto (fun h => |(conflh lam h).det|) (𝓝[≠] 0)
      (𝓝 (vdm lam ^ 2 * ∏ i, ∏ j ∈ {i}ᶜ, |lam j - lam i + 0|)) := by
    have : Tendsto (fun h : ℝ => vdm lam ^ 2 * ∏ i, ∏ j ∈ {i}ᶜ, |lam j - lam i + h|) (𝓝[≠] 0)
        (𝓝 (vdm lam ^ 2 * ∏ i, ∏ j ∈ {i}ᶜ, |lam j - lam i + 0|)) := by
      refine (Continuous.tendsto ?_ 0).mono_left nhdsWithin_le_nhds
      fun_prop
    refine this.congr' ?_
    filter_upwards [self_mem_nhdsWithin] with h hh
    rw [abs_det_conflh lam hh]
  have := tendsto_nhds_unique hlim hlim2
  rw [this]
  simp only [add_zero, ← vdm_sq]
  ring

end Verif.Lemmas
