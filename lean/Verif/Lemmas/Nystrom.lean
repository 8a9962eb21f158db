import Verif.Lemmas.Tilde
import Mathlib.Analysis.Matrix.Spectrum
import Mathlib.Analysis.Matrix.PosDef
import Mathlib.LinearAlgebra.Matrix.SchurComplement
import Mathlib.Algebra.Order.Star.Real

/-!
The inequality behind the acceptance test of the intermediate samplers: concavity of `log det`.
-/

namespace Verif
open Verif Verif.Spec Verif.Model Matrix

variable {n : ℕ}

/-- a factor of a positive semi-definite matrix -/
theorem psd_factor {M : Matrix (Fin n) (Fin n) ℝ} (h : M.PosSemidef) : ∃ R : Matrix (Fin n) (Fin n) ℝ, M = Rᵀ * R := by
  obtain ⟨eigh, he⟩ := exists_EighSpec
  obtain ⟨-, h2, h3⟩ := psd_eig h he
  refine ⟨Matrix.of fun a i => Real.sqrt ((eigh n M).1 a) * (eigh n M).2 i a, ?_⟩
  ext i j
  conv_lhs => rw [h3]
  simp only [ker, of_apply, mul_apply, transpose_apply]
  refine Finset.sum_congr rfl fun a _ => ?_
  have := Real.mul_self_sqrt (h2 a)
  linear_combination (-(eigh n M).2 i a * (eigh n M).2 j a) * this

/-- `log x ≤ x - 1` for determinants -/
theorem det_le_exp {K : Matrix (Fin n) (Fin n) ℝ} (h : K.PosSemidef) : K.det ≤ Real.exp (K.trace - n) := by
  have h1 := h.1.det_eq_prod_eigenvalues
  have h2 := h.1.trace_eq_sum_eigenvalues
  simp only [RCLike.ofReal_real_eq_id, id_eq] at h1 h2
  rw [h1, h2]
  have h3 : ∑ i, h.1.eigenvalues i - (n : ℝ) = ∑ i, (h.1.eigenvalues i - 1) := by
    rw [Finset.sum_sub_distrib]; simp
  rw [h3, Real.exp_sum]
  refine Finset.prod_le_prod (fun i _ => h.eigenvalues_nonneg i) fun i _ => ?_
  have := Real.add_one_le_exp (h.1.eigenvalues i - 1)
  linarith

theorem det_mul_le_exp {A P : Matrix (Fin n) (Fin n) ℝ} (hA : A.PosSemidef) (hP : P.PosSemidef) :
    A.det * P.det ≤ Real.exp ((A * P).trace - n) := by
  obtain ⟨R, rfl⟩ := psd_factor hP
  have h1 : (R * A * Rᵀ).PosSemidef := by
    have := hA.mul_mul_conjTranspose_same R
    simpa using this
  have h2 := det_le_exp h1
  rw [det_mul, det_mul, det_transpose] at h2
  rw [det_mul, det_transpose, show (A * (Rᵀ * R)).trace = (R * A * Rᵀ).trace by
    rw [← Matrix.mul_assoc, trace_mul_comm, ← Matrix.mul_assoc]]
  calc _ = R.det * A.det * R.det := by ring
    _ ≤ _ := h2

variable {κ ι : Type*} [Fintype κ] [DecidableEq κ] [Fintype ι] [DecidableEq ι]

/-- `(1 + α G Gᵀ)⁻¹` when `Gᵀ G = diag μ` -/
noncomputable def nysInv (G : Matrix (Fin n) κ ℝ) (α : ℝ) (μ : κ → ℝ) : Matrix (Fin n) (Fin n) ℝ :=
  1 - α • (G * diagonal (fun j => 1 / (α * μ j + 1)) * Gᵀ)

variable {G : Matrix (Fin n) κ ℝ} {α : ℝ} {μ : κ → ℝ}

theorem nysInv_mul (hG : Gᵀ * G = diagonal μ) (hα : 0 ≤ α) (hμ : ∀ j, 0 ≤ μ j) :
    nysInv G α μ * (1 + α • (G * Gᵀ)) = 1 := by
  unfold nysInv
  have h1 : (G * diagonal (fun j => 1 / (α * μ j + 1)) * Gᵀ) * (G * Gᵀ)
      = G * diagonal (fun j => μ j / (α * μ j + 1)) * Gᵀ := by
    rw [show (G * diagonal (fun j => 1 / (α * μ j + 1)) * Gᵀ) * (G * Gᵀ)
      = G * (diagonal (fun j => 1 / (α * μ j + 1)) * (Gᵀ * G)) * Gᵀ by simp only [Matrix.mul_assoc], hG,
      diagonal_mul_diagonal]
    simp only [div_eq_inv_mul, mul_one]
  have h2 : G * Gᵀ = G * diagonal (fun j => 1 / (α * μ j + 1)) * Gᵀ
      + α • (G * diagonal (fun j => μ j / (α * μ j + 1)) * Gᵀ) := by
    rw [← Matrix.smul_mul, ← Matrix.mul_smul, ← Matrix.add_mul, ← Matrix.mul_add]
    have : diagonal (fun j => 1 / (α * μ j + 1)) + α • diagonal (fun j => μ j / (α * μ j + 1)) = (1 : Matrix κ κ ℝ) := by
      rw [← diagonal_smul, diagonal_add, ← diagonal_one]
      congr 1
      funext j
      have : 0 < α * μ j + 1 := by have := hμ j; positivity
      simp only [Pi.smul_apply, smul_eq_mul]
      field_simp
      ring
    rw [this, Matrix.mul_one]
  rw [Matrix.sub_mul, Matrix.one_mul, Matrix.mul_add, Matrix.mul_one, Matrix.smul_mul, Matrix.mul_smul, h1]
  conv_lhs => arg 1; arg 2; rw [h2]
  rw [smul_add, add_sub_assoc, sub_self, add_zero]

theorem nysInv_psd (hG : Gᵀ * G = diagonal μ) (hα : 0 ≤ α) (hμ : ∀ j, 0 ≤ μ j) : (nysInv G α μ).PosSemidef := by
  have h1 : (1 + α • (G * Gᵀ)).PosSemidef := by
    refine Matrix.PosSemidef.add .one ?_
    have := (posSemidef_self_mul_conjTranspose G).smul hα
    simpa using this
  have h2 : nysInv G α μ = (1 + α • (G * Gᵀ))⁻¹ := (Matrix.inv_eq_left_inv (nysInv_mul hG hα hμ)).symm
  rw [h2]
  exact h1.inv

theorem det_nys (hG : Gᵀ * G = diagonal μ) : (1 + α • (G * Gᵀ)).det = ∏ j, (1 + α * μ j) := by
  rw [← Matrix.smul_mul, det_one_add_mul_comm, Matrix.mul_smul, hG, ← diagonal_smul, ← diagonal_one, diagonal_add,
    det_diagonal]
  rfl

theorem det_nysInv (hG : Gᵀ * G = diagonal μ) (hα : 0 ≤ α) (hμ : ∀ j, 0 ≤ μ j) :
    (nysInv G α μ).det * ∏ j, (1 + α * μ j) = 1 := by
  rw [← det_nys hG, ← det_mul, nysInv_mul hG hα hμ, det_one]

theorem trace_nysInv (hG : Gᵀ * G = diagonal μ) :
    (nysInv G α μ).trace = n - ∑ j, α * μ j / (α * μ j + 1) := by
  unfold nysInv
  rw [trace_sub, trace_one, trace_smul, trace_mul_comm, ← Matrix.mul_assoc, hG, diagonal_mul_diagonal, trace_diagonal,
    Fintype.card_fin, smul_eq_mul, Finset.mul_sum]
  congr 1
  exact Finset.sum_congr rfl fun j _ => by ring

/-- The log-determinant of an intermediate sample `X` is bounded by its linear expansion around the Nyström matrix. -/
theorem nys_acc (hG : Gᵀ * G = diagonal μ) (hα : 0 ≤ α) (hμ : ∀ j, 0 ≤ μ j) (X : Matrix (Fin n) ι ℝ) :
    (∑ j, α * μ j / (α * μ j + 1)) + Real.log (1 + Xᵀ * X).det - ∑ j, Real.log (1 + α * μ j)
      - (Xᵀ * nysInv G α μ * X).trace ≤ 0 := by
  have hX : (1 + X * Xᵀ).PosSemidef := by
    refine Matrix.PosSemidef.add .one ?_
    have := posSemidef_self_mul_conjTranspose X
    simpa using this
  have hXd : 0 < (1 + X * Xᵀ).det := by
    refine det_one_add_pos ?_
    have := posSemidef_self_mul_conjTranspose X
    simpa using this
  have hpos : ∀ j, 0 < 1 + α * μ j := fun j => by have := hμ j; positivity
  have h1 := det_mul_le_exp hX (nysInv_psd hG hα hμ)
  have h2 := det_nysInv hG hα hμ
  have hP : 0 < ∏ j, (1 + α * μ j) := Finset.prod_pos fun j _ => hpos j
  have h3 : ((1 + X * Xᵀ) * nysInv G α μ).trace = n - ∑ j, α * μ j / (α * μ j + 1) + (Xᵀ * nysInv G α μ * X).trace := by
    rw [Matrix.add_mul, Matrix.one_mul, trace_add, trace_nysInv hG, Matrix.mul_assoc, trace_mul_comm X]
  rw [h3] at h1
  have h4 : (1 + X * Xᵀ).det ≤ Real.exp (- (∑ j, α * μ j / (α * μ j + 1)) + (Xᵀ * nysInv G α μ * X).trace)
      * ∏ j, (1 + α * μ j) := by
    have h5 : (1 + X * Xᵀ).det * ((nysInv G α μ).det * ∏ j, (1 + α * μ j)) = (1 + X * Xᵀ).det := by rw [h2, mul_one]
    rw [← h5, ← mul_assoc]
    refine (mul_le_mul_of_nonneg_right h1 hP.le).trans (le_of_eq ?_)
    congr 2
    ring
  have h6 := Real.log_le_log hXd h4
  rw [Real.log_mul (Real.exp_pos _).ne' hP.ne', Real.log_exp, Real.log_prod (fun j _ => (hpos j).ne')] at h6
  rw [det_one_add_mul_comm]
  linarith

end Verif
