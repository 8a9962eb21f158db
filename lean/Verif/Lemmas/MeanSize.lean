import Verif.Spec.MeanSize
import Verif.Lemmas.Inner
import Verif.Lemmas.Tilde
import Mathlib.Analysis.Matrix.Spectrum
import Mathlib.LinearAlgebra.Matrix.Adjugate

/-!
The expected size of a DPP given by its likelihood kernel: `n - tr (1 + L)⁻¹`.
-/

namespace Verif.Lemmas.MeanSize
open Verif Verif.Spec Verif.Model Matrix
open scoped ENNReal

variable {n : ℕ} {L : Matrix (Fin n) (Fin n) ℝ}

/-- the diagonal matrix that removes item `i` -/
def drop (i : Fin n) : Matrix (Fin n) (Fin n) ℝ := diagonal fun j => if j = i then 0 else 1

theorem minor_drop (i : Fin n) (S : Finset (Fin n)) :
    minor (drop i * L * drop i) S = if i ∈ S then 0 else minor L S := by
  have he : ∀ a b, (drop i * L * drop i) a b = if a = i ∨ b = i then 0 else L a b := by
    intro a b
    unfold drop
    rw [mul_diagonal, diagonal_mul]
    by_cases h1 : a = i <;> by_cases h2 : b = i <;> simp [h1, h2]
  by_cases hi : i ∈ S
  · rw [if_pos hi, minor]
    refine det_eq_zero_of_row_eq_zero (⟨i, hi⟩ : S) fun j => ?_
    rw [submatrix_apply, he]
    simp
  · rw [if_neg hi, minor, minor]
    congr 1
    ext a b
    rw [submatrix_apply, submatrix_apply, he, if_neg]
    rintro (h | h)
    · exact hi (h ▸ a.2)
    · exact hi (h ▸ b.2)

theorem drop_psd (hL : L.PosSemidef) (i : Fin n) : (drop i * L * drop i).PosSemidef := by
  have := hL.mul_mul_conjTranspose_same (drop i)
  have h2 : (drop i)ᴴ = drop i := by
    unfold drop
    rw [diagonal_conjTranspose]
    congr 1
  rwa [h2] at this

/-- the weights of the sets that do not contain `i` -/
theorem sum_without (hL : L.PosSemidef) (i : Fin n) :
    ∑ S, (if i ∈ S then 0 else minor L S) = (1 + L).adjugate i i := by
  simp_rw [← minor_drop (L := L) i]
  rw [sum_lDppProb (drop_psd hL i), Matrix.mul_assoc, det_one_add_mul_comm, adjugate_apply]
  have hd : drop i * drop i = drop i := by
    unfold drop
    rw [diagonal_mul_diagonal]
    congr 1
    funext j
    split <;> simp
  have h3 : L * drop i * drop i = L * drop i := by rw [Matrix.mul_assoc, hd]
  rw [h3, det_one_add_mul_comm]
  congr 1
  ext a b
  rw [updateRow_apply, Matrix.add_apply, Matrix.add_apply]
  unfold drop
  rw [diagonal_mul]
  by_cases ha : a = i
  · simp only [ha, if_true, zero_mul, add_zero, one_apply, Pi.single_apply]
    simp only [eq_comm]
  · simp [ha]

theorem sum_with (hL : L.PosSemidef) (i : Fin n) :
    ∑ S, (if i ∈ S then minor L S else 0) = (1 + L).det - (1 + L).adjugate i i := by
  rw [← sum_without hL i, ← sum_lDppProb hL, ← Finset.sum_sub_distrib]
  refine Finset.sum_congr rfl fun S _ => ?_
  split <;> simp

/-- the expected size of a DPP -/
theorem meanSize_lDpp (hL : L.PosSemidef) : meanSize (lDppProb L) = n - ((1 + L)⁻¹).trace := by
  have hdet := det_one_add_pos hL
  unfold meanSize lDppProb
  have h1 : ∀ S : Finset (Fin n), (S.card : ℝ) * (minor L S / (1 + L).det)
      = ∑ i, (if i ∈ S then minor L S else 0) / (1 + L).det := by
    intro S
    rw [← Finset.sum_div, mul_div_assoc', Finset.sum_ite_mem, Finset.univ_inter, Finset.sum_const, nsmul_eq_mul]
  simp_rw [h1]
  rw [Finset.sum_comm]
  have h4 : ∀ i, ∑ S, (if i ∈ S then minor L S else 0) / (1 + L).det
      = ((1 + L).det - (1 + L).adjugate i i) / (1 + L).det := fun i => by rw [← Finset.sum_div, sum_with hL]
  rw [Finset.sum_congr rfl fun i _ => h4 i]
  have h3 : (1 + L).adjugate.trace = ∑ i, (1 + L).adjugate i i := rfl
  rw [inv_def, trace_smul, Ring.inverse_eq_inv', smul_eq_mul, h3]
  have h2 : ∀ i, ((1 + L).det - (1 + L).adjugate i i) / (1 + L).det = 1 - (1 + L).det⁻¹ * (1 + L).adjugate i i := by
    intro i
    field_simp
  rw [Finset.sum_congr rfl fun i _ => h2 i]
  rw [Finset.sum_sub_distrib, Finset.mul_sum]
  simp

/-- the expected size in terms of the eigenvalues -/
theorem trace_inv (hL : L.PosSemidef) : ∃ v : Fin n → ℝ, (∀ i, 0 ≤ v i) ∧
    ∀ c : ℝ, 0 ≤ c → meanSize (lDppProb (c • L)) = ∑ i, c * v i / (c * v i + 1) := by
  obtain ⟨eigh, he⟩ := exists_EighSpec
  obtain ⟨V, v, hv, h1, h2⟩ : ∃ (V : Matrix (Fin n) (Fin n) ℝ) (v : Fin n → ℝ), (∀ i, 0 ≤ v i) ∧ Vᵀ * V = 1 ∧
      L = V * diagonal v * Vᵀ := by
    have hH := hL.1
    refine ⟨hH.eigenvectorUnitary, hH.eigenvalues, hL.eigenvalues_nonneg, ?_, ?_⟩
    · have := (Matrix.mem_unitaryGroup_iff').1 hH.eigenvectorUnitary.2
      simpa [star_eq_conjTranspose] using this
    · have := hH.spectral_theorem
      simpa [Unitary.conjStarAlgAut_apply, star_eq_conjTranspose] using this
  refine ⟨v, hv, fun c hc => ?_⟩
  have h3 : V * Vᵀ = 1 := mul_eq_one_comm.1 h1
  have hpos : ∀ i, 0 < c * v i + 1 := fun i => by have := mul_nonneg hc (hv i); linarith
  rw [meanSize_lDpp (hL.smul hc)]
  have h4 : 1 + c • L = V * diagonal (fun i => c * v i + 1) * Vᵀ := by
    rw [show diagonal (fun i => c * v i + 1) = c • diagonal v + 1 by
      rw [← diagonal_smul, ← diagonal_one, diagonal_add]; rfl, Matrix.mul_add, Matrix.add_mul, Matrix.mul_one, h3,
      add_comm, h2, Matrix.mul_smul, Matrix.smul_mul]
  have h5 : (1 + c • L)⁻¹ = V * diagonal (fun i => 1 / (c * v i + 1)) * Vᵀ := by
    refine Matrix.inv_eq_left_inv ?_
    rw [h4]
    calc V * diagonal (fun i => 1 / (c * v i + 1)) * Vᵀ * (V * diagonal (fun i => c * v i + 1) * Vᵀ)
        = V * (diagonal (fun i => 1 / (c * v i + 1)) * (Vᵀ * V) * diagonal (fun i => c * v i + 1)) * Vᵀ := by
          simp only [Matrix.mul_assoc]
      _ = V * 1 * Vᵀ := by
          rw [h1, Matrix.mul_one, diagonal_mul_diagonal]
          congr 2
          rw [← diagonal_one]
          congr 1
          funext i
          have := hpos i
          field_simp
      _ = 1 := by rw [Matrix.mul_one, h3]
  rw [h5, trace_mul_comm, ← Matrix.mul_assoc, h1, Matrix.one_mul, trace_diagonal]
  have h6 : ∀ i, c * v i / (c * v i + 1) = 1 - 1 / (c * v i + 1) := fun i => by
    have := hpos i
    field_simp
    ring
  simp_rw [h6]
  rw [Finset.sum_sub_distrib]
  simp

/-- rescaling the kernel by `b ≥ 1` increases the expected size, at most by the factor `b` -/
theorem meanSize_smul_bounds (hL : L.PosSemidef) {c b : ℝ} (hc : 0 ≤ c) (hb : 1 ≤ b) :
    meanSize (lDppProb (c • L)) ≤ meanSize (lDppProb ((b * c) • L)) ∧
      meanSize (lDppProb ((b * c) • L)) ≤ b * meanSize (lDppProb (c • L)) := by
  obtain ⟨v, hv, h⟩ := trace_inv hL
  rw [h c hc, h (b * c) (by positivity), Finset.mul_sum]
  refine ⟨Finset.sum_le_sum fun i _ => ?_, Finset.sum_le_sum fun i _ => ?_⟩
  · have h1 : 0 ≤ c * v i := mul_nonneg hc (hv i)
    rw [div_le_div_iff₀ (by linarith) (by nlinarith [mul_nonneg (by linarith : (0:ℝ) ≤ b) h1])]
    nlinarith
  · have h1 : 0 ≤ c * v i := mul_nonneg hc (hv i)
    rw [mul_div_assoc', div_le_div_iff₀ (by nlinarith [mul_nonneg (by linarith : (0:ℝ) ≤ b) h1]) (by linarith)]
    have : b * c * v i = b * (c * v i) := by ring
    rw [this]
    nlinarith [mul_nonneg (by linarith : (0:ℝ) ≤ b) h1, mul_nonneg (mul_nonneg (by linarith : (0:ℝ) ≤ b) h1) h1]

/-- an expected size is not more than the trace of the likelihood kernel -/
theorem meanSize_nonneg (hL : L.PosSemidef) : 0 ≤ meanSize (lDppProb L) :=
  Finset.sum_nonneg fun S _ => mul_nonneg (Nat.cast_nonneg _) (div_nonneg (minor_nonneg hL S) (det_one_add_pos hL).le)

end Verif.Lemmas.MeanSize
