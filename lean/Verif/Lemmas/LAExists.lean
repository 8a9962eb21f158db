import Verif.Model.RandomMatrices
import Mathlib.Analysis.Matrix.Spectrum
import Mathlib.Analysis.InnerProductSpace.GramSchmidtOrtho
import Mathlib.FieldTheory.IsAlgClosed.Basic
import Mathlib.Analysis.Complex.Polynomial.Basic
import Mathlib.Data.Multiset.Sort

/-!
# The contracts of the linear algebra routines can be met
-/

namespace Verif.Lemmas
open Verif.Model Matrix Polynomial

theorem exists_qr {N : ℕ} (A : Matrix (Fin N) (Fin N) ℂ) : ∃ p : Matrix (Fin N) (Fin N) ℂ × Matrix (Fin N) (Fin N) ℂ,
    p.1 * p.2 = A ∧ p.1 ∈ unitaryGroup (Fin N) ℂ ∧ p.2.BlockTriangular id := by
  have hcard : Module.finrank ℂ (EuclideanSpace ℂ (Fin N)) = Fintype.card (Fin N) := by simp
  set f : Fin N → EuclideanSpace ℂ (Fin N) := fun j => WithLp.toLp 2 (fun i => A i j) with hf
  set b := InnerProductSpace.gramSchmidtOrthonormalBasis hcard f with hb
  set Q : Matrix (Fin N) (Fin N) ℂ := Matrix.of fun i j => b j i with hQ
  have hU : Qᴴ * Q = 1 := by
    ext i j
    have := (orthonormal_iff_ite.1 b.orthonormal) i j
    rw [Matrix.one_apply, ← this, Matrix.mul_apply]
    simp [Q, PiLp.inner_apply, mul_comm]
  have hU' : Q * Qᴴ = 1 := mul_eq_one_comm.1 hU
  refine ⟨(Q, Qᴴ * A), ?_, ?_, ?_⟩
  · simp only
    rw [← Matrix.mul_assoc, hU', Matrix.one_mul]
  · rw [mem_unitaryGroup_iff]
    exact hU'
  · intro i j hij
    have := InnerProductSpace.gramSchmidtOrthonormalBasis_inv_triangular hcard f (show j < i from hij)
    rw [← hb] at this
    rw [← this]
    change (Qᴴ * A) i j = _
    rw [Matrix.mul_apply]
    simp [Q, PiLp.inner_apply, mul_comm, hf]

open Classical in
/-- linear algebra routines that meet the contracts exist -/
theorem exists_LAOK : ∃ la : LA, LAOK la := by
  refine ⟨{
    eigvalsh := fun {ι} _ _ A => if h : A.IsHermitian then (Finset.univ.val.map h.eigenvalues).sort (· ≤ ·) else []
    eigvals := fun {ι} _ _ A => A.charpoly.roots.toList
    eighVec := fun {ι} _ _ A => if h : A.IsHermitian then (h.eigenvectorUnitary : Matrix ι ι ℂ) else 0
    qr := fun {N} A => (exists_qr A).choose }, ?_, ?_, ?_, ?_, ?_, ?_, ?_, ?_⟩
  · intro ι _ _ A hA
    simp only [dif_pos hA]
    exact Multiset.pairwise_sort _ _
  · intro ι _ _ A hA
    simp only [dif_pos hA]
    rw [hA.charpoly_eq, ← Multiset.prod_coe, ← Multiset.map_coe, Multiset.sort_eq, Multiset.map_map]
    rfl
  · intro ι _ _ A
    simp only
    rw [← Multiset.prod_coe, ← Multiset.map_coe, Multiset.coe_toList]
    have h1 := (IsAlgClosed.splits A.charpoly).eq_prod_roots_of_monic A.charpoly_monic
    exact h1.symm
  · intro ι _ _ A hA
    simp only [dif_pos hA]
    exact hA.eigenvectorUnitary.2
  · intro ι _ _ A hA
    simp only [dif_pos hA]
    have h := hA.conjStarAlgAut_star_eigenvectorUnitary
    rw [Unitary.conjStarAlgAut_apply] at h
    have h' : (hA.eigenvectorUnitary : Matrix ι ι ℂ)ᴴ * A * (hA.eigenvectorUnitary : Matrix ι ι ℂ)
        = diagonal (RCLike.ofReal ∘ hA.eigenvalues) := by
      rw [← h]
      simp [Matrix.star_eq_conjTranspose]
    rw [h']
    exact isDiag_diagonal _
  · intro N A; exact (exists_qr A).choose_spec.1
  · intro N A; exact (exists_qr A).choose_spec.2.1
  · intro N A; exact (exists_qr A).choose_spec.2.2

end Verif.Lemmas
