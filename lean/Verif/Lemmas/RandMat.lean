import Verif.Model.RandomMatrices
import Mathlib.LinearAlgebra.Matrix.ToLinearEquiv
import Mathlib.Algebra.Polynomial.Roots
import Mathlib.LinearAlgebra.Matrix.Charpoly.Coeff
import Mathlib.LinearAlgebra.Matrix.PosDef
import Mathlib.Algebra.Order.Star.Real
import Mathlib.Analysis.Complex.Order

/-!
Lemmas on the matrix models: eigenvalues returned by the solvers, and bidiagonal factors of the tridiagonal models.
-/

namespace Verif.Lemmas
open Verif Verif.Model Matrix Polynomial
open scoped ComplexOrder

variable {ι : Type} [Fintype ι] [DecidableEq ι]

theorem natDegree_prod_X_sub (l : List ℂ) : ((l.map fun z => (X - C z : ℂ[X])).prod).natDegree = l.length := by
  induction l with
  | nil => simp
  | cons z l ih =>
    have hmonic : ((l.map fun z => (X - C z : ℂ[X])).prod).Monic := by
      clear ih
      induction l with
      | nil => simp
      | cons w l ih => rw [List.map_cons, List.prod_cons]; exact (monic_X_sub_C w).mul ih
    rw [List.map_cons, List.prod_cons, (monic_X_sub_C z).natDegree_mul hmonic, ih, natDegree_X_sub_C, List.length_cons, add_comm]

theorem eigen_of_char {A : Matrix ι ι ℂ} {l : List ℂ} (h : (l.map fun z => (X - C z : ℂ[X])).prod = A.charpoly) :
    l.length = Fintype.card ι ∧ ∀ z ∈ l, ∃ v : ι → ℂ, v ≠ 0 ∧ A *ᵥ v = z • v := by
  constructor
  · rw [← natDegree_prod_X_sub, h, Matrix.charpoly_natDegree_eq_dim]
  · intro z hz
    have hroot : A.charpoly.eval z = 0 := by
      rw [← h, eval_list_prod, List.map_map]
      apply List.prod_eq_zero
      rw [List.mem_map]
      exact ⟨z, hz, by simp⟩
    rw [Matrix.eval_charpoly] at hroot
    obtain ⟨v, hv, hv'⟩ := Matrix.exists_mulVec_eq_zero_iff.2 hroot
    refine ⟨v, hv, ?_⟩
    rw [Matrix.sub_mulVec, sub_eq_zero] at hv'
    rw [← hv']
    ext i
    simp [Matrix.scalar_apply]

theorem eigen_eigvals {la : LA} (hla : LAOK la) (A : Matrix ι ι ℂ) :
    (la.eigvals A).length = Fintype.card ι ∧ ∀ z ∈ la.eigvals A, ∃ v : ι → ℂ, v ≠ 0 ∧ A *ᵥ v = z • v :=
  eigen_of_char (hla.eigvals_char A)

theorem eigen_eigvalsh {la : LA} (hla : LAOK la) {A : Matrix ι ι ℂ} (hA : A.IsHermitian) :
    (la.eigvalsh A).length = Fintype.card ι ∧ ∀ x ∈ la.eigvalsh A, ∃ v : ι → ℂ, v ≠ 0 ∧ A *ᵥ v = (x : ℂ) • v := by
  have h := hla.eigvalsh_char A hA
  have h2 := eigen_of_char (A := A) (l := (la.eigvalsh A).map fun x : ℝ => (x : ℂ)) (by rw [List.map_map]; exact h)
  refine ⟨by simpa using h2.1, fun x hx => h2.2 _ (List.mem_map_of_mem hx)⟩

omit [DecidableEq ι] in
theorem star_dot_pos {v : ι → ℂ} (hv : v ≠ 0) : 0 < star v ⬝ᵥ v := dotProduct_star_self_pos_iff.2 hv

/-- an eigenvalue of a positive semi-definite matrix is non-negative -/
theorem eigen_nonneg {A : Matrix ι ι ℂ} (hA : A.PosSemidef) {x : ℝ} {v : ι → ℂ} (hv : v ≠ 0) (h : A *ᵥ v = (x : ℂ) • v) :
    0 ≤ x := by
  have h1 := hA.dotProduct_mulVec_nonneg v
  rw [h, dotProduct_smul, smul_eq_mul] at h1
  have h2 := star_dot_pos hv
  have h3 : (0 : ℂ) ≤ (x : ℂ) := by
    by_contra hneg
    rw [Complex.zero_le_real] at hneg
    push Not at hneg
    have : ((x : ℂ) * (star v ⬝ᵥ v)) < 0 := mul_neg_of_neg_of_pos (by exact_mod_cast hneg) h2
    exact absurd h1 (not_le_of_gt this)
  exact_mod_cast h3

/-- lower bidiagonal matrix -/
def bidiag (N : ℕ) (f g : ℕ → ℝ) : Matrix (Fin N) (Fin N) ℝ := Matrix.of fun p r =>
  (if r = p then f p else 0) + (if (r : ℕ) + 1 = p then g p else 0)

theorem bidiag_mul_transpose {N : ℕ} {f g : ℕ → ℝ} (hg : g 0 = 0) :
    bidiag N f g * (bidiag N f g)ᵀ = tridiag N (fun p => f p ^ 2 + g p ^ 2) (fun p => f p * g (p + 1)) := by
  ext ⟨p, hp⟩ ⟨q, hq⟩
  rw [Matrix.mul_apply]
  simp only [Matrix.transpose_apply, bidiag, Matrix.of_apply, tridiag, Fin.ext_iff]
  rw [Fin.sum_univ_eq_sum_range (fun r => ((if r = p then f p else 0) + (if r + 1 = p then g p else 0))
    * ((if r = q then f q else 0) + (if r + 1 = q then g q else 0))) N]
  rcases p with _ | p <;> rcases q with _ | q
  all_goals simp only [hg, ite_self, add_zero, Nat.add_right_cancel_iff, add_mul, mul_add, ite_mul, zero_mul, mul_ite, mul_zero,
    Finset.sum_add_distrib, Finset.sum_ite_eq', Finset.mem_range, zero_add, Finset.sum_const_zero]
  all_goals split_ifs
  all_goals first | contradiction | omega | skip
  all_goals subst_vars
  all_goals first | ring | (exfalso; omega) | skip

theorem tridiag_isHermitian (N : ℕ) (d e : ℕ → ℝ) : ((tridiag N d e).map (fun x : ℝ => (x : ℂ))).IsHermitian := by
  ext p q
  simp only [Matrix.conjTranspose_apply, Matrix.map_apply, tridiag, Matrix.of_apply]
  rw [Complex.star_def, Complex.conj_ofReal]
  congr 1
  by_cases h : p = q
  · subst h; simp
  · have h' : ¬ q = p := fun e => h e.symm
    simp only [h, h', if_false]
    split_ifs <;> first | rfl | omega

/-- the complexification of `B Bᵀ` is positive semi-definite -/
theorem psd_of_factor {N : ℕ} (B : Matrix (Fin N) (Fin N) ℝ) :
    ((B * Bᵀ).map (fun x : ℝ => (x : ℂ))).PosSemidef := by
  have : (B * Bᵀ).map (fun x : ℝ => (x : ℂ))
      = (B.map (fun x : ℝ => (x : ℂ))) * (B.map (fun x : ℝ => (x : ℂ)))ᴴ := by
    ext p q
    simp [Matrix.mul_apply, Matrix.conjTranspose_apply, Matrix.map_apply]
  rw [this]
  exact Matrix.posSemidef_self_mul_conjTranspose _

theorem eig_tridiag {la : LA} (hla : LAOK la) (N : ℕ) (d e : ℕ → ℝ) :
    (eigTridiag la N d e).length = N ∧ (eigTridiag la N d e).Pairwise (· ≤ ·) ∧
      ∀ x ∈ eigTridiag la N d e, ∃ v : Fin N → ℂ, v ≠ 0 ∧ (tridiag N d e).map (fun x : ℝ => (x : ℂ)) *ᵥ v = (x : ℂ) • v := by
  have h := eigen_eigvalsh hla (tridiag_isHermitian N d e)
  refine ⟨by rw [eigTridiag, h.1, Fintype.card_fin], hla.eigvalsh_sorted _ (tridiag_isHermitian N d e), h.2⟩

theorem eig_tridiag_nonneg {la : LA} (hla : LAOK la) {N : ℕ} {d e : ℕ → ℝ} (f g : ℕ → ℝ) (hg : g 0 = 0)
    (hd : ∀ p, p < N → d p = f p ^ 2 + g p ^ 2) (he : ∀ p, p + 1 < N → e p = f p * g (p + 1)) :
    ∀ x ∈ eigTridiag la N d e, 0 ≤ x := by
  intro x hx
  obtain ⟨v, hv, h⟩ := (eig_tridiag hla N d e).2.2 x hx
  have heq : tridiag N d e = bidiag N f g * (bidiag N f g)ᵀ := by
    rw [bidiag_mul_transpose hg]
    ext p q
    simp only [tridiag, Matrix.of_apply]
    split_ifs with h1 h2 h3
    · exact hd _ p.2
    · exact he _ (by omega)
    · exact he _ (by omega)
    · rfl
  rw [heq] at h
  exact eigen_nonneg (psd_of_factor _) hv h

theorem eig_tridiag_le_one {la : LA} (hla : LAOK la) {N : ℕ} {d e : ℕ → ℝ} (f g : ℕ → ℝ) (hg : g 0 = 0)
    (hd : ∀ p, p < N → 1 - d p = f p ^ 2 + g p ^ 2) (he : ∀ p, p + 1 < N → - e p = f p * g (p + 1)) :
    ∀ x ∈ eigTridiag la N d e, x ≤ 1 := by
  intro x hx
  obtain ⟨v, hv, h⟩ := (eig_tridiag hla N d e).2.2 x hx
  have heq : 1 - tridiag N d e = bidiag N f g * (bidiag N f g)ᵀ := by
    rw [bidiag_mul_transpose hg]
    ext p q
    simp only [tridiag, Matrix.of_apply, Matrix.sub_apply, Matrix.one_apply]
    split_ifs with h1 h2 h3
    · exact hd _ p.2
    · rw [zero_sub]; exact he _ (by omega)
    · rw [zero_sub]; exact he _ (by omega)
    · simp
  have h1 : ((1 - tridiag N d e).map (fun x : ℝ => (x : ℂ))) *ᵥ v = ((1 - x : ℝ) : ℂ) • v := by
    have : (1 - tridiag N d e).map (fun x : ℝ => (x : ℂ)) = 1 - (tridiag N d e).map (fun x : ℝ => (x : ℂ)) := by
      ext p q
      simp only [Matrix.map_apply, Matrix.sub_apply, Matrix.one_apply]
      split_ifs <;> push_cast <;> rfl
    rw [this, Matrix.sub_mulVec, h, Matrix.one_mulVec]
    push_cast
    rw [sub_smul, one_smul]
  rw [heq] at h1
  have := eigen_nonneg (psd_of_factor _) hv h1
  linarith

end Verif.Lemmas
