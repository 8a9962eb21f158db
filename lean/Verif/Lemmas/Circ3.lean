import Verif.Lemmas.Circ2
import Verif.Lemmas.JacChange
import Mathlib.Algebra.MvPolynomial.Funext
import Mathlib.LinearAlgebra.Matrix.Determinant.Basic
import Mathlib.LinearAlgebra.Vandermonde

/-!
# Determinants for measures on the circle
-/

namespace Verif.Lemmas
open Finset Polynomial
open scoped ComplexConjugate

variable {N : ℕ} {z : Fin N → ℂ} {w : Fin N → ℝ} {al : ℕ → ℂ}

/-- orthogonality -/
theorem SzM.inner (hz : ∀ j, ‖z j‖ = 1) {K : ℕ} (h : SzM z w al K) {k l : ℕ} (hk : k ≤ K) (hl : l ≤ K) :
    ∑ j, (w j : ℂ) * (conj ((szP al l).eval (z j)) * (szP al k).eval (z j))
      = if l = k then (((∑ j, w j) * szR al k : ℝ) : ℂ) else 0 := by
  have main : ∀ {k l : ℕ}, k ≤ K → l < k → ∑ j, (w j : ℂ) * (conj ((szP al l).eval (z j)) * (szP al k).eval (z j)) = 0 := by
    intro k l hk hl
    obtain ⟨h1, h2⟩ := h.orth hz k hk
    have e : ∑ j, (w j : ℂ) * (conj ((szP al l).eval (z j)) * (szP al k).eval (z j))
        = ∑ i ∈ range (l + 1), conj ((szP al l).coeff i) * ∑ j, (w j : ℂ) * (conj (z j) ^ i * (szP al k).eval (z j)) := by
      simp only [mul_sum]
      rw [sum_comm]
      refine sum_congr rfl fun j _ => ?_
      have e1 : conj ((szP al l).eval (z j)) = ∑ i ∈ range (l + 1), conj ((szP al l).coeff i) * conj (z j) ^ i := by
        rw [eval_eq_sum_range' (n := l + 1) (by rw [szP_deg]; omega), map_sum]
        exact sum_congr rfl fun i _ => by rw [map_mul, map_pow]
      rw [e1, sum_mul, mul_sum]
      exact sum_congr rfl fun i _ => by ring
    rw [e]
    exact sum_eq_zero fun i hi => by rw [h1 i (by have := mem_range.1 hi; omega), mul_zero]
  split_ifs with hlk
  · subst hlk
    rw [← h.norm hz hk]
    push_cast
    refine sum_congr rfl fun j _ => ?_
    have e2 := conj_mul_eq ((szP al l).eval (z j))
    push_cast at e2
    rw [e2]
  · rcases Nat.lt_or_gt_of_ne hlk with hlt | hgt
    · exact main hk hlt
    · have := congrArg conj (main hl hgt)
      rw [conj_sum_w, map_zero] at this
      rw [← this]
      refine sum_congr rfl fun j _ => ?_
      rw [map_mul, Complex.conj_conj]; ring

/-- the values of the polynomials at the atoms -/
noncomputable def szB (z : Fin N → ℂ) (al : ℕ → ℂ) : Matrix (Fin N) (Fin N) ℂ := Matrix.of fun j k => (szP al k).eval (z j)

theorem det_szB (z : Fin N → ℂ) (al : ℕ → ℂ) : (szB z al).det = (Matrix.vandermonde z).det :=
  (Matrix.det_eval_matrixOfPolynomials_eq_det_vandermonde z (fun k => szP al k) (fun k => szP_deg al k)
    (fun k => szP_monic al k)).symm

theorem szB_gram (hz : ∀ j, ‖z j‖ = 1) (h : SzM z w al N) :
    (szB z al).conjTranspose * (Matrix.diagonal (fun j => (w j : ℂ)) * szB z al)
      = Matrix.diagonal fun k : Fin N => (((∑ j, w j) * szR al k : ℝ) : ℂ) := by
  ext l k
  rw [Matrix.mul_apply, Matrix.diagonal_apply]
  have := h.inner hz (k := k) (l := l) (by omega) (by omega)
  simp only [Fin.val_inj] at this
  have e2 : ((((∑ j, w j) * szR al k : ℝ) : ℂ)) = (((∑ j, w j) * szR al k : ℝ) : ℂ) := rfl
  rw [show (if l = k then (((∑ j, w j) * szR al l : ℝ) : ℂ) else 0) = if l = k then (((∑ j, w j) * szR al k : ℝ) : ℂ) else 0 by
    split_ifs with h; · rw [h]
    · rfl, ← this]
  refine sum_congr rfl fun j _ => ?_
  rw [Matrix.conjTranspose_apply, Matrix.diagonal_mul, szB, Matrix.of_apply, Matrix.of_apply]
  change conj _ * _ = _
  ring

/-- product of the distances -/
noncomputable def vdmC (z : Fin N → ℂ) : ℝ := ∏ i, ∏ j ∈ Ioi i, ‖z j - z i‖

theorem norm_det_vandermonde (z : Fin N → ℂ) : ‖(Matrix.vandermonde z).det‖ = vdmC z := by
  rw [Matrix.det_vandermonde, norm_prod, vdmC]
  exact prod_congr rfl fun i _ => norm_prod _ _

/-- product of the squared norms -/
theorem circ_hankel (hz : ∀ j, ‖z j‖ = 1) (hw : ∀ j, 0 < w j) (h : SzM z w al N) (hR : ∀ k < N, 0 < (∑ j, w j) * szR al k) :
    vdmC z ^ 2 * ∏ j, w j = ∏ k ∈ range N, ((∑ j, w j) * szR al k) := by
  have h1 := congrArg (fun M => ‖Matrix.det M‖) (szB_gram hz h)
  simp only [Matrix.det_mul, Matrix.det_diagonal, Matrix.det_conjTranspose, norm_mul, norm_star, det_szB, norm_det_vandermonde,
    norm_prod, Complex.norm_real, Real.norm_eq_abs] at h1
  rw [prod_congr rfl fun j _ => abs_of_pos (hw j)] at h1
  rw [← Fin.prod_univ_eq_prod_range (fun k => (∑ j, w j) * szR al k)]
  have e : ∏ k : Fin N, (∑ j, w j) * szR al k = ∏ k : Fin N, |∑ j, w j| * |szR al k| :=
    prod_congr rfl fun k _ => by rw [← abs_mul]; exact (abs_of_pos (hR k k.2)).symm
  rw [e, ← h1]
  ring

/-- the weights are the reciprocals of the kernel -/
theorem weight_eq {n : ℕ} {z : Fin (n + 1) → ℂ} {w : Fin (n + 1) → ℝ} (hz : ∀ j, ‖z j‖ = 1) (h : SzM z w al (n + 1))
    (hR : ∀ k ≤ n, 0 < szR al k) (hm : 0 < ∑ j, w j) (j : Fin (n + 1)) : w j * szKr al n (z j) = ∑ j, w j := by
  set m := ∑ j, w j with hmd
  set D : Fin (n + 1) → ℂ := fun k => ((m * szR al k : ℝ) : ℂ) with hD
  have hDne : ∀ k, D k ≠ 0 := fun k => Complex.ofReal_ne_zero.2 (mul_pos hm (hR k (by omega))).ne'
  have h1 := szB_gram hz h
  rw [← hmd] at h1
  have h2 : (Matrix.diagonal (fun k => (D k)⁻¹) * ((szB z al).conjTranspose * Matrix.diagonal (fun j => (w j : ℂ)))) * szB z al = 1 := by
    rw [Matrix.mul_assoc, Matrix.mul_assoc, h1, Matrix.diagonal_mul_diagonal, ← Matrix.diagonal_one]
    congr 1
    funext k
    exact inv_mul_cancel₀ (hDne k)
  have h2' := mul_eq_one_comm.1 h2
  have h3 := congrFun (congrFun h2' j) j
  rw [Matrix.mul_apply, Matrix.one_apply_eq] at h3
  have h4 : ∑ k, szB z al j k * (Matrix.diagonal (fun k => (D k)⁻¹) * ((szB z al).conjTranspose
      * Matrix.diagonal (fun j => (w j : ℂ)))) k j = ((w j * szKr al n (z j) / m : ℝ) : ℂ) := by
    rw [szKr, mul_sum, sum_div, ← Fin.sum_univ_eq_sum_range (fun k => w j * (‖(szP al k).eval (z j)‖ ^ 2 / szR al k) / m)]
    push_cast
    refine sum_congr rfl fun k _ => ?_
    rw [Matrix.diagonal_mul, Matrix.mul_diagonal, Matrix.conjTranspose_apply, szB, Matrix.of_apply]
    change _ * (_ * (conj _ * _)) = _
    have e2 := conj_mul_eq ((szP al k).eval (z j))
    push_cast at e2
    rw [hD]
    push_cast
    rw [mul_inv, ← e2, div_eq_mul_inv, div_eq_mul_inv]
    ring
  rw [h4] at h3
  have h5 : w j * szKr al n (z j) / m = 1 := by exact_mod_cast h3
  field_simp at h5
  exact h5

/-! ## The confluent Vandermonde determinant over `ℂ` -/

/-- rows `z ^ rk r` and derivatives -/
noncomputable def conflC (z : Fin N → ℂ) : Matrix (Fin N ⊕ Fin N) (Fin N ⊕ Fin N) ℂ := Matrix.of fun r c =>
  Sum.elim (fun j => ((rk N r : ℕ) : ℂ) * z j ^ ((rk N r : ℕ) - 1)) (fun j => z j ^ (rk N r : ℕ)) c

/-- generic version -/
noncomputable def conflX (N : ℕ) : Matrix (Fin N ⊕ Fin N) (Fin N ⊕ Fin N) (MvPolynomial (Fin N) ℝ) := Matrix.of fun r c =>
  Sum.elim (fun j => ((rk N r : ℕ) : MvPolynomial (Fin N) ℝ) * MvPolynomial.X j ^ ((rk N r : ℕ) - 1))
    (fun j => MvPolynomial.X j ^ (rk N r : ℕ)) c

theorem conflX_det (N : ℕ) : (conflX N).det ^ 2
    = (∏ i : Fin N, ∏ j ∈ Ioi i, (MvPolynomial.X j - MvPolynomial.X i : MvPolynomial (Fin N) ℝ)) ^ 8 := by
  refine MvPolynomial.funext fun lam => ?_
  have h := abs_det_confl lam
  have e : MvPolynomial.eval lam (conflX N).det = (confl lam).det := by
    rw [RingHom.map_det]
    congr 1
    ext r (j | j) <;> simp [conflX, confl]
  rw [map_pow, e, map_pow, map_prod]
  simp only [map_prod, map_sub, MvPolynomial.eval_X]
  rw [← vdm, ← sq_abs, h]
  ring

theorem norm_det_conflC (z : Fin N → ℂ) : ‖(conflC z).det‖ = vdmC z ^ 4 := by
  have h := congrArg (MvPolynomial.aeval z) (conflX_det N)
  have e : MvPolynomial.aeval z (conflX N).det = (conflC z).det := by
    rw [AlgHom.map_det]
    congr 1
    ext r (j | j) <;> simp [conflX, conflC]
  rw [map_pow, e, map_pow, map_prod] at h
  simp only [map_prod, map_sub, MvPolynomial.aeval_X] at h
  have h2 := congrArg norm h
  rw [norm_pow, norm_pow, ← Matrix.det_vandermonde, norm_det_vandermonde] at h2
  have hv : 0 ≤ vdmC z := prod_nonneg fun i _ => prod_nonneg fun j _ => norm_nonneg _
  rw [show vdmC z ^ 8 = (vdmC z ^ 4) ^ 2 by ring] at h2
  exact (pow_left_inj₀ (norm_nonneg _) (by positivity) two_ne_zero).1 h2

end Verif.Lemmas
