import Verif.Lemmas.OpeProp

/-!
The features of the multivariate Jacobi ensemble are orthonormal for the product of the Jacobi weights.
-/

namespace Verif.Lemmas
open MeasureTheory ProbabilityTheory Verif Verif.Model Verif.Spec Verif.Props
open scoped ENNReal

variable {d : ℕ}

/-- `prod_j (1 - x_j)^(a_j) (1 + x_j)^(b_j) dx_j` -/
noncomputable def opeMu (par : Fin d → ℝ × ℝ) : Measure (Fin d → ℝ) :=
  Measure.pi fun j => jacobiMeasure (par j).1 (par j).2

instance (a b : ℝ) : SigmaFinite (jacobiMeasure a b) := by unfold jacobiMeasure; infer_instance

instance (par : Fin d → ℝ × ℝ) : SigmaFinite (opeMu par) := by unfold opeMu; infer_instance

theorem spec1D_ope {par : Fin d → ℝ × ℝ} (h : ∀ j, -1 < (par j).1 ∧ -1 < (par j).2) (D : ℕ) :
    Spec1D (fun j => jacobiMeasure (par j).1 (par j).2) (opeP par) (opeNorm par) D := by
  constructor
  · intro j k _ l _
    refine integrable_jacobiMeasure (h j).1 (h j).2 ?_
    exact ((continuous_jacobiPoly _ _ _).div_const _).mul ((continuous_jacobiPoly _ _ _).div_const _)
  · intro j k _ l _
    have e : ∀ u, opeP par k j u / opeNorm par k j * (opeP par l j u / opeNorm par l j)
        = (opeNorm par k j * opeNorm par l j)⁻¹ * (jacobiPoly k (par j).1 (par j).2 u * jacobiPoly l (par j).1 (par j).2 u) := by
      intro u; simp only [opeP]; rw [div_mul_div_comm, div_eq_inv_mul]
    simp only [e]
    rw [integral_const_mul, jacobiPoly_integral (h j).1 (h j).2]
    split_ifs with hkl
    · subst hkl
      have hp := squareNorm1D_pos (h j).1 (h j).2 k
      rw [opeNorm, Real.mul_self_sqrt hp.le, inv_mul_cancel₀ hp.ne']
    · rw [mul_zero]

theorem ope_orthonormal (hd : 1 ≤ d) {par : Fin d → ℝ × ℝ} (h : ∀ j, -1 < (par j).1 ∧ -1 < (par j).2) {L : List (List ℕ)}
    (hL : ∀ k ∈ L, k.length = d) (hnd : L.Nodup) : OrthonormalIn (opeMu par) (opePhi par L) :=
  C71_features_orthonormal hd hL hnd (spec1D_ope h _)

theorem opePhi_eq (hd : 1 ≤ d) (par : Fin d → ℝ × ℝ) {L : List (List ℕ)} (hL : ∀ k ∈ L, k.length = d) (x : Fin d → ℝ)
    (ind : Fin L.length) :
    opePhi par L x ind = ∏ j : Fin d, opeP par (entry2 L ind j) j (x j) / opeNorm par (entry2 L ind j) j := by
  rw [opePhi, C10_features hd hL]
  refine Finset.prod_congr rfl fun j _ => ?_
  have he : entry2 L ind j = (L.get ind).getD j 0 := by
    rw [entry2, List.getD_eq_getElem _ _ ind.2]; rfl
  rw [he]

end Verif.Lemmas
