import Verif.Lemmas.JacHermite2
import Mathlib.Analysis.Matrix.PosDef

/-!
# Triangular changes of variables, pivots, and the general form of the law of the eigenvalues
-/

namespace Verif.Lemmas
open Finset Matrix MeasureTheory Verif.Model ProbabilityTheory Polynomial

variable {N n : ℕ}

theorem det_tri {F : Cd N → Cd N} {y : Cd N} (h : ∀ r c, rk N r < rk N c → jacM F y r c = 0) :
    (fderiv ℝ F y).det = (∏ k, jacM F y (.inl k) (.inl k)) * ∏ k, jacM F y (.inr k) (.inr k) := by
  rw [det_fderiv, ← Matrix.det_submatrix_equiv_self (rkE N).symm, Matrix.det_of_isLowerTriangular]
  · refine (Fintype.prod_equiv (rkE N).symm _ (fun c => jacM F y c c) (fun _ => rfl)).trans ?_
    rw [Fintype.prod_sum_type]
  · intro i j hij
    rw [Matrix.submatrix_apply]
    refine h _ _ ?_
    rw [← rkE_apply, ← rkE_apply, Equiv.apply_symm_apply, Equiv.apply_symm_apply]
    exact hij

/-- pivots of a tridiagonal matrix -/
noncomputable def piv (d e : ℕ → ℝ) : ℕ → ℝ
  | 0 => d 0
  | k + 1 => d (k + 1) - e k ^ 2 / piv d e k

/-- the vector of the back substitution, from position `k` downwards: `bsv m` is the entry at `k - m` -/
noncomputable def bsv (d e : ℕ → ℝ) (k : ℕ) : ℕ → ℝ
  | 0 => 1
  | m + 1 => -(e (k - (m + 1)) / piv d e (k - (m + 1))) * bsv d e k m

/-- pivots of a positive definite matrix are positive -/
theorem piv_pos {d e : ℕ → ℝ} (h : (tridiag N d e).PosDef) : ∀ k < N, 0 < piv d e k := by
  intro k
  induction k using Nat.strong_induction_on with
  | _ k ih =>
    intro hk
    set V : ℕ → ℝ := fun i => if i ≤ k then bsv d e k (k - i) else 0 with hV
    set v : Fin N → ℝ := fun i => V i with hv
    have hpad : ∀ i < N, pad v i = V i := fun i hi => by rw [pad_lt hi]
    have hpad' : ∀ i, pad v i = if i < N then V i else 0 := fun i => by
      unfold pad; split_ifs <;> rfl
    have hrec : ∀ i < k, piv d e i * V i + e i * V (i + 1) = 0 := by
      intro i hi
      have hp := ih i hi (by omega)
      simp only [hV]
      rw [if_pos hi.le, if_pos (show i + 1 ≤ k by omega)]
      obtain ⟨m, hm⟩ : ∃ m, k - i = m + 1 := ⟨k - i - 1, by omega⟩
      rw [hm, show k - (i + 1) = m by omega, bsv, show k - (m + 1) = i by omega]
      field_simp
      ring
    have hpv : ∀ i ≤ k, d i * V i + prv e V i = piv d e i * V i := by
      intro i hi
      rcases i with _ | i
      · simp [prv, piv]
      · have := hrec i (by omega)
        have hp := ih i (by omega) (by omega)
        rw [prv, if_neg (by omega), Nat.add_sub_cancel, piv]
        have hVi : V i = -(e i * V (i + 1)) / piv d e i := by field_simp; linarith
        rw [hVi]
        field_simp
        ring
    have hprv : ∀ p : ℕ, p < N → prv e (pad v) p = prv e V p := by
      intro p hp
      rw [prv, prv]
      split_ifs
      · rfl
      · rw [hpad _ (by omega)]
    have hTv : ∀ p : Fin N, v p * (tridiag N d e *ᵥ v) p = if (p : ℕ) = k then piv d e k else 0 := by
      intro p
      rw [tridiag_mulVec, hpad _ p.2, hprv _ p.2, hpad']
      rcases Nat.lt_trichotomy (p : ℕ) k with h1 | h1 | h1
      · rw [if_neg h1.ne, if_pos (by omega)]
        have := hpv p h1.le
        have := hrec p h1
        have : d p * V p + e p * V (p + 1) + prv e V p = 0 := by linarith
        rw [this, mul_zero]
      · rw [if_pos h1]
        have h2 := hpv p h1.le
        have h3 : V (p + 1) = 0 := by simp only [hV]; rw [if_neg (by omega)]
        have h4 : V p = 1 := by simp only [hV]; rw [if_pos h1.le, h1, Nat.sub_self, bsv]
        rw [h3, ite_self, mul_zero, add_zero, h2, h4]
        simp only [hv]
        rw [h4, h1]; ring
      · have h4 : v p = 0 := by simp only [hv, hV]; rw [if_neg (by omega)]
        have h5 : ¬ (p : ℕ) = k := by omega
        rw [h4, zero_mul, if_neg h5]
    have hne : v ≠ 0 := by
      intro h0
      have := congrFun h0 ⟨k, hk⟩
      simp [hv, hV, bsv] at this
    have hq := h.dotProduct_mulVec_pos hne
    rw [star_trivial, dotProduct] at hq
    simp only [hTv] at hq
    rwa [Fin.sum_univ_eq_sum_range (fun p => if p = k then piv d e k else 0), sum_ite_eq', if_pos (mem_range.2 hk)] at hq

/-- `M` positive definite as soon as the roots of its characteristic polynomial are positive -/
theorem posDef_of_char {M : Matrix (Fin N) (Fin N) ℝ} (hM : M.IsHermitian) {lam : Fin N → ℝ}
    (h : M.charpoly = ∏ j, (X - C (lam j))) (hl : ∀ j, 0 < lam j) : M.PosDef := by
  rw [hM.posDef_iff_eigenvalues_pos]
  intro i
  have h1 : M.charpoly.eval (hM.eigenvalues i) = 0 := by
    rw [hM.charpoly_eq, eval_prod]
    exact prod_eq_zero (mem_univ i) (by simp)
  rw [h, eval_prod] at h1
  obtain ⟨j, _, hj⟩ := prod_eq_zero_iff.1 h1
  simp only [eval_sub, eval_X, eval_C, sub_eq_zero] at hj
  rw [hj]; exact hl j

theorem det_of_char {M : Matrix (Fin N) (Fin N) ℝ} {lam : Fin N → ℝ} (h : M.charpoly = ∏ j, (X - C (lam j))) (t : ℝ) :
    (t • (1 : Matrix (Fin N) (Fin N) ℝ) - M).det = ∏ j, (t - lam j) := by
  have h1 := congrArg (Polynomial.eval t) h
  rw [Matrix.eval_charpoly, eval_prod] at h1
  rw [Matrix.smul_one_eq_diagonal]
  simpa using h1

/-- the density constant -/
noncomputable def massK (n : ℕ) (beta : ℝ) : ℝ :=
  (Real.Gamma (beta / 2 * (n + 1)))⁻¹ * (Real.Gamma (beta / 2) / 1 ^ (beta / 2)) ^ (n + 1)

theorem massK_pos {beta : ℝ} (hb : 0 < beta) : 0 < massK n beta := by
  have := Real.Gamma_pos_of_pos (show 0 < beta / 2 * (n + 1) by positivity)
  have := Real.Gamma_pos_of_pos (show 0 < beta / 2 by positivity)
  rw [massK]; positivity

/-- **general law of the eigenvalues**: `q` maps the draws (with an auxiliary mass) to Jacobi coefficients -/
theorem law_general {M : Measure (Cd (n + 1))} {d : Cd (n + 1) → ENNReal} (hM : M = volume.withDensity d)
    {O : Set (Cd (n + 1))} (hO : MeasurableSet O) (hd0 : ∀ z, z ∉ O → d z = 0) {q : Cd (n + 1) → Cd (n + 1)}
    (hq : Differentiable ℝ q) (hinj : Set.InjOn q O) (hqR : ∀ z ∈ O, q z ∈ specR (n + 1)) {beta : ℝ} (hb : 0 < beta)
    {G : (Fin (n + 1) → ℝ) → ENNReal} (hG : Measurable G)
    (hG0 : ∀ y ∈ specR (n + 1), y ∉ q '' O → G (fun j => specMap y (.inl j)) = 0)
    (h : ∀ z ∈ O, d z = ENNReal.ofReal |(fderiv ℝ q z).det|
      * (ENNReal.ofReal (Real.Gamma (beta / 2 * (n + 1)))⁻¹ * (ENNReal.ofReal (coefD beta (q z) * Real.exp (-(q z (.inr 0))))
        * G (fun j => specMap (q z) (.inl j))))) :
    M.map (fun z => fun j => specMap (q z) (.inl j)) = (volume.restrict (ordS (n + 1))).withDensity fun l =>
      ENNReal.ofReal (massK n beta) * (ENNReal.ofReal (vdm l ^ beta) * G l) := by
  have ha0pos : 0 < beta / 2 * ((n : ℝ) + 1) := by positivity
  have hlam : Measurable fun y : Cd (n + 1) => fun j => specMap y (.inl j) :=
    measurable_pi_lambda _ fun j => (measurable_pi_apply _).comp measurable_specMap
  have hme : Measurable (fun z => fun j => specMap (q z) (.inl j)) := hlam.comp hq.continuous.measurable
  ext A hA
  rw [Measure.map_apply hme hA, hM, withDensity_apply _ (hme hA), ← lintegral_indicator (hme hA), withDensity_apply _ hA,
    ← lintegral_indicator hA]
  have hch := spec_change_gamma (specMap_ok (N := n + 1)) hb one_pos (hG.indicator hA)
  set D : Cd (n + 1) → ENNReal := fun y => ENNReal.ofReal (Real.Gamma (beta / 2 * (n + 1)))⁻¹ *
    (ENNReal.ofReal (coefD beta y * Real.exp (-(y (.inr 0)))) * A.indicator G (fun j => specMap y (.inl j))) with hD
  have e1 : (∫⁻ z, ((fun z => fun j => specMap (q z) (.inl j)) ⁻¹' A).indicator d z)
      = ∫⁻ z in O, ENNReal.ofReal |(fderiv ℝ q z).det| * D (q z) := by
    rw [← lintegral_indicator hO]
    refine lintegral_congr fun z => ?_
    by_cases hz : z ∈ O
    · rw [Set.indicator_of_mem hz]
      by_cases hm : (fun j => specMap (q z) (.inl j)) ∈ A
      · rw [Set.indicator_of_mem (show z ∈ (fun z => fun j => specMap (q z) (.inl j)) ⁻¹' A from hm), h z hz, hD]
        simp only [Set.indicator_of_mem hm]
      · rw [Set.indicator_of_notMem (show z ∉ (fun z => fun j => specMap (q z) (.inl j)) ⁻¹' A from hm), hD]
        simp only [Set.indicator_of_notMem hm, mul_zero]
    · rw [Set.indicator_of_notMem hz, Set.indicator_apply_eq_zero]
      intro _; exact hd0 z hz
  have hqm : MeasurableSet (q '' O) := hO.image_of_continuousOn_injOn hq.continuous.continuousOn hinj
  rw [e1, ← lintegral_image_eq_lintegral_abs_det_fderiv_mul volume hO
    (fun z _ => (hq.differentiableAt (x := z)).hasFDerivAt.hasFDerivWithinAt) hinj D]
  have e2 : ∫⁻ y in q '' O, D y = ∫⁻ y in specR (n + 1), D y := by
    rw [← lintegral_indicator hqm, ← lintegral_indicator measurableSet_specR]
    refine lintegral_congr fun y => ?_
    by_cases hy : y ∈ q '' O
    · obtain ⟨z, hz, rfl⟩ := hy
      rw [Set.indicator_of_mem (Set.mem_image_of_mem q hz), Set.indicator_of_mem (hqR z hz)]
    · rw [Set.indicator_of_notMem hy]
      by_cases hR : y ∈ specR (n + 1)
      · rw [Set.indicator_of_mem hR, hD]
        have h0 : A.indicator G (fun j => specMap y (.inl j)) = 0 := by
          rw [Set.indicator_apply_eq_zero]; intro _; exact hG0 y hR hy
        simp only [h0, mul_zero]
      · rw [Set.indicator_of_notMem hR]
  rw [e2, hD, lintegral_const_mul' _ _ ENNReal.ofReal_ne_top]
  have e3 : (∫⁻ y in specR (n + 1), ENNReal.ofReal (coefD beta y * Real.exp (-(y (.inr 0)))) * A.indicator G (fun j => specMap y (.inl j)))
      = ∫⁻ y in specR (n + 1), ENNReal.ofReal (coefD beta y * Real.exp (-(1 * pad (fun i => y (.inr i)) 0)))
        * A.indicator G (fun j => specMap y (.inl j)) := by
    refine lintegral_congr fun y => ?_
    rw [pad_lt (Nat.succ_pos n), one_mul]; rfl
  rw [e3, hch, ← mul_assoc, ← ENNReal.ofReal_mul (inv_nonneg.2 (Real.Gamma_pos_of_pos ha0pos).le),
    ← lintegral_const_mul' _ _ ENNReal.ofReal_ne_top, ← lintegral_indicator measurableSet_ordS,
    ← lintegral_indicator measurableSet_ordS]
  refine lintegral_congr fun l => ?_
  by_cases hl : l ∈ A
  · by_cases ho : l ∈ ordS (n + 1) <;> simp [hl, ho, massK]
  · by_cases ho : l ∈ ordS (n + 1) <;> simp [hl, ho]

end Verif.Lemmas
