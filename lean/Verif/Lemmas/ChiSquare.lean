import Verif.Lemmas.JacLaw
import Mathlib.MeasureTheory.Constructions.HaarToSphere
import Mathlib.MeasureTheory.Integral.IntegralEqImproper
import Mathlib.MeasureTheory.Measure.Haar.InnerProductSpace
import Mathlib.Probability.Distributions.Gaussian.Real

/-!
# The squared norm of a Gaussian vector has a gamma law
-/

namespace Verif.Lemmas
open Finset MeasureTheory ProbabilityTheory Set

/-- density of the standard Gaussian vector -/
theorem gauss_pi_density (d : ℕ) : (Measure.pi fun _ : Fin d => gaussianReal 0 1)
    = volume.withDensity fun x => ENNReal.ofReal ((√(2 * Real.pi))⁻¹ ^ d * Real.exp (-(∑ i, x i ^ 2) / 2)) := by
  have e : (fun _ : Fin d => gaussianReal 0 1) = fun _ => (volume : Measure ℝ).withDensity (gaussianPDF 0 1) := by
    rw [gaussianReal_of_var_ne_zero 0 one_ne_zero]
  have : ∀ _ : Fin d, IsProbabilityMeasure ((volume : Measure ℝ).withDensity (gaussianPDF 0 1)) := fun _ => by
    rw [← gaussianReal_of_var_ne_zero 0 one_ne_zero]; infer_instance
  rw [e, pi_withDensity (fun _ : Fin d => (volume : Measure ℝ)) (fun _ => measurable_gaussianPDF 0 1)]
  change (volume : Measure (Fin d → ℝ)).withDensity _ = _
  congr 1
  funext x
  have h1 : ∏ i, gaussianPDF 0 1 (x i) = ENNReal.ofReal (∏ i, ((√(2 * Real.pi))⁻¹ * Real.exp (-(x i) ^ 2 / 2))) := by
    rw [ENNReal.ofReal_prod_of_nonneg fun i _ => by positivity]
    refine prod_congr rfl fun i _ => ?_
    simp [gaussianPDF, gaussianPDFReal]
  rw [h1, prod_mul_distrib, prod_const, card_univ, Fintype.card_fin, ← Real.exp_sum, ← sum_div, sum_neg_distrib]

/-- integrals of functions of the squared norm -/
theorem integral_sqnorm {d : ℕ} (hd : 1 ≤ d) : ∃ C : ℝ, 0 ≤ C ∧ ∀ f : ℝ → ℝ,
    ∫ x : Fin d → ℝ, f (∑ i, x i ^ 2) = C * ∫ s in Ioi (0 : ℝ), s ^ ((d : ℝ) / 2 - 1) * f s := by
  refine ⟨d * (volume : Measure (EuclideanSpace ℝ (Fin d))).real (Metric.ball 0 1) / 2, by positivity, fun f => ?_⟩
  have : Nonempty (Fin d) := ⟨⟨0, hd⟩⟩
  have h1 : ∫ x : Fin d → ℝ, f (∑ i, x i ^ 2) = ∫ x : EuclideanSpace ℝ (Fin d), f (‖x‖ ^ 2) := by
    rw [← (PiLp.volume_preserving_toLp (Fin d)).integral_comp (MeasurableEquiv.measurableEmbedding (MeasurableEquiv.toLp 2 _))]
    refine integral_congr_ae (Filter.Eventually.of_forall fun x => ?_)
    simp only [EuclideanSpace.real_norm_sq_eq]
  rw [h1, integral_fun_norm_addHaar volume (fun r => f (r ^ 2)), finrank_euclideanSpace, Fintype.card_fin,
    ← integral_comp_rpow_Ioi_of_pos (g := fun s => s ^ ((d : ℝ) / 2 - 1) * f s) two_pos]
  rw [nsmul_eq_mul, smul_eq_mul, div_mul_eq_mul_div, mul_assoc, mul_div_assoc, mul_div_assoc]
  congr 2
  rw [← integral_div]
  refine setIntegral_congr_fun measurableSet_Ioi fun x hx => ?_
  have hx : (0 : ℝ) < x := hx
  simp only [smul_eq_mul]
  have e1 : ((x ^ (2 : ℝ)) ^ ((d : ℝ) / 2 - 1)) = x ^ ((d : ℝ) - 2) := by
    rw [← Real.rpow_mul hx.le]; congr 1; ring
  have e2 : x ^ (d - 1) = x ^ ((d : ℝ) - 1) := by
    rw [← Real.rpow_natCast, Nat.cast_sub hd, Nat.cast_one]
  have e3 : x ^ ((2 : ℝ) - 1) * x ^ ((d : ℝ) - 2) = x ^ ((d : ℝ) - 1) := by
    rw [← Real.rpow_add hx]; congr 1; ring
  rw [e1, e2, Real.rpow_two, ← e3]
  ring

theorem chi_square {d : ℕ} (hd : 1 ≤ d) :
    (Measure.pi fun _ : Fin d => gaussianReal 0 1).map (fun x => ∑ i, x i ^ 2) = gammaMeasure ((d : ℝ) / 2) (1 / 2) := by
  have hd1 : (0 : ℝ) < d := by exact_mod_cast hd
  have hd0 : (0 : ℝ) < (d : ℝ) / 2 := by positivity
  obtain ⟨C, hC, h⟩ := integral_sqnorm hd
  have hm : Measurable fun x : Fin d → ℝ => ∑ i, x i ^ 2 := by fun_prop
  set μ := (Measure.pi fun _ : Fin d => gaussianReal 0 1).map (fun x => ∑ i, x i ^ 2) with hμ
  have hp1 : IsProbabilityMeasure μ := Measure.isProbabilityMeasure_map hm.aemeasurable
  have hp2 : IsProbabilityMeasure (gammaMeasure ((d : ℝ) / 2) (1 / 2)) := isProbabilityMeasure_gammaMeasure hd0 (by norm_num)
  set c := (√(2 * Real.pi))⁻¹ ^ d with hc
  have hc0 : 0 ≤ c := by positivity
  set g := (1 / 2 : ℝ) ^ ((d : ℝ) / 2) / Real.Gamma ((d : ℝ) / 2) with hg
  have hg0 : 0 < g := by
    have := Real.Gamma_pos_of_pos hd0
    positivity
  have key : ∀ A, MeasurableSet A → μ.real A = (c * C / g) * (gammaMeasure ((d : ℝ) / 2) (1 / 2)).real A := by
    intro A hA
    have h1 : μ.real A = ∫ x : Fin d → ℝ, (fun s => c * (Real.exp (-s / 2) * A.indicator (fun _ => 1) s)) (∑ i, x i ^ 2) := by
      have e1 : μ.real A = ∫ x, A.indicator (fun _ => (1 : ℝ)) (∑ i, x i ^ 2) ∂(Measure.pi fun _ : Fin d => gaussianReal 0 1) := by
        rw [hμ, map_measureReal_apply hm hA, ← integral_indicator_one (hm hA)]
        rfl
      rw [e1, gauss_pi_density, integral_withDensity_eq_integral_toReal_smul (by fun_prop)
        (Filter.Eventually.of_forall fun x => ENNReal.ofReal_lt_top)]
      refine integral_congr_ae (Filter.Eventually.of_forall fun x => ?_)
      simp only [smul_eq_mul]
      rw [ENNReal.toReal_ofReal (by positivity)]
      ring
    have h2 : (gammaMeasure ((d : ℝ) / 2) (1 / 2)).real A
        = ∫ s in Ioi (0 : ℝ), g * (s ^ ((d : ℝ) / 2 - 1) * (Real.exp (-s / 2) * A.indicator (fun _ => 1) s)) := by
      have e1 : (gammaMeasure ((d : ℝ) / 2) (1 / 2)).real A = ∫ s, A.indicator (fun _ => (1 : ℝ)) s ∂(gammaMeasure ((d : ℝ) / 2) (1 / 2)) :=
        (integral_indicator_one hA).symm
      rw [e1, gammaMeasure_eq, integral_withDensity_eq_integral_toReal_smul (measurable_gamD _ _)
        (Filter.Eventually.of_forall fun x => by unfold gamD; split_ifs <;> simp), ← integral_indicator measurableSet_Ioi]
      refine integral_congr_ae (Filter.Eventually.of_forall fun s => ?_)
      simp only [smul_eq_mul]
      by_cases hs : 0 < s
      · rw [indicator_of_mem (show s ∈ Ioi (0 : ℝ) from hs), gamD, if_pos hs, ENNReal.toReal_ofReal (by positivity)]
        have : -(1 / 2 * s) = -s / 2 := by ring
        rw [this]; ring
      · rw [indicator_of_notMem (show s ∉ Ioi (0 : ℝ) from hs), gamD, if_neg hs]; simp
    rw [h1.trans (h fun s => c * (Real.exp (-s / 2) * A.indicator (fun _ => 1) s)), h2, integral_const_mul]
    have : ∫ s in Ioi (0 : ℝ), s ^ ((d : ℝ) / 2 - 1) * (c * (Real.exp (-s / 2) * A.indicator (fun _ => 1) s))
        = c * ∫ s in Ioi (0 : ℝ), s ^ ((d : ℝ) / 2 - 1) * (Real.exp (-s / 2) * A.indicator (fun _ => 1) s) := by
      rw [← integral_const_mul]; congr 1; funext s; ring
    rw [this]
    field_simp
  have h1 := key univ MeasurableSet.univ
  simp only [probReal_univ, mul_one] at h1
  ext A hA
  have h2 := key A hA
  rw [← h1, one_mul] at h2
  rw [← ENNReal.toReal_eq_toReal_iff' (measure_ne_top _ _) (measure_ne_top _ _)]
  exact h2

end Verif.Lemmas
