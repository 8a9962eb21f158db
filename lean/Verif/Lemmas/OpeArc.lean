import Verif.Lemmas.RPLaw
import Verif.Lemmas.JacPoly
import Verif.Lemmas.JacHermite
import Verif.Model.JacobiOPE

/-!
The proposals of `sample_chain_rule_proposal`: arcsine law, one rejection loop.
-/

namespace Verif.Lemmas
open MeasureTheory ProbabilityTheory Verif Verif.Model Verif.Spec
open scoped ENNReal

/-- density of the arcsine law on `(-1, 1)` -/
noncomputable def arcD (x : ℝ) : ℝ := Real.pi⁻¹ * ((1 - x) ^ (-(1 / 2) : ℝ) * (1 + x) ^ (-(1 / 2) : ℝ))

/-- the arcsine law -/
noncomputable def arcM : Measure ℝ :=
  (volume.restrict (Set.Ioo (-1 : ℝ) 1)).withDensity fun x => ENNReal.ofReal (arcD x)

theorem measurable_arcD : Measurable arcD := by unfold arcD; fun_prop

theorem map_volume_affine : (volume : Measure ℝ).map (fun y => 1 - 2 * y) = ENNReal.ofReal (1 / 2) • volume := by
  have h1 : (fun y : ℝ => 1 - 2 * y) = (fun y => 1 + y) ∘ fun y => (-2 : ℝ) * y := by
    funext y; simp; ring
  rw [h1, ← Measure.map_map (by fun_prop) (by fun_prop), Real.map_volume_mul_left (by norm_num), Measure.map_smul,
    map_add_left_eq_self]
  norm_num

theorem betaPDF_half (y : ℝ) : betaPDF (1 / 2) (1 / 2) y
    = (Set.Ioo (-1 : ℝ) 1).indicator (fun x => ENNReal.ofReal (2 * arcD x)) (1 - 2 * y) := by
  rw [betaPDF, betaPDFReal]
  by_cases h : 0 < y ∧ y < 1
  · rw [if_pos h, Set.indicator_of_mem (by constructor <;> linarith [h.1, h.2])]
    congr 1
    rw [arcD, ProbabilityTheory.beta, show (1 / 2 : ℝ) + 1 / 2 = 1 by norm_num, Real.Gamma_one, Real.Gamma_one_half_eq,
      Real.mul_self_sqrt Real.pi_pos.le, show 1 - (1 - 2 * y) = 2 * y by ring, show 1 + (1 - 2 * y) = 2 * (1 - y) by ring,
      Real.mul_rpow (by norm_num) h.1.le, Real.mul_rpow (by norm_num) (by linarith [h.2]),
      show (1 / 2 - 1 : ℝ) = -(1 / 2) by norm_num]
    have h2 : (2 : ℝ) ^ (-(1 / 2) : ℝ) * 2 ^ (-(1 / 2) : ℝ) = 1 / 2 := by
      rw [← Real.rpow_add (by norm_num), show (-(1 / 2) + -(1 / 2) : ℝ) = -1 by norm_num, Real.rpow_neg_one]; norm_num
    rw [div_one, one_div]
    linear_combination (-2 * Real.pi⁻¹ * y ^ (-(1 / 2) : ℝ) * (1 - y) ^ (-(1 / 2) : ℝ)) * h2
  · rw [if_neg h, Set.indicator_of_notMem, ENNReal.ofReal_zero]
    rintro ⟨h1, h2⟩
    exact h ⟨by linarith, by linarith⟩

theorem map_beta_half : (betaMeasure (1 / 2) (1 / 2)).map (fun y => 1 - 2 * y) = arcM := by
  ext s hs
  rw [Measure.map_apply (by fun_prop) hs, betaMeasure, withDensity_apply _ ((by fun_prop : Measurable fun y : ℝ => 1 - 2 * y) hs),
    arcM, withDensity_apply _ hs, Measure.restrict_restrict hs, ← lintegral_indicator ((by fun_prop : Measurable fun y : ℝ => 1 - 2 * y) hs)]
  have hm : Measurable (fun x => ENNReal.ofReal (2 * arcD x)) := (measurable_arcD.const_mul 2).ennreal_ofReal
  have e : ∀ y : ℝ, ((fun y : ℝ => 1 - 2 * y) ⁻¹' s).indicator (betaPDF (1 / 2) (1 / 2)) y
      = (s ∩ Set.Ioo (-1 : ℝ) 1).indicator (fun x => ENNReal.ofReal (2 * arcD x)) (1 - 2 * y) := by
    intro y
    by_cases hy : 1 - 2 * y ∈ s
    · rw [Set.indicator_of_mem (show y ∈ (fun y : ℝ => 1 - 2 * y) ⁻¹' s from hy), betaPDF_half, ← Set.indicator_indicator,
        Set.indicator_of_mem hy]
    · rw [Set.indicator_of_notMem (show y ∉ (fun y : ℝ => 1 - 2 * y) ⁻¹' s from hy),
        Set.indicator_of_notMem fun h => hy h.1]
  simp only [e]
  rw [← lintegral_map (f := (s ∩ Set.Ioo (-1 : ℝ) 1).indicator (fun x => ENNReal.ofReal (2 * arcD x)))
      (hm.indicator (hs.inter measurableSet_Ioo)) (by fun_prop : Measurable fun y : ℝ => 1 - 2 * y), map_volume_affine,
    lintegral_smul_measure, lintegral_indicator (hs.inter measurableSet_Ioo), smul_eq_mul,
    ← lintegral_const_mul _ hm]
  refine lintegral_congr fun x => ?_
  rw [← ENNReal.ofReal_mul (by norm_num)]
  congr 1; ring

end Verif.Lemmas
