import Mathlib.Probability.Distributions.Beta
import Mathlib.Probability.Distributions.Gamma
import Mathlib.MeasureTheory.Measure.Lebesgue.Basic
import Mathlib.MeasureTheory.Group.LIntegral
import Mathlib.MeasureTheory.Measure.Prod
import Mathlib.Tactic.LinearCombination
import Mathlib.Tactic.FieldSimp

/-!
# The ratio of independent gamma variables has a beta law
-/

namespace Verif.Lemmas
open MeasureTheory ProbabilityTheory

theorem lintegral_scaleG {s : ℝ} (hs : 0 < s) {g : ℝ → ENNReal} (hg : Measurable g) :
    ∫⁻ x, g x = ENNReal.ofReal s * ∫⁻ u, g (s * u) := by
  conv_lhs => rw [← Real.smul_map_volume_mul_left hs.ne']
  rw [lintegral_smul_measure, lintegral_map hg (by fun_prop), abs_of_pos hs, smul_eq_mul]

theorem measurable_gammaPDF' (a r : ℝ) : Measurable (gammaPDF a r) := (measurable_gammaPDFReal a r).ennreal_ofReal
theorem measurable_betaPDF' (a b : ℝ) : Measurable (betaPDF a b) := (measurable_betaPDFReal a b).ennreal_ofReal

theorem gamma_split {a b r s u : ℝ} (ha : 0 < a) (hb : 0 < b) (hr : 0 < r) (hs : 0 < s) (h0 : u ≠ 0) (h1 : u ≠ 1) :
    ENNReal.ofReal s * (gammaPDF a r (s * u) * gammaPDF b r (s - s * u)) = gammaPDF (a + b) r s * betaPDF a b u := by
  by_cases hu : 0 < u ∧ u < 1
  · have e1 : 0 < s * u := mul_pos hs hu.1
    have e2 : 0 < s * (1 - u) := mul_pos hs (by linarith [hu.2])
    rw [show s - s * u = s * (1 - u) by ring, gammaPDF_of_nonneg e1.le, gammaPDF_of_nonneg e2.le, gammaPDF_of_nonneg hs.le,
      betaPDF_of_pos_lt_one hu.1 hu.2, ← ENNReal.ofReal_mul, ← ENNReal.ofReal_mul hs.le, ← ENNReal.ofReal_mul]
    · congr 1
      rw [Real.mul_rpow hs.le hu.1.le, Real.mul_rpow hs.le (by linarith [hu.2])]
      have x1 : Real.exp (-(r * (s * u))) * Real.exp (-(r * (s * (1 - u)))) = Real.exp (-(r * s)) := by
        rw [← Real.exp_add]; congr 1; ring
      have x2 : s * (s ^ (a - 1) * s ^ (b - 1)) = s ^ (a + b - 1) := by
        rw [← Real.rpow_add hs]
        nth_rewrite 1 [← Real.rpow_one s]
        rw [← Real.rpow_add hs]; congr 1; ring
      have x3 : r ^ a * r ^ b = r ^ (a + b) := (Real.rpow_add hr _ _).symm
      have x4 : (1 / beta a b) = Real.Gamma (a + b) / (Real.Gamma a * Real.Gamma b) := by rw [beta, one_div_div]
      rw [x4, ← x1, ← x2, ← x3]
      have g1 := (Real.Gamma_pos_of_pos ha).ne'
      have g2 := (Real.Gamma_pos_of_pos hb).ne'
      have g3 := (Real.Gamma_pos_of_pos (add_pos ha hb)).ne'
      field_simp
    · have := Real.Gamma_pos_of_pos (add_pos ha hb)
      positivity
    · have := Real.Gamma_pos_of_pos ha
      positivity
  · rw [betaPDF_eq, if_neg hu, ENNReal.ofReal_zero, mul_zero]
    rcases lt_or_gt_of_ne h0 with h | h
    · rw [gammaPDF_of_neg (mul_neg_of_pos_of_neg hs h), zero_mul, mul_zero]
    · have h2 : 1 < u := by
        rcases lt_or_gt_of_ne h1 with h' | h'
        · exact absurd ⟨h, h'⟩ hu
        · exact h'
      rw [gammaPDF_of_neg (show s - s * u < 0 by nlinarith), mul_zero, mul_zero]

theorem gamma_ratio {a b r : ℝ} (ha : 0 < a) (hb : 0 < b) (hr : 0 < r) :
    ((gammaMeasure a r).prod (gammaMeasure b r)).map (fun p => p.1 / (p.1 + p.2)) = betaMeasure a b := by
  have hpa := isProbabilityMeasure_gammaMeasure ha hr
  have hpb := isProbabilityMeasure_gammaMeasure hb hr
  have hmA := measurable_gammaPDF' a r
  have hmB := measurable_gammaPDF' b r
  have hmC := measurable_gammaPDF' (a + b) r
  have hmD := measurable_betaPDF' a b
  refine Measure.ext_of_lintegral _ fun q hq => ?_
  have hr1 : Measurable fun p : ℝ × ℝ => p.1 / (p.1 + p.2) := by fun_prop
  have hqr : Measurable fun p : ℝ × ℝ => q (p.1 / (p.1 + p.2)) := hq.comp hr1
  rw [lintegral_map hq hr1, lintegral_prod _ hqr.aemeasurable]
  have hin : ∀ x : ℝ, ∫⁻ y, q (x / (x + y)) ∂(gammaMeasure b r) = ∫⁻ y, gammaPDF b r y * q (x / (x + y)) := fun x => by
    rw [gammaMeasure, lintegral_withDensity_eq_lintegral_mul _ hmB (show Measurable fun y => q (x / (x + y)) by fun_prop)]
    rfl
  simp only [hin]
  have hm1 : Measurable fun x : ℝ => ∫⁻ y, gammaPDF b r y * q (x / (x + y)) :=
    Measurable.lintegral_prod_right' (f := fun p : ℝ × ℝ => gammaPDF b r p.2 * q (p.1 / (p.1 + p.2)))
      ((hmB.comp measurable_snd).mul hqr)
  rw [gammaMeasure, lintegral_withDensity_eq_lintegral_mul _ hmA hm1]
  have h1 : ∀ x : ℝ, (gammaPDF a r * fun x : ℝ => ∫⁻ y, gammaPDF b r y * q (x / (x + y))) x
      = ∫⁻ s, gammaPDF a r x * gammaPDF b r (s - x) * q (x / s) := fun x => by
    rw [Pi.mul_apply, ← lintegral_const_mul _ (by fun_prop), ← lintegral_sub_right_eq_self _ x]
    refine lintegral_congr fun s => ?_
    rw [← mul_assoc]
    congr 3
    ring
  rw [lintegral_congr h1, lintegral_lintegral_swap]
  swap
  · refine Measurable.aemeasurable ?_
    refine Measurable.mul (Measurable.mul (hmA.comp measurable_fst) (hmB.comp (by fun_prop))) (hq.comp (by fun_prop))
  have h2 : ∀ᵐ s : ℝ, ∫⁻ x, gammaPDF a r x * gammaPDF b r (s - x) * q (x / s) = gammaPDF (a + b) r s * ∫⁻ u, betaPDF a b u * q u := by
    have hs0 : ∀ᵐ s : ℝ, s ≠ 0 := by simp [ae_iff]
    have hs1 : ∀ᵐ s : ℝ, s ≠ 1 := by simp [ae_iff]
    filter_upwards [hs0] with s hs
    rcases lt_or_gt_of_ne hs with h | h
    · rw [gammaPDF_of_neg h, zero_mul]
      refine (lintegral_congr fun x => ?_).trans lintegral_zero
      by_cases hx : x < 0
      · rw [gammaPDF_of_neg hx]; simp
      · rw [gammaPDF_of_neg (show s - x < 0 by linarith)]; simp
    · rw [lintegral_scaleG h (by fun_prop), ← lintegral_const_mul _ (by fun_prop), ← lintegral_const_mul _ (by fun_prop)]
      refine lintegral_congr_ae ?_
      filter_upwards [hs0, hs1] with u hu0 hu1
      rw [show s * u / s = u by field_simp, ← mul_assoc, gamma_split ha hb hr h hu0 hu1, mul_assoc]
  rw [lintegral_congr_ae h2, lintegral_mul_const _ hmC, lintegral_gammaPDF_eq_one (add_pos ha hb) hr, one_mul, betaMeasure,
    lintegral_withDensity_eq_lintegral_mul _ hmD hq]
  rfl

end Verif.Lemmas
