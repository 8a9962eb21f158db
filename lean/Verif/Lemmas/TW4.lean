import Verif.Spec.TracyWidom
import Mathlib.Analysis.SpecialFunctions.Gaussian.GaussianIntegral
import Mathlib.Analysis.Calculus.ParametricIntegral
import Mathlib.MeasureTheory.Integral.IntegralEqImproper
import Mathlib.Analysis.SpecialFunctions.Trigonometric.Deriv

/-!
The Airy function: differential equation and decay.
-/

set_option linter.unusedVariables false

namespace Verif.Lemmas.TW
open MeasureTheory Filter Verif.Spec Real

/-- phase -/
noncomputable def th (u t : ℝ) : ℝ := t ^ 3 / 3 + (u - 1) * t

/-- `∫ t^k exp(-t²) cos θ` -/
noncomputable def cosI (k : ℕ) (u : ℝ) : ℝ := ∫ t : ℝ, t ^ k * exp (-t ^ 2) * cos (th u t)

/-- `∫ t^k exp(-t²) sin θ` -/
noncomputable def sinI (k : ℕ) (u : ℝ) : ℝ := ∫ t : ℝ, t ^ k * exp (-t ^ 2) * sin (th u t)

theorem gauss_int (k : ℕ) : Integrable fun t : ℝ => t ^ k * exp (-t ^ 2) := by
  have hk : (-1 : ℝ) < k := lt_of_lt_of_le (by norm_num) (Nat.cast_nonneg k)
  have h := integrable_rpow_mul_exp_neg_mul_sq (b := 1) one_pos hk
  refine h.congr (ae_of_all _ fun t => ?_)
  simp [rpow_natCast]

theorem th_continuous (u : ℝ) : Continuous (th u) := by unfold th; fun_prop

theorem cos_int (k : ℕ) (u : ℝ) : Integrable fun t : ℝ => t ^ k * exp (-t ^ 2) * cos (th u t) := by
  refine (gauss_int k).norm.mono' ?_ (ae_of_all _ fun t => ?_)
  · have := th_continuous u
    exact Continuous.aestronglyMeasurable (by fun_prop)
  · rw [norm_mul]
    exact mul_le_of_le_one_right (norm_nonneg _) (abs_cos_le_one _)

theorem sin_int (k : ℕ) (u : ℝ) : Integrable fun t : ℝ => t ^ k * exp (-t ^ 2) * sin (th u t) := by
  refine (gauss_int k).norm.mono' ?_ (ae_of_all _ fun t => ?_)
  · have := th_continuous u
    exact Continuous.aestronglyMeasurable (by fun_prop)
  · rw [norm_mul]
    exact mul_le_of_le_one_right (norm_nonneg _) (abs_sin_le_one _)

theorem th_deriv_u (u t : ℝ) : HasDerivAt (fun u => th u t) t u := by
  unfold th
  have := (((hasDerivAt_id u).sub_const 1).mul_const t).const_add (t ^ 3 / 3)
  simpa using this

theorem cosI_deriv (k : ℕ) (u : ℝ) : HasDerivAt (cosI k) (-sinI (k + 1) u) u := by
  have h := hasDerivAt_integral_of_dominated_loc_of_deriv_le (μ := volume) (F := fun u t : ℝ => t ^ k * exp (-t ^ 2) * cos (th u t))
    (F' := fun u t : ℝ => -(t ^ (k + 1) * exp (-t ^ 2) * sin (th u t))) (x₀ := u) (s := Set.univ)
    (bound := fun t => ‖t ^ (k + 1) * exp (-t ^ 2)‖) Filter.univ_mem
    (Eventually.of_forall fun u => (cos_int k u).aestronglyMeasurable) (cos_int k u) (sin_int (k + 1) u).neg.aestronglyMeasurable
    (ae_of_all _ fun t v _ => ?_) (gauss_int (k + 1)).norm (ae_of_all _ fun t v _ => ?_)
  · have h2 := h.2
    rw [integral_neg] at h2
    exact h2
  · rw [norm_neg, norm_mul]
    exact mul_le_of_le_one_right (norm_nonneg _) (abs_sin_le_one _)
  · have := ((th_deriv_u v t).cos).const_mul (t ^ k * exp (-t ^ 2))
    refine this.congr_deriv ?_
    ring

theorem sinI_deriv (k : ℕ) (u : ℝ) : HasDerivAt (sinI k) (cosI (k + 1) u) u := by
  have h := hasDerivAt_integral_of_dominated_loc_of_deriv_le (μ := volume) (F := fun u t : ℝ => t ^ k * exp (-t ^ 2) * sin (th u t))
    (F' := fun u t : ℝ => (t ^ (k + 1) * exp (-t ^ 2) * cos (th u t))) (x₀ := u) (s := Set.univ)
    (bound := fun t => ‖t ^ (k + 1) * exp (-t ^ 2)‖) Filter.univ_mem
    (Eventually.of_forall fun u => (sin_int k u).aestronglyMeasurable) (sin_int k u) (cos_int (k + 1) u).aestronglyMeasurable
    (ae_of_all _ fun t v _ => ?_) (gauss_int (k + 1)).norm (ae_of_all _ fun t v _ => ?_)
  · exact h.2
  · rw [norm_mul]
    exact mul_le_of_le_one_right (norm_nonneg _) (abs_cos_le_one _)
  · have := ((th_deriv_u v t).sin).const_mul (t ^ k * exp (-t ^ 2))
    refine this.congr_deriv ?_
    ring

theorem parts (u : ℝ) : cosI 2 u + (u - 1) * cosI 0 u - 2 * sinI 1 u = 0 := by
  have hd : ∀ t : ℝ, HasDerivAt (fun t => exp (-t ^ 2) * sin (th u t))
      (t ^ 2 * exp (-t ^ 2) * cos (th u t) + (u - 1) * (t ^ 0 * exp (-t ^ 2) * cos (th u t)) - 2 * (t ^ 1 * exp (-t ^ 2) * sin (th u t))) t := by
    intro t
    have h1 : HasDerivAt (th u) (t ^ 2 + (u - 1)) t := by
      have := (((hasDerivAt_id t).pow 3).div_const 3).add ((hasDerivAt_id t).const_mul (u - 1))
      refine this.congr_deriv ?_
      simp
    have h2 : HasDerivAt (fun t : ℝ => exp (-t ^ 2)) (exp (-t ^ 2) * -(2 * t)) t := by
      have := ((hasDerivAt_id t).pow 2).fun_neg.exp
      refine this.congr_deriv ?_
      simp
    refine (h2.fun_mul h1.sin).congr_deriv ?_
    ring
  have hi : Integrable fun t : ℝ => (t ^ 2 * exp (-t ^ 2) * cos (th u t) + (u - 1) * (t ^ 0 * exp (-t ^ 2) * cos (th u t))
      - 2 * (t ^ 1 * exp (-t ^ 2) * sin (th u t))) :=
    ((cos_int 2 u).add ((cos_int 0 u).const_mul _)).sub ((sin_int 1 u).const_mul _)
  have h0 : Integrable fun t : ℝ => exp (-t ^ 2) * sin (th u t) := by
    have := sin_int 0 u
    simpa using this
  have hz := integral_eq_zero_of_hasDerivAt_of_integrable hd hi h0
  rw [integral_sub, integral_add, integral_const_mul, integral_const_mul] at hz
  · exact hz
  · exact cos_int 2 u
  · exact (cos_int 0 u).const_mul _
  · exact (cos_int 2 u).add ((cos_int 0 u).const_mul _)
  · exact (sin_int 1 u).const_mul _

/-- normalised -/
noncomputable def aC : ℝ := exp (1 / 3) / (2 * π)

theorem airy_eq (x : ℝ) : airyAi x = aC * (exp (-x) * cosI 0 x) := by
  unfold airyAi aC cosI
  rw [← integral_const_mul, ← integral_const_mul, ← integral_const_mul]
  refine integral_congr_ae (ae_of_all _ fun t => ?_)
  have e : Complex.I * (((t : ℂ) + Complex.I) ^ 3 / 3 + (x : ℂ) * ((t : ℂ) + Complex.I))
      = ((1 / 3 - x - t ^ 2 : ℝ) : ℂ) + ((th x t : ℝ) : ℂ) * Complex.I := by
    unfold th
    push_cast
    have h2 : Complex.I ^ 2 = -1 := Complex.I_sq
    have h3 : Complex.I ^ 3 = -Complex.I := by rw [pow_succ, h2]; ring
    have h4 : Complex.I ^ 4 = 1 := by rw [show 4 = 2 * 2 by norm_num, pow_mul, h2]; norm_num
    ring_nf
    rw [h2, h3, h4]
    ring
  beta_reduce
  rw [e, Complex.exp_re]
  have hre : (((1 / 3 - x - t ^ 2 : ℝ) : ℂ) + ((th x t : ℝ) : ℂ) * Complex.I).re = 1 / 3 - x - t ^ 2 := by
    rw [Complex.add_re, Complex.ofReal_re, Complex.re_ofReal_mul, Complex.I_re, mul_zero, add_zero]
  have him : (((1 / 3 - x - t ^ 2 : ℝ) : ℂ) + ((th x t : ℝ) : ℂ) * Complex.I).im = th x t := by
    simp [-Complex.ofReal_sub]
  rw [hre, him, show (1 / 3 - x - t ^ 2 : ℝ) = 1 / 3 + (-x + -t ^ 2) by ring, exp_add, exp_add]
  ring

/-- derivative -/
noncomputable def dAi (x : ℝ) : ℝ := aC * (exp (-x) * (-cosI 0 x - sinI 1 x))

theorem airy_deriv (x : ℝ) : HasDerivAt airyAi (dAi x) x := by
  have e : airyAi = fun x => aC * (exp (-x) * cosI 0 x) := funext airy_eq
  rw [e]
  have h1 : HasDerivAt (fun x : ℝ => exp (-x)) (exp (-x) * -1) x := (hasDerivAt_id x).fun_neg.exp
  refine ((h1.fun_mul (cosI_deriv 0 x)).const_mul aC).congr_deriv ?_
  rw [dAi, zero_add]
  ring

theorem deriv_airy : deriv airyAi = dAi := funext fun x => (airy_deriv x).deriv

theorem airy_ode (x : ℝ) : HasDerivAt dAi (x * airyAi x) x := by
  have h1 : HasDerivAt (fun x : ℝ => exp (-x)) (exp (-x) * -1) x := (hasDerivAt_id x).fun_neg.exp
  have h2 : HasDerivAt (fun x => -cosI 0 x - sinI 1 x) (sinI 1 x - cosI 2 x) x := by
    refine ((cosI_deriv 0 x).fun_neg.fun_sub (sinI_deriv 1 x)).congr_deriv ?_
    simp
  refine ((h1.fun_mul h2).const_mul aC).congr_deriv ?_
  rw [airy_eq]
  have := parts x
  linear_combination (-aC * exp (-x)) * this

/-- bounds -/
noncomputable def aB : ℝ := aC * (∫ t : ℝ, ‖t ^ 0 * exp (-t ^ 2)‖) + aC * ∫ t : ℝ, ‖t ^ 1 * exp (-t ^ 2)‖

theorem aC_pos : 0 < aC := by unfold aC; positivity

theorem cosI_le (k : ℕ) (u : ℝ) : |cosI k u| ≤ ∫ t : ℝ, ‖t ^ k * exp (-t ^ 2)‖ := by
  refine (norm_integral_le_integral_norm _).trans (integral_mono (cos_int k u).norm (gauss_int k).norm fun t => ?_)
  change ‖t ^ k * exp (-t ^ 2) * cos (th u t)‖ ≤ ‖t ^ k * exp (-t ^ 2)‖
  rw [norm_mul]
  exact mul_le_of_le_one_right (norm_nonneg _) (abs_cos_le_one _)

theorem sinI_le (k : ℕ) (u : ℝ) : |sinI k u| ≤ ∫ t : ℝ, ‖t ^ k * exp (-t ^ 2)‖ := by
  refine (norm_integral_le_integral_norm _).trans (integral_mono (sin_int k u).norm (gauss_int k).norm fun t => ?_)
  change ‖t ^ k * exp (-t ^ 2) * sin (th u t)‖ ≤ ‖t ^ k * exp (-t ^ 2)‖
  rw [norm_mul]
  exact mul_le_of_le_one_right (norm_nonneg _) (abs_sin_le_one _)

theorem gI_nonneg (k : ℕ) : 0 ≤ ∫ t : ℝ, ‖t ^ k * exp (-t ^ 2)‖ := integral_nonneg fun t => norm_nonneg _

theorem aB_nonneg : 0 ≤ aB := by
  have := aC_pos
  have := gI_nonneg 0
  have := gI_nonneg 1
  unfold aB; positivity

/-- `exp x Ai x` -/
noncomputable def aiS (x : ℝ) : ℝ := aC * cosI 0 x

theorem airy_eq' (x : ℝ) : airyAi x = exp (-x) * aiS x := by rw [airy_eq, aiS]; ring

theorem aiS_continuous : Continuous aiS := by
  unfold aiS
  exact continuous_const.mul (continuous_iff_continuousAt.2 fun x => (cosI_deriv 0 x).continuousAt)

theorem aiS_le (x : ℝ) : |aiS x| ≤ aB := by
  rw [aiS, abs_mul, abs_of_pos aC_pos, aB]
  have h := mul_le_mul_of_nonneg_left (cosI_le 0 x) aC_pos.le
  have := mul_nonneg aC_pos.le (gI_nonneg 1)
  linarith

theorem airy_le (x : ℝ) : |airyAi x| ≤ aB * exp (-x) := by
  rw [airy_eq', abs_mul, abs_of_pos (exp_pos _), mul_comm]
  exact mul_le_mul_of_nonneg_right (aiS_le x) (exp_pos _).le

theorem dAi_le (x : ℝ) : |dAi x| ≤ aB * exp (-x) := by
  rw [dAi, aB, abs_mul, abs_of_pos aC_pos, abs_mul, abs_of_pos (exp_pos _), ← mul_add, mul_assoc, mul_comm (exp (-x))]
  refine mul_le_mul_of_nonneg_left (mul_le_mul_of_nonneg_right ?_ (exp_pos _).le) aC_pos.le
  calc |-cosI 0 x - sinI 1 x| ≤ |cosI 0 x| + |sinI 1 x| := by
        have := abs_sub (-cosI 0 x) (sinI 1 x)
        rwa [abs_neg] at this
    _ ≤ _ := add_le_add (cosI_le 0 x) (sinI_le 1 x)

end Verif.Lemmas.TW
