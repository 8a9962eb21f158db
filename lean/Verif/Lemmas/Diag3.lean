import Verif.Model.Diagram
import Verif.Lemmas.Dens1
import Mathlib.Analysis.SpecialFunctions.Trigonometric.InverseDeriv
import Mathlib.MeasureTheory.Integral.DivergenceTheorem

/-!
The limit shape.
-/

set_option linter.unusedVariables false

namespace Verif.Lemmas.Diag
open Verif Verif.Model Real MeasureTheory Set intervalIntegral

/-- the formula, for every `x` -/
noncomputable def shapeF (x : ℝ) : ℝ := (x * arcsin (x / 2) + √(4 - x ^ 2)) * (2 / π)

theorem limitShape_eq (x : ℝ) : limitShape x = shapeF x := by
  rw [limitShape, shapeF]
  split_ifs with h
  · have h4 : √(4 - x ^ 2) = 0 := sqrt_eq_zero_of_nonpos (by nlinarith [sq_abs x])
    have hpi : (π : ℝ) ≠ 0 := pi_ne_zero
    rw [h4, add_zero]
    rcases le_abs.1 h with h | h
    · rw [arcsin_of_one_le (by linarith), abs_of_nonneg (by linarith)]
      field_simp
    · rw [arcsin_of_le_neg_one (by linarith), abs_of_nonpos (by linarith)]
      field_simp
  · rw [one_div, inv_mul_eq_div]

theorem continuous_shapeF : Continuous shapeF := by
  unfold shapeF
  have := continuous_arcsin
  fun_prop

theorem shapeF_of_ge {x : ℝ} (h : 2 ≤ |x|) : shapeF x = |x| := by
  rw [← limitShape_eq, limitShape, if_pos h]

theorem shapeF_neg (x : ℝ) : shapeF (-x) = shapeF x := by
  unfold shapeF
  rw [neg_div, arcsin_neg, neg_sq]
  ring

theorem sqrt_half {x : ℝ} (h : x ^ 2 < 4) : √(1 - (x / 2) ^ 2) = √(4 - x ^ 2) / 2 := by
  have e : 1 - (x / 2) ^ 2 = (4 - x ^ 2) / 2 ^ 2 := by ring
  rw [e, sqrt_div (by linarith), sqrt_sq (by norm_num)]

theorem hasDerivAt_arcsin_half {x : ℝ} (h : x ^ 2 < 4) : HasDerivAt (fun y => arcsin (y / 2)) (1 / √(4 - x ^ 2)) x := by
  have h1 : x / 2 ≠ -1 := fun e => by
    have : x = -2 := by linarith
    rw [this] at h
    norm_num at h
  have h2 : x / 2 ≠ 1 := fun e => by
    have : x = 2 := by linarith
    rw [this] at h
    norm_num at h
  have h3 := (hasDerivAt_arcsin h1 h2).comp x ((hasDerivAt_id x).div_const 2)
  refine HasDerivAt.congr_deriv (f := fun y => arcsin (y / 2)) h3 ?_
  rw [sqrt_half h]
  have : 0 < √(4 - x ^ 2) := sqrt_pos.2 (by linarith)
  field_simp

theorem hasDerivAt_sqrt4 {x : ℝ} (h : x ^ 2 < 4) : HasDerivAt (fun y : ℝ => √(4 - y ^ 2)) (-x / √(4 - x ^ 2)) x := by
  have h1 : HasDerivAt (fun y : ℝ => 4 - y ^ 2) (-(2 * x)) x := by
    have := ((hasDerivAt_id x).pow 2).const_sub 4
    refine HasDerivAt.congr_deriv (f := fun y : ℝ => 4 - y ^ 2) this ?_
    simp
  refine (h1.sqrt (by linarith)).congr_deriv ?_
  have : 0 < √(4 - x ^ 2) := sqrt_pos.2 (by linarith)
  field_simp

theorem hasDerivAt_shapeF_in {x : ℝ} (h : x ^ 2 < 4) : HasDerivAt shapeF (2 / π * arcsin (x / 2)) x := by
  have := (((hasDerivAt_id x).fun_mul (hasDerivAt_arcsin_half h)).fun_add (hasDerivAt_sqrt4 h)).mul_const (2 / π)
  refine HasDerivAt.congr_deriv (f := shapeF) this ?_
  have : 0 < √(4 - x ^ 2) := sqrt_pos.2 (by linarith)
  simp only [id]
  field_simp
  ring

/-- inside or outside, but not at `± 2` -/
theorem hasDerivAt_shapeF_ne {x : ℝ} (h1 : x ≠ 2) (h2 : x ≠ -2) : HasDerivAt shapeF (2 / π * arcsin (x / 2)) x := by
  rcases lt_or_ge (x ^ 2) 4 with h | h
  · exact hasDerivAt_shapeF_in h
  · have hpi : (π : ℝ) ≠ 0 := pi_ne_zero
    rcases le_total 0 x with h0 | h0
    · have hx : 2 < x := lt_of_le_of_ne (by nlinarith) h1.symm
      rw [arcsin_of_one_le (by linarith)]
      refine ((hasDerivAt_id x).congr_of_eventuallyEq ?_).congr_deriv (by field_simp)
      filter_upwards [Ioi_mem_nhds hx] with y hy
      have hy : 2 < y := hy
      rw [shapeF_of_ge (by rw [abs_of_pos (by linarith)]; linarith), abs_of_pos (by linarith)]
      rfl
    · have hx : x < -2 := lt_of_le_of_ne (by nlinarith) h2
      rw [arcsin_of_le_neg_one (by linarith)]
      refine ((hasDerivAt_neg x).congr_of_eventuallyEq ?_).congr_deriv (by field_simp)
      filter_upwards [Iio_mem_nhds hx] with y hy
      have hy : y < -2 := hy
      rw [shapeF_of_ge (by rw [abs_of_neg (by linarith)]; linarith), abs_of_neg (by linarith)]

theorem shapeF_ftc (x y : ℝ) : ∫ t in x..y, 2 / π * arcsin (t / 2) = shapeF y - shapeF x := by
  have hi : IntervalIntegrable (fun t : ℝ => 2 / π * arcsin (t / 2)) volume x y := by
    apply Continuous.intervalIntegrable
    have := continuous_arcsin
    fun_prop
  have hc : ({2, -2} : Set ℝ).Countable := (Set.finite_singleton _).insert _ |>.countable
  exact integral_eq_of_hasDerivAt_off_countable shapeF (fun t : ℝ => 2 / π * arcsin (t / 2)) hc
    continuous_shapeF.continuousOn
    (fun t ht => hasDerivAt_shapeF_ne (fun e => ht.2 (by simp [e])) (fun e => ht.2 (by simp [e]))) hi

/-- the slope, everywhere -/
theorem hasDerivAt_shapeF (x : ℝ) : HasDerivAt shapeF (2 / π * arcsin (x / 2)) x := by
  have hc : Continuous fun t : ℝ => 2 / π * arcsin (t / 2) := by
    have := continuous_arcsin
    fun_prop
  have h := integral_hasDerivAt_right (hc.intervalIntegrable 0 x) (hc.stronglyMeasurableAtFilter _ _) hc.continuousAt
  have e : shapeF = fun u => (∫ t in (0 : ℝ)..u, 2 / π * arcsin (t / 2)) + shapeF 0 := by
    funext u
    rw [shapeF_ftc]
    ring
  rw [e]
  exact h.add_const _

theorem shapeF_lipschitz : LipschitzWith 1 shapeF := by
  have hpi : (0 : ℝ) < π := pi_pos
  have hd : ∀ x, |2 / π * arcsin (x / 2)| ≤ 1 := fun x => by
    rw [abs_mul, abs_of_pos (by positivity)]
    have : |arcsin (x / 2)| ≤ π / 2 := abs_le.2 ⟨neg_pi_div_two_le_arcsin _, arcsin_le_pi_div_two _⟩
    calc 2 / π * |arcsin (x / 2)| ≤ 2 / π * (π / 2) := by gcongr
      _ = 1 := by field_simp
  have key : ∀ x y : ℝ, x ≤ y → |shapeF y - shapeF x| ≤ y - x := fun x y hxy => by
    rw [← shapeF_ftc x y]
    have := norm_integral_le_of_norm_le_const (a := x) (b := y) (f := fun t : ℝ => 2 / π * arcsin (t / 2)) (C := 1)
      (fun t _ => hd t)
    rwa [norm_eq_abs, one_mul, abs_of_nonneg (sub_nonneg.2 hxy)] at this
  refine LipschitzWith.of_dist_le_mul fun x y => ?_
  rw [NNReal.coe_one, one_mul, dist_eq, dist_eq]
  rcases le_total x y with h | h
  · rw [abs_sub_comm, abs_sub_comm x y, abs_of_nonneg (sub_nonneg.2 h)]
    exact key x y h
  · rw [abs_of_nonneg (sub_nonneg.2 h)]
    exact key y x h

theorem abs_le_shapeF (x : ℝ) : |x| ≤ shapeF x := by
  rcases le_or_gt 2 |x| with h | h
  · exact (shapeF_of_ge h).ge
  · have hL : ∀ u v, |shapeF u - shapeF v| ≤ |u - v| := fun u v => by
      have := shapeF_lipschitz.dist_le_mul u v
      rwa [NNReal.coe_one, one_mul, dist_eq, dist_eq] at this
    have h1 := hL 2 |x|
    rw [shapeF_of_ge (x := 2) (by norm_num), abs_of_pos (show (0 : ℝ) < 2 by norm_num), abs_of_pos (show 0 < 2 - |x| by linarith)]
      at h1
    have h2 := (abs_le.1 h1).2
    have h3 : shapeF |x| = shapeF x := by
      rcases abs_cases x with ⟨e, _⟩ | ⟨e, _⟩
      · rw [e]
      · rw [e, shapeF_neg]
    linarith

/-- the primitive -/
noncomputable def shapeH (x : ℝ) : ℝ := ((x ^ 2 / 2 + 1) * arcsin (x / 2) + 3 * x / 4 * √(4 - x ^ 2)) * (2 / π) - x ^ 2 / 2

theorem hasDerivAt_shapeH {x : ℝ} (h : x ^ 2 < 4) : HasDerivAt shapeH (shapeF x - x) x := by
  have hs : 0 < √(4 - x ^ 2) := sqrt_pos.2 (by linarith)
  have hss : √(4 - x ^ 2) ^ 2 = 4 - x ^ 2 := sq_sqrt (by linarith)
  have h1 : HasDerivAt (fun y : ℝ => y ^ 2 / 2 + 1) x x := by
    have := (((hasDerivAt_id x).pow 2).div_const 2).add_const (1 : ℝ)
    refine HasDerivAt.congr_deriv (f := fun y : ℝ => y ^ 2 / 2 + 1) this ?_
    simp
  have h2 : HasDerivAt (fun y : ℝ => 3 * y / 4) (3 / 4) x := by
    have := ((hasDerivAt_id x).const_mul 3).div_const 4
    refine HasDerivAt.congr_deriv (f := fun y : ℝ => 3 * y / 4) this ?_
    simp
  have h3 : HasDerivAt (fun y : ℝ => y ^ 2 / 2) x x := by
    have := ((hasDerivAt_id x).pow 2).div_const 2
    refine HasDerivAt.congr_deriv (f := fun y : ℝ => y ^ 2 / 2) this ?_
    simp
  have := (((h1.fun_mul (hasDerivAt_arcsin_half h)).fun_add (h2.fun_mul (hasDerivAt_sqrt4 h))).mul_const (2 / π)).fun_sub h3
  refine HasDerivAt.congr_deriv (f := shapeH) this ?_
  rw [shapeF]
  have e : (x ^ 2 / 2 + 1) * (1 / √(4 - x ^ 2)) + 3 * x / 4 * (-x / √(4 - x ^ 2)) = 1 / 4 * √(4 - x ^ 2) := by
    field_simp
    rw [hss]
    ring
  linear_combination e * (2 / π)

theorem continuous_shapeH : Continuous shapeH := by
  unfold shapeH
  have := continuous_arcsin
  fun_prop

theorem integral_half : ∫ x in (0 : ℝ)..2, (shapeF x - x) = 1 := by
  have hi : IntervalIntegrable (fun x => shapeF x - x) volume 0 2 := (continuous_shapeF.sub continuous_id).intervalIntegrable _ _
  rw [integral_eq_sub_of_hasDerivAt_of_le (by norm_num) continuous_shapeH.continuousOn
    (fun x hx => hasDerivAt_shapeH (by nlinarith [hx.1, hx.2])) hi]
  have hpi : (π : ℝ) ≠ 0 := pi_ne_zero
  simp only [shapeH]
  norm_num
  field_simp
  norm_num

theorem integral_shape : Integrable (fun x => shapeF x - |x|) ∧ ∫ x, (shapeF x - |x|) = 2 := by
  have hs : Function.support (fun x => shapeF x - |x|) ⊆ Ioc (-2) 2 := by
    intro x hx
    rw [Function.mem_support] at hx
    by_contra hn
    apply hx
    have : 2 ≤ |x| := by
      rw [mem_Ioc, not_and_or] at hn
      rcases hn with h | h
      · exact le_abs.2 (Or.inr (by linarith))
      · exact le_abs.2 (Or.inl (by linarith))
    rw [shapeF_of_ge this, sub_self]
  have hc : Continuous fun x => shapeF x - |x| := continuous_shapeF.sub continuous_abs
  have hi : ∀ a b, IntervalIntegrable (fun x => shapeF x - |x|) volume a b := fun a b => hc.intervalIntegrable a b
  constructor
  · have : IntegrableOn (fun x => shapeF x - |x|) (Ioc (-2) 2) := (hi (-2) 2).1
    rwa [integrableOn_iff_integrable_of_support_subset hs] at this
  · rw [← setIntegral_eq_integral_of_forall_compl_eq_zero (s := Ioc (-2) 2) (fun x hx => by
      by_contra h; exact hx (hs h)), ← integral_of_le (by norm_num), ← integral_add_adjacent_intervals (hi (-2) 0) (hi 0 2)]
    have e1 : ∫ x in (0 : ℝ)..2, (shapeF x - |x|) = 1 := by
      rw [← integral_half]
      refine integral_congr fun x hx => ?_
      rw [uIcc_of_le (by norm_num)] at hx
      simp only [abs_of_nonneg hx.1]
    have e2 : ∫ x in (-2 : ℝ)..0, (shapeF x - |x|) = 1 := by
      rw [← e1]
      have := integral_comp_neg (a := 0) (b := 2) (fun x => shapeF x - |x|)
      rw [neg_zero] at this
      rw [← this]
      refine integral_congr fun x _ => ?_
      simp only [shapeF_neg, abs_neg]
    rw [e1, e2]
    norm_num

end Verif.Lemmas.Diag
