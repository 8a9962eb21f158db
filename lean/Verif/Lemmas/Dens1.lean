import Verif.Model.Densities
import Mathlib.MeasureTheory.Integral.IntervalIntegral.FundThmCalculus
import Mathlib.MeasureTheory.Integral.IntegralEqImproper
import Mathlib.Analysis.SpecialFunctions.Trigonometric.InverseDeriv
import Mathlib.Analysis.SpecialFunctions.Integrals.Basic

/-!
Integrals of `√((b - x)(x - a))` against `1`, `1 / x`, `1 / (1 - x)`.
-/

set_option linter.unusedVariables false

namespace Verif.Lemmas
open Real MeasureTheory Set

theorem hasDerivAt_sqrt_quad {a b x : ℝ} (h : x ∈ Ioo a b) :
    HasDerivAt (fun x => √((b - x) * (x - a))) ((a + b - 2 * x) / (2 * √((b - x) * (x - a)))) x := by
  have hp : 0 < (b - x) * (x - a) := mul_pos (by linarith [h.2]) (by linarith [h.1])
  have h1 : HasDerivAt (fun x : ℝ => (b - x) * (x - a)) (-1 * (x - a) + (b - x) * 1) x :=
    ((hasDerivAt_id x).const_sub b).fun_mul ((hasDerivAt_id x).sub_const a)
  exact (h1.sqrt hp.ne').congr_deriv (by ring)

theorem hasDerivAt_arcsin_lin {a b x : ℝ} (h : x ∈ Ioo a b) :
    HasDerivAt (fun x => arcsin ((2 * x - a - b) / (b - a))) (1 / √((b - x) * (x - a))) x := by
  have hp : 0 < (b - x) * (x - a) := mul_pos (by linarith [h.2]) (by linarith [h.1])
  have hab : 0 < b - a := by linarith [h.1, h.2]
  have h1 : HasDerivAt (fun x : ℝ => (2 * x - a - b) / (b - a)) (2 / (b - a)) x := by
    have := ((((hasDerivAt_id x).const_mul 2).sub_const a).sub_const b).div_const (b - a)
    simpa using this
  have e1 : (2 * x - a - b) / (b - a) ≠ -1 := by
    rw [Ne, div_eq_iff hab.ne']; intro h'; linarith [h.1]
  have e2 : (2 * x - a - b) / (b - a) ≠ 1 := by
    rw [Ne, div_eq_iff hab.ne']; intro h'; linarith [h.2]
  have h2 := (hasDerivAt_arcsin e1 e2).comp x h1
  refine HasDerivAt.congr_deriv (f := fun x => _) h2 ?_
  have e : 1 - ((2 * x - a - b) / (b - a)) ^ 2 = (b - x) * (x - a) * (2 / (b - a)) ^ 2 := by
    field_simp; ring
  rw [e, sqrt_mul hp.le, sqrt_sq (by positivity)]
  have := sqrt_pos.2 hp
  field_simp

theorem hasDerivAt_arcsin_inv {a b x : ℝ} (ha : 0 < a) (h : x ∈ Ioo a b) :
    HasDerivAt (fun x => arcsin (((a + b) * x - 2 * a * b) / ((b - a) * x))) (√(a * b) / (x * √((b - x) * (x - a)))) x := by
  have hx : 0 < x := ha.trans h.1
  have hb : 0 < b := hx.trans h.2
  have hp : 0 < (b - x) * (x - a) := mul_pos (by linarith [h.2]) (by linarith [h.1])
  have hab : 0 < b - a := by linarith [h.1, h.2]
  have hd : 0 < (b - a) * x := mul_pos hab hx
  have h1 : HasDerivAt (fun x : ℝ => ((a + b) * x - 2 * a * b) / ((b - a) * x))
      (((a + b) * ((b - a) * x) - ((a + b) * x - 2 * a * b) * (b - a)) / ((b - a) * x) ^ 2) x := by
    have n := ((hasDerivAt_id x).const_mul (a + b)).sub_const (2 * a * b)
    have d := (hasDerivAt_id x).const_mul (b - a)
    have := n.fun_div d hd.ne'
    exact this.congr_deriv (by simp)
  have e1 : ((a + b) * x - 2 * a * b) / ((b - a) * x) ≠ -1 := by
    rw [Ne, div_eq_iff hd.ne']; intro h'
    have : 2 * b * (x - a) = 0 := by linarith
    have : 0 < 2 * b * (x - a) := mul_pos (by linarith) (by linarith [h.1])
    linarith
  have e2 : ((a + b) * x - 2 * a * b) / ((b - a) * x) ≠ 1 := by
    rw [Ne, div_eq_iff hd.ne']; intro h'
    have : 2 * a * (b - x) = 0 := by linarith
    have : 0 < 2 * a * (b - x) := mul_pos (by linarith) (by linarith [h.2])
    linarith
  have h2 := (hasDerivAt_arcsin e1 e2).comp x h1
  refine HasDerivAt.congr_deriv (f := fun x => _) h2 ?_
  have e : 1 - (((a + b) * x - 2 * a * b) / ((b - a) * x)) ^ 2 = ((b - x) * (x - a)) * (a * b) * (2 / ((b - a) * x)) ^ 2 := by
    field_simp; ring
  rw [e, sqrt_mul (by positivity), sqrt_sq (by positivity), sqrt_mul hp.le]
  have s1 := sqrt_pos.2 hp
  have s2 : 0 < √(a * b) := sqrt_pos.2 (by positivity)
  have s3 : √(a * b) ^ 2 = a * b := sq_sqrt (by positivity)
  field_simp
  rw [mul_comm b a, s3]
  ring

theorem continuous_sqrt_quad (a b : ℝ) : Continuous fun x : ℝ => √((b - x) * (x - a)) :=
  ((continuous_const.sub continuous_id).mul (continuous_id.sub continuous_const)).sqrt

theorem continuous_arcsin_lin (a b : ℝ) : Continuous fun x : ℝ => arcsin ((2 * x - a - b) / (b - a)) :=
  continuous_arcsin.comp ((((continuous_const.mul continuous_id).sub continuous_const).sub continuous_const).div_const _)

/-- fundamental theorem for a non-negative derivative on the open interval -/
theorem ftc_nonneg {F f : ℝ → ℝ} {a b : ℝ} (hab : a ≤ b) (hc : ContinuousOn F (Icc a b)) (hd : ∀ x ∈ Ioo a b, HasDerivAt F (f x) x)
    (h0 : ∀ x ∈ Ioo a b, 0 ≤ f x) : IntervalIntegrable f volume a b ∧ ∫ x in a..b, f x = F b - F a := by
  have hi : IntervalIntegrable f volume a b := by
    refine intervalIntegral.intervalIntegrable_deriv_of_nonneg (g := F) ?_ ?_ ?_
    · rwa [uIcc_of_le hab]
    · rwa [min_eq_left hab, max_eq_right hab]
    · rwa [min_eq_left hab, max_eq_right hab]
  exact ⟨hi, intervalIntegral.integral_eq_sub_of_hasDerivAt_of_le hab hc hd hi⟩

theorem integral_sqrt_quad {a b : ℝ} (hab : a < b) : ∫ x in a..b, √((b - x) * (x - a)) = π * (b - a) ^ 2 / 8 := by
  have h := (ftc_nonneg (F := fun x => (2 * x - a - b) / 4 * √((b - x) * (x - a)) + (b - a) ^ 2 / 8 * arcsin ((2 * x - a - b) / (b - a)))
    (f := fun x => √((b - x) * (x - a))) hab.le ?_ ?_ fun x _ => sqrt_nonneg _).2
  · rw [h]
    have e1 : (2 * b - a - b) / (b - a) = 1 := by rw [div_eq_one_iff_eq (by linarith)]; ring
    have e2 : (2 * a - a - b) / (b - a) = -1 := by rw [div_eq_iff (by linarith)]; ring
    simp only [e1, e2, arcsin_one, arcsin_neg_one, sub_self, zero_mul, mul_zero, sqrt_zero]
    ring
  · refine Continuous.continuousOn (Continuous.add (Continuous.mul (by fun_prop) (continuous_sqrt_quad a b)) (continuous_const.mul (continuous_arcsin_lin a b)))
  · intro x hx
    have hp : 0 < (b - x) * (x - a) := mul_pos (by linarith [hx.2]) (by linarith [hx.1])
    have l : HasDerivAt (fun x : ℝ => (2 * x - a - b) / 4) (2 / 4) x := by
      have := ((((hasDerivAt_id x).const_mul 2).sub_const a).sub_const b).div_const 4
      simpa using this
    have d := (l.fun_mul (hasDerivAt_sqrt_quad hx)).fun_add ((hasDerivAt_arcsin_lin hx).const_mul ((b - a) ^ 2 / 8))
    refine d.congr_deriv ?_
    have s1 := sqrt_pos.2 hp
    have s2 := sq_sqrt hp.le
    field_simp
    rw [s2]
    ring

theorem integral_sqrt_quad_inv {a b : ℝ} (ha : 0 ≤ a) (hab : a < b) :
    IntervalIntegrable (fun x => √((b - x) * (x - a)) / x) volume a b ∧
      ∫ x in a..b, √((b - x) * (x - a)) / x = π * ((a + b) / 2 - √(a * b)) := by
  have e1 : (2 * b - a - b) / (b - a) = 1 := by rw [div_eq_one_iff_eq (by linarith)]; ring
  have e2 : (2 * a - a - b) / (b - a) = -1 := by rw [div_eq_iff (by linarith)]; ring
  have hnn : ∀ x ∈ Ioo a b, 0 ≤ √((b - x) * (x - a)) / x := fun x hx => div_nonneg (sqrt_nonneg _) (by linarith [hx.1])
  have hd0 : ∀ x ∈ Ioo a b, HasDerivAt (fun x => √((b - x) * (x - a)) + (a + b) / 2 * arcsin ((2 * x - a - b) / (b - a)))
      ((a + b - 2 * x) / (2 * √((b - x) * (x - a))) + (a + b) / 2 * (1 / √((b - x) * (x - a)))) x := fun x hx =>
    (hasDerivAt_sqrt_quad hx).fun_add ((hasDerivAt_arcsin_lin hx).const_mul _)
  rcases ha.eq_or_lt with rfl | ha
  · have h := ftc_nonneg (F := fun x => √((b - x) * (x - 0)) + (0 + b) / 2 * arcsin ((2 * x - 0 - b) / (b - 0)))
      (f := fun x => √((b - x) * (x - 0)) / x) hab.le ?_ ?_ hnn
    · refine ⟨h.1, ?_⟩
      rw [h.2, e1, e2, arcsin_one, arcsin_neg_one, sub_self, zero_mul, sub_self, mul_zero, zero_mul, sqrt_zero]
      ring
    · exact ((continuous_sqrt_quad 0 b).add (continuous_const.mul (continuous_arcsin_lin 0 b))).continuousOn
    · intro x hx
      refine (hd0 x hx).congr_deriv ?_
      have hp : 0 < (b - x) * (x - 0) := mul_pos (by linarith [hx.2]) (by linarith [hx.1])
      have s1 := sqrt_pos.2 hp
      have s2 := sq_sqrt hp.le
      have hx0 : 0 < x := hx.1
      field_simp
      rw [show (b - x) * (x - 0) = (b - x) * (x - 0) from rfl] at s2
      simp only [sub_zero] at s2 ⊢
      rw [s2]
      ring
  · have hb : 0 < b := ha.trans hab
    have h := ftc_nonneg (F := fun x => √((b - x) * (x - a)) + (a + b) / 2 * arcsin ((2 * x - a - b) / (b - a))
        - √(a * b) * arcsin (((a + b) * x - 2 * a * b) / ((b - a) * x)))
      (f := fun x => √((b - x) * (x - a)) / x) hab.le ?_ ?_ hnn
    · refine ⟨h.1, ?_⟩
      rw [h.2]
      have e3 : ((a + b) * b - 2 * a * b) / ((b - a) * b) = 1 := by
        have : (b - a) * b ≠ 0 := mul_ne_zero (by linarith) hb.ne'
        rw [div_eq_one_iff_eq this]; ring
      have e4 : ((a + b) * a - 2 * a * b) / ((b - a) * a) = -1 := by
        have : (b - a) * a ≠ 0 := mul_ne_zero (by linarith) ha.ne'
        rw [div_eq_iff this]; ring
      simp only [e1, e2, e3, e4, arcsin_one, arcsin_neg_one, sub_self, zero_mul, mul_zero, sqrt_zero]
      ring
    · refine ((continuous_sqrt_quad a b).add (continuous_const.mul (continuous_arcsin_lin a b))).continuousOn.sub
        (continuousOn_const.mul (continuous_arcsin.comp_continuousOn ?_))
      refine ContinuousOn.div (by fun_prop) (by fun_prop) fun x hx => mul_ne_zero (by linarith) (by linarith [hx.1])
    · intro x hx
      refine ((hd0 x hx).fun_sub ((hasDerivAt_arcsin_inv ha hx).const_mul (√(a * b)))).congr_deriv ?_
      have hp : 0 < (b - x) * (x - a) := mul_pos (by linarith [hx.2]) (by linarith [hx.1])
      have s1 := sqrt_pos.2 hp
      have s2 := sq_sqrt hp.le
      have s3 : √(a * b) ^ 2 = a * b := sq_sqrt (by positivity)
      have hx0 : 0 < x := ha.trans hx.1
      field_simp
      rw [s2, s3]
      ring

/-- a function that vanishes outside an interval -/
theorem integral_eq_interval {f g : ℝ → ℝ} {a b : ℝ} (hab : a ≤ b) (h0 : ∀ x, x ∉ Ioo a b → f x = 0) (he : ∀ x ∈ Ioo a b, f x = g x) :
    ∫ x, f x = ∫ x in a..b, g x := by
  rw [intervalIntegral.integral_of_le hab, integral_Ioc_eq_integral_Ioo, ← setIntegral_eq_integral_of_forall_compl_eq_zero h0]
  exact setIntegral_congr_fun measurableSet_Ioo he

theorem max_quad_zero {a b x : ℝ} (hab : a ≤ b) (h : x ∉ Ioo a b) : max ((b - x) * (x - a)) 0 = 0 := by
  refine max_eq_right ?_
  rw [mem_Ioo, not_and_or, not_lt, not_lt] at h
  rcases h with h | h
  · exact mul_nonpos_of_nonneg_of_nonpos (by linarith) (by linarith)
  · exact mul_nonpos_of_nonpos_of_nonneg (by linarith) (by linarith)

theorem max_quad {a b x : ℝ} (h : x ∈ Ioo a b) : max ((b - x) * (x - a)) 0 = (b - x) * (x - a) :=
  max_eq_left (mul_nonneg (by linarith [h.2]) (by linarith [h.1]))

/-- integrals of the truncated functions on the line -/
theorem integral_max_quad {a b : ℝ} (hab : a < b) : ∫ x, √(max ((b - x) * (x - a)) 0) = π * (b - a) ^ 2 / 8 := by
  rw [integral_eq_interval hab.le (g := fun x => √((b - x) * (x - a))) (fun x hx => by rw [max_quad_zero hab.le hx, sqrt_zero])
    fun x hx => by rw [max_quad hx], integral_sqrt_quad hab]

theorem integral_max_quad_inv {a b : ℝ} (ha : 0 ≤ a) (hab : a < b) :
    ∫ x, √(max ((b - x) * (x - a)) 0) / x = π * ((a + b) / 2 - √(a * b)) := by
  rw [integral_eq_interval hab.le (g := fun x => √((b - x) * (x - a)) / x) (fun x hx => by rw [max_quad_zero hab.le hx, sqrt_zero, zero_div])
    fun x hx => by rw [max_quad hx], (integral_sqrt_quad_inv ha hab).2]

theorem integral_max_quad_inv_one {a b : ℝ} (hb : b ≤ 1) (hab : a < b) :
    ∫ x, √(max ((b - x) * (x - a)) 0) / (1 - x) = π * (1 - (a + b) / 2 - √((1 - a) * (1 - b))) := by
  have h := integral_max_quad_inv (a := 1 - b) (b := 1 - a) (by linarith) (by linarith)
  rw [← integral_sub_left_eq_self _ volume 1] at h
  refine Eq.trans (integral_congr_ae (Filter.Eventually.of_forall fun x => ?_)) (h.trans ?_)
  · simp only
    congr 3
    ring
  · rw [mul_comm (1 - b)]; ring

theorem integrable_max_quad_inv {a b : ℝ} (ha : 0 ≤ a) (hab : a < b) : Integrable fun x : ℝ => √(max ((b - x) * (x - a)) 0) / x := by
  have h := (integral_sqrt_quad_inv ha hab).1
  rw [intervalIntegrable_iff_integrableOn_Ioo_of_le hab.le] at h
  have h2 : IntegrableOn (fun x : ℝ => √(max ((b - x) * (x - a)) 0) / x) (Ioo a b) :=
    h.congr_fun (fun x hx => by simp only [max_quad hx]) measurableSet_Ioo
  refine (integrableOn_iff_integrable_of_support_subset fun x hx => ?_).1 h2
  by_contra hc
  exact hx (by simp only [max_quad_zero hab.le hc, sqrt_zero, zero_div])

theorem integrable_max_quad_inv_one {a b : ℝ} (hb : b ≤ 1) (hab : a < b) : Integrable fun x : ℝ => √(max ((b - x) * (x - a)) 0) / (1 - x) := by
  have h := (integrable_max_quad_inv (a := 1 - b) (b := 1 - a) (by linarith) (by linarith)).comp_sub_left 1
  refine h.congr (Filter.Eventually.of_forall fun x => ?_)
  simp only
  congr 3
  ring

theorem integrable_max_quad {a b : ℝ} (hab : a < b) : Integrable fun x : ℝ => √(max ((b - x) * (x - a)) 0) := by
  by_contra h
  have h2 := integral_max_quad hab
  rw [integral_undef h] at h2
  have : 0 < π * (b - a) ^ 2 / 8 := by have : 0 < b - a := by linarith
                                       positivity
  linarith

end Verif.Lemmas
