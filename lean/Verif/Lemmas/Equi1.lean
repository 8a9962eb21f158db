import Mathlib.Analysis.SpecialFunctions.Integrals.LogTrigonometric
import Mathlib.Analysis.SpecialFunctions.Integrability.LogMeromorphic
import Mathlib.Analysis.SpecialFunctions.Trigonometric.Chebyshev.Basic
import Mathlib.Analysis.SpecialFunctions.Trigonometric.DerivHyp
import Mathlib.Analysis.SpecialFunctions.Arcosh
import Mathlib.Analysis.SpecialFunctions.Log.NegMulLog
import Mathlib.MeasureTheory.Integral.IntervalIntegral.FundThmCalculus
import Mathlib.MeasureTheory.Integral.IntervalIntegral.Periodic
import Mathlib.MeasureTheory.Integral.DominatedConvergence
import Mathlib.Analysis.SpecialFunctions.Complex.LogBounds
import Mathlib.Topology.Algebra.Polynomial

/-!
Fourier coefficients of the logarithmic kernel of an interval: `∫_0^π cos (n φ) log |2 X - 2 cos φ| dφ`.
-/

set_option linter.unusedVariables false

namespace Verif.Lemmas.Equi
open Real MeasureTheory Set intervalIntegral

/-- a primitive of `cot ψ sin (2 n ψ)` -/
noncomputable def cotPrim (n : ℕ) (x : ℝ) : ℝ := x + ∑ k ∈ Finset.range n, (sin (2 * (k + 1) * x) / (2 * (k + 1)) + if k = 0 then 0 else sin (2 * k * x) / (2 * k))

/-- its derivative -/
noncomputable def cotPrim' (n : ℕ) (x : ℝ) : ℝ := 1 + ∑ k ∈ Finset.range n, (cos (2 * (k + 1) * x) + if k = 0 then 0 else cos (2 * k * x))

theorem hasDerivAt_sin_mul (c x : ℝ) (hc : c ≠ 0) : HasDerivAt (fun x => sin (c * x) / c) (cos (c * x)) x := by
  have h := (((hasDerivAt_id x).const_mul c).sin).div_const c
  refine HasDerivAt.congr_deriv (f := fun x => _) h ?_
  simp only [id]
  field_simp

theorem hasDerivAt_cotPrim (n : ℕ) (x : ℝ) : HasDerivAt (cotPrim n) (cotPrim' n x) x := by
  unfold cotPrim cotPrim'
  refine (hasDerivAt_id' x).fun_add (HasDerivAt.fun_sum fun k _ => ?_)
  refine (hasDerivAt_sin_mul (2 * (k + 1)) x (by positivity)).fun_add ?_
  split_ifs with h
  · exact hasDerivAt_const _ _
  · exact hasDerivAt_sin_mul (2 * k) x (by positivity)

theorem sin_mul_cotPrim' (n : ℕ) (x : ℝ) (hn : 1 ≤ n) : sin x * cotPrim' n x = cos x * sin (2 * n * x) := by
  induction n, hn using Nat.le_induction with
  | base =>
    simp [cotPrim', cos_two_mul, sin_two_mul]; ring
  | succ n hn ih =>
    have h : cotPrim' (n + 1) x = cotPrim' n x + (cos (2 * (n + 1) * x) + cos (2 * n * x)) := by
      unfold cotPrim'
      rw [Finset.sum_range_succ, if_neg (by omega), add_assoc]
    rw [h, mul_add, ih]
    have e1 : 2 * ((n : ℝ) + 1) * x = 2 * n * x + 2 * x := by ring
    push_cast
    rw [e1, cos_add, sin_add, cos_two_mul, sin_two_mul]
    have := sin_sq_add_cos_sq x
    linear_combination (sin (2 * n * x) * cos x - sin (2 * n * x) * cos x * 2 ) * 0 + (-2 * sin (2 * n * x) * cos x ) * this

theorem cotPrim_zero (n : ℕ) : cotPrim n 0 = 0 := by
  simp [cotPrim]

theorem cotPrim_pi (n : ℕ) : cotPrim n π = π := by
  unfold cotPrim
  rw [Finset.sum_eq_zero, add_zero]
  intro k _
  have h : ∀ j : ℕ, sin (2 * (j : ℝ) * π) = 0 := fun j => by
    have := sin_nat_mul_pi (2 * j); push_cast at this; exact this
  have h1 := h (k + 1)
  push_cast at h1
  rw [h1, h k]
  simp

theorem sin_even_eq (n : ℕ) (hn : 1 ≤ n) (x : ℝ) : sin (2 * n * x) = (Polynomial.Chebyshev.U ℝ ((2 * n - 1 : ℕ) : ℤ)).eval (cos x) * sin x := by
  rw [Polynomial.Chebyshev.U_real_cos]
  congr 2
  push_cast [Nat.cast_sub (show 1 ≤ 2 * n by omega)]
  ring

theorem integral_log_sin_cos (n : ℕ) (hn : 1 ≤ n) : ∫ x in (0 : ℝ)..π, cos (2 * n * x) * log (sin x) = - (π / (2 * n)) := by
  have hn0 : (0 : ℝ) < n := by exact_mod_cast hn
  obtain ⟨F, hF⟩ : ∃ F : ℝ → ℝ, F = fun x => ((Polynomial.Chebyshev.U ℝ ((2 * n - 1 : ℕ) : ℤ)).eval (cos x) * (sin x * log (sin x)) - cotPrim n x) / (2 * n) := ⟨_, rfl⟩
  have hFc : Continuous F := by
    rw [hF]
    have h1 : Continuous fun x : ℝ => sin x * log (sin x) := continuous_mul_log.comp continuous_sin
    have h2 : Continuous (cotPrim n) := continuous_iff_continuousAt.2 fun x => (hasDerivAt_cotPrim n x).continuousAt
    have h3 : Continuous fun x : ℝ => (Polynomial.Chebyshev.U ℝ ((2 * n - 1 : ℕ) : ℤ)).eval (cos x) := (Polynomial.continuous _).comp continuous_cos
    exact ((h3.mul h1).sub h2).div_const _
  have hFd : ∀ x ∈ Ioo (0 : ℝ) π, HasDerivAt F (cos (2 * n * x) * log (sin x)) x := fun x hx => by
    have hs := sin_pos_of_mem_Ioo hx
    have e : F = fun x => (sin (2 * n * x) * log (sin x) - cotPrim n x) / (2 * n) := by
      rw [hF]; funext y; rw [sin_even_eq n hn]; ring
    rw [e]
    have h1 : HasDerivAt (fun x => sin (2 * n * x)) (2 * n * cos (2 * n * x)) x :=
      HasDerivAt.congr_deriv (f := fun x => _) (((hasDerivAt_id x).const_mul (2 * (n : ℝ))).sin) (by simp only [id]; ring)
    have h2 : HasDerivAt (fun x => log (sin x)) (cos x / sin x) x := (hasDerivAt_sin x).log hs.ne'
    refine (((h1.fun_mul h2).fun_sub (hasDerivAt_cotPrim n x)).div_const (2 * (n : ℝ))).congr_deriv ?_
    have h3 := sin_mul_cotPrim' n x hn
    field_simp
    linear_combination (-1) * h3
  have hint : IntervalIntegrable (fun x => cos (2 * n * x) * log (sin x)) volume 0 π :=
    (intervalIntegrable_log_sin (a := 0) (b := π)).continuousOn_mul (by fun_prop)
  rw [integral_eq_sub_of_hasDerivAt_of_le pi_pos.le hFc.continuousOn hFd hint, hF]
  simp only [cotPrim_zero, cotPrim_pi, sin_pi, sin_zero, log_zero, mul_zero, zero_mul, sub_zero]
  field_simp
  ring

/-- the logarithmic kernel on the circle -/
noncomputable def logSin (x : ℝ) : ℝ := log |2 * sin (x / 2)|

theorem logSin_periodic : Function.Periodic logSin (2 * π) := fun x => by
  unfold logSin
  rw [show (x + 2 * π) / 2 = x / 2 + π by ring, sin_add_pi, mul_neg, abs_neg]

theorem logSin_neg (x : ℝ) : logSin (-x) = logSin x := by
  unfold logSin; rw [neg_div, sin_neg, mul_neg, abs_neg]

theorem logSin_int (a b : ℝ) : IntervalIntegrable logSin volume a b := by
  have h : IntervalIntegrable (fun x => log (2 * sin (x / 2))) volume a b := by
    refine MeromorphicOn.intervalIntegrable_log (f := fun x : ℝ => 2 * sin (x / 2)) ?_
    have : AnalyticOnNhd ℝ (fun x : ℝ => 2 * sin (x / 2)) univ := by
      intro x _; fun_prop
    exact fun x _ => (this x (mem_univ x)).meromorphicAt
  refine h.congr ?_
  intro x _
  exact (log_abs _).symm

theorem logSin_cos_int (n : ℕ) (a b : ℝ) : IntervalIntegrable (fun x => cos (n * x) * logSin x) volume a b :=
  (logSin_int a b).continuousOn_mul (by fun_prop)

theorem integral_logSin (n : ℕ) : ∫ x in (0 : ℝ)..(2 * π), cos (n * x) * logSin x = if n = 0 then 0 else - (π / n) := by
  have h := intervalIntegral.integral_comp_div (a := 0) (b := 2 * π) (fun x => cos (2 * n * x) * log |2 * sin x|) (two_ne_zero' ℝ)
  have e : ∀ x : ℝ, cos (n * x) * logSin x = cos (2 * n * (x / 2)) * log |2 * sin (x / 2)| := fun x => by
    rw [logSin]; congr 2; ring
  simp_rw [e]
  rw [h, zero_div, mul_div_cancel_left₀ _ (two_ne_zero' ℝ)]
  have e2 : ∫ x in (0 : ℝ)..π, cos (2 * n * x) * log |2 * sin x| = ∫ x in (0 : ℝ)..π, (cos (2 * n * x) * log 2 + cos (2 * n * x) * log (sin x)) := by
    refine integral_congr_ae ?_
    have : ∀ᵐ x : ℝ, x ≠ π := Measure.ae_ne volume π
    filter_upwards [this] with x hx hx'
    rw [uIoc_of_le pi_pos.le] at hx'
    have hs := sin_pos_of_mem_Ioo (show x ∈ Ioo 0 π from ⟨hx'.1, lt_of_le_of_ne hx'.2 hx⟩)
    rw [abs_of_pos (by positivity), log_mul two_ne_zero hs.ne']
    ring
  have i1 : IntervalIntegrable (fun x => cos (2 * n * x) * log 2) volume 0 π := Continuous.intervalIntegrable (by fun_prop) _ _
  have i2 : IntervalIntegrable (fun x => cos (2 * n * x) * log (sin x)) volume 0 π :=
    (intervalIntegrable_log_sin (a := 0) (b := π)).continuousOn_mul (by fun_prop)
  rw [e2, intervalIntegral.integral_add i1 i2]
  split_ifs with h0
  · subst h0
    simp [integral_log_sin_zero_pi]
    ring
  · have hn : 1 ≤ n := Nat.one_le_iff_ne_zero.2 h0
    have hn0 : (0 : ℝ) < n := by exact_mod_cast hn
    rw [integral_log_sin_cos n hn, intervalIntegral.integral_mul_const]
    have : ∫ x in (0 : ℝ)..π, cos (2 * n * x) = 0 := by
      have hd : ∀ x ∈ uIcc (0 : ℝ) π, HasDerivAt (fun x => sin (2 * n * x) / (2 * n)) (cos (2 * n * x)) x :=
        fun x _ => hasDerivAt_sin_mul (2 * n) x (by positivity)
      rw [integral_eq_sub_of_hasDerivAt hd (Continuous.intervalIntegrable (by fun_prop) _ _)]
      have := sin_nat_mul_pi (2 * n)
      push_cast at this
      rw [this]; simp
    rw [this]
    simp
    field_simp

theorem integral_logSin_sin (n : ℕ) : ∫ x in (0 : ℝ)..(2 * π), sin (n * x) * logSin x = 0 := by
  have h : ∫ x in (0 : ℝ)..(2 * π), sin (n * x) * logSin x = ∫ x in (0 : ℝ)..(2 * π), -(sin (n * x) * logSin x) := by
    have h := intervalIntegral.integral_comp_sub_left (a := 0) (b := 2 * π) (fun x => sin (n * x) * logSin x) (2 * π)
    rw [sub_self, sub_zero] at h
    rw [← h]
    refine integral_congr fun x _ => ?_
    change sin (n * (2 * π - x)) * logSin (2 * π - x) = _
    rw [← logSin_neg (2 * π - x), show -(2 * π - x) = x - 2 * π by ring, logSin_periodic.sub_eq,
      show (n : ℝ) * (2 * π - x) = n * (2 * π) - n * x by ring, sin_nat_mul_two_pi_sub]
    ring
  rw [intervalIntegral.integral_neg] at h
  linarith

/-- on the cut -/
theorem log_cos_sub_cos (t p : ℝ) : log |2 * cos t - 2 * cos p| = logSin (p + t) + logSin (p - t) ∨ 2 * cos t - 2 * cos p = 0 := by
  by_cases h : 2 * cos t - 2 * cos p = 0
  · exact Or.inr h
  · left
    have e : 2 * cos t - 2 * cos p = (2 * sin ((p + t) / 2)) * (2 * sin ((p - t) / 2)) := by
      have := cos_sub_cos t p
      rw [show (t + p) / 2 = (p + t) / 2 by ring, show (t - p) / 2 = -((p - t) / 2) by ring, sin_neg] at this
      linarith
    have h1 : 2 * sin ((p + t) / 2) ≠ 0 := fun h' => h (by rw [e, h', zero_mul])
    have h2 : 2 * sin ((p - t) / 2) ≠ 0 := fun h' => h (by rw [e, h', mul_zero])
    rw [e, abs_mul, log_mul (abs_ne_zero.2 h1) (abs_ne_zero.2 h2)]
    rfl

end Verif.Lemmas.Equi
