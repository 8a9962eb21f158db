import Verif.Lemmas.Equi1

/-!
`∫_0^π cos (n φ) log |2 X - 2 cos φ| dφ` on and off the cut.
-/

set_option linter.unusedVariables false

namespace Verif.Lemmas.Equi
open Real MeasureTheory Set intervalIntegral

theorem log_cos_ae {t : ℝ} (ht : t ∈ Icc (0 : ℝ) π) :
    ∀ᵐ p : ℝ, p ∈ uIoc (0 : ℝ) π → log |2 * cos t - 2 * cos p| = logSin (p + t) + logSin (p - t) := by
  have : ∀ᵐ x : ℝ, x ≠ t := Measure.ae_ne volume t
  filter_upwards [this] with p hp hp'
  rw [uIoc_of_le pi_pos.le] at hp'
  rcases log_cos_sub_cos t p with h | h
  · exact h
  · exact absurd (injOn_cos ⟨hp'.1.le, hp'.2⟩ ht (by linarith)) hp

theorem logSin_shift_int (t a b : ℝ) : IntervalIntegrable (fun p => logSin (p + t)) volume a b := by
  have h := (logSin_int (a + t) (b + t)).comp_add_right t
  simpa using h

theorem log_cos_int {t : ℝ} (ht : t ∈ Icc (0 : ℝ) π) : IntervalIntegrable (fun p => log |2 * cos t - 2 * cos p|) volume 0 π := by
  have h : IntervalIntegrable (fun p => logSin (p + t) + logSin (p - t)) volume 0 π :=
    (logSin_shift_int t 0 π).add (logSin_shift_int (-t) 0 π)
  refine h.congr_ae ?_
  rw [Filter.EventuallyEq, ae_restrict_iff' measurableSet_uIoc]
  filter_upwards [log_cos_ae ht] with p hp hp'
  exact (hp hp').symm

theorem integral_log_cos (n : ℕ) {t : ℝ} (ht : t ∈ Icc (0 : ℝ) π) :
    ∫ p in (0 : ℝ)..π, cos (n * p) * log |2 * cos t - 2 * cos p| = if n = 0 then 0 else - (π * cos (n * t) / n) := by
  have h1 : ∫ p in (0 : ℝ)..π, cos (n * p) * log |2 * cos t - 2 * cos p|
      = ∫ p in (0 : ℝ)..π, (cos (n * p) * logSin (p + t) + cos (n * p) * logSin (p - t)) := by
    refine integral_congr_ae ?_
    filter_upwards [log_cos_ae ht] with p hp hp'
    rw [hp hp', mul_add]
  have i : ∀ s a b : ℝ, IntervalIntegrable (fun p => cos (n * p) * logSin (p + s)) volume a b := fun s a b =>
    (logSin_shift_int s a b).continuousOn_mul (by fun_prop)
  have i' : IntervalIntegrable (fun p => cos (n * p) * logSin (p - t)) volume 0 π := i (-t) 0 π
  rw [h1, intervalIntegral.integral_add (i t 0 π) i']
  have h2 : ∫ p in (0 : ℝ)..π, cos (n * p) * logSin (p - t) = ∫ p in (-π)..0, cos (n * p) * logSin (p + t) := by
    have h := intervalIntegral.integral_comp_neg (a := -π) (b := 0) (fun p => cos (n * p) * logSin (p - t))
    rw [neg_neg, neg_zero] at h
    rw [← h]
    refine integral_congr fun p _ => ?_
    change cos (n * -p) * logSin (-p - t) = _
    rw [mul_neg, cos_neg, show -p - t = -(p + t) by ring, logSin_neg]
  rw [h2, add_comm, integral_add_adjacent_intervals (i t _ _) (i t _ _)]
  have h3 : ∫ p in (-π)..π, cos (n * p) * logSin (p + t) = ∫ p in (-π + t)..(-π + t + 2 * π), cos (n * (p - t)) * logSin p := by
    have h := intervalIntegral.integral_comp_add_right (a := -π) (b := π) (fun p => cos (n * (p - t)) * logSin p) t
    rw [show -π + t + 2 * π = π + t by ring, ← h]
    refine integral_congr fun p _ => ?_
    change _ = cos (n * (p + t - t)) * logSin (p + t)
    rw [add_sub_cancel_right]
  have hper : Function.Periodic (fun p => cos (n * (p - t)) * logSin p) (2 * π) := fun p => by
    change cos (n * (p + 2 * π - t)) * logSin (p + 2 * π) = cos (n * (p - t)) * logSin p
    rw [logSin_periodic p, show (n : ℝ) * (p + 2 * π - t) = n * (p - t) + n * (2 * π) by ring, cos_add_nat_mul_two_pi]
  rw [h3, hper.intervalIntegral_add_eq _ 0, zero_add]
  have h4 : ∀ p : ℝ, cos (n * (p - t)) * logSin p = cos (n * t) * (cos (n * p) * logSin p) + sin (n * t) * (sin (n * p) * logSin p) := fun p => by
    rw [mul_sub, cos_sub]; ring
  simp_rw [h4]
  have is : IntervalIntegrable (fun p => sin (n * p) * logSin p) volume 0 (2 * π) := (logSin_int _ _).continuousOn_mul (by fun_prop)
  rw [intervalIntegral.integral_add ((logSin_cos_int n _ _).const_mul _) (is.const_mul _), intervalIntegral.integral_const_mul,
    intervalIntegral.integral_const_mul, integral_logSin, integral_logSin_sin]
  split_ifs with h0
  · simp
  · ring

theorem integral_cos_cos (n k : ℕ) (hk : 1 ≤ k) : ∫ p in (0 : ℝ)..π, cos (n * p) * cos (k * p) = if n = k then π / 2 else 0 := by
  have h0 : ∀ j : ℤ, j ≠ 0 → ∫ p in (0 : ℝ)..π, cos (j * p) = 0 := fun j hj => by
    have hj' : (j : ℝ) ≠ 0 := by exact_mod_cast hj
    have hd : ∀ x ∈ uIcc (0 : ℝ) π, HasDerivAt (fun x => sin (j * x) / j) (cos (j * x)) x := fun x _ => hasDerivAt_sin_mul j x hj'
    rw [integral_eq_sub_of_hasDerivAt hd (Continuous.intervalIntegrable (by fun_prop) _ _), sin_int_mul_pi]
    simp
  have e : ∀ p : ℝ, cos (n * p) * cos (k * p) = (cos (((n : ℤ) - k : ℤ) * p) + cos (((n : ℤ) + k : ℤ) * p)) / 2 := fun p => by
    push_cast
    rw [sub_mul, add_mul, cos_sub, cos_add]; ring
  simp_rw [e]
  have i : ∀ j : ℤ, IntervalIntegrable (fun p : ℝ => cos (j * p)) volume 0 π := fun j => Continuous.intervalIntegrable (by fun_prop) _ _
  rw [intervalIntegral.integral_div, intervalIntegral.integral_add (i _) (i _), h0 ((n : ℤ) + k) (by omega)]
  split_ifs with h
  · subst h; simp
  · rw [h0 _ (by omega)]; simp

theorem hasSum_log_one_sub (r p : ℝ) (h0 : 0 ≤ r) (h1 : r < 1) :
    HasSum (fun k : ℕ => r ^ k * cos (k * p) / k) (- (log (1 - 2 * r * cos p + r ^ 2) / 2)) := by
  obtain ⟨z, hz⟩ : ∃ z : ℂ, z = r * Complex.exp (p * Complex.I) := ⟨_, rfl⟩
  have hzn : ‖z‖ < 1 := by
    rw [hz, norm_mul, Complex.norm_exp_ofReal_mul_I, mul_one, Complex.norm_real, norm_of_nonneg h0]; exact h1
  have h := Complex.hasSum_re (Complex.hasSum_taylorSeries_neg_log hzn)
  have e1 : (-Complex.log (1 - z)).re = - (log (1 - 2 * r * cos p + r ^ 2) / 2) := by
    rw [Complex.neg_re, Complex.log_re]
    congr 1
    have : ‖1 - z‖ ^ 2 = 1 - 2 * r * cos p + r ^ 2 := by
      rw [← Complex.normSq_eq_norm_sq, Complex.normSq_apply, hz]
      simp only [Complex.sub_re, Complex.sub_im, Complex.one_re, Complex.one_im, Complex.re_ofReal_mul, Complex.im_ofReal_mul,
        Complex.exp_ofReal_mul_I_re, Complex.exp_ofReal_mul_I_im]
      linear_combination r ^ 2 * sin_sq_add_cos_sq p
    rw [← this, log_pow]; push_cast; ring
  rw [e1] at h
  refine h.congr_fun ?_ |> fun x => x
  intro k
  rw [hz, mul_pow, ← Complex.exp_nat_mul, ← Complex.ofReal_pow, Complex.div_natCast_re, Complex.re_ofReal_mul,
    show (k : ℂ) * (p * Complex.I) = ((k * p : ℝ) : ℂ) * Complex.I by push_cast; ring, Complex.exp_ofReal_mul_I_re]

/-- off the cut, to the right -/
theorem integral_log_cosh (n : ℕ) {u : ℝ} (hu : 0 < u) :
    ∫ p in (0 : ℝ)..π, cos (n * p) * log |2 * cosh u - 2 * cos p| = if n = 0 then π * u else - (π * exp (-(n * u)) / n) := by
  obtain ⟨r, hr⟩ : ∃ r, r = exp (-u) := ⟨_, rfl⟩
  have hr0 : 0 < r := by rw [hr]; positivity
  have hr1 : r < 1 := by rw [hr, exp_lt_one_iff]; linarith
  have e1 : ∀ p : ℝ, log |2 * cosh u - 2 * cos p| = u + log (1 - 2 * r * cos p + r ^ 2) := fun p => by
    have hpos : 0 < 1 - 2 * r * cos p + r ^ 2 := by
      have := cos_le_one p
      nlinarith [mul_pos hr0 (show 0 < 1 - r by linarith), sq_nonneg (1 - r), mul_nonneg hr0.le (show 0 ≤ 1 - cos p by linarith), mul_pos (show 0 < 1 - r by linarith) (show 0 < 1 - r by linarith)]
    have : 2 * cosh u - 2 * cos p = exp u * (1 - 2 * r * cos p + r ^ 2) := by
      rw [cosh_eq, hr]
      have : exp u * exp (-u) = 1 := by rw [← exp_add]; simp
      linear_combination (2 * cos p - exp (-u)) * this
    rw [this, abs_of_pos (by positivity), log_mul (exp_pos u).ne' hpos.ne', log_exp]
  have hs : HasSum (fun k : ℕ => ∫ p in (0 : ℝ)..π, cos (n * p) * (r ^ k * cos (k * p) / k))
      (∫ p in (0 : ℝ)..π, cos (n * p) * - (log (1 - 2 * r * cos p + r ^ 2) / 2)) := by
    refine intervalIntegral.hasSum_integral_of_dominated_convergence (fun k _ => r ^ k) (fun k => ?_) (fun k => ?_) ?_ ?_ ?_
    · exact Continuous.aestronglyMeasurable (by fun_prop)
    · refine Filter.Eventually.of_forall fun p _ => ?_
      rw [norm_eq_abs, abs_mul, abs_div, abs_mul, abs_of_pos (pow_pos hr0 k)]
      rcases Nat.eq_zero_or_pos k with h | h
      · subst h; simp
      · have hk : (1 : ℝ) ≤ |(k : ℝ)| := by rw [abs_of_nonneg (Nat.cast_nonneg k)]; exact_mod_cast h
        have p1 : 0 < r ^ k := pow_pos hr0 k
        have : r ^ k * |cos (k * p)| / |(k : ℝ)| ≤ r ^ k := by
          rw [div_le_iff₀ (by linarith)]
          exact mul_le_mul_of_nonneg_left ((abs_cos_le_one _).trans hk) p1.le
        calc |cos (n * p)| * (r ^ k * |cos (k * p)| / |(k : ℝ)|) ≤ 1 * r ^ k :=
              mul_le_mul (abs_cos_le_one _) this (by positivity) zero_le_one
          _ = r ^ k := one_mul _
    · exact Filter.Eventually.of_forall fun p _ => summable_geometric_of_lt_one hr0.le hr1
    · exact intervalIntegrable_const
    · exact Filter.Eventually.of_forall fun p _ => (hasSum_log_one_sub r p hr0.le hr1).mul_left _
  have hterm : ∀ k : ℕ, ∫ p in (0 : ℝ)..π, cos (n * p) * (r ^ k * cos (k * p) / k) = if k = n then (if n = 0 then 0 else r ^ n / n * (π / 2)) else 0 := fun k => by
    rcases Nat.eq_zero_or_pos k with h | h
    · subst h
      simp
      intro h h'
      exact absurd h.symm h'
    · have : ∀ p : ℝ, cos (n * p) * (r ^ k * cos (k * p) / k) = r ^ k / k * (cos (n * p) * cos (k * p)) := fun p => by ring
      simp_rw [this]
      rw [intervalIntegral.integral_const_mul, integral_cos_cos n k h]
      by_cases hkn : k = n
      · subst hkn; simp [h.ne']
      · rw [if_neg hkn, if_neg (Ne.symm hkn), mul_zero]
  simp_rw [hterm] at hs
  have hval := hs.unique (hasSum_ite_eq n (if n = 0 then (0 : ℝ) else r ^ n / n * (π / 2)))
  simp_rw [mul_neg] at hval
  rw [intervalIntegral.integral_neg] at hval
  have hcl : Continuous fun p : ℝ => log (1 - 2 * r * cos p + r ^ 2) := by
    refine Continuous.log (by fun_prop) fun p => ?_
    have := cos_le_one p
    have : 0 < 1 - 2 * r * cos p + r ^ 2 := by
      nlinarith [mul_nonneg hr0.le (show 0 ≤ 1 - cos p by linarith), mul_pos (show 0 < 1 - r by linarith) (show 0 < 1 - r by linarith)]
    exact this.ne'
  simp_rw [e1, mul_add]
  have e2 : ∀ p : ℝ, cos (n * p) * log (1 - 2 * r * cos p + r ^ 2) = 2 * (cos (n * p) * (log (1 - 2 * r * cos p + r ^ 2) / 2)) := fun p => by ring
  simp_rw [e2]
  have i1 : IntervalIntegrable (fun p : ℝ => cos (n * p) * u) volume 0 π := Continuous.intervalIntegrable (by fun_prop) _ _
  have i2 : IntervalIntegrable (fun p : ℝ => 2 * (cos (n * p) * (log (1 - 2 * r * cos p + r ^ 2) / 2))) volume 0 π :=
    Continuous.intervalIntegrable (by fun_prop) _ _
  rw [intervalIntegral.integral_add i1 i2, intervalIntegral.integral_const_mul, neg_eq_iff_eq_neg.1 hval, intervalIntegral.integral_mul_const]
  by_cases h0 : n = 0
  · subst h0; simp
  · have hn0 : (n : ℝ) ≠ 0 := by exact_mod_cast h0
    have : ∫ p in (0 : ℝ)..π, cos (n * p) = 0 := by
      have hd : ∀ x ∈ uIcc (0 : ℝ) π, HasDerivAt (fun x => sin (n * x) / n) (cos (n * x)) x := fun x _ => hasDerivAt_sin_mul n x hn0
      rw [integral_eq_sub_of_hasDerivAt hd (Continuous.intervalIntegrable (by fun_prop) _ _), sin_nat_mul_pi]
      simp
    rw [this, if_neg h0, if_neg h0, hr, ← exp_nat_mul, mul_neg]
    field_simp
    ring

/-- off the cut, to the left -/
theorem integral_log_neg_cosh (n : ℕ) {u : ℝ} (hu : 0 < u) :
    ∫ p in (0 : ℝ)..π, cos (n * p) * log |2 * -cosh u - 2 * cos p| = if n = 0 then π * u else - (π * ((-1) ^ n * exp (-(n * u))) / n) := by
  have h := intervalIntegral.integral_comp_sub_left (a := 0) (b := π) (fun p => cos (n * p) * log |2 * -cosh u - 2 * cos p|) π
  rw [sub_self, sub_zero] at h
  rw [← h]
  have e : ∀ p : ℝ, cos (n * (π - p)) * log |2 * -cosh u - 2 * cos (π - p)| = (-1) ^ n * (cos (n * p) * log |2 * cosh u - 2 * cos p|) := fun p => by
    rw [mul_sub, cos_nat_mul_pi_sub, cos_pi_sub, show 2 * -cosh u - 2 * -cos p = -(2 * cosh u - 2 * cos p) by ring, abs_neg, mul_assoc]
  simp_rw [e]
  rw [intervalIntegral.integral_const_mul, integral_log_cosh n hu]
  by_cases h0 : n = 0
  · subst h0; simp
  · rw [if_neg h0, if_neg h0]; ring

end Verif.Lemmas.Equi
