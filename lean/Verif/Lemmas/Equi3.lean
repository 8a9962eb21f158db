import Verif.Lemmas.Equi2
import Verif.Lemmas.Dens1
import Verif.Spec.Density
import Mathlib.MeasureTheory.Function.JacobianOneDim
import Mathlib.Analysis.Calculus.Deriv.Polynomial

/-!
Equilibrium measures on one interval, from the Chebyshev expansion of the density.
-/

set_option linter.unusedVariables false

namespace Verif.Lemmas.Equi
open Real MeasureTheory Set intervalIntegral Verif.Spec Polynomial.Chebyshev

/-- `∑ w_n T_n` -/
noncomputable def tau (w : ℕ →₀ ℝ) (X : ℝ) : ℝ := w.sum fun n c => c * (T ℝ n).eval X

/-- `∑ w_n U_{n-1}` -/
noncomputable def sig (w : ℕ →₀ ℝ) (X : ℝ) : ℝ := w.sum fun n c => c * (U ℝ ((n : ℤ) - 1)).eval X

/-- `∑_{n ≥ 1} w_n T_n / n` -/
noncomputable def gam (w : ℕ →₀ ℝ) (X : ℝ) : ℝ := w.sum fun n c => c / n * (T ℝ n).eval X

theorem hasDerivAt_gam (w : ℕ →₀ ℝ) (X : ℝ) : HasDerivAt (gam w) (sig w X) X := by
  unfold gam sig Finsupp.sum
  refine HasDerivAt.fun_sum fun n _ => ?_
  have h := ((T ℝ n).hasDerivAt X).const_mul (w n / n)
  refine h.congr_deriv ?_
  rw [T_derivative_eq_U]
  rcases Nat.eq_zero_or_pos n with h0 | h0
  · subst h0; simp
  · have : (n : ℝ) ≠ 0 := by positivity
    simp only [Polynomial.eval_mul, Polynomial.eval_natCast, Int.cast_natCast]
    field_simp

theorem tau_cos (w : ℕ →₀ ℝ) (p : ℝ) : tau w (cos p) = w.sum fun n c => c * cos (n * p) := by
  unfold tau
  refine Finsupp.sum_congr fun n _ => ?_
  rw [T_real_cos]; simp

theorem continuous_tau (w : ℕ →₀ ℝ) : Continuous (tau w) := by
  unfold tau Finsupp.sum
  exact continuous_finsetSum _ fun n _ => continuous_const.mul (Polynomial.continuous _)

/-- the potential of `tau w (cos p) dp` from the potentials of the cosines -/
theorem integral_tau_log (w : ℕ →₀ ℝ) (X : ℝ) (hi : IntervalIntegrable (fun p => log |2 * X - 2 * cos p|) volume 0 π) :
    ∫ p in (0 : ℝ)..π, tau w (cos p) * log |2 * X - 2 * cos p| = w.sum fun n c => c * ∫ p in (0 : ℝ)..π, cos (n * p) * log |2 * X - 2 * cos p| := by
  simp_rw [tau_cos]
  unfold Finsupp.sum
  simp_rw [Finset.sum_mul]
  have i : ∀ n ∈ w.support, IntervalIntegrable (fun p => w n * cos (n * p) * log |2 * X - 2 * cos p|) volume 0 π := fun n _ =>
    hi.continuousOn_mul (by fun_prop)
  rw [intervalIntegral.integral_finsetSum i]
  refine Finset.sum_congr rfl fun n _ => ?_
  simp_rw [mul_assoc]
  rw [intervalIntegral.integral_const_mul]

theorem log_out_int {X : ℝ} (hX : 1 < |X|) : IntervalIntegrable (fun p => log |2 * X - 2 * cos p|) volume 0 π := by
  refine Continuous.intervalIntegrable (Continuous.log (by fun_prop) fun p => ?_) _ _
  rw [Ne, abs_eq_zero, ← mul_sub, mul_eq_zero, not_or]
  refine ⟨two_ne_zero, fun h => ?_⟩
  rw [sub_eq_zero] at h
  have := abs_cos_le_one p
  rw [h] at hX
  linarith

theorem log_all_int (X : ℝ) : IntervalIntegrable (fun p => log |2 * X - 2 * cos p|) volume 0 π := by
  by_cases h : 1 < |X|
  · exact log_out_int h
  · have h' := abs_le.1 (not_lt.1 h)
    have := log_cos_int (t := arccos X) ⟨arccos_nonneg _, arccos_le_pi _⟩
    rwa [cos_arccos h'.1 h'.2] at this

theorem pot_in (w : ℕ →₀ ℝ) {X : ℝ} (h : |X| ≤ 1) : ∫ p in (0 : ℝ)..π, tau w (cos p) * log |2 * X - 2 * cos p| = - (π * gam w X) := by
  rw [integral_tau_log w X (log_all_int X)]
  have h' := abs_le.1 h
  obtain ⟨t, ht⟩ : ∃ t, t = arccos X := ⟨_, rfl⟩
  have hX : X = cos t := by rw [ht, cos_arccos h'.1 h'.2]
  have ht' : t ∈ Icc 0 π := by rw [ht]; exact ⟨arccos_nonneg _, arccos_le_pi _⟩
  rw [hX]
  unfold gam Finsupp.sum
  rw [Finset.mul_sum, ← Finset.sum_neg_distrib]
  refine Finset.sum_congr rfl fun n _ => ?_
  beta_reduce
  rw [integral_log_cos n ht', T_real_cos]
  split_ifs with h0
  · subst h0; simp
  · push_cast; ring

/-- off the cut the effective potential increases -/
theorem pot_out_aux (w : ℕ →₀ ℝ) (s : ℝ) (hs : ∀ u, w.sum (fun n c => c * (s ^ n * cosh (n * u))) ≤ 0) {u : ℝ} (hu : 0 ≤ u) :
    w.sum (fun n c => c * if n = 0 then u else s ^ n * sinh (n * u) / n) ≤ 0 := by
  obtain ⟨D, hD⟩ : ∃ D : ℝ → ℝ, D = fun u => w.sum (fun n c => c * if n = 0 then u else s ^ n * sinh (n * u) / n) := ⟨_, rfl⟩
  have hd : ∀ u, HasDerivAt D (w.sum (fun n c => c * (s ^ n * cosh (n * u)))) u := fun u => by
    rw [hD]
    unfold Finsupp.sum
    refine HasDerivAt.fun_sum fun n _ => ?_
    refine HasDerivAt.const_mul _ ?_
    split_ifs with h0
    · subst h0; exact (hasDerivAt_id' u).congr_deriv (by simp)
    · have hn : (n : ℝ) ≠ 0 := by exact_mod_cast h0
      have h := ((((hasDerivAt_id u).const_mul (n : ℝ)).sinh).const_mul (s ^ n)).div_const (n : ℝ)
      refine HasDerivAt.congr_deriv (f := fun x => _) h ?_
      simp only [id]
      field_simp
  have h0 : D 0 = 0 := by
    rw [hD]
    unfold Finsupp.sum
    refine Finset.sum_eq_zero fun n _ => ?_
    beta_reduce
    split_ifs <;> simp
  have hm : Antitone D := antitone_of_deriv_nonpos (fun u => (hd u).differentiableAt) fun u => by rw [(hd u).deriv]; exact hs u
  have := hm hu
  rw [h0, hD] at this
  exact this

theorem pot_out (w : ℕ →₀ ℝ) (hw : ∀ X, 1 ≤ |X| → tau w X ≤ 0) {X : ℝ} (h : 1 < |X|) :
    ∫ p in (0 : ℝ)..π, tau w (cos p) * log |2 * X - 2 * cos p| ≤ - (π * gam w X) := by
  rw [integral_tau_log w X (log_all_int X)]
  obtain ⟨s, hs⟩ : ∃ s : ℝ, s = if 0 ≤ X then 1 else -1 := ⟨_, rfl⟩
  have hs2 : s = 1 ∨ s = -1 := by rw [hs]; split_ifs <;> simp
  have hsX : X = s * |X| := by
    rw [hs]; split_ifs with h0
    · rw [abs_of_nonneg h0, one_mul]
    · rw [abs_of_neg (not_le.1 h0)]; ring
  obtain ⟨u, hu, huX⟩ : ∃ u, 0 < u ∧ |X| = cosh u := by
    refine ⟨arcosh |X|, arcosh_pos h, (cosh_arcosh h.le).symm⟩
  have hT : ∀ (n : ℕ) (v : ℝ), (T ℝ n).eval (s * cosh v) = s ^ n * cosh (n * v) := fun n v => by
    rcases hs2 with e | e
    · rw [e, one_mul, T_real_cosh]; simp
    · rw [e, neg_one_mul, T_eval_neg, T_real_cosh]; simp [Int.negOnePow_def]
  have hI : ∀ n : ℕ, ∫ p in (0 : ℝ)..π, cos (n * p) * log |2 * X - 2 * cos p| = if n = 0 then π * u else - (π * (s ^ n * exp (-(n * u))) / n) := fun n => by
    rw [hsX, huX]
    rcases hs2 with e | e
    · rw [e, one_mul, integral_log_cosh n hu]; simp
    · rw [e, neg_one_mul, integral_log_neg_cosh n hu]
  have hneg : ∀ v, w.sum (fun n c => c * (s ^ n * cosh (n * v))) ≤ 0 := fun v => by
    have := hw (s * cosh v) (by
      rw [abs_mul, abs_of_pos (cosh_pos v)]
      rcases hs2 with e | e <;> rw [e] <;> simp [one_le_cosh])
    unfold tau at this
    simp_rw [hT] at this
    exact this
  have key := pot_out_aux w s hneg hu.le
  have e : (w.sum fun n c => c * ∫ p in (0 : ℝ)..π, cos (n * p) * log |2 * X - 2 * cos p|) + π * gam w X
      = π * w.sum (fun n c => c * if n = 0 then u else s ^ n * sinh (n * u) / n) := by
    unfold gam Finsupp.sum
    rw [Finset.mul_sum, Finset.mul_sum, ← Finset.sum_add_distrib]
    refine Finset.sum_congr rfl fun n _ => ?_
    beta_reduce
    rw [hI n, hsX, huX, hT]
    split_ifs with h0
    · subst h0; simp; ring
    · rw [cosh_eq, sinh_eq]
      ring
  have := mul_nonpos_of_nonneg_of_nonpos pi_pos.le key
  linarith

theorem integral_tau (w : ℕ →₀ ℝ) : ∫ p in (0 : ℝ)..π, tau w (cos p) = π * w 0 := by
  simp_rw [tau_cos]
  unfold Finsupp.sum
  rw [intervalIntegral.integral_finsetSum (fun n _ => Continuous.intervalIntegrable (by fun_prop) _ _)]
  simp_rw [intervalIntegral.integral_const_mul]
  have h : ∀ n : ℕ, ∫ p in (0 : ℝ)..π, cos (n * p) = if n = 0 then π else 0 := fun n => by
    split_ifs with h
    · subst h; simp
    · have hn : (n : ℝ) ≠ 0 := by exact_mod_cast h
      have hd : ∀ x ∈ uIcc (0 : ℝ) π, HasDerivAt (fun x => sin (n * x) / n) (cos (n * x)) x := fun x _ => hasDerivAt_sin_mul n x hn
      rw [integral_eq_sub_of_hasDerivAt hd (Continuous.intervalIntegrable (by fun_prop) _ _), sin_nat_mul_pi]
      simp
  simp_rw [h]
  simp [mul_comm]

/-- density with Chebyshev data -/
noncomputable def cutDens (c a : ℝ) (Q : ℝ → ℝ) (y : ℝ) : ℝ := 1 / π * Q y * √(max (a ^ 2 - (y - c) ^ 2) 0)

theorem cut_image (c : ℝ) {a : ℝ} (ha : 0 < a) : (fun p => c + a * cos p) '' Ioo 0 π = Ioo (c - a) (c + a) := by
  ext y
  constructor
  · rintro ⟨p, hp, rfl⟩
    have h1 : cos p < 1 := by
      have := cos_lt_cos_of_nonneg_of_le_pi le_rfl hp.2.le hp.1
      rwa [cos_zero] at this
    have h2 : -1 < cos p := by
      have := cos_lt_cos_of_nonneg_of_le_pi hp.1.le le_rfl hp.2
      rwa [cos_pi] at this
    constructor <;> nlinarith
  · rintro ⟨h1, h2⟩
    have e1 : -1 < (y - c) / a := by rw [lt_div_iff₀ ha]; linarith
    have e2 : (y - c) / a < 1 := by rw [div_lt_iff₀ ha]; linarith
    refine ⟨arccos ((y - c) / a), ⟨arccos_pos.2 e2, ?_⟩, ?_⟩
    · exact lt_of_le_of_ne (arccos_le_pi _) fun h => by
        rw [arccos_eq_pi] at h; linarith
    · change c + a * cos (arccos ((y - c) / a)) = y
      rw [cos_arccos e1.le e2.le]
      field_simp
      ring

theorem cut_deriv (c a p : ℝ) : HasDerivWithinAt (fun p => c + a * cos p) (a * -sin p) (Ioo 0 π) p :=
  (((hasDerivAt_cos p).const_mul a).const_add c).hasDerivWithinAt

theorem cut_inj (c : ℝ) {a : ℝ} (ha : 0 < a) : InjOn (fun p => c + a * cos p) (Ioo 0 π) := fun p hp q hq h => by
  have : cos p = cos q := by
    have : c + a * cos p = c + a * cos q := h
    exact mul_left_cancel₀ ha.ne' (by linarith)
  exact injOn_cos ⟨hp.1.le, hp.2.le⟩ ⟨hq.1.le, hq.2.le⟩ this

theorem cut_zero (c : ℝ) {a : ℝ} (ha : 0 < a) (Q : ℝ → ℝ) {y : ℝ} (hy : y ∉ Ioo (c - a) (c + a)) : cutDens c a Q y = 0 := by
  have : a ^ 2 - (y - c) ^ 2 ≤ 0 := by
    rw [mem_Ioo, not_and_or, not_lt, not_lt] at hy
    rcases hy with h | h <;> nlinarith
  unfold cutDens
  rw [max_eq_right this, sqrt_zero, mul_zero]

theorem cut_point (c : ℝ) {a : ℝ} (ha : 0 < a) (Q g : ℝ → ℝ) (w : ℕ →₀ ℝ) (hP : ∀ X, tau w X = a ^ 2 * (1 - X ^ 2) * Q (c + a * X))
    {p : ℝ} (hp : p ∈ Ioo 0 π) :
    |a * -sin p| • (g (c + a * cos p) * cutDens c a Q (c + a * cos p)) = 1 / π * (g (c + a * cos p) * tau w (cos p)) := by
  have hs := sin_pos_of_mem_Ioo hp
  unfold cutDens
  have e : a ^ 2 - (c + a * cos p - c) ^ 2 = (a * sin p) ^ 2 := by
    linear_combination (-a ^ 2) * sin_sq_add_cos_sq p
  rw [hP, e, max_eq_left (sq_nonneg _), sqrt_sq (by positivity), mul_neg, abs_neg, abs_of_pos (by positivity), smul_eq_mul]
  linear_combination (1 / π * g (c + a * cos p) * Q (c + a * cos p) * a ^ 2) * sin_sq_add_cos_sq p

theorem cut_restrict (c : ℝ) {a : ℝ} (ha : 0 < a) (Q g : ℝ → ℝ) :
    (fun y => g y * cutDens c a Q y) = (Ioo (c - a) (c + a)).indicator fun y => g y * cutDens c a Q y := by
  funext y
  by_cases hy : y ∈ Ioo (c - a) (c + a)
  · rw [indicator_of_mem hy]
  · rw [indicator_of_notMem hy, cut_zero c ha Q hy, mul_zero]

theorem cut_integral (c : ℝ) {a : ℝ} (ha : 0 < a) (Q g : ℝ → ℝ) (w : ℕ →₀ ℝ) (hP : ∀ X, tau w X = a ^ 2 * (1 - X ^ 2) * Q (c + a * X)) :
    ∫ y, g y * cutDens c a Q y = 1 / π * ∫ p in (0 : ℝ)..π, g (c + a * cos p) * tau w (cos p) := by
  rw [cut_restrict c ha Q g, MeasureTheory.integral_indicator measurableSet_Ioo, ← cut_image c ha,
    integral_image_eq_integral_abs_deriv_smul measurableSet_Ioo (fun p _ => cut_deriv c a p) (cut_inj c ha),
    setIntegral_congr_fun measurableSet_Ioo (fun p hp => cut_point c ha Q g w hP hp), MeasureTheory.integral_const_mul,
    intervalIntegral.integral_of_le pi_pos.le, integral_Ioc_eq_integral_Ioo]

theorem cut_integrable (c : ℝ) {a : ℝ} (ha : 0 < a) (Q g : ℝ → ℝ) (w : ℕ →₀ ℝ) (hP : ∀ X, tau w X = a ^ 2 * (1 - X ^ 2) * Q (c + a * X))
    (h : IntervalIntegrable (fun p => g (c + a * cos p) * tau w (cos p)) volume 0 π) :
    Integrable fun y => g y * cutDens c a Q y := by
  rw [cut_restrict c ha Q g, integrable_indicator_iff measurableSet_Ioo, ← cut_image c ha,
    integrableOn_image_iff_integrableOn_abs_deriv_smul measurableSet_Ioo (fun p _ => cut_deriv c a p) (cut_inj c ha),
    integrableOn_congr_fun (fun p hp => cut_point c ha Q g w hP hp) measurableSet_Ioo]
  rw [intervalIntegrable_iff_integrableOn_Ioo_of_le pi_pos.le] at h
  exact h.const_mul _

/-- the general one-cut theorem -/
theorem one_cut (c : ℝ) {a : ℝ} (ha : 0 < a) (Q V : ℝ → ℝ) (v0 : ℝ) (w : ℕ →₀ ℝ) (hw : w 0 = 1) (hQ : ∀ x, 0 ≤ Q x)
    (hP : ∀ X, tau w X = a ^ 2 * (1 - X ^ 2) * Q (c + a * X)) (hV : ∀ X, V (c + a * X) = v0 - 2 * gam w X) :
    IsDensityOn (cutDens c a Q) (c - a) (c + a) ∧ IsEquilibrium V (cutDens c a Q) := by
  have hc1 : Continuous fun p => tau w (cos p) := (continuous_tau w).comp continuous_cos
  refine ⟨⟨fun y => ?_, fun y hy => ?_, ?_, ?_⟩, 2 * log (a / 2) - v0, fun x => ?_⟩
  · unfold cutDens; have := hQ y; positivity
  · exact cut_zero c ha Q fun h => by rcases hy with h' | h' <;> linarith [h.1, h.2]
  · have := cut_integrable c ha Q (fun _ => 1) w hP (Continuous.intervalIntegrable (by fun_prop) _ _)
    simpa using this
  · have := cut_integral c ha Q (fun _ => 1) w hP
    simp only [one_mul] at this
    rw [this, integral_tau, hw]
    field_simp
  · obtain ⟨X, hX⟩ : ∃ X, X = (x - c) / a := ⟨_, rfl⟩
    have hx : x = c + a * X := by rw [hX]; field_simp; ring
    have hae : ∀ᵐ p : ℝ, p ∈ uIoc (0 : ℝ) π → log |x - (c + a * cos p)| * tau w (cos p)
        = log (a / 2) * tau w (cos p) + tau w (cos p) * log |2 * X - 2 * cos p| := by
      have : ∀ᵐ p : ℝ, p ≠ arccos X := Measure.ae_ne volume _
      filter_upwards [this] with p hp hp'
      rw [uIoc_of_le pi_pos.le] at hp'
      have hne : 2 * X - 2 * cos p ≠ 0 := fun h => hp (by
        rw [show X = cos p by linarith, arccos_cos hp'.1.le hp'.2])
      rw [hx, show c + a * X - (c + a * cos p) = a / 2 * (2 * X - 2 * cos p) by ring, abs_mul,
        log_mul (by positivity) (abs_ne_zero.2 hne), abs_of_pos (by positivity)]
      ring
    have i1 : IntervalIntegrable (fun p => log (a / 2) * tau w (cos p)) volume 0 π := (hc1.intervalIntegrable _ _).const_mul _
    have i2 : IntervalIntegrable (fun p => tau w (cos p) * log |2 * X - 2 * cos p|) volume 0 π := (log_all_int X).continuousOn_mul hc1.continuousOn
    have hint := cut_integrable c ha Q (fun y => log |x - y|) w hP ((i1.add i2).congr_ae (by
      rw [Filter.EventuallyEq, ae_restrict_iff' measurableSet_uIoc]
      filter_upwards [hae] with p hp hp'
      exact (hp hp').symm))
    have hval : 2 * ∫ y, log |x - y| * cutDens c a Q y = 2 * log (a / 2) + 2 / π * ∫ p in (0 : ℝ)..π, tau w (cos p) * log |2 * X - 2 * cos p| := by
      rw [cut_integral c ha Q (fun y => log |x - y|) w hP, intervalIntegral.integral_congr_ae hae, intervalIntegral.integral_add i1 i2,
        intervalIntegral.integral_const_mul, integral_tau, hw]
      field_simp
    have hVx : V x = v0 - 2 * gam w X := by rw [hx, hV]
    have hin : |X| ≤ 1 → 2 * ∫ y, log |x - y| * cutDens c a Q y = V x + (2 * log (a / 2) - v0) := fun h => by
      rw [hval, pot_in w h, hVx]; field_simp; ring
    refine ⟨hint, ?_, fun hpos => hin ?_⟩
    · by_cases h : |X| ≤ 1
      · exact (hin h).le
      · have h1 := pot_out w (fun Y hY => by
          rw [hP Y]
          have : 1 - Y ^ 2 ≤ 0 := by nlinarith [sq_abs Y]
          have h2 := hQ (c + a * Y)
          have h3 : a ^ 2 * (1 - Y ^ 2) ≤ 0 := mul_nonpos_of_nonneg_of_nonpos (sq_nonneg _) this
          exact mul_nonpos_of_nonpos_of_nonneg h3 h2) (not_le.1 h)
        rw [hval, hVx]
        have h2 : 2 / π * ∫ p in (0 : ℝ)..π, tau w (cos p) * log |2 * X - 2 * cos p| ≤ 2 / π * -(π * gam w X) :=
          mul_le_mul_of_nonneg_left h1 (by positivity)
        have h3 : 2 / π * -(π * gam w X) = -2 * gam w X := by field_simp
        linarith
    · by_contra h
      rw [cut_zero c ha Q] at hpos
      · exact lt_irrefl _ hpos
      · rintro ⟨h1, h2⟩
        refine h (abs_le.2 ⟨?_, ?_⟩) <;> rw [hX]
        · rw [le_div_iff₀ ha]; linarith
        · rw [div_le_iff₀ ha]; linarith

/-- the potential condition from the derivative -/
theorem pot_of_deriv (c a : ℝ) (V V' : ℝ → ℝ) (w : ℕ →₀ ℝ) (hV : ∀ x, HasDerivAt V (V' x) x) (h : ∀ X, a * V' (c + a * X) = -2 * sig w X) :
    ∃ v0, ∀ X, V (c + a * X) = v0 - 2 * gam w X := by
  have hd : ∀ X, HasDerivAt (fun X => V (c + a * X) + 2 * gam w X) 0 X := fun X => by
    have h1 : HasDerivAt (fun X => c + a * X) a X := by
      simpa using ((hasDerivAt_id X).const_mul a).const_add c
    have h2 := (hV (c + a * X)).comp X h1
    refine HasDerivAt.congr_deriv (f := fun X => _) (h2.fun_add ((hasDerivAt_gam w X).const_mul 2)) ?_
    linear_combination h X
  refine ⟨V (c + a * 0) + 2 * gam w 0, fun X => ?_⟩
  have := is_const_of_deriv_eq_zero (fun X => (hd X).differentiableAt) (fun X => (hd X).deriv) X 0
  linarith

end Verif.Lemmas.Equi
