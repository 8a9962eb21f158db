import Verif.Lemmas.Equi5
import Mathlib.MeasureTheory.Measure.Lebesgue.Integral

/-!
The two-cut equilibrium measure, by the change of variable `v = x²`.
-/

set_option linter.unusedVariables false

namespace Verif.Lemmas.Equi
open Real MeasureTheory Set intervalIntegral Verif.Spec Polynomial.Chebyshev Verif.Model

theorem sq_image : (fun y : ℝ => y ^ 2) '' Ioi 0 = Ioi 0 := by
  ext v
  constructor
  · rintro ⟨y, hy, rfl⟩; exact pow_pos (show 0 < y from hy) 2
  · intro hv; exact ⟨√v, sqrt_pos.2 hv, sq_sqrt (le_of_lt hv)⟩

theorem sq_inj : InjOn (fun y : ℝ => y ^ 2) (Ioi 0) := fun x hx y hy h => by
  exact (pow_left_inj₀ (le_of_lt hx) (le_of_lt hy) two_ne_zero).1 h

theorem sq_deriv (y : ℝ) : HasDerivWithinAt (fun y : ℝ => y ^ 2) (2 * y) (Ioi 0) y := by
  have := (hasDerivAt_pow 2 y).hasDerivWithinAt (s := Ioi 0)
  simpa using this

theorem integral_sq (G : ℝ → ℝ) (hG : ∀ v ≤ 0, G v = 0) : ∫ y in Ioi (0 : ℝ), y * G (y ^ 2) = 1 / 2 * ∫ v, G v := by
  have h := integral_image_eq_integral_abs_deriv_smul measurableSet_Ioi (fun y _ => sq_deriv y) sq_inj G
  rw [sq_image] at h
  have e : ∫ v in Ioi (0 : ℝ), G v = ∫ v, G v := by
    rw [← MeasureTheory.integral_indicator measurableSet_Ioi]
    congr 1
    funext v
    by_cases hv : v ∈ Ioi 0
    · rw [indicator_of_mem hv]
    · rw [indicator_of_notMem hv, hG v (not_lt.1 hv)]
  rw [← e, h, ← MeasureTheory.integral_const_mul]
  refine setIntegral_congr_fun measurableSet_Ioi fun y hy => ?_
  change y * G (y ^ 2) = 1 / 2 * (|2 * y| * G (y ^ 2))
  rw [abs_of_pos (mul_pos two_pos hy)]
  ring

theorem log_mul_integrable (f : ℝ → ℝ) (hf : Continuous f) (R : ℝ) (hR : ∀ y, y ∉ Icc (-R) R → f y = 0) (x : ℝ) :
    Integrable fun y => log |x - y| * f y := by
  have h1 : IntervalIntegrable (fun y => log |x - y|) volume (-|R|) |R| := by
    have h : IntervalIntegrable (fun y => log (x - y)) volume (-|R|) |R| := by
      refine MeromorphicOn.intervalIntegrable_log (f := fun y : ℝ => x - y) ?_
      have : AnalyticOnNhd ℝ (fun y : ℝ => x - y) univ := by
        intro y _; fun_prop
      exact fun y _ => (this y (mem_univ y)).meromorphicAt
    refine h.congr ?_
    intro y _
    exact (log_abs _).symm
  have h2 : IntervalIntegrable (fun y => log |x - y| * f y) volume (-|R|) |R| := h1.mul_continuousOn hf.continuousOn
  rw [intervalIntegrable_iff_integrableOn_Icc_of_le (by linarith [abs_nonneg R])] at h2
  rw [← integrable_indicator_iff measurableSet_Icc] at h2
  refine h2.congr (Filter.Eventually.of_forall fun y => ?_)
  by_cases hy : y ∈ Icc (-|R|) |R|
  · rw [indicator_of_mem hy]
  · rw [indicator_of_notMem hy]
    beta_reduce
    rw [hR y (fun h => hy ⟨by linarith [h.1, le_abs_self R], by linarith [h.2, le_abs_self R]⟩), mul_zero]

theorem x2x4_two (g2 g4 : ℝ) (h4 : 0 < g4) (hg : ¬ g2 > -4 * √(g4 / 4)) :
    IsDensityOn (equilibriumX2X4 g2 g4).1 (equilibriumX2X4 g2 g4).2.1 (equilibriumX2X4 g2 g4).2.2
      ∧ IsEquilibrium (fun x => g2 / 2 * x ^ 2 + g4 / 4 * x ^ 4) (equilibriumX2X4 g2 g4).1 := by
  obtain ⟨r, hr⟩ : ∃ r, r = √g4 := ⟨_, rfl⟩
  have hr0 : 0 < r := by rw [hr]; exact sqrt_pos.2 h4
  have hr2 : r ^ 2 = g4 := by rw [hr, sq_sqrt h4.le]
  have h4s : 4 * √(g4 / 4) = 2 * r := by rw [hr]; exact four_sqrt g4 h4
  have hg' : g2 ≤ -(2 * r) := by have := not_lt.1 hg; linarith
  obtain ⟨c, hc⟩ : ∃ c, c = -g2 / g4 := ⟨_, rfl⟩
  obtain ⟨A, hA⟩ : ∃ A, A = 2 / r := ⟨_, rfl⟩
  have hA0 : 0 < A := by rw [hA]; positivity
  have hA2 : A ^ 2 * g4 = 4 := by rw [hA, ← hr2]; field_simp; norm_num
  have hcA : A ≤ c := by
    rw [hA, hc, div_le_div_iff₀ hr0 h4, ← hr2]
    nlinarith
  have ea : (-g2 + 4 * √(g4 / 4) * 1) / g4 = c + A := by
    rw [h4s, hc, hA, ← hr2]; field_simp; try ring
  have eb : (-g2 + 4 * √(g4 / 4) * -1) / g4 = c - A := by
    rw [h4s, hc, hA, ← hr2]; field_simp; try ring
  obtain ⟨σ, hσ⟩ : ∃ σ : ℝ → ℝ, σ = cutDens c A (fun _ => g4 / 2) := ⟨_, rfl⟩
  obtain ⟨f, hf⟩ : ∃ f, f = (equilibriumX2X4 g2 g4).1 := ⟨_, rfl⟩
  have hfun : f = fun x => |x| * σ (x ^ 2) := by
    rw [hf]
    funext x
    unfold equilibriumX2X4
    rw [if_neg hg, hσ, cutDens, ea, eb]
    simp only []
    rw [show (c + A - x ^ 2) * (x ^ 2 - (c - A)) = A ^ 2 - (x ^ 2 - c) ^ 2 by ring]
    field_simp
  have hlo : (equilibriumX2X4 g2 g4).2.1 = -√(c + A) := by unfold equilibriumX2X4; rw [if_neg hg, ea]; ring
  have hhi : (equilibriumX2X4 g2 g4).2.2 = √(c + A) := by unfold equilibriumX2X4; rw [if_neg hg, ea]; ring
  obtain ⟨v0, hv⟩ := pot_of_deriv c A (fun v => g4 / 2 * (v - c) ^ 2) (fun v => g4 * (v - c)) (w4 1 0 (-1) 0 0)
    (fun v => by
      have := (((hasDerivAt_id v).sub_const c).fun_pow 2).const_mul (g4 / 2)
      refine this.congr_deriv ?_
      simp; ring)
    (fun X => by rw [sig_w4]; linear_combination X * hA2)
  obtain ⟨hdens, l, hl⟩ := one_cut c hA0 (fun _ => g4 / 2) (fun v => g4 / 2 * (v - c) ^ 2) v0 (w4 1 0 (-1) 0 0) (w4_zero _ _ _ _ _)
    (fun _ => by positivity) (fun X => by rw [tau_w4]; linear_combination (-(1 - X ^ 2) / 2) * hA2) hv
  rw [← hσ] at hdens hl
  have hσ0 : ∀ v ≤ 0, σ v = 0 := fun v hv' => by
    rw [hσ]; exact cut_zero c hA0 _ fun h => by linarith [h.1]
  have hσc : Continuous σ := by rw [hσ]; unfold cutDens; fun_prop
  have hfc : Continuous f := by rw [hfun]; exact continuous_abs.mul (hσc.comp (continuous_pow 2))
  have hfneg : ∀ y, f (-y) = f y := fun y => by rw [hfun]; simp
  have hfout : ∀ y, y ∉ Icc (-√(c + A)) √(c + A) → f y = 0 := fun y hy => by
    rw [hfun]
    beta_reduce
    rw [hdens.support (y ^ 2) (Or.inr ?_), mul_zero]
    by_contra h
    have h1 : |y| ≤ √(c + A) := abs_le_sqrt (not_lt.1 h)
    exact hy (abs_le.1 h1)
  have hfpos : ∀ y ∈ Ioi (0 : ℝ), f y = y * σ (y ^ 2) := fun y hy => by rw [hfun]; beta_reduce; rw [abs_of_pos hy]
  -- integrals against f
  have hint : Integrable f := hfc.integrable_of_hasCompactSupport (HasCompactSupport.intro isCompact_Icc hfout)
  have hsplit : ∀ h : ℝ → ℝ, Integrable (fun y => h y * f y) →
      ∫ y, h y * f y = ∫ y in Ioi (0 : ℝ), (h y + h (-y)) * f y := fun h hi => by
    have h1 := intervalIntegral.integral_Iic_add_Ioi (b := (0 : ℝ)) hi.integrableOn hi.integrableOn
    rw [← h1]
    have h2 := integral_comp_neg_Ioi (0 : ℝ) (fun y => h y * f y)
    rw [neg_zero] at h2
    have hi' : Integrable (fun y => h (-y) * f (-y)) := hi.comp_neg
    rw [← h2, ← MeasureTheory.integral_add hi'.integrableOn hi.integrableOn]
    refine setIntegral_congr_fun measurableSet_Ioi fun y hy => ?_
    change h (-y) * f (-y) + h y * f y = _
    rw [hfneg]; ring
  have hmass : ∫ y, f y = 1 := by
    have h1 := hsplit (fun _ => 1) (by simpa using hint)
    simp only [one_mul] at h1
    rw [h1, setIntegral_congr_fun measurableSet_Ioi (g := fun y => y * (2 * σ (y ^ 2))) (fun y hy => by
      change (1 + 1) * f y = _
      rw [hfpos y hy]; ring), integral_sq (fun v => 2 * σ v) (fun v hv' => by rw [hσ0 v hv', mul_zero]), MeasureTheory.integral_const_mul, hdens.mass]
    norm_num
  have hpot : ∀ x, ∫ y, log |x - y| * f y = 1 / 2 * ∫ v, log |x ^ 2 - v| * σ v := fun x => by
    rw [hsplit (fun y => log |x - y|) (log_mul_integrable f hfc _ hfout x), ← integral_sq (fun v => log |x ^ 2 - v| * σ v) (fun v hv' => by rw [hσ0 v hv', mul_zero])]
    refine setIntegral_congr_ae measurableSet_Ioi ?_
    have h1 : ∀ᵐ y : ℝ, y ≠ x ∧ y ≠ -x := (Measure.ae_ne volume x).and (Measure.ae_ne volume (-x))
    filter_upwards [h1] with y hy hy'
    have n1 : x - y ≠ 0 := fun h => hy.1 (by linarith)
    have n2 : x - -y ≠ 0 := fun h => hy.2 (by linarith)
    rw [hfpos y hy', show x ^ 2 - y ^ 2 = (x - y) * (x - -y) by ring, abs_mul, log_mul (abs_ne_zero.2 n1) (abs_ne_zero.2 n2)]
    ring
  rw [hlo, hhi, ← hf]
  have hσnn := hdens.nonneg
  refine ⟨⟨fun x => ?_, fun x hx => hfout x (fun h => by rcases hx with h' | h' <;> linarith [h.1, h.2]), hint, hmass⟩, l / 2 + g4 / 4 * c ^ 2, fun x => ?_⟩
  · rw [hfun]; exact mul_nonneg (abs_nonneg x) (hσnn _)
  · have hV : g2 / 2 * x ^ 2 + g4 / 4 * x ^ 4 + (l / 2 + g4 / 4 * c ^ 2) = 1 / 2 * (g4 / 2 * (x ^ 2 - c) ^ 2 + l) := by
      have : g4 * c = -g2 := by rw [hc]; field_simp
      linear_combination (x ^ 2 / 2) * this
    obtain ⟨_, hle, heq⟩ := hl (x ^ 2)
    refine ⟨log_mul_integrable f hfc _ hfout x, ?_, fun hpos => ?_⟩
    · rw [hpot]
      beta_reduce
      rw [hV]
      beta_reduce at hle
      linarith
    · rw [hpot]
      beta_reduce
      rw [hV]
      have : 0 < σ (x ^ 2) := by
        rw [hfun] at hpos
        exact (pos_iff_pos_of_mul_pos hpos).1 (lt_of_le_of_ne (abs_nonneg x) fun h => by
          change 0 < |x| * σ (x ^ 2) at hpos
          rw [← h, zero_mul] at hpos; exact lt_irrefl _ hpos)
      have := heq this
      beta_reduce at this
      linarith

theorem x2x4_main (g2 g4 : ℝ) (h4 : 0 < g4) :
    IsDensityOn (equilibriumX2X4 g2 g4).1 (equilibriumX2X4 g2 g4).2.1 (equilibriumX2X4 g2 g4).2.2
      ∧ IsEquilibrium (fun x => g2 / 2 * x ^ 2 + g4 / 4 * x ^ 4) (equilibriumX2X4 g2 g4).1 := by
  by_cases h : g2 > -4 * √(g4 / 4)
  · exact x2x4_one g2 g4 h4 h
  · exact x2x4_two g2 g4 h4 h

end Verif.Lemmas.Equi
