import Verif.Lemmas.Dens1
import Verif.Spec.Density

/-!
# The curves drawn over the histograms
-/

set_option linter.unusedVariables false

namespace Verif.Props
open Verif Verif.Spec Verif.Model Verif.Lemmas Real MeasureTheory

/-! ## C97 The limiting densities displayed by the beta ensembles are probability densities -/

/-- C97: `semi_circle_law(., R)` is a probability density carried by `[-R, R]`, for every `R > 0`. -/
theorem C97_semi_circle (R : ℝ) (hR : 0 < R) : IsDensityOn (fun x => semiCircleLaw x R) (-R) R := by
  have e : ∀ x : ℝ, R ^ 2 - x ^ 2 = (R - x) * (x - -R) := fun x => by ring
  refine ⟨fun x => ?_, fun x hx => ?_, ?_, ?_⟩
  · unfold semiCircleLaw; positivity
  · unfold semiCircleLaw
    rw [e, max_quad_zero (by linarith) (by rw [Set.mem_Ioo]; rintro ⟨h1, h2⟩; rcases hx with h | h <;> linarith), sqrt_zero, mul_zero]
  · unfold semiCircleLaw
    simp_rw [e]
    exact (integrable_max_quad (by linarith)).const_mul _
  · unfold semiCircleLaw
    simp_rw [e]
    rw [integral_const_mul, integral_max_quad (by linarith)]
    field_simp
    ring

/-- C97: `marcenko_pastur_law(., M, N, sigma)` is a probability density carried by `[Lm, Lp]`, for every `0 < N ≤ M` and `sigma > 0`. -/
theorem C97_marcenko_pastur (M N sigma : ℝ) (hN : 0 < N) (hM : N ≤ M) (hs : 0 < sigma) :
    IsDensityOn (fun x => marcenkoPasturLaw x M N sigma) (mpLm M N sigma) (mpLp M N sigma) := by
  obtain ⟨c, hc⟩ : ∃ c, c = N / M := ⟨_, rfl⟩
  have hM0 : 0 < M := hN.trans_le hM
  have hc0 : 0 < c := by rw [hc]; positivity
  have hc1 : c ≤ 1 := by rw [hc, div_le_one hM0]; exact hM
  have hs0 : 0 < √c := sqrt_pos.2 hc0
  have hs1 : √c ≤ 1 := (sqrt_le_sqrt hc1).trans_eq sqrt_one
  have hsq := sq_sqrt hc0.le
  have hlt : mpLm M N sigma < mpLp M N sigma := by
    unfold mpLm mpLp; rw [← hc]
    have : 0 < sigma ^ 2 * √c := by positivity
    nlinarith
  have h0 : 0 ≤ mpLm M N sigma := sq_nonneg _
  have hfun : (fun x => marcenkoPasturLaw x M N sigma)
      = fun x => (1 / (c * (2 * π * sigma ^ 2))) * (√(max ((mpLp M N sigma - x) * (x - mpLm M N sigma)) 0) / x) := by
    funext x
    unfold marcenkoPasturLaw
    rw [← hc, div_div, mul_comm c x, mul_assoc, ← div_div, one_div, div_eq_inv_mul (_ / x)]
  have hout : ∀ x, x < mpLm M N sigma ∨ mpLp M N sigma < x → marcenkoPasturLaw x M N sigma = 0 := fun x hx => by
    unfold marcenkoPasturLaw
    rw [max_quad_zero hlt.le (by rw [Set.mem_Ioo]; rintro ⟨h1, h2⟩; rcases hx with h | h <;> linarith), sqrt_zero, zero_div, zero_div]
  refine ⟨fun x => ?_, hout, ?_, ?_⟩
  · by_cases hx : x < mpLm M N sigma
    · rw [hout x (Or.inl hx)]
    · have : 0 ≤ x := h0.trans (not_lt.1 hx)
      rw [congrFun hfun x]
      positivity
  · rw [hfun]
    exact (integrable_max_quad_inv h0 hlt).const_mul _
  · rw [hfun, integral_const_mul, integral_max_quad_inv h0 hlt]
    have e1 : √(mpLm M N sigma * mpLp M N sigma) = sigma ^ 2 * (1 - c) := by
      unfold mpLm mpLp
      rw [← mul_pow, sqrt_sq_eq_abs, ← hc, show sigma * (1 - √c) * (sigma * (1 + √c)) = sigma ^ 2 * (1 - √c ^ 2) by ring, hsq,
        abs_of_nonneg (mul_nonneg (sq_nonneg _) (by linarith))]
    have e2 : (mpLm M N sigma + mpLp M N sigma) / 2 = sigma ^ 2 * (1 + c) := by
      unfold mpLm mpLp
      rw [← hc, show ((sigma * (1 - √c)) ^ 2 + (sigma * (1 + √c)) ^ 2) / 2 = sigma ^ 2 * (1 + √c ^ 2) by ring, hsq]
    rw [e1, e2]
    field_simp
    ring

/-- C97: `wachter_law(., M_1, M_2, N)` is a probability density carried by `[Lm, Lp] ⊂ [0, 1]`, for every `0 < N ≤ M_1, M_2`. -/
theorem C97_wachter (M1 M2 N : ℝ) (hN : 0 < N) (h1 : N ≤ M1) (h2 : N ≤ M2) :
    IsDensityOn (fun x => wachterLaw x M1 M2 N) (waLm M1 M2 N) (waLp M1 M2 N) ∧ 0 ≤ waLm M1 M2 N ∧ waLp M1 M2 N ≤ 1 := by
  obtain ⟨a, ha⟩ : ∃ a, a = M1 / N := ⟨_, rfl⟩
  obtain ⟨b, hb⟩ : ∃ b, b = M2 / N := ⟨_, rfl⟩
  have ha1 : 1 ≤ a := by rw [ha, le_div_iff₀ hN]; linarith
  have hb1 : 1 ≤ b := by rw [hb, le_div_iff₀ hN]; linarith
  have hS : 0 < a + b := by linarith
  obtain ⟨s, hs⟩ : ∃ s, s = √(a * (a + b - 1)) := ⟨_, rfl⟩
  obtain ⟨t, ht⟩ : ∃ t, t = √b := ⟨_, rfl⟩
  have hs2 : s ^ 2 = a * (a + b - 1) := by rw [hs, sq_sqrt]; exact mul_nonneg (by linarith) (by linarith)
  have ht2 : t ^ 2 = b := by rw [ht, sq_sqrt]; linarith
  have hs0 : 0 < s := by rw [hs]; exact sqrt_pos.2 (mul_pos (by linarith) (by linarith))
  have ht0 : 0 < t := by rw [ht]; exact sqrt_pos.2 (by linarith)
  have em : waLm M1 M2 N = ((s - t) / (a + b)) ^ 2 := by unfold waLm; rw [← ha, ← hb, ← hs, ← ht]
  have ep : waLp M1 M2 N = ((s + t) / (a + b)) ^ 2 := by unfold waLp; rw [← ha, ← hb, ← hs, ← ht]
  have h0 : 0 ≤ waLm M1 M2 N := sq_nonneg _
  have hlt : waLm M1 M2 N < waLp M1 M2 N := by
    rw [em, ep, div_pow, div_pow, div_lt_div_iff_of_pos_right (by positivity)]
    nlinarith [mul_pos hs0 ht0]
  have hst : s + t ≤ a + b := by
    have hP : 0 ≤ a * (b + 1) + b * (b - 1) := by nlinarith
    have hsq : (2 * s * t) ^ 2 ≤ (a * (b + 1) + b * (b - 1)) ^ 2 := by
      have e : (a * (b + 1) + b * (b - 1)) ^ 2 - (2 * s * t) ^ 2 = ((b - 1) * (a + b)) ^ 2 := by
        rw [show (2 * s * t) ^ 2 = 4 * s ^ 2 * t ^ 2 by ring, hs2, ht2]; ring
      nlinarith [sq_nonneg ((b - 1) * (a + b))]
    have h3 : 2 * s * t ≤ a * (b + 1) + b * (b - 1) := abs_le_of_sq_le_sq' hsq hP |>.2
    have h4 : (s + t) ^ 2 ≤ (a + b) ^ 2 := by
      rw [show (s + t) ^ 2 = s ^ 2 + 2 * s * t + t ^ 2 by ring, hs2, ht2]; nlinarith
    exact (abs_le_of_sq_le_sq' h4 hS.le).2
  have hp1 : waLp M1 M2 N ≤ 1 := by
    rw [ep]
    refine pow_le_one₀ (by positivity) ?_
    rw [div_le_one hS]; exact hst
  have hfun : (fun x => wachterLaw x M1 M2 N)
      =ᵐ[volume] fun x => (a + b) / (2 * π) * (√(max ((waLp M1 M2 N - x) * (x - waLm M1 M2 N)) 0) / x
        + √(max ((waLp M1 M2 N - x) * (x - waLm M1 M2 N)) 0) / (1 - x)) := by
    have h01 : ∀ᵐ x : ℝ, x ≠ 0 ∧ x ≠ 1 := (Measure.ae_ne volume 0).and (Measure.ae_ne volume 1)
    filter_upwards [h01] with x hx
    unfold wachterLaw
    rw [← ha, ← hb]
    have h3 : (1 - x) ≠ 0 := sub_ne_zero.2 hx.2.symm
    have h4 := hx.1
    field_simp
    ring
  have hout : ∀ x, x < waLm M1 M2 N ∨ waLp M1 M2 N < x → wachterLaw x M1 M2 N = 0 := fun x hx => by
    unfold wachterLaw
    rw [max_quad_zero hlt.le (by rw [Set.mem_Ioo]; rintro ⟨h1, h2⟩; rcases hx with h | h <;> linarith), sqrt_zero, mul_zero]
  refine ⟨⟨fun x => ?_, hout, ?_, ?_⟩, h0, hp1⟩
  · by_cases hx : x < waLm M1 M2 N
    · rw [hout x (Or.inl hx)]
    · by_cases hx' : waLp M1 M2 N < x
      · rw [hout x (Or.inr hx')]
      · have p1 : 0 ≤ x := h0.trans (not_lt.1 hx)
        have p2 : 0 ≤ 1 - x := by linarith [not_lt.1 hx']
        unfold wachterLaw
        rw [← ha, ← hb]
        positivity
  · exact (((integrable_max_quad_inv h0 hlt).add (integrable_max_quad_inv_one hp1 hlt)).const_mul _).congr hfun.symm
  · rw [integral_congr_ae hfun, integral_const_mul, integral_add (integrable_max_quad_inv h0 hlt) (integrable_max_quad_inv_one hp1 hlt),
      integral_max_quad_inv h0 hlt, integral_max_quad_inv_one hp1 hlt]
    have e1 : √(waLm M1 M2 N * waLp M1 M2 N) = (a - 1) / (a + b) := by
      rw [em, ep, ← mul_pow, sqrt_sq_eq_abs]
      have : (s - t) / (a + b) * ((s + t) / (a + b)) = (a - 1) / (a + b) := by
        rw [div_mul_div_comm, show (s - t) * (s + t) = s ^ 2 - t ^ 2 by ring, hs2, ht2]
        field_simp; ring
      rw [this, abs_of_nonneg (div_nonneg (by linarith) hS.le)]
    have e2 : √((1 - waLm M1 M2 N) * (1 - waLp M1 M2 N)) = (b - 1) / (a + b) := by
      have : (1 - waLm M1 M2 N) * (1 - waLp M1 M2 N) = ((b - 1) / (a + b)) ^ 2 := by
        rw [em, ep]
        have : (1 - ((s - t) / (a + b)) ^ 2) * (1 - ((s + t) / (a + b)) ^ 2)
            = 1 - (2 * s ^ 2 + 2 * t ^ 2) / (a + b) ^ 2 + (s ^ 2 - t ^ 2) ^ 2 / (a + b) ^ 4 := by field_simp; ring
        rw [this, hs2, ht2]
        field_simp; ring
      rw [this, sqrt_sq (div_nonneg (by linarith) hS.le)]
    rw [e1, e2]
    field_simp
    ring

/-- The hypotheses are met: the default curve of `HermiteEnsemble`, and the sizes of the documentation. -/
example : IsDensityOn (fun x => semiCircleLaw x 2) (-2) 2 ∧ IsDensityOn (fun x => marcenkoPasturLaw x 800 500 1) (mpLm 800 500 1) (mpLp 800 500 1) :=
  ⟨C97_semi_circle 2 (by norm_num), C97_marcenko_pastur 800 500 1 (by norm_num) (by norm_num) (by norm_num)⟩

end Verif.Props
