import Verif.Lemmas.Equi6

/-!
Distribution functions of the equilibrium measures.
-/

set_option linter.unusedVariables false

namespace Verif.Lemmas.Equi
open Real MeasureTheory Set intervalIntegral Verif.Spec Verif.Model

theorem clip_low {a x : ℝ} (ha : 0 < a) (h : x ≤ -a) : clipEntry a x = -a := by
  unfold clipEntry
  rcases lt_or_eq_of_le h with h | h
  · rw [if_pos h, if_neg (by linarith)]
  · rw [if_neg (show ¬ x < -a by linarith), if_neg (by linarith), h]

theorem clip_mid {a x : ℝ} (h1 : -a ≤ x) (h2 : x ≤ a) : clipEntry a x = x := by
  unfold clipEntry
  rw [if_neg (show ¬ x < -a by linarith), if_neg (by linarith)]

theorem clip_high {a x : ℝ} (ha : 0 < a) (h : a < x) : clipEntry a x = a := by
  unfold clipEntry
  rw [if_neg (show ¬ x < -a by linarith), if_pos h]

theorem cdf_eq {f F : ℝ → ℝ} {a : ℝ} (ha : 0 < a) (hf0 : ∀ x, 0 ≤ f x) (hout : ∀ y, y ∉ Ioo (-a) a → f y = 0) (hint : Integrable f)
    (hFc : Continuous F) (hF0 : F (-a) = 0) (hFd : ∀ x ∈ Ioo (-a) a, HasDerivAt F (f x) x) (x : ℝ) :
    ∫ y in Iic x, f y = F (clipEntry a x) := by
  have hlow : ∀ x, x ≤ -a → ∫ y in Iic x, f y = 0 := fun x hx =>
    setIntegral_eq_zero_of_forall_eq_zero fun y hy => hout y fun h => by have : y ≤ x := hy; linarith [h.1]
  have hsplit : ∀ x, ∫ y in Iic x, f y = ∫ y in (-a)..x, f y := fun x => by
    have := intervalIntegral.integral_Iic_sub_Iic (a := -a) (b := x) hint.integrableOn hint.integrableOn
    rw [hlow (-a) le_rfl, sub_zero] at this
    exact this
  have hftc : ∀ x, -a ≤ x → x ≤ a → ∫ y in (-a)..x, f y = F x := fun x h1 h2 => by
    rw [integral_eq_sub_of_hasDerivAt_of_le h1 hFc.continuousOn (fun y hy => hFd y ⟨hy.1, hy.2.trans_le h2⟩) hint.intervalIntegrable, hF0, sub_zero]
  rcases le_or_gt x (-a) with h | h
  · rw [hlow x h, clip_low ha h, hF0]
  · rcases le_or_gt x a with h' | h'
    · rw [clip_mid h.le h', hsplit, hftc x h.le h']
    · rw [clip_high ha h', hsplit, ← hftc a (by linarith) le_rfl,
        ← integral_add_adjacent_intervals (hint.intervalIntegrable (a := -a) (b := a)) (hint.intervalIntegrable (a := a) (b := x))]
      have : ∫ y in a..x, f y = ∫ y in a..x, (0 : ℝ) := by
        refine integral_congr fun y hy => ?_
        rw [uIcc_of_le h'.le] at hy
        exact hout y fun h => by linarith [h.2, hy.1]
      rw [this, intervalIntegral.integral_zero, add_zero]

theorem hasDerivAt_arcsin_div {a x : ℝ} (ha : 0 < a) (h : x ∈ Ioo (-a) a) : HasDerivAt (fun x => arcsin (x / a)) (1 / √(a ^ 2 - x ^ 2)) x := by
  have e1 : x / a ≠ -1 := by
    rw [Ne, div_eq_iff ha.ne']; intro h'; linarith [h.1]
  have e2 : x / a ≠ 1 := by
    rw [Ne, div_eq_iff ha.ne']; intro h'; linarith [h.2]
  have h2 := (hasDerivAt_arcsin e1 e2).comp x ((hasDerivAt_id x).div_const a)
  refine HasDerivAt.congr_deriv (f := fun x => _) h2 ?_
  have hp : 0 < a ^ 2 - x ^ 2 := by nlinarith [h.1, h.2]
  have e : 1 - (x / a) ^ 2 = (a ^ 2 - x ^ 2) * (1 / a) ^ 2 := by field_simp
  rw [e, sqrt_mul hp.le, sqrt_sq (by positivity)]
  have := sqrt_pos.2 hp
  field_simp

theorem hasDerivAt_sin_arcsin {a x : ℝ} (ha : 0 < a) (h : x ∈ Ioo (-a) a) (k : ℝ) :
    HasDerivAt (fun x => sin (k * arcsin (x / a))) (k * cos (k * arcsin (x / a)) / √(a ^ 2 - x ^ 2)) x :=
  HasDerivAt.congr_deriv (f := fun x => _) (((hasDerivAt_arcsin_div ha h).const_mul k).sin) (by ring)

theorem cos_two_arcsin {a x : ℝ} (ha : 0 < a) (h : x ∈ Ioo (-a) a) : cos (2 * arcsin (x / a)) = 1 - 2 * (x / a) ^ 2 := by
  have h1 : -1 ≤ x / a := by rw [le_div_iff₀ ha]; linarith [h.1]
  have h2 : x / a ≤ 1 := by rw [div_le_iff₀ ha]; linarith [h.2]
  rw [cos_two_mul', cos_sq', sin_arcsin h1 h2]; ring

theorem cos_four_arcsin {a x : ℝ} (ha : 0 < a) (h : x ∈ Ioo (-a) a) : cos (4 * arcsin (x / a)) = 1 - 8 * (x / a) ^ 2 + 8 * (x / a) ^ 4 := by
  rw [show 4 * arcsin (x / a) = 2 * (2 * arcsin (x / a)) by ring, cos_two_mul, cos_two_arcsin ha h]; ring

theorem cos_six_arcsin {a x : ℝ} (ha : 0 < a) (h : x ∈ Ioo (-a) a) :
    cos (6 * arcsin (x / a)) = 1 - 18 * (x / a) ^ 2 + 48 * (x / a) ^ 4 - 32 * (x / a) ^ 6 := by
  rw [show 6 * arcsin (x / a) = 3 * (2 * arcsin (x / a)) by ring, cos_three_mul, cos_two_arcsin ha h]; ring

/-- primitive of the quartic density -/
noncomputable def primFour (k A B a x : ℝ) : ℝ :=
  k * A / (8 * π) * ((A + 4 * B) / 2 * (arcsin (x / a) + π / 2) + B * sin (2 * arcsin (x / a)) - A / 8 * sin (4 * arcsin (x / a)))

theorem primFour_cont (k A B a : ℝ) : Continuous (primFour k A B a) := by
  unfold primFour
  have : Continuous fun x => arcsin (x / a) := continuous_arcsin.comp (continuous_id.div_const a)
  fun_prop

theorem arcsin_edge {a : ℝ} (ha : 0 < a) : arcsin (-a / a) = -(π / 2) := by
  rw [neg_div, div_self ha.ne', arcsin_neg, arcsin_one]

theorem sin_edge (n : ℕ) : sin (2 * n * -(π / 2)) = 0 := by
  rw [show 2 * (n : ℝ) * -(π / 2) = -(n * π) by ring, sin_neg, sin_nat_mul_pi, neg_zero]

theorem primFour_edge (k A B : ℝ) {a : ℝ} (ha : 0 < a) : primFour k A B a (-a) = 0 := by
  unfold primFour
  rw [arcsin_edge ha]
  have h1 := sin_edge 1
  have h2 := sin_edge 2
  norm_num at h1 h2
  simp only [mul_neg, sin_neg]
  rw [show 4 * (π / 2) = 2 * π by ring, sin_two_pi, show 2 * (π / 2) = π by ring, sin_pi]
  ring

theorem primFour_deriv (k B : ℝ) {a x : ℝ} (ha : 0 < a) (h : x ∈ Ioo (-a) a) :
    HasDerivAt (primFour k (a ^ 2) B a) (k / (2 * π) * (x ^ 2 + B) * √(a ^ 2 - x ^ 2)) x := by
  have hp : 0 < a ^ 2 - x ^ 2 := by nlinarith [h.1, h.2]
  have hs := sqrt_pos.2 hp
  have hs2 := sq_sqrt hp.le
  unfold primFour
  refine ((((((hasDerivAt_arcsin_div ha h).add_const (π / 2)).const_mul ((a ^ 2 + 4 * B) / 2)).fun_add
    ((hasDerivAt_sin_arcsin ha h 2).const_mul B)).fun_sub ((hasDerivAt_sin_arcsin ha h 4).const_mul (a ^ 2 / 8))).const_mul
      (k * a ^ 2 / (8 * π))).congr_deriv ?_
  rw [cos_two_arcsin ha h, cos_four_arcsin ha h]
  obtain ⟨s, hs'⟩ : ∃ s, s = √(a ^ 2 - x ^ 2) := ⟨_, rfl⟩
  rw [← hs'] at hs hs2 ⊢
  field_simp
  rw [hs2]
  ring

/-- primitive of the sextic density -/
noncomputable def primSix (k a x : ℝ) : ℝ :=
  k * a ^ 6 / (16 * π) * (5 * (arcsin (x / a) + π / 2) + 5 / 4 * sin (2 * arcsin (x / a)) - 1 / 2 * sin (4 * arcsin (x / a))
    + 1 / 12 * sin (6 * arcsin (x / a)))

theorem primSix_cont (k a : ℝ) : Continuous (primSix k a) := by
  unfold primSix
  have : Continuous fun x => arcsin (x / a) := continuous_arcsin.comp (continuous_id.div_const a)
  fun_prop

theorem primSix_edge (k : ℝ) {a : ℝ} (ha : 0 < a) : primSix k a (-a) = 0 := by
  unfold primSix
  rw [arcsin_edge ha]
  have h3 := sin_nat_mul_pi 3
  norm_num at h3
  simp only [mul_neg, sin_neg]
  rw [show 4 * (π / 2) = 2 * π by ring, sin_two_pi, show 2 * (π / 2) = π by ring, sin_pi, show 6 * (π / 2) = 3 * π by ring, h3]
  ring

theorem primSix_deriv (k : ℝ) {a x : ℝ} (ha : 0 < a) (h : x ∈ Ioo (-a) a) :
    HasDerivAt (primSix k a) (k / π * √(a ^ 2 - x ^ 2) * (x ^ 4 + a ^ 2 / 2 * x ^ 2 + 3 / 8 * a ^ 4)) x := by
  have hp : 0 < a ^ 2 - x ^ 2 := by nlinarith [h.1, h.2]
  have hs := sqrt_pos.2 hp
  have hs2 := sq_sqrt hp.le
  unfold primSix
  refine (((((((hasDerivAt_arcsin_div ha h).add_const (π / 2)).const_mul 5).fun_add
    ((hasDerivAt_sin_arcsin ha h 2).const_mul (5 / 4))).fun_sub ((hasDerivAt_sin_arcsin ha h 4).const_mul (1 / 2))).fun_add
      ((hasDerivAt_sin_arcsin ha h 6).const_mul (1 / 12))).const_mul (k * a ^ 6 / (16 * π))).congr_deriv ?_
  rw [cos_two_arcsin ha h, cos_four_arcsin ha h, cos_six_arcsin ha h]
  obtain ⟨s, hs'⟩ : ∃ s, s = √(a ^ 2 - x ^ 2) := ⟨_, rfl⟩
  rw [← hs'] at hs hs2 ⊢
  field_simp
  rw [hs2]
  ring

theorem out_of_density {f : ℝ → ℝ} {a : ℝ} (h : ∀ x, a ^ 2 - x ^ 2 ≤ 0 → f x = 0) (ha : 0 < a) : ∀ y, y ∉ Ioo (-a) a → f y = 0 := fun y hy => by
  refine h y ?_
  rw [mem_Ioo, not_and_or, not_lt, not_lt] at hy
  rcases hy with h | h <;> nlinarith

/-- the one-cut form of the quartic density, up to the transition -/
theorem x2x4_form (g2 g4 : ℝ) (h4 : 0 < g4) (hg : -(2 * √g4) ≤ g2) (x : ℝ) :
    (equilibriumX2X4 g2 g4).1 x = g4 / (2 * π) * (x ^ 2 + 1 / (3 * g4) * (√(g2 ^ 2 + 12 * g4) + 2 * g2))
      * √(max (2 / (3 * g4) * (√(g2 ^ 2 + 12 * g4) - g2) - x ^ 2) 0) := by
  have h4s := four_sqrt g4 h4
  obtain ⟨r, hr⟩ : ∃ r, r = √g4 := ⟨_, rfl⟩
  have hr0 : 0 < r := by rw [hr]; exact sqrt_pos.2 h4
  have hr2 : r ^ 2 = g4 := by rw [hr, sq_sqrt h4.le]
  rw [← hr] at hg h4s
  unfold equilibriumX2X4
  by_cases h : g2 > -4 * √(g4 / 4)
  · rw [if_pos h]
    have hB : 0 ≤ √(g2 ^ 2 + 12 * g4) + 2 * g2 := by
      have : -(2 * g2) ≤ √(g2 ^ 2 + 12 * g4) := by
        by_cases h0 : 0 ≤ g2
        · exact le_trans (by linarith) (sqrt_nonneg _)
        · exact le_sqrt_of_sq_le (by nlinarith)
      linarith
    exact max_eq_left (by positivity)
  · rw [if_neg h]
    have e : g2 = -(2 * r) := by
      have := not_lt.1 h
      linarith
    have e3 : √(g2 ^ 2 + 12 * g4) = 4 * r := by
      rw [e, ← hr2, show (-(2 * r)) ^ 2 + 12 * r ^ 2 = (4 * r) ^ 2 by ring, sqrt_sq (by positivity)]
    have ea : (-g2 + 4 * √(g4 / 4) * 1) / g4 = 4 / r := by rw [h4s, e, ← hr2]; field_simp; ring
    have eb : (-g2 + 4 * √(g4 / 4) * -1) / g4 = 0 := by rw [h4s, e]; simp
    simp only []
    rw [ea, eb, e3, e, ← hr2, sub_zero]
    have e4 : 2 / (3 * r ^ 2) * (4 * r - -(2 * r)) = 4 / r := by field_simp; ring
    have e5 : 4 * r + 2 * -(2 * r) = 0 := by ring
    rw [e4, e5, mul_zero, add_zero]
    have e6 : max ((4 / r - x ^ 2) * x ^ 2) 0 = x ^ 2 * max (4 / r - x ^ 2) 0 := by
      rw [mul_max_of_nonneg _ _ (sq_nonneg x), mul_zero, mul_comm]
    rw [e6, sqrt_mul (sq_nonneg x), sqrt_sq_eq_abs]
    have : |x| * |x| = x ^ 2 := by rw [← sq, sq_abs]
    linear_combination (r ^ 2 / (2 * π) * √(max (4 / r - x ^ 2) 0)) * this

theorem cdfX2X4At_eq (g2 g4 x : ℝ) : cdfX2X4At g2 g4 x = primFour g4 (2 / (3 * g4) * (√(g2 ^ 2 + 12 * g4) - g2))
    (1 / (3 * g4) * (√(g2 ^ 2 + 12 * g4) + 2 * g2)) √(2 / (3 * g4) * (√(g2 ^ 2 + 12 * g4) - g2)) x := rfl

theorem x2x4_a2_pos (g2 g4 : ℝ) (h4 : 0 < g4) : 0 < 2 / (3 * g4) * (√(g2 ^ 2 + 12 * g4) - g2) := by
  have : g2 < √(g2 ^ 2 + 12 * g4) := lt_sqrt_of_sq_lt (by linarith)
  have h1 : 0 < √(g2 ^ 2 + 12 * g4) - g2 := by linarith
  positivity

theorem cdf_x2x4 (g2 g4 : ℝ) (h4 : 0 < g4) (hg : -(2 * √g4) ≤ g2) (x : ℝ) :
    ∫ y in Iic x, (equilibriumX2X4 g2 g4).1 y = cdfX2X4At g2 g4 (clipEntry √(2 / (3 * g4) * (√(g2 ^ 2 + 12 * g4) - g2)) x) := by
  have hd := (x2x4_main g2 g4 h4).1
  have hA := x2x4_a2_pos g2 g4 h4
  rw [cdfX2X4At_eq]
  obtain ⟨a, ha⟩ : ∃ a, a = √(2 / (3 * g4) * (√(g2 ^ 2 + 12 * g4) - g2)) := ⟨_, rfl⟩
  have ha0 : 0 < a := by rw [ha]; exact sqrt_pos.2 hA
  have ha2 : 2 / (3 * g4) * (√(g2 ^ 2 + 12 * g4) - g2) = a ^ 2 := by rw [ha, sq_sqrt hA.le]
  have hform := x2x4_form g2 g4 h4 hg
  rw [← ha, ha2]
  rw [ha2] at hform
  refine cdf_eq ha0 hd.nonneg (out_of_density (fun x hx => ?_) ha0) hd.integrable (primFour_cont _ _ _ _) (primFour_edge _ _ _ ha0) (fun x hx => ?_) x
  · rw [hform, max_eq_right hx, sqrt_zero, mul_zero]
  · rw [hform, max_eq_left (by nlinarith [hx.1, hx.2])]
    exact primFour_deriv _ _ ha0 hx

theorem h1_two (A x : ℝ) : polyval (h1Coeffs 2 A) x = x ^ 2 + A / 2 := by
  simp [h1Coeffs, polyval, List.range_succ, cProd]; ring

theorem h1_three (A x : ℝ) : polyval (h1Coeffs 3 A) x = x ^ 4 + A / 2 * x ^ 2 + 3 / 8 * A ^ 2 := by
  simp [h1Coeffs, polyval, List.range_succ, cProd, Finset.prod_range_succ]; ring

theorem x2m_a2_pos (m : ℕ) (hm : 1 ≤ m) (g : ℝ) (hg : 0 < g) : 0 < x2mA2 m g := by
  have hm0 : (0 : ℝ) < m := by exact_mod_cast hm
  have := cProd_pos m
  unfold x2mA2; positivity

theorem cdf_x4 (g : ℝ) (hg : 0 < g) (x : ℝ) : ∫ y in Iic x, (equilibriumX2m 2 g).1 y = cdfX4At g (clipEntry √(x2mA2 2 g) x) := by
  have hd := (x2m_main 2 (by norm_num) g hg).1
  have hA := x2m_a2_pos 2 (by norm_num) g hg
  obtain ⟨a, ha⟩ : ∃ a, a = √(x2mA2 2 g) := ⟨_, rfl⟩
  have ha0 : 0 < a := by rw [ha]; exact sqrt_pos.2 hA
  have ha2 : x2mA2 2 g = a ^ 2 := by rw [ha, sq_sqrt hA.le]
  have hform : ∀ x, (equilibriumX2m 2 g).1 x = g / (2 * π) * (x ^ 2 + a ^ 2 / 2) * √(max (a ^ 2 - x ^ 2) 0) := fun x => by
    unfold equilibriumX2m
    simp only []
    rw [h1_two, ha2, max_eq_left (by positivity)]
    push_cast; field_simp
  have hF : cdfX4At g = primFour g (a ^ 2) (a ^ 2 / 2) a := by
    funext y; unfold cdfX4At primFour; rw [← ha]; ring
  rw [hF, ← ha]
  refine cdf_eq ha0 hd.nonneg (out_of_density (fun x hx => ?_) ha0) hd.integrable (primFour_cont _ _ _ _) (primFour_edge _ _ _ ha0) (fun x hx => ?_) x
  · rw [hform, max_eq_right hx, sqrt_zero, mul_zero]
  · rw [hform, max_eq_left (by nlinarith [hx.1, hx.2])]
    exact primFour_deriv _ _ ha0 hx

theorem cdf_x6 (g : ℝ) (hg : 0 < g) (x : ℝ) : ∫ y in Iic x, (equilibriumX2m 3 g).1 y = cdfX6At g (clipEntry √(x2mA2 3 g) x) := by
  have hd := (x2m_main 3 (by norm_num) g hg).1
  have hA := x2m_a2_pos 3 (by norm_num) g hg
  obtain ⟨a, ha⟩ : ∃ a, a = √(x2mA2 3 g) := ⟨_, rfl⟩
  have ha0 : 0 < a := by rw [ha]; exact sqrt_pos.2 hA
  have ha2 : x2mA2 3 g = a ^ 2 := by rw [ha, sq_sqrt hA.le]
  have hform : ∀ x, (equilibriumX2m 3 g).1 x = g / 2 / π * √(max (a ^ 2 - x ^ 2) 0) * (x ^ 4 + a ^ 2 / 2 * x ^ 2 + 3 / 8 * a ^ 4) := fun x => by
    unfold equilibriumX2m
    simp only []
    rw [h1_three, ha2, max_eq_left (by positivity)]
    push_cast; field_simp; try ring
  have hF : cdfX6At g = primSix (g / 2) a := by
    funext y; unfold cdfX6At primSix; rw [← ha]; ring
  rw [hF, ← ha]
  refine cdf_eq ha0 hd.nonneg (out_of_density (fun x hx => ?_) ha0) hd.integrable (primSix_cont _ _) (primSix_edge _ ha0) (fun x hx => ?_) x
  · rw [hform, max_eq_right hx, sqrt_zero, mul_zero, zero_mul]
  · rw [hform, max_eq_left (by nlinarith [hx.1, hx.2])]
    exact primSix_deriv _ ha0 hx

/-- below the transition the formula decreases near the origin -/
theorem cdf_x2x4_decreasing (g2 g4 : ℝ) (h4 : 0 < g4) (hg : g2 < -(2 * √g4)) :
    ∃ x y, -√(2 / (3 * g4) * (√(g2 ^ 2 + 12 * g4) - g2)) < x ∧ x < y ∧ y < √(2 / (3 * g4) * (√(g2 ^ 2 + 12 * g4) - g2))
      ∧ cdfX2X4At g2 g4 y < cdfX2X4At g2 g4 x := by
  have hA := x2x4_a2_pos g2 g4 h4
  obtain ⟨a, ha⟩ : ∃ a, a = √(2 / (3 * g4) * (√(g2 ^ 2 + 12 * g4) - g2)) := ⟨_, rfl⟩
  have ha0 : 0 < a := by rw [ha]; exact sqrt_pos.2 hA
  have ha2 : 2 / (3 * g4) * (√(g2 ^ 2 + 12 * g4) - g2) = a ^ 2 := by rw [ha, sq_sqrt hA.le]
  obtain ⟨B, hB⟩ : ∃ B, B = 1 / (3 * g4) * (√(g2 ^ 2 + 12 * g4) + 2 * g2) := ⟨_, rfl⟩
  have hF : cdfX2X4At g2 g4 = primFour g4 (a ^ 2) B a := by
    funext y; rw [cdfX2X4At_eq, ← ha, ha2, ← hB]
  have hBneg : B < 0 := by
    have hr := sq_sqrt h4.le
    have hr0 := sqrt_nonneg g4
    have : √(g2 ^ 2 + 12 * g4) < -(2 * g2) := by
      rw [sqrt_lt' (by linarith)]
      nlinarith
    rw [hB]
    have h1 : √(g2 ^ 2 + 12 * g4) + 2 * g2 < 0 := by linarith
    exact mul_neg_of_pos_of_neg (by positivity) h1
  have hd := primFour_deriv g4 B ha0 (show (0 : ℝ) ∈ Ioo (-a) a by constructor <;> linarith)
  have hneg : g4 / (2 * π) * (0 ^ 2 + B) * √(a ^ 2 - 0 ^ 2) < 0 := by
    have h1 : 0 < √(a ^ 2 - 0 ^ 2) := sqrt_pos.2 (by nlinarith)
    have h2 : g4 / (2 * π) * (0 ^ 2 + B) < 0 := mul_neg_of_pos_of_neg (by positivity) (by linarith)
    exact mul_neg_of_neg_of_pos h2 h1
  rw [← ha, hF]
  by_contra hcon
  push Not at hcon
  have hmono : MonotoneOn (primFour g4 (a ^ 2) B a) (Ioo (-a) a) := fun x hx y hy hxy => by
    rcases eq_or_lt_of_le hxy with h | h
    · rw [h]
    · exact hcon x y hx.1 h hy.2
  have h0 : (0 : ℝ) ∈ Ioo (-a) a := by constructor <;> linarith
  have := hmono.derivWithin_nonneg (x := 0)
  rw [derivWithin_of_isOpen isOpen_Ioo h0, hd.deriv] at this
  linarith

end Verif.Lemmas.Equi
