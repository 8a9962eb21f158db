import Verif.Lemmas.TW6
import Mathlib.Analysis.Complex.ExponentialBounds
import Mathlib.Analysis.SpecialFunctions.ImproperIntegrals
import Mathlib.Analysis.Real.Pi.Bounds

/-!
The matrices of the model, integrability of the terms of the series, and size of the error of the finite difference.
-/

set_option linter.unusedVariables false

namespace Verif.Lemmas.TW
open MeasureTheory Filter Verif.Spec Verif.Model Real Polynomial

/-- entries of the matrix of the model -/
theorem twKernel_eq {eps : ℝ} (he : eps ≠ 0) (s0 s : ℝ) {m : ℕ} {X : Fin m → ℝ} (hX : ∀ i, X i ∈ Set.Ioo (0 : ℝ) 1) (hi : Function.Injective X)
    (i j : Fin m) : twKernel eps s0 s X i j = √(twDPhi (X i)) * (if i = j then airyKernel (twPhi s (X i)) (twPhi s (X i) - eps)
      else airyKernel (twPhi s (X i)) (twPhi s (X j))) * √(twDPhi (X j)) := by
  unfold twKernel
  congr 2
  unfold twDiag
  split_ifs with h
  · rw [airyKernel, if_neg (by intro h'; exact he (by linarith)), sub_sub_cancel]
  · have hne : ∀ {a b : Fin m}, a ≠ b → twPhi s (X a) ≠ twPhi s (X b) := fun hab hh =>
      hab (hi ((twPhi_strictMono s).injOn (hX _) (hX _) hh))
    have hdiff : ∀ a b : Fin m, twPhi s0 (X a) - twPhi s0 (X b) = twPhi s (X a) - twPhi s (X b) := fun a b => by unfold twPhi; ring
    rcases lt_or_gt_of_ne h with hlt | hlt
    · rw [twSym, if_neg (not_lt.2 hlt.le), twUpper, if_pos hlt, hdiff, airyKernel, if_neg (hne h)]
      rfl
    · rw [twSym, if_pos hlt, twUpper, if_pos hlt, hdiff, airyKernel, if_neg (hne h), twNum]
      rw [div_eq_div_iff (sub_ne_zero.2 (hne (Ne.symm h))) (sub_ne_zero.2 (hne h))]
      ring

theorem fredholmDet_eq {eps : ℝ} (he : eps ≠ 0) (s0 s : ℝ) {m : ℕ} {x w : Fin m → ℝ} (h : IsGaussLegendre m x w) :
    fredholmDet (twKernel eps s0 s (qx x)) (qw w) = (1 - qMat (kE s) (dE eps s) (qx x) (qw w)).det := by
  unfold fredholmDet
  congr 1
  ext i j
  rw [Matrix.of_apply, twKernel_eq he s0 s (qx_mem h) (qx_inj h), Matrix.sub_apply, Matrix.one_apply, qMat, Matrix.of_apply]
  congr 3
  by_cases hij : i = j
  · subst hij
    rw [if_pos rfl, if_pos rfl, dE_eq (qx_mem h i)]
  · rw [if_neg hij, if_neg hij, kE_eq (qx_mem h i) (qx_mem h j)]

theorem exp2_int' (s : ℝ) : IntegrableOn (fun t : ℝ => exp (-2 * t)) (Set.Ioi s) := exp_neg_integrableOn_Ioi s two_pos

theorem det_airy_bound (n : ℕ) (x : Fin n → ℝ) :
    |(Matrix.of fun i j => airyKernel (x i) (x j)).det| ≤ (aB ^ 2 * √(n : ℝ)) ^ n * ∏ a, exp (-2 * x a) := by
  have e : (Matrix.of fun i j => airyKernel (x i) (x j)) = Matrix.diagonal (fun a => exp (-x a))
      * (Matrix.of fun i j => gS (x i) (x j)) * Matrix.diagonal (fun a => exp (-x a)) := by
    ext a b
    rw [Matrix.mul_diagonal, Matrix.diagonal_mul, Matrix.of_apply, Matrix.of_apply, kernel_integral]
    ring
  rw [e, Matrix.det_mul, Matrix.det_mul, Matrix.det_diagonal, mul_right_comm, ← Finset.prod_mul_distrib, mul_comm, abs_mul]
  have h1 : ∏ a, exp (-x a) * exp (-x a) = ∏ a, exp (-2 * x a) :=
    Finset.prod_congr rfl fun a _ => by rw [← exp_add]; congr 1; ring
  rw [h1, abs_of_pos (Finset.prod_pos fun a _ => exp_pos _)]
  refine mul_le_mul_of_nonneg_right ?_ (Finset.prod_nonneg fun a _ => (exp_pos _).le)
  exact abs_det_le _ (sq_nonneg _) fun i j => gS_le _ _

theorem det_airy_int (s : ℝ) (n : ℕ) :
    IntegrableOn (fun x : Fin n → ℝ => (Matrix.of fun i j => airyKernel (x i) (x j)).det) (Set.univ.pi fun _ => Set.Ioi s) := by
  have hr : (volume : Measure (Fin n → ℝ)).restrict (Set.univ.pi fun _ : Fin n => Set.Ioi s)
      = Measure.pi fun _ : Fin n => volume.restrict (Set.Ioi s) := by
    rw [volume_pi, Measure.restrict_pi_pi]
  rw [IntegrableOn, hr]
  have hF : Continuous fun x : Fin n → ℝ => (Matrix.of fun i j => airyKernel (x i) (x j)).det := kDet_continuous (ι := Fin n) kernel_continuous
  have hb : Integrable (fun x : Fin n → ℝ => ∏ a, exp (-2 * x a)) (Measure.pi fun _ : Fin n => volume.restrict (Set.Ioi s)) :=
    Integrable.fintype_prod (f := fun _ t => exp (-2 * t)) fun _ => exp2_int' s
  exact (hb.const_mul ((aB ^ 2 * √(n : ℝ)) ^ n)).mono' hF.aestronglyMeasurable (ae_of_all _ fun x => det_airy_bound n x)

theorem gI0 : ∫ t : ℝ, ‖t ^ 0 * exp (-t ^ 2)‖ = √π := by
  have := integral_gaussian 1
  rw [div_one] at this
  rw [← this]
  refine integral_congr_ae (ae_of_all _ fun t => ?_)
  simp only [pow_zero, one_mul]
  rw [Real.norm_of_nonneg (exp_pos _).le]
  congr 1
  ring

theorem gI1 : ∫ t : ℝ, ‖t ^ 1 * exp (-t ^ 2)‖ = 1 := by
  have h := integral_comp_abs (f := fun t => t * exp (-t ^ 2))
  have e : (fun t : ℝ => ‖t ^ 1 * exp (-t ^ 2)‖) = fun t => |t| * exp (-|t| ^ 2) := by
    funext t
    rw [pow_one, norm_mul, Real.norm_of_nonneg (exp_pos _).le, sq_abs]
    rfl
  rw [e, h]
  have hd : ∀ t ∈ Set.Ici (0 : ℝ), HasDerivAt (fun t : ℝ => -exp (-t ^ 2) / 2) (t * exp (-t ^ 2)) t := by
    intro t _
    have h2 : HasDerivAt (fun t : ℝ => exp (-t ^ 2)) (exp (-t ^ 2) * -(2 * t)) t := by
      refine (((hasDerivAt_id t).pow 2).fun_neg.exp).congr_deriv ?_
      simp
    refine (h2.fun_neg.div_const 2).congr_deriv ?_
    ring
  have hi : IntegrableOn (fun t : ℝ => t * exp (-t ^ 2)) (Set.Ioi 0) := by
    have := (gauss_int 1).integrableOn (s := Set.Ioi (0 : ℝ))
    simpa using this
  have ht : Tendsto (fun t : ℝ => -exp (-t ^ 2) / 2) atTop (nhds 0) := by
    have h1 : Tendsto (fun t : ℝ => exp (-t ^ 2)) atTop (nhds 0) := tendsto_exp_neg_atTop_nhds_zero.comp (tendsto_pow_atTop two_ne_zero)
    have := h1.neg.div_const 2
    simpa using this
  have := integral_Ioi_of_hasDerivAt_of_tendsto' hd hi ht
  rw [this]
  norm_num

theorem aB_le_one : aB ≤ 1 := by
  rw [aB, gI0, gI1, aC, mul_one, ← mul_add_one, div_mul_eq_mul_div, div_le_one (by positivity)]
  have h1 : √π < 1.8 := by
    rw [Real.sqrt_lt' (by norm_num)]
    have := pi_lt_d2
    norm_num at this ⊢
    linarith
  have h2 : exp (1 / 3) < 1.5 := by
    have h3 : exp (1 / 3) ^ 3 = exp 1 := by rw [← exp_nat_mul]; norm_num
    have h4 := exp_one_lt_d9
    refine lt_of_pow_lt_pow_left₀ 3 (by norm_num) ?_
    rw [h3]
    norm_num at h4 ⊢
    linarith
  have h5 := pi_gt_d2
  have h6 : 0 < exp (1 / 3) := exp_pos _
  have h7 := Real.sqrt_nonneg π
  norm_num at h1 h2 h5
  nlinarith

/-- Lipschitz bound of the Airy function -/
theorem airy_lip {x eps : ℝ} (he : 0 ≤ eps) : |airyAi (x - eps) - airyAi x| ≤ eps * (aB * exp (-x) * exp eps) := by
  have h := (convex_Icc (x - eps) x).norm_image_sub_le_of_norm_hasDerivWithin_le (f := airyAi) (f' := dAi) (C := aB * exp (-x) * exp eps)
    (fun t _ => (airy_deriv t).hasDerivWithinAt) (fun t ht => ?_) (x := x) (y := x - eps) ⟨by linarith, le_rfl⟩ ⟨le_rfl, by linarith⟩
  · rw [sub_sub_cancel_left, norm_neg, Real.norm_of_nonneg he, mul_comm] at h
    exact h
  · refine (dAi_le t).trans ?_
    rw [mul_assoc, ← exp_add]
    exact mul_le_mul_of_nonneg_left (exp_le_exp.2 (by linarith [ht.1])) aB_nonneg

theorem kernel_diff {x eps : ℝ} (he : 0 ≤ eps) : |airyKernel x (x - eps) - airyKernel x x| ≤ eps * exp eps * exp (-2 * x) / 2 := by
  have hI : ∀ u v, airyKernel u v = ∫ t in Set.Ioi (0 : ℝ), airyAi (u + t) * airyAi (v + t) := by
    intro u v
    rw [kernel_integral, gS, ← integral_const_mul]
    exact (integral_congr_ae (ae_of_all _ fun t => prod_eq u v t)).symm
  have hint : ∀ u v, IntegrableOn (fun t => airyAi (u + t) * airyAi (v + t)) (Set.Ioi 0) := fun u v =>
    ((gS_int u v).const_mul _).congr (ae_of_all _ fun t => (prod_eq u v t).symm)
  rw [hI, hI, ← integral_sub (hint _ _) (hint _ _)]
  have hb : ∀ t, ‖airyAi (x + t) * airyAi (x - eps + t) - airyAi (x + t) * airyAi (x + t)‖ ≤ eps * exp eps * exp (-2 * x) * exp (-2 * t) := by
    intro t
    rw [← mul_sub, norm_mul, show x - eps + t = x + t - eps by ring]
    have h1 := airy_le (x + t)
    have h2 := airy_lip (x := x + t) he
    have h3 : 0 < exp (-(x + t)) := exp_pos _
    have h4 := aB_le_one
    have h5 := aB_nonneg
    have h1' : |airyAi (x + t)| ≤ exp (-(x + t)) := h1.trans (mul_le_of_le_one_left h3.le h4)
    have h2' : |airyAi (x + t - eps) - airyAi (x + t)| ≤ eps * (exp (-(x + t)) * exp eps) := by
      refine h2.trans (mul_le_mul_of_nonneg_left (mul_le_mul_of_nonneg_right (mul_le_of_le_one_left h3.le h4) (exp_pos _).le) he)
    calc ‖airyAi (x + t)‖ * ‖airyAi (x + t - eps) - airyAi (x + t)‖ ≤ exp (-(x + t)) * (eps * (exp (-(x + t)) * exp eps)) :=
          mul_le_mul h1' h2' (norm_nonneg _) h3.le
      _ = eps * exp eps * (exp (-(x + t)) * exp (-(x + t))) := by ring
      _ = eps * exp eps * exp (-2 * x) * exp (-2 * t) := by
          rw [← exp_add, mul_assoc (eps * exp eps), ← exp_add]; congr 2; ring
  refine (norm_integral_le_of_norm_le (exp2_int.const_mul _) (ae_of_all _ hb)).trans ?_
  rw [integral_const_mul, integral_exp_mul_Ioi (by norm_num)]
  refine le_of_eq ?_
  norm_num
  ring

theorem diff_integrable {s eps : ℝ} (he : 0 ≤ eps) : IntegrableOn (fun x => airyKernel x (x - eps) - airyKernel x x) (Set.Ioi s) := by
  have hc : Continuous fun x => airyKernel x (x - eps) - airyKernel x x :=
    (kernel_continuous.comp (continuous_id.prodMk (continuous_id.sub continuous_const))).sub
      (kernel_continuous.comp (continuous_id.prodMk continuous_id))
  refine ((exp2_int' s).const_mul (eps * exp eps / 2)).mono' hc.aestronglyMeasurable (ae_of_all _ fun x => (kernel_diff he).trans (le_of_eq ?_))
  ring

theorem diff_bound {s eps : ℝ} (he : 0 ≤ eps) (h1 : eps ≤ 1) : |∫ x in Set.Ioi s, (airyKernel x (x - eps) - airyKernel x x)| ≤ eps * exp (-2 * s) := by
  have hb : ∀ x, ‖airyKernel x (x - eps) - airyKernel x x‖ ≤ eps * exp eps / 2 * exp (-2 * x) := fun x =>
    (kernel_diff (x := x) he).trans (le_of_eq (by ring))
  refine (norm_integral_le_of_norm_le ((exp2_int' s).const_mul (eps * exp eps / 2)) (ae_of_all _ hb)).trans ?_
  rw [integral_const_mul, integral_exp_mul_Ioi (by norm_num)]
  have h2 : exp eps ≤ 4 := by
    have := exp_le_exp.2 h1
    have h4 := exp_one_lt_d9
    norm_num at h4
    linarith
  have h3 : eps * exp eps / 2 * (-exp (-2 * s) / -2) = eps * exp (-2 * s) * (exp eps / 4) := by ring
  rw [h3]
  refine mul_le_of_le_one_right (by positivity) ?_
  linarith

end Verif.Lemmas.TW
