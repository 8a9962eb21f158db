import Verif.Lemmas.TW3
import Verif.Lemmas.TW5
import Verif.Lemmas.Gin6
import Mathlib.MeasureTheory.Function.JacobianOneDim
import Mathlib.Topology.ContinuousMap.Weierstrass
import Mathlib.MeasureTheory.Integral.IntervalIntegral.Basic

/-!
Change of variable `(0, 1) → (s, ∞)` and convergence of Gauss-Legendre quadratures.
-/

set_option linter.unusedVariables false

namespace Verif.Lemmas.TW
open MeasureTheory Filter Verif.Spec Verif.Model Real Polynomial

theorem half_mem {x : ℝ} (hx : x ∈ Set.Ioo (0 : ℝ) 1) : 1 / 2 * π * x ∈ Set.Ioo (-(π / 2)) (π / 2) := by
  constructor
  · have : 0 < 1 / 2 * π * x := by have := hx.1; positivity
    linarith [pi_pos]
  · nlinarith [pi_pos, hx.2]

theorem twDPhi_pos (x : ℝ) : 0 < twDPhi x := by unfold twDPhi; positivity

theorem twPhi_deriv (s : ℝ) {x : ℝ} (hx : x ∈ Set.Ioo (0 : ℝ) 1) : HasDerivAt (twPhi s) (twDPhi x) x := by
  have hc := (cos_pos_of_mem_Ioo (half_mem hx)).ne'
  have h1 : HasDerivAt (fun x : ℝ => 1 / 2 * π * x) (1 / 2 * π) x := by
    simpa using (hasDerivAt_id x).const_mul (1 / 2 * π)
  have h2 : HasDerivAt (fun x => tan (1 / 2 * π * x)) _ x := HasDerivAt.comp x (hasDerivAt_tan hc) h1
  refine ((h2.const_mul 10).const_add s).congr_deriv ?_
  rw [twDPhi, tan_eq_sin_div_cos, div_pow]
  have := sin_sq_add_cos_sq (1 / 2 * π * x)
  generalize cos (1 / 2 * π * x) = c at *
  generalize sin (1 / 2 * π * x) = d at *
  field_simp
  linear_combination -this

theorem twPhi_strictMono (s : ℝ) : StrictMonoOn (twPhi s) (Set.Ioo 0 1) := by
  intro x hx y hy hxy
  unfold twPhi
  have := strictMonoOn_tan (half_mem hx) (half_mem hy) (by
    have := pi_pos
    exact mul_lt_mul_of_pos_left hxy (by positivity))
  linarith

theorem twPhi_image (s : ℝ) : twPhi s '' Set.Ioo 0 1 = Set.Ioi s := by
  ext u
  constructor
  · rintro ⟨x, hx, rfl⟩
    have : 0 < tan (1 / 2 * π * x) := tan_pos_of_pos_of_lt_pi_div_two (by have := hx.1; positivity) (half_mem hx).2
    change s < s + 10 * tan (1 / 2 * π * x)
    linarith
  · intro hu
    have hu' : s < u := hu
    refine ⟨arctan ((u - s) / 10) * 2 / π, ⟨?_, ?_⟩, ?_⟩
    · have : 0 < arctan ((u - s) / 10) := arctan_pos.2 (by linarith)
      positivity
    · rw [div_lt_one pi_pos]
      have := arctan_lt_pi_div_two ((u - s) / 10)
      linarith
    · rw [twPhi, show 1 / 2 * π * (arctan ((u - s) / 10) * 2 / π) = arctan ((u - s) / 10) by field_simp, tan_arctan]
      ring

/-- the measure `φ'(x) dx` on `(0, 1)` -/
noncomputable def nuM : Measure ℝ := (volume.restrict (Set.Ioo 0 1)).withDensity fun x => ENNReal.ofReal (twDPhi x)

theorem tan_meas : Measurable tan := by
  have e : tan = fun x => sin x / cos x := funext tan_eq_sin_div_cos
  rw [e]
  exact measurable_sin.div measurable_cos

theorem twPhi_measurable (s : ℝ) : Measurable (twPhi s) := by
  unfold twPhi
  exact measurable_const.add ((tan_meas.comp (measurable_const.mul measurable_id)).const_mul 10)

theorem twDPhi_measurable : Measurable twDPhi := by
  unfold twDPhi
  exact (measurable_const.add ((tan_meas.comp (measurable_const.mul measurable_id)).pow_const 2)).const_mul _

instance : SigmaFinite nuM := by
  unfold nuM
  exact SigmaFinite.withDensity_of_ne_top (ae_of_all _ fun _ => ENNReal.ofReal_ne_top)

theorem nuM_map (s : ℝ) : nuM.map (twPhi s) = volume.restrict (Set.Ioi s) := by
  refine Measure.ext_of_lintegral _ fun f hf => ?_
  have h1 := lintegral_withDensity_eq_lintegral_mul (volume.restrict (Set.Ioo 0 1)) twDPhi_measurable.ennreal_ofReal
    (hf.comp (twPhi_measurable s))
  rw [lintegral_map hf (twPhi_measurable s), nuM]
  refine h1.trans ?_
  rw [← twPhi_image s,
    lintegral_image_eq_lintegral_abs_deriv_mul measurableSet_Ioo (fun x hx => (twPhi_deriv s hx).hasDerivWithinAt)
      (twPhi_strictMono s).injOn]
  refine lintegral_congr fun x => ?_
  rw [abs_of_pos (twDPhi_pos x)]
  rfl

theorem leb01_eq : leb01 = volume.restrict (Set.Ioo 0 1) := restrict_Ioo_eq_restrict_Icc.symm

instance (s : ℝ) : SigmaFinite (nuM.map (twPhi s)) := by rw [nuM_map]; infer_instance

theorem cov (s : ℝ) {ι : Type} [Fintype ι] (F : (ι → ℝ) → ℝ) (hF : Measurable F) :
    ∫ y, F y ∂(Measure.pi fun _ : ι => volume.restrict (Set.Ioi s))
      = ∫ x, (∏ a, twDPhi (x a)) * F (fun a => twPhi s (x a)) ∂(Measure.pi fun _ : ι => volume.restrict (Set.Ioo (0 : ℝ) 1)) := by
  have hm : Measurable fun (x : ι → ℝ) (a : ι) => twPhi s (x a) := measurable_pi_lambda _ fun a => (twPhi_measurable s).comp (measurable_pi_apply a)
  have h1 : (Measure.pi fun _ : ι => volume.restrict (Set.Ioi s)) = (Measure.pi fun _ : ι => nuM).map fun x a => twPhi s (x a) := by
    have := Measure.pi_map_pi (μ := fun _ : ι => nuM) (f := fun _ => twPhi s) fun _ => (twPhi_measurable s).aemeasurable
    rw [this]
    simp_rw [nuM_map]
  rw [h1, integral_map hm.aemeasurable hF.aestronglyMeasurable]
  have h2 : (Measure.pi fun _ : ι => nuM)
      = (Measure.pi fun _ : ι => volume.restrict (Set.Ioo (0 : ℝ) 1)).withDensity fun x => ∏ a, ENNReal.ofReal (twDPhi (x a)) := by
    have : SigmaFinite ((volume.restrict (Set.Ioo (0 : ℝ) 1)).withDensity fun x => ENNReal.ofReal (twDPhi x)) :=
      inferInstanceAs (SigmaFinite nuM)
    exact pi_withDensity' (ι := ι) (volume.restrict (Set.Ioo (0 : ℝ) 1)) twDPhi_measurable.ennreal_ofReal
  rw [h2, integral_withDensity_eq_integral_toReal_smul]
  · refine integral_congr_ae (ae_of_all _ fun x => ?_)
    simp only [smul_eq_mul, ENNReal.toReal_prod]
    congr 1
    exact Finset.prod_congr rfl fun a _ => ENNReal.toReal_ofReal (twDPhi_pos _).le
  · exact Finset.measurable_fun_prod _ fun a _ => (twDPhi_measurable.comp (measurable_pi_apply a)).ennreal_ofReal
  · exact ae_of_all _ fun x => ENNReal.prod_lt_top fun a _ => ENNReal.ofReal_lt_top

theorem ae_mem01 (ι : Type) [Fintype ι] : ∀ᵐ x ∂(Measure.pi fun _ : ι => volume.restrict (Set.Ioo (0 : ℝ) 1)), ∀ a, x a ∈ Set.Ioo (0 : ℝ) 1 := by
  rw [← Measure.restrict_pi_pi]
  filter_upwards [ae_restrict_mem (MeasurableSet.univ_pi fun _ => measurableSet_Ioo)] with x hx a
  exact hx a (Set.mem_univ a)

theorem kDet_airy (s : ℝ) (n : ℕ) :
    ∫ y, kDet (kE s) y ∂(Measure.pi fun _ : Fin n => leb01)
      = ∫ x in (Set.univ.pi fun _ : Fin n => Set.Ioi s), (Matrix.of fun i j => airyKernel (x i) (x j)).det := by
  have hr : (volume : Measure (Fin n → ℝ)).restrict (Set.univ.pi fun _ : Fin n => Set.Ioi s)
      = Measure.pi fun _ : Fin n => volume.restrict (Set.Ioi s) := by
    rw [volume_pi, Measure.restrict_pi_pi]
  rw [hr]
  have hF : Continuous fun x : Fin n → ℝ => (Matrix.of fun i j => airyKernel (x i) (x j)).det := kDet_continuous (ι := Fin n) kernel_continuous
  rw [cov s _ hF.measurable, leb01_eq]
  refine integral_congr_ae ?_
  filter_upwards [ae_mem01 (Fin n)] with x hx
  unfold kDet
  have e : (Matrix.of fun a b => kE s (x a) (x b)) = Matrix.diagonal (fun a => √(twDPhi (x a)))
      * (Matrix.of fun i j => airyKernel (twPhi s (x i)) (twPhi s (x j))) * Matrix.diagonal (fun a => √(twDPhi (x a))) := by
    ext a b
    rw [Matrix.mul_diagonal, Matrix.diagonal_mul, Matrix.of_apply, Matrix.of_apply, kE_eq (hx a) (hx b)]
  rw [e, Matrix.det_mul, Matrix.det_mul, Matrix.det_diagonal, mul_right_comm, ← Finset.prod_mul_distrib]
  congr 1
  exact Finset.prod_congr rfl fun a _ => Real.mul_self_sqrt (twDPhi_pos _).le

theorem diag_airy (eps s : ℝ) :
    ∫ x, (dE eps s x - kE s x x) ∂leb01 = ∫ x in Set.Ioi s, (airyKernel x (x - eps) - airyKernel x x) := by
  rw [← twPhi_image s, integral_image_eq_integral_abs_deriv_smul measurableSet_Ioo (fun x hx => (twPhi_deriv s hx).hasDerivWithinAt)
      (twPhi_strictMono s).injOn, leb01_eq]
  refine setIntegral_congr_fun measurableSet_Ioo fun x hx => ?_
  change dE eps s x - kE s x x = |twDPhi x| • (airyKernel (twPhi s x) (twPhi s x - eps) - airyKernel (twPhi s x) (twPhi s x))
  rw [dE_eq hx, kE_eq hx hx, abs_of_pos (twDPhi_pos x), smul_eq_mul]
  have := Real.mul_self_sqrt (twDPhi_pos x).le
  linear_combination (airyKernel (twPhi s x) (twPhi s x - eps) - airyKernel (twPhi s x) (twPhi s x)) * this

/-- nodes and weights on `(0, 1)` -/
noncomputable def qx {m : ℕ} (x : Fin m → ℝ) (i : Fin m) : ℝ := 1 / 2 * (x i + 1)
noncomputable def qw {m : ℕ} (w : Fin m → ℝ) (i : Fin m) : ℝ := 1 / 2 * w i

theorem quad_exact {m : ℕ} {x w : Fin m → ℝ} (h : IsGaussLegendre m x w) (p : ℝ[X]) (hp : p.natDegree < 2 * m) :
    ∑ i, qw w i * p.eval (qx x i) = ∫ t in (0 : ℝ)..1, p.eval t := by
  have h1 := h.exact' (p.comp (C (1 / 2) * X + C (1 / 2))) (by
    refine lt_of_le_of_lt (natDegree_comp_le.trans ?_) hp
    have : (C (1 / 2 : ℝ) * X + C (1 / 2)).natDegree ≤ 1 := natDegree_linear_le
    exact (Nat.mul_le_mul_left _ this).trans (mul_one _).le)
  have e : ∀ t : ℝ, (p.comp (C (1 / 2) * X + C (1 / 2))).eval t = p.eval (1 / 2 * t + 1 / 2) := fun t => by simp [eval_comp]
  simp only [e] at h1
  have h2 : ∫ t in (-1 : ℝ)..1, p.eval (1 / 2 * t + 1 / 2) = 2 * ∫ t in (0 : ℝ)..1, p.eval t := by
    rw [intervalIntegral.integral_comp_mul_add (fun t => p.eval t) (by norm_num) (1 / 2)]
    norm_num
  rw [h2] at h1
  have h3 : ∑ i, qw w i * p.eval (qx x i) = 1 / 2 * ∑ i, w i * p.eval (1 / 2 * x i + 1 / 2) := by
    rw [Finset.mul_sum]
    refine Finset.sum_congr rfl fun i _ => ?_
    rw [qw, qx, show 1 / 2 * (x i + 1) = 1 / 2 * x i + 1 / 2 by ring]
    ring
  rw [h3, h1]
  ring

theorem qx_mem {m : ℕ} {x w : Fin m → ℝ} (h : IsGaussLegendre m x w) (i : Fin m) : qx x i ∈ Set.Ioo (0 : ℝ) 1 := by
  have := h.mem i
  unfold qx
  constructor <;> linarith [this.1, this.2]

theorem qw_pos {m : ℕ} {x w : Fin m → ℝ} (h : IsGaussLegendre m x w) (i : Fin m) : 0 < qw w i := by
  have := h.pos i
  unfold qw; positivity

theorem qx_inj {m : ℕ} {x w : Fin m → ℝ} (h : IsGaussLegendre m x w) : Function.Injective (qx x) := by
  intro i j hij
  refine h.sorted.injective ?_
  unfold qx at hij
  linarith

theorem qw_sum {m : ℕ} (hm : 0 < m) {x w : Fin m → ℝ} (h : IsGaussLegendre m x w) : ∑ i, qw w i = 1 := by
  have := quad_exact h (1 : ℝ[X]) (by simp; omega)
  simpa using this

theorem disc_prob {m : ℕ} (hm : 0 < m) {x w : Fin m → ℝ} (h : IsGaussLegendre m x w) : IsProbabilityMeasure (disc (qx x) (qw w)) := by
  refine ⟨?_⟩
  unfold disc
  rw [Measure.finsetSum_apply]
  simp only [Measure.smul_apply, measure_univ, smul_eq_mul, mul_one]
  rw [← ENNReal.ofReal_sum_of_nonneg fun i _ => (qw_pos h i).le, qw_sum hm h, ENNReal.ofReal_one]

theorem disc_int {m : ℕ} {x w : Fin m → ℝ} (hw : ∀ i, 0 ≤ w i) (f : ℝ → ℝ) : ∫ t, f t ∂(disc x w) = ∑ i, w i * f (x i) := by
  unfold disc
  rw [integral_finsetSum_measure]
  · refine Finset.sum_congr rfl fun i _ => ?_
    rw [integral_smul_measure, integral_dirac, smul_eq_mul, ENNReal.toReal_ofReal (hw i)]
  · intro i _
    exact (integrable_dirac (by simp)).smul_measure ENNReal.ofReal_ne_top

theorem disc_tendsto (x w : (m : ℕ) → Fin (m + 1) → ℝ) (h : ∀ m, IsGaussLegendre (m + 1) (x m) (w m)) :
    Tendsto (fun m => discP (qx (x m)) (qw (w m)) (disc_prob m.succ_pos (h m))) atTop (nhds lebP) := by
  refine ProbabilityMeasure.tendsto_iff_forall_integral_tendsto.2 fun f => ?_
  change Tendsto (fun m => ∫ t, f t ∂(disc (qx (x m)) (qw (w m)))) atTop (nhds (∫ t, f t ∂leb01))
  rw [Metric.tendsto_atTop]
  intro ε hε
  obtain ⟨p, hp⟩ := exists_polynomial_near_of_continuousOn 0 1 f f.continuous.continuousOn (ε / 3) (by positivity)
  refine ⟨p.natDegree, fun m hm => ?_⟩
  rw [disc_int fun i => (qw_pos (h m) i).le]
  have h1 := quad_exact (h m) p (by omega)
  have h2 : ∫ t, p.eval t ∂leb01 = ∫ t in (0 : ℝ)..1, p.eval t := by
    rw [intervalIntegral.integral_of_le zero_le_one, leb01, integral_Icc_eq_integral_Ioc]
  have h3 : |∑ i, qw (w m) i * f (qx (x m) i) - ∑ i, qw (w m) i * p.eval (qx (x m) i)| ≤ ε / 3 := by
    rw [← Finset.sum_sub_distrib]
    refine (Finset.abs_sum_le_sum_abs _ _).trans ?_
    calc ∑ i, |qw (w m) i * f (qx (x m) i) - qw (w m) i * p.eval (qx (x m) i)| ≤ ∑ i, qw (w m) i * (ε / 3) := by
          refine Finset.sum_le_sum fun i _ => ?_
          rw [← mul_sub, abs_mul, abs_of_pos (qw_pos (h m) i), abs_sub_comm]
          have hmem := qx_mem (h m) i
          exact mul_le_mul_of_nonneg_left (hp _ ⟨hmem.1.le, hmem.2.le⟩).le (qw_pos (h m) i).le
      _ = ε / 3 := by rw [← Finset.sum_mul, qw_sum m.succ_pos (h m), one_mul]
  have hfi : Integrable (fun t => f t) leb01 := f.integrable leb01
  have hpi : Integrable (fun t => p.eval t) leb01 := (p.continuous.continuousOn.integrableOn_Icc : IntegrableOn _ _ _)
  have h4 : |∫ t, f t ∂leb01 - ∫ t, p.eval t ∂leb01| ≤ ε / 3 := by
    rw [← integral_sub hfi hpi]
    have := norm_integral_le_of_norm_le_const (μ := leb01) (f := fun t => f t - p.eval t) (C := ε / 3) (by
      rw [leb01]
      filter_upwards [ae_restrict_mem measurableSet_Icc] with t ht
      rw [Real.norm_eq_abs, abs_sub_comm]
      exact (hp t ht).le)
    simpa using this
  rw [Real.dist_eq]
  rw [h1, ← h2] at h3
  have h5 := abs_sub_le (∑ i, qw (w m) i * f (qx (x m) i)) (∫ t, p.eval t ∂leb01) (∫ t, f t ∂leb01)
  rw [abs_sub_comm (∫ t, p.eval t ∂leb01)] at h5
  linarith

/-- The limit of the quadrature determinants. -/
theorem limit_det (eps s : ℝ) (x w : (m : ℕ) → Fin (m + 1) → ℝ) (h : ∀ m, IsGaussLegendre (m + 1) (x m) (w m)) :
    Summable (fun n => ‖twTerm s n‖)
    ∧ Tendsto (fun m => (1 - qMat (kE s) (dE eps s) (qx (x m)) (qw (w m))).det) atTop
      (nhds (exp (-∫ x in Set.Ioi s, (airyKernel x (x - eps) - airyKernel x x)) * tracyWidom s)) := by
  obtain ⟨B1, hB1, hk⟩ := kE_bdd s
  obtain ⟨B2, hB2, hd⟩ := dE_bdd eps s
  have h1 := tendsto_det (kE_continuous s) (dE_continuous eps s) (B := max B1 B2) (hB1.trans (le_max_left _ _))
    (fun x y => (hk x y).trans (le_max_left _ _)) (fun x => (hd x).trans (le_max_right _ _)) (fun m => qx (x m)) (fun m => qw (w m))
    (fun m i => (qw_pos (h m) i).le) (fun m => qx_inj (h m)) (fun m => disc_prob m.succ_pos (h m)) (disc_tendsto x w h)
  obtain ⟨h2, h3⟩ := fredholm_diag (kE_continuous s) (dE_continuous eps s) (B := max B1 B2) (hB1.trans (le_max_left _ _))
    (fun x y => (hk x y).trans (le_max_left _ _)) (fun x => (hd x).trans (le_max_right _ _)) leb01
  simp only [kDet_airy] at h2 h3
  rw [h3, diag_airy] at h1
  exact ⟨h2, h1⟩

end Verif.Lemmas.TW
