import Verif.Lemmas.GaussC
import Verif.Lemmas.JacLaw
import Mathlib.Analysis.SpecialFunctions.PolarCoord
import Mathlib.MeasureTheory.Integral.IntervalIntegral.Periodic
import Mathlib.MeasureTheory.Measure.Lebesgue.Complex
import Mathlib.LinearAlgebra.Complex.FiniteDimensional

/-!
# Law of one Verblunsky coefficient
-/

namespace Verif.Lemmas
open Finset MeasureTheory Verif Verif.Model ProbabilityTheory
open scoped ComplexConjugate

local notation "g₀" => gaussianReal 0 1

/-- the coefficient computed from a Gaussian vector -/
noncomputable def coefOf {d : ℕ} (g : Fin d → ℝ) : ℂ :=
  (((vget g 0 : ℝ) : ℂ) + Complex.I * ((vget g 1 : ℝ) : ℂ)) / ((√(∑ i, g i ^ 2) : ℝ) : ℂ)

theorem measurable_vgetC {d : ℕ} (k : ℕ) : Measurable fun g : Fin d → ℝ => vget g k := by
  unfold vget
  split_ifs with h
  · exact measurable_pi_apply _
  · exact measurable_const

theorem measurable_coefOf {d : ℕ} : Measurable (coefOf (d := d)) := by
  have h0 := measurable_vgetC (d := d) 0
  have h1 := measurable_vgetC (d := d) 1
  unfold coefOf
  fun_prop

/-- law of a coefficient computed from a vector of length `d` -/
noncomputable def nuC (d : ℕ) : Measure ℂ := (Measure.pi fun _ : Fin d => g₀).map coefOf

instance prob_nuC (d : ℕ) : IsProbabilityMeasure (nuC d) := Measure.isProbabilityMeasure_map measurable_coefOf.aemeasurable

/-- splitting a Gaussian vector -/
theorem pi_append (d e : ℕ) : ((Measure.pi fun _ : Fin d => g₀).prod (Measure.pi fun _ : Fin e => g₀)).map
    (fun p => Fin.append p.1 p.2) = Measure.pi fun _ : Fin (d + e) => g₀ := by
  have hm : Measurable fun p : (Fin d → ℝ) × (Fin e → ℝ) => Fin.append p.1 p.2 := by
    refine measurable_pi_lambda _ fun i => ?_
    refine Fin.addCases (fun i => ?_) (fun i => ?_) i
    · simp only [Fin.append_left]; fun_prop
    · simp only [Fin.append_right]; fun_prop
  symm
  refine Measure.pi_eq fun s hs => ?_
  rw [Measure.map_apply hm (MeasurableSet.univ_pi hs)]
  have e1 : (fun p : (Fin d → ℝ) × (Fin e → ℝ) => Fin.append p.1 p.2) ⁻¹' (Set.pi Set.univ s)
      = (Set.pi Set.univ fun i => s (Fin.castAdd e i)) ×ˢ (Set.pi Set.univ fun i => s (Fin.natAdd d i)) := by
    ext p
    simp only [Set.mem_preimage, Set.mem_univ_pi, Set.mem_prod]
    constructor
    · intro h
      refine ⟨fun i => ?_, fun i => ?_⟩
      · have := h (Fin.castAdd e i); rwa [Fin.append_left] at this
      · have := h (Fin.natAdd d i); rwa [Fin.append_right] at this
    · rintro ⟨h1, h2⟩ i
      refine Fin.addCases (fun i => ?_) (fun i => ?_) i
      · rw [Fin.append_left]; exact h1 i
      · rw [Fin.append_right]; exact h2 i
  rw [e1, Measure.prod_prod, Measure.pi_pi, Measure.pi_pi, Fin.prod_univ_add]

/-- the standard complex Gaussian density -/
theorem gam2_density : gam2 = volume.withDensity fun z : ℂ => ENNReal.ofReal ((√(2 * Real.pi))⁻¹ ^ 2 * Real.exp (-(‖z‖ ^ 2) / 2)) := by
  have hv := Complex.volume_preserving_equiv_pi.symm
  have hc : ∀ x : Fin 2 → ℝ, Complex.measurableEquivPi.symm x = toCx x := fun x => by
    rw [toCx]; exact Complex.measurableEquivPi_symm_apply _ |>.trans (by apply Complex.ext <;> simp)
  ext A hA
  rw [gam2, Measure.map_apply measurable_toCx hA, gauss_pi_density, withDensity_apply _ (measurable_toCx hA), withDensity_apply _ hA,
    ← lintegral_indicator (measurable_toCx hA), ← lintegral_indicator hA,
    ← hv.lintegral_comp_emb (MeasurableEquiv.measurableEmbedding _)]
  refine lintegral_congr fun x => ?_
  rw [hc]
  have hn : ∑ i, x i ^ 2 = ‖toCx x‖ ^ 2 := by
    rw [← Complex.normSq_eq_norm_sq, Complex.normSq_apply, toCx, Fin.sum_univ_two]; ring
  by_cases h : toCx x ∈ A
  · rw [Set.indicator_of_mem (s := toCx ⁻¹' A) h, Set.indicator_of_mem h, hn]
  · rw [Set.indicator_of_notMem (s := toCx ⁻¹' A) h, Set.indicator_of_notMem h]

/-- a coefficient from a complex Gaussian variable and the squared norm of the rest -/
noncomputable def coefZ (p : ℂ × ℝ) : ℂ := p.1 / ((√(‖p.1‖ ^ 2 + p.2) : ℝ) : ℂ)

theorem measurable_coefZ : Measurable coefZ := by
  unfold coefZ
  fun_prop

theorem coefOf_append {e : ℕ} (u : Fin 2 → ℝ) (v : Fin e → ℝ) : coefOf (Fin.append u v) = coefZ (toCx u, ∑ i, v i ^ 2) := by
  have hn : ∑ i, u i ^ 2 = ‖toCx u‖ ^ 2 := by
    rw [← Complex.normSq_eq_norm_sq, Complex.normSq_apply, toCx, Fin.sum_univ_two]; ring
  have h0 : vget (Fin.append u v) 0 = u 0 := by
    rw [vget, dif_pos (by omega)]
    exact Fin.append_left u v 0
  have h1 : vget (Fin.append u v) 1 = u 1 := by
    rw [vget, dif_pos (by omega)]
    exact Fin.append_left u v 1
  rw [coefOf, coefZ, h0, h1, Fin.sum_univ_add]
  simp only [Fin.append_left, Fin.append_right, hn]
  congr 1
  rw [toCx, Complex.mk_eq_add_mul_I]; ring

theorem nuC_eq {e : ℕ} (he : 1 ≤ e) : nuC (2 + e) = (gam2.prod (gammaMeasure ((e : ℝ) / 2) (1 / 2))).map coefZ := by
  have hs : Measurable fun x : Fin e → ℝ => ∑ i, x i ^ 2 := by fun_prop
  have hm : Measurable fun p : (Fin 2 → ℝ) × (Fin e → ℝ) => Fin.append p.1 p.2 := by
    refine measurable_pi_lambda _ fun i => ?_
    refine Fin.addCases (fun i => ?_) (fun i => ?_) i
    · simp only [Fin.append_left]; fun_prop
    · simp only [Fin.append_right]; fun_prop
  rw [nuC, ← pi_append, Measure.map_map measurable_coefOf hm, gam2, ← chi_square he,
    Measure.map_prod_map _ _ measurable_toCx hs, Measure.map_map measurable_coefZ (measurable_toCx.prodMap hs)]
  congr 1
  funext p
  exact coefOf_append _ _

/-- unnormalised density on the disc -/
noncomputable def discD (s : ℝ) (a : ℂ) : ENNReal := if ‖a‖ < 1 then ENNReal.ofReal ((1 - ‖a‖ ^ 2) ^ s) else 0

theorem measurable_discD (s : ℝ) : Measurable (discD s) := by
  unfold discD
  refine Measurable.ite (measurableSet_lt measurable_norm measurable_const) ?_ measurable_const
  fun_prop

/-- scaling of the plane -/
theorem lintegral_scale {r : ℝ} (hr : 0 < r) {f : ℂ → ENNReal} (hf : Measurable f) :
    ∫⁻ z, f z = ENNReal.ofReal (r ^ 2) * ∫⁻ z : ℂ, f (r • z) := by
  have h := Measure.map_addHaar_smul (volume : Measure ℂ) hr.ne'
  have h2 : ∫⁻ z : ℂ, f (r • z) = ∫⁻ z, f z ∂(Measure.map (r • ·) (volume : Measure ℂ)) :=
    (lintegral_map hf (measurable_const_smul r)).symm
  rw [h2, h, lintegral_smul_measure, Complex.finrank_real_complex, smul_eq_mul, ← mul_assoc, ← ENNReal.ofReal_mul (by positivity),
    abs_of_pos (by positivity), mul_inv_cancel₀ (by positivity), ENNReal.ofReal_one, one_mul]

/-- density of the squared norm, up to the disc -/
noncomputable def radD (k s R : ℝ) : ENNReal := if 0 < R then ENNReal.ofReal R * ENNReal.ofReal (k * (R ^ s * Real.exp (-(R / 2)))) else 0

theorem measurable_radD (k s : ℝ) : Measurable (radD k s) := by
  unfold radD
  exact Measurable.ite measurableSet_Ioi (by fun_prop) measurable_const

/-- the integrand, for a given squared norm -/
theorem rad_step {c1 c2 s R : ℝ} (hc1 : 0 ≤ c1) (hc2 : 0 ≤ c2) {G : ℂ → ENNReal} {g : ℝ → ENNReal} (hG : Measurable G) (hg : Measurable g)
    (hGd : ∀ z, G z = ENNReal.ofReal (c1 * Real.exp (-(‖z‖ ^ 2) / 2)))
    (hgd : ∀ x, g x = if 0 < x then ENNReal.ofReal (c2 * x ^ s * Real.exp (-(1 / 2 * x))) else 0) {q : ℂ → ENNReal} (hq : Measurable q) :
    ∫⁻ z, G z * (g (R - ‖z‖ ^ 2) * q (z / ((√R : ℝ) : ℂ))) = radD (c1 * c2) s R * ∫⁻ a, discD s a * q a := by
  by_cases hR : 0 < R
  · rw [radD, if_pos hR]
    have hs := Real.sqrt_pos.2 hR
    have hz : Measurable fun z : ℂ => G z * (g (R - ‖z‖ ^ 2) * q (z / ((√R : ℝ) : ℂ))) := by
      refine hG.mul (Measurable.mul (hg.comp (by fun_prop)) (hq.comp (by fun_prop)))
    rw [lintegral_scale hs hz, Real.sq_sqrt hR.le, mul_assoc,
      ← lintegral_const_mul _ (show Measurable fun a => discD s a * q a from (measurable_discD _).mul hq)]
    congr 1
    refine lintegral_congr fun a => ?_
    have hn : ‖√R • a‖ ^ 2 = R * ‖a‖ ^ 2 := by
      rw [norm_smul, mul_pow, Real.norm_eq_abs, sq_abs, Real.sq_sqrt hR.le]
    have hdiv : √R • a / ((√R : ℝ) : ℂ) = a := by
      rw [Complex.real_smul, mul_div_cancel_left₀ _ (Complex.ofReal_ne_zero.2 hs.ne')]
    rw [hdiv, hn, show R - R * ‖a‖ ^ 2 = R * (1 - ‖a‖ ^ 2) by ring, ← mul_assoc, ← mul_assoc]
    congr 1
    by_cases ha : ‖a‖ < 1
    · have ha2 : 0 < 1 - ‖a‖ ^ 2 := by nlinarith [norm_nonneg a]
      rw [discD, if_pos ha, hgd, if_pos (by positivity), hGd, hn]
      rw [← ENNReal.ofReal_mul (by positivity), ← ENNReal.ofReal_mul (by positivity)]
      congr 1
      rw [Real.mul_rpow hR.le ha2.le]
      have hexp : Real.exp (-(R / 2)) = Real.exp (-(R * ‖a‖ ^ 2) / 2) * Real.exp (-(1 / 2 * (R * (1 - ‖a‖ ^ 2)))) := by
        rw [← Real.exp_add]; congr 1; ring
      rw [hexp]
      ring
    · have ha2 : ¬ 0 < R * (1 - ‖a‖ ^ 2) := by
        push Not at ha ⊢
        exact mul_nonpos_of_nonneg_of_nonpos hR.le (by nlinarith)
      rw [discD, if_neg ha, hgd, if_neg ha2, mul_zero, mul_zero]
  · rw [radD, if_neg hR, zero_mul]
    refine (lintegral_congr fun z => ?_).trans lintegral_zero
    rw [hgd, if_neg (by nlinarith [sq_nonneg ‖z‖]), zero_mul, mul_zero]

/-- normalising constant -/
noncomputable def discK (e : ℕ) : ENNReal := ∫⁻ R : ℝ, radD ((√(2 * Real.pi))⁻¹ ^ 2 * ((1 / 2) ^ ((e : ℝ) / 2) / Real.Gamma ((e : ℝ) / 2)))
  ((e : ℝ) / 2 - 1) R

theorem nuC_lintegral {e : ℕ} (he : 1 ≤ e) {q : ℂ → ENNReal} (hq : Measurable q) :
    ∫⁻ a, q a ∂(nuC (2 + e)) = discK e
      * ∫⁻ a, discD ((e : ℝ) / 2 - 1) a * q a := by
  have he0 : (0 : ℝ) < (e : ℝ) / 2 := by have : (1 : ℝ) ≤ e := by exact_mod_cast he
                                         linarith
  have hG := Real.Gamma_pos_of_pos he0
  set G : ℂ → ENNReal := fun z => ENNReal.ofReal ((√(2 * Real.pi))⁻¹ ^ 2 * Real.exp (-(‖z‖ ^ 2) / 2)) with hGd
  have hGm : Measurable G := by rw [hGd]; fun_prop
  have hgm := measurable_gamD ((e : ℝ) / 2) (1 / 2)
  have hprob : IsProbabilityMeasure (gammaMeasure ((e : ℝ) / 2) (1 / 2)) := isProbabilityMeasure_gammaMeasure he0 (by norm_num)
  have hprob2 := prob_gam2
  have h1 : ∫⁻ a, q a ∂(nuC (2 + e)) = ∫⁻ z : ℂ, ∫⁻ r : ℝ, G z * (gamD ((e : ℝ) / 2) (1 / 2) r * q (coefZ (z, r))) := by
    rw [nuC_eq he, lintegral_map hq measurable_coefZ, lintegral_prod (fun p => q (coefZ p)) (hq.comp measurable_coefZ).aemeasurable,
      gam2_density, lintegral_withDensity_eq_lintegral_mul _ hGm
        (show Measurable fun z => ∫⁻ r, q (coefZ (z, r)) ∂(gammaMeasure ((e : ℝ) / 2) (1 / 2)) from
          Measurable.lintegral_prod_right' (hq.comp measurable_coefZ))]
    refine lintegral_congr fun z => ?_
    have hz : Measurable fun r : ℝ => q (coefZ (z, r)) := hq.comp (measurable_coefZ.comp (by fun_prop))
    rw [Pi.mul_apply, gammaMeasure_eq, lintegral_withDensity_eq_lintegral_mul _ hgm hz, ← lintegral_const_mul _ (hgm.mul hz)]
    rfl
  have h2 : ∀ z : ℂ, ∫⁻ r : ℝ, G z * (gamD ((e : ℝ) / 2) (1 / 2) r * q (coefZ (z, r)))
      = ∫⁻ R : ℝ, G z * (gamD ((e : ℝ) / 2) (1 / 2) (R - ‖z‖ ^ 2) * q (z / ((√R : ℝ) : ℂ))) := by
    intro z
    rw [← lintegral_sub_right_eq_self _ (‖z‖ ^ 2)]
    refine lintegral_congr fun R => ?_
    rw [coefZ]
    simp only [add_sub_cancel]
  have hJm : Measurable fun p : ℂ × ℝ => G p.1 * (gamD ((e : ℝ) / 2) (1 / 2) (p.2 - ‖p.1‖ ^ 2) * q (p.1 / ((√p.2 : ℝ) : ℂ))) := by
    refine (hGm.comp measurable_fst).mul (Measurable.mul (hgm.comp ?_) (hq.comp ?_))
    · fun_prop
    · fun_prop
  rw [h1, lintegral_congr h2, lintegral_lintegral_swap hJm.aemeasurable]
  rw [discK, ← lintegral_mul_const _ (measurable_radD _ _)]
  refine lintegral_congr fun R => ?_
  exact rad_step (by positivity) (by positivity) hGm hgm (fun z => rfl) (fun x => rfl) hq

theorem const_of_one {C I : ENNReal} (h : C * I = 1) : C ≠ 0 ∧ C ≠ ⊤ := by
  refine ⟨fun h0 => by simp [h0] at h, fun h0 => ?_⟩
  rw [h0] at h
  by_cases hI : I = 0
  · simp [hI] at h
  · rw [ENNReal.top_mul hI] at h; exact absurd h (by simp)

/-- **law of a coefficient** computed from a vector of length at least three -/
theorem nuC_density {e : ℕ} (he : 1 ≤ e) : ∃ C : ENNReal, C ≠ 0 ∧ C ≠ ⊤ ∧
    nuC (2 + e) = volume.withDensity fun a => C * discD ((e : ℝ) / 2 - 1) a := by
  have h1 : discK e * ∫⁻ a, discD ((e : ℝ) / 2 - 1) a * 1 = 1 := by
    rw [← nuC_lintegral he measurable_const]; simp
  refine ⟨discK e, (const_of_one h1).1, (const_of_one h1).2, ?_⟩
  · refine Measure.ext_of_lintegral _ fun q hq => ?_
    rw [nuC_lintegral he hq, lintegral_withDensity_eq_lintegral_mul _ ((measurable_discD _).const_mul _) hq]
    simp only [Pi.mul_apply, mul_assoc]
    exact (lintegral_const_mul _ ((measurable_discD _).mul hq)).symm

/-- integrals of periodic functions -/
theorem lintegral_period {f : ℝ → ENNReal} (hf : Function.Periodic f (2 * Real.pi)) (s t : ℝ) :
    ∫⁻ x in Set.Ioc s (s + 2 * Real.pi), f x = ∫⁻ x in Set.Ioc t (t + 2 * Real.pi), f x := by
  have hT : 0 < 2 * Real.pi := by positivity
  refine (isAddFundamentalDomain_Ioc hT s).setLIntegral_eq (isAddFundamentalDomain_Ioc hT t) f ?_
  rintro ⟨g, k, rfl⟩ x
  show f (k • (2 * Real.pi) + x) = f x
  rw [add_comm]
  exact hf.zsmul k x

/-- the last coefficient, from its angle -/
noncomputable def lastC (n : ℕ) (s : ℝ) : ℂ := conj ((-1) ^ n * Complex.exp (s * Complex.I))

theorem measurable_lastC (n : ℕ) : Measurable (lastC n) := by
  unfold lastC
  fun_prop

/-- normalising constant -/
noncomputable def circL : ENNReal := ∫⁻ r in Set.Ioi (0 : ℝ), ENNReal.ofReal r * ENNReal.ofReal ((√(2 * Real.pi))⁻¹ ^ 2
      * Real.exp (-(r ^ 2) / 2))

theorem nuC_two_lintegral {q : ℂ → ENNReal} (hq : Measurable q) (n : ℕ) :
    ∫⁻ a, q a ∂(nuC 2) = circL * ∫⁻ s in Set.Ico 0 (2 * Real.pi), q (lastC n s) := by
  have hq0 : nuC 2 = gam2.map fun z => z / ((‖z‖ : ℝ) : ℂ) := by
    rw [nuC, gam2, Measure.map_map (by fun_prop) measurable_toCx]
    congr 1
    funext u
    have hn : ∑ i, u i ^ 2 = ‖toCx u‖ ^ 2 := by
      rw [← Complex.normSq_eq_norm_sq, Complex.normSq_apply, toCx, Fin.sum_univ_two]; ring
    rw [coefOf, hn, Real.sqrt_sq (norm_nonneg _), Function.comp_apply]
    congr 1
    rw [toCx, Complex.mk_eq_add_mul_I, vget, vget, dif_pos (by omega), dif_pos (by omega)]
    simp only [Fin.mk_zero, Fin.mk_one]
    ring
  have hGm : Measurable fun z : ℂ => ENNReal.ofReal ((√(2 * Real.pi))⁻¹ ^ 2 * Real.exp (-(‖z‖ ^ 2) / 2)) := by fun_prop
  have hqm : Measurable fun z : ℂ => q (z / ((‖z‖ : ℝ) : ℂ)) := hq.comp (by fun_prop)
  rw [hq0, lintegral_map hq (by fun_prop), gam2_density, lintegral_withDensity_eq_lintegral_mul _ hGm hqm,
    ← Complex.lintegral_comp_polarCoord_symm]
  have hE : Measurable fun t : ℝ => q (Complex.exp (t * Complex.I)) := hq.comp (by fun_prop)
  have hA : Measurable fun r : ℝ => ENNReal.ofReal r * ENNReal.ofReal ((√(2 * Real.pi))⁻¹ ^ 2 * Real.exp (-(r ^ 2) / 2)) := by
    fun_prop
  have h1 : ∀ p ∈ polarCoord.target, ENNReal.ofReal p.1 • ((fun z : ℂ => ENNReal.ofReal ((√(2 * Real.pi))⁻¹ ^ 2
      * Real.exp (-(‖z‖ ^ 2) / 2))) * fun z : ℂ => q (z / ((‖z‖ : ℝ) : ℂ))) (Complex.polarCoord.symm p)
      = (ENNReal.ofReal p.1 * ENNReal.ofReal ((√(2 * Real.pi))⁻¹ ^ 2 * Real.exp (-(p.1 ^ 2) / 2)))
        * q (Complex.exp (p.2 * Complex.I)) := by
    intro p hp
    have hp1 : 0 < p.1 := hp.1
    have hn : ‖Complex.polarCoord.symm p‖ = p.1 := by rw [Complex.norm_polarCoord_symm, abs_of_pos hp1]
    have hd : Complex.polarCoord.symm p / ((‖Complex.polarCoord.symm p‖ : ℝ) : ℂ) = Complex.exp (p.2 * Complex.I) := by
      rw [hn, Complex.polarCoord_symm_apply, mul_div_cancel_left₀ _ (Complex.ofReal_ne_zero.2 hp1.ne'), Complex.exp_mul_I,
        Complex.ofReal_cos, Complex.ofReal_sin]
    rw [Pi.mul_apply, hd, hn, smul_eq_mul, mul_assoc]
  rw [setLIntegral_congr_fun polarCoord.open_target.measurableSet h1]
  have hpt : polarCoord.target = Set.Ioi (0 : ℝ) ×ˢ Set.Ioo (-Real.pi) Real.pi := rfl
  rw [hpt, Measure.volume_eq_prod, ← Measure.prod_restrict, lintegral_prod_mul hA.aemeasurable hE.aemeasurable, circL]
  congr 1
  have hper : Function.Periodic (fun t : ℝ => q (Complex.exp (t * Complex.I))) (2 * Real.pi) := by
    intro t
    show q _ = q _
    congr 1
    push_cast
    rw [add_mul, Complex.exp_add, Complex.exp_two_pi_mul_I, mul_one]
  have hl : ∀ s : ℝ, lastC n s = Complex.exp (((-s - n * Real.pi : ℝ) : ℂ) * Complex.I) := by
    intro s
    rw [lastC, map_mul, map_pow, map_neg, map_one, ← Complex.exp_conj, map_mul, Complex.conj_I, Complex.conj_ofReal]
    have : ((-1 : ℂ)) ^ n = Complex.exp (((-(n * Real.pi) : ℝ) : ℂ) * Complex.I) := by
      have : ((-1 : ℂ)) = Complex.exp (-(Real.pi * Complex.I)) := by
        rw [Complex.exp_neg, Complex.exp_pi_mul_I]; norm_num
      rw [this, ← Complex.exp_nat_mul]
      congr 1; push_cast; ring
    rw [this, ← Complex.exp_add]
    congr 1; push_cast; ring
  simp only [hl]
  rw [setLIntegral_congr (Ioo_ae_eq_Ioc : Set.Ioo (-Real.pi) Real.pi =ᵐ[volume] _),
    setLIntegral_congr (Ico_ae_eq_Ioc : Set.Ico 0 (2 * Real.pi) =ᵐ[volume] _)]
  have hneg : ∫⁻ s in Set.Ioc 0 (2 * Real.pi), q (Complex.exp (((-s - n * Real.pi : ℝ) : ℂ) * Complex.I))
      = ∫⁻ s in Set.Ico (-(n * Real.pi) - 2 * Real.pi) (-(n * Real.pi)), q (Complex.exp ((s : ℂ) * Complex.I)) := by
    rw [← lintegral_indicator measurableSet_Ioc, ← lintegral_indicator measurableSet_Ico]
    have e1 := lintegral_sub_left_eq_self (μ := (volume : Measure ℝ)) ((Set.Ico (-(n * Real.pi) - 2 * Real.pi) (-(n * Real.pi))).indicator
      fun s : ℝ => q (Complex.exp ((s : ℂ) * Complex.I))) (-(n * Real.pi))
    rw [← e1]
    refine lintegral_congr fun s => ?_
    have hiff : s ∈ Set.Ioc 0 (2 * Real.pi) ↔ -(n * Real.pi) - s ∈ Set.Ico (-(n * Real.pi) - 2 * Real.pi) (-(n * Real.pi)) := by
      simp only [Set.mem_Ioc, Set.mem_Ico]
      constructor <;> rintro ⟨h1, h2⟩ <;> constructor <;> linarith
    by_cases h : s ∈ Set.Ioc 0 (2 * Real.pi)
    · rw [Set.indicator_of_mem h, Set.indicator_of_mem (hiff.1 h), show -s - (n : ℝ) * Real.pi = -(n * Real.pi) - s by ring]
    · rw [Set.indicator_of_notMem h, Set.indicator_of_notMem (fun h' => h (hiff.2 h'))]
  rw [hneg, setLIntegral_congr (Ico_ae_eq_Ioc : Set.Ico (-(n * Real.pi) - 2 * Real.pi) (-(n * Real.pi)) =ᵐ[volume] _)]
  have := lintegral_period hper (-Real.pi) (-(n * Real.pi) - 2 * Real.pi)
  rwa [show -Real.pi + 2 * Real.pi = Real.pi by ring, show -(n * Real.pi) - 2 * Real.pi + 2 * Real.pi = -(n * Real.pi) by ring] at this

/-- **law of the last coefficient** -/
theorem nuC_two (n : ℕ) : ∃ C : ENNReal, C ≠ 0 ∧ C ≠ ⊤ ∧
    nuC 2 = (C • volume.restrict (Set.Ico 0 (2 * Real.pi))).map (lastC n) := by
  have h1 : circL * ∫⁻ s in Set.Ico 0 (2 * Real.pi), (fun _ : ℂ => (1 : ENNReal)) (lastC n s) = 1 := by
    rw [← nuC_two_lintegral measurable_const n]; simp
  refine ⟨circL, (const_of_one h1).1, (const_of_one h1).2, ?_⟩
  · refine Measure.ext_of_lintegral _ fun q hq => ?_
    rw [nuC_two_lintegral hq n, lintegral_map hq (measurable_lastC n), lintegral_smul_measure, smul_eq_mul]

end Verif.Lemmas
