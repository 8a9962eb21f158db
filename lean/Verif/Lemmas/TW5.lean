import Verif.Lemmas.TW4
import Verif.Model.TracyWidom
import Mathlib.MeasureTheory.Integral.ExpDecay
import Mathlib.Analysis.SpecialFunctions.Trigonometric.Arctan
import Mathlib.Analysis.SpecialFunctions.Trigonometric.ArctanDeriv

/-!
The Airy kernel as an integral, and the kernel transplanted to `(0, 1)`.
-/

set_option linter.unusedVariables false

namespace Verif.Lemmas.TW
open MeasureTheory Filter Verif.Spec Verif.Model Real

theorem exp2_int : IntegrableOn (fun t : ℝ => exp (-2 * t)) (Set.Ioi 0) := exp_neg_integrableOn_Ioi 0 two_pos

/-- `exp(u + v) K(u, v)` -/
noncomputable def gS (u v : ℝ) : ℝ := ∫ t in Set.Ioi (0 : ℝ), exp (-2 * t) * (aiS (u + t) * aiS (v + t))

theorem gS_bound_pt (u v t : ℝ) : ‖exp (-2 * t) * (aiS (u + t) * aiS (v + t))‖ ≤ aB ^ 2 * exp (-2 * t) := by
  rw [norm_mul, norm_mul, Real.norm_of_nonneg (exp_pos _).le, mul_comm, sq]
  exact mul_le_mul_of_nonneg_right (mul_le_mul (aiS_le _) (aiS_le _) (norm_nonneg _) aB_nonneg) (exp_pos _).le

theorem gS_cont_t (u v : ℝ) : Continuous fun t => exp (-2 * t) * (aiS (u + t) * aiS (v + t)) := by
  have := aiS_continuous
  fun_prop

theorem gS_int (u v : ℝ) : IntegrableOn (fun t => exp (-2 * t) * (aiS (u + t) * aiS (v + t))) (Set.Ioi 0) :=
  (exp2_int.const_mul (aB ^ 2)).mono' (gS_cont_t u v).aestronglyMeasurable (ae_of_all _ fun t => gS_bound_pt u v t)

theorem gS_continuous : Continuous (Function.uncurry gS) := by
  refine continuous_of_dominated (bound := fun t => aB ^ 2 * exp (-2 * t)) (fun z => (gS_cont_t z.1 z.2).aestronglyMeasurable)
    (fun z => ae_of_all _ fun t => gS_bound_pt z.1 z.2 t) (exp2_int.const_mul (aB ^ 2)) (ae_of_all _ fun t => ?_)
  have := aiS_continuous
  fun_prop

theorem gS_le (u v : ℝ) : |gS u v| ≤ aB ^ 2 := by
  refine (norm_integral_le_of_norm_le (exp2_int.const_mul (aB ^ 2)) (ae_of_all _ fun t => gS_bound_pt u v t)).trans ?_
  rw [integral_const_mul]
  have h : ∫ t in Set.Ioi (0 : ℝ), exp (-2 * t) ≤ 1 := by
    rw [integral_exp_mul_Ioi (by norm_num)]
    norm_num
  exact mul_le_of_le_one_right (sq_nonneg _) h

theorem prod_eq (u v t : ℝ) : airyAi (u + t) * airyAi (v + t) = exp (-u) * exp (-v) * (exp (-2 * t) * (aiS (u + t) * aiS (v + t))) := by
  rw [airy_eq', airy_eq']
  have : exp (-(u + t)) * exp (-(v + t)) = exp (-u) * exp (-v) * exp (-2 * t) := by
    rw [← exp_add, ← exp_add, ← exp_add]; congr 1; ring
  linear_combination aiS (u + t) * aiS (v + t) * this

theorem tendsto_exp_shift (u : ℝ) : Tendsto (fun t : ℝ => exp (-(u + t))) atTop (nhds 0) :=
  tendsto_exp_neg_atTop_nhds_zero.comp (tendsto_atTop_add_const_left _ u tendsto_id)

theorem airy_tendsto (u : ℝ) : Tendsto (fun t => airyAi (u + t)) atTop (nhds 0) := by
  refine squeeze_zero_norm (fun t => airy_le _) ?_
  simpa using (tendsto_exp_shift u).const_mul aB

theorem dAi_tendsto (u : ℝ) : Tendsto (fun t => dAi (u + t)) atTop (nhds 0) := by
  refine squeeze_zero_norm (fun t => dAi_le _) ?_
  simpa using (tendsto_exp_shift u).const_mul aB

theorem sq_tendsto (u : ℝ) : Tendsto (fun t => (u + t) * airyAi (u + t) ^ 2) atTop (nhds 0) := by
  have h1 : Tendsto (fun t : ℝ => aB ^ 2 * ((u + t) ^ 1 * exp (-(u + t)))) atTop (nhds 0) := by
    have := (tendsto_pow_mul_exp_neg_atTop_nhds_zero 1).comp (tendsto_atTop_add_const_left _ u tendsto_id)
    simpa using this.const_mul (aB ^ 2)
  refine squeeze_zero_norm' ?_ h1
  filter_upwards [eventually_ge_atTop (-u)] with t ht
  have h0 : 0 ≤ u + t := by linarith
  rw [norm_mul, norm_pow, Real.norm_of_nonneg h0, pow_one]
  have h2 := airy_le (u + t)
  have h3 : |airyAi (u + t)| ^ 2 ≤ (aB * exp (-(u + t))) ^ 2 := pow_le_pow_left₀ (abs_nonneg _) h2 2
  have h4 : exp (-(u + t)) ≤ 1 := exp_le_one_iff.2 (by linarith)
  have h5 : exp (-(u + t)) ^ 2 ≤ exp (-(u + t)) := by
    rw [sq]
    exact mul_le_of_le_one_right (exp_pos _).le h4
  calc (u + t) * ‖airyAi (u + t)‖ ^ 2 ≤ (u + t) * (aB ^ 2 * exp (-(u + t)) ^ 2) := by
        refine mul_le_mul_of_nonneg_left ?_ h0
        rw [← mul_pow]; exact h3
    _ ≤ (u + t) * (aB ^ 2 * exp (-(u + t))) := by gcongr
    _ = aB ^ 2 * ((u + t) * exp (-(u + t))) := by ring

theorem deriv_shift {f : ℝ → ℝ} {f' : ℝ} {u t : ℝ} (h : HasDerivAt f f' (u + t)) : HasDerivAt (fun t => f (u + t)) f' t :=
  h.comp_const_add u t

/-- Integral representation of the Airy kernel. -/
theorem kernel_integral (u v : ℝ) : airyKernel u v = exp (-u) * exp (-v) * gS u v := by
  have hI : ∫ t in Set.Ioi (0 : ℝ), airyAi (u + t) * airyAi (v + t) = exp (-u) * exp (-v) * gS u v := by
    rw [gS, ← integral_const_mul]
    exact integral_congr_ae (ae_of_all _ fun t => prod_eq u v t)
  have hint : IntegrableOn (fun t => airyAi (u + t) * airyAi (v + t)) (Set.Ioi 0) :=
    ((gS_int u v).const_mul _).congr (ae_of_all _ fun t => (prod_eq u v t).symm)
  rw [← hI, airyKernel, deriv_airy]
  split_ifs with h
  · subst h
    have hd : ∀ t ∈ Set.Ici (0 : ℝ), HasDerivAt (fun t => dAi (u + t) ^ 2 - (u + t) * airyAi (u + t) ^ 2) (-(airyAi (u + t) * airyAi (u + t))) t := by
      intro t _
      have h1 := deriv_shift (airy_deriv (u + t))
      have h2 := deriv_shift (airy_ode (u + t))
      have h3 : HasDerivAt (fun t => u + t) 1 t := (hasDerivAt_id t).const_add u
      refine ((h2.fun_pow 2).fun_sub (h3.fun_mul (h1.fun_pow 2))).congr_deriv ?_
      push_cast
      ring
    have ht : Tendsto (fun t => dAi (u + t) ^ 2 - (u + t) * airyAi (u + t) ^ 2) atTop (nhds 0) := by
      simpa using ((dAi_tendsto u).pow 2).sub (sq_tendsto u)
    have := integral_Ioi_of_hasDerivAt_of_tendsto' hd hint.neg ht
    rw [integral_neg, add_zero] at this
    linarith
  · have hd : ∀ t ∈ Set.Ici (0 : ℝ), HasDerivAt (fun t => airyAi (u + t) * dAi (v + t) - dAi (u + t) * airyAi (v + t))
        ((v - u) * (airyAi (u + t) * airyAi (v + t))) t := by
      intro t _
      have h1 := deriv_shift (airy_deriv (u + t))
      have h2 := deriv_shift (airy_ode (u + t))
      have h3 := deriv_shift (airy_deriv (v + t))
      have h4 := deriv_shift (airy_ode (v + t))
      refine ((h1.fun_mul h4).fun_sub (h2.fun_mul h3)).congr_deriv ?_
      ring
    have ht : Tendsto (fun t => airyAi (u + t) * dAi (v + t) - dAi (u + t) * airyAi (v + t)) atTop (nhds 0) := by
      simpa using ((airy_tendsto u).mul (dAi_tendsto v)).sub ((dAi_tendsto u).mul (airy_tendsto v))
    have := integral_Ioi_of_hasDerivAt_of_tendsto' hd (hint.const_mul _) ht
    rw [integral_const_mul, add_zero, add_zero] at this
    rw [div_eq_iff (sub_ne_zero.2 h)]
    linarith

theorem kernel_continuous : Continuous (Function.uncurry airyKernel) := by
  have e : Function.uncurry airyKernel = fun z : ℝ × ℝ => exp (-z.1) * exp (-z.2) * Function.uncurry gS z := by
    funext z; exact kernel_integral z.1 z.2
  rw [e]
  have := gS_continuous
  fun_prop

/-- the change of variable in terms of `r = tan` -/
noncomputable def psiR (s r : ℝ) : ℝ := √(10 * π / 2 * (1 + r ^ 2)) * exp (-(s + 10 * r))

theorem psiR_continuous (s : ℝ) : Continuous (psiR s) := by unfold psiR; fun_prop

theorem psiR_tendsto (s : ℝ) : Tendsto (psiR s) atTop (nhds 0) := by
  have h1 : Tendsto (fun r : ℝ => √(10 * π) * exp (-s) * (r ^ 1 * exp (-r))) atTop (nhds 0) := by
    simpa using (tendsto_pow_mul_exp_neg_atTop_nhds_zero 1).const_mul (√(10 * π) * exp (-s))
  refine squeeze_zero_norm' ?_ h1
  filter_upwards [eventually_ge_atTop 1] with r hr
  rw [psiR, Real.norm_of_nonneg (by positivity), neg_add, exp_add]
  have h2 : √(10 * π / 2 * (1 + r ^ 2)) ≤ √(10 * π) * r := by
    rw [← Real.sqrt_sq (show 0 ≤ r by linarith), ← Real.sqrt_mul (by positivity)]
    refine Real.sqrt_le_sqrt ?_
    rw [Real.sqrt_sq (by linarith)]
    have h4 : 1 ≤ r ^ 2 := one_le_pow₀ hr
    have h5 : 10 * π / 2 * (1 + r ^ 2) ≤ 10 * π / 2 * (r ^ 2 + r ^ 2) := by gcongr
    linarith
  have h3 : exp (-(10 * r)) ≤ exp (-r) := exp_le_exp.2 (by linarith)
  calc √(10 * π / 2 * (1 + r ^ 2)) * (exp (-s) * exp (-(10 * r))) ≤ √(10 * π) * r * (exp (-s) * exp (-r)) := by gcongr
    _ = _ := by ring

/-- `√φ'(x) exp(-φ(x))`, extended to the line -/
noncomputable def psi (s x : ℝ) : ℝ := if x < 1 then psiR s (tan (1 / 2 * π * max x 0)) else 0

theorem tan_cont {x : ℝ} (hx : x < 1) : ContinuousAt (fun x => tan (1 / 2 * π * max x 0)) x := by
  have hc : cos (1 / 2 * π * max x 0) ≠ 0 := by
    refine (cos_pos_of_mem_Ioo ⟨?_, ?_⟩).ne'
    · have : 0 ≤ 1 / 2 * π * max x 0 := by positivity
      linarith [pi_pos]
    · have : max x 0 < 1 := max_lt hx one_pos
      nlinarith [pi_pos]
  exact ContinuousAt.comp (f := fun x : ℝ => 1 / 2 * π * max x 0) (continuousAt_tan.2 hc) (by fun_prop)

theorem psi_continuous (s : ℝ) : Continuous (psi s) := by
  rw [continuous_iff_continuousAt]
  intro x
  rcases lt_trichotomy x 1 with h | h | h
  · have h1 : ContinuousAt (fun x => psiR s (tan (1 / 2 * π * max x 0))) x := (psiR_continuous s).continuousAt.comp (tan_cont h)
    refine h1.congr ?_
    filter_upwards [Iio_mem_nhds h] with y hy
    rw [psi, if_pos (show y < 1 from hy)]
  · subst h
    have h0 : psi s 1 = 0 := by simp [psi]
    rw [ContinuousAt, h0]
    have hl : Tendsto (psi s) (nhdsWithin 1 (Set.Iio 1)) (nhds 0) := by
      have h1 : Tendsto (fun x : ℝ => 1 / 2 * π * max x 0) (nhdsWithin 1 (Set.Iio 1)) (nhdsWithin (π / 2) (Set.Iio (π / 2))) := by
        refine tendsto_nhdsWithin_iff.2 ⟨?_, ?_⟩
        · have : ContinuousAt (fun x : ℝ => 1 / 2 * π * max x 0) 1 := by fun_prop
          have h2 := this.tendsto
          rw [show 1 / 2 * π * max (1 : ℝ) 0 = π / 2 by rw [max_eq_left zero_le_one]; ring] at h2
          exact h2.mono_left nhdsWithin_le_nhds
        · filter_upwards [self_mem_nhdsWithin] with y hy
          have : max y 0 < 1 := max_lt hy one_pos
          change 1 / 2 * π * max y 0 < π / 2
          nlinarith [pi_pos]
      have h2 := (psiR_tendsto s).comp (tendsto_tan_pi_div_two.comp h1)
      refine h2.congr' ?_
      filter_upwards [self_mem_nhdsWithin] with y hy
      rw [psi, if_pos (show y < 1 from hy)]
      rfl
    have hr : Tendsto (psi s) (nhdsWithin 1 (Set.Ici 1)) (nhds 0) := by
      refine tendsto_const_nhds.congr' ?_
      filter_upwards [self_mem_nhdsWithin] with y hy
      rw [psi, if_neg (not_lt.2 hy)]
    have := hl.sup hr
    rwa [← nhdsWithin_union, Set.Iio_union_Ici, nhdsWithin_univ] at this
  · refine (continuousAt_const (y := (0 : ℝ))).congr ?_
    filter_upwards [Ioi_mem_nhds h] with y hy
    rw [psi, if_neg (not_lt.2 (le_of_lt hy))]

theorem psi_bdd (s : ℝ) : ∃ P, 0 ≤ P ∧ ∀ x, |psi s x| ≤ P := by
  obtain ⟨P, hP⟩ := (isCompact_Icc (a := (0 : ℝ)) (b := 1)).exists_bound_of_continuousOn (psi_continuous s).continuousOn
  refine ⟨P, (norm_nonneg _).trans (hP 0 (by simp)), fun x => ?_⟩
  rcases le_total x 0 with h | h
  · have e : psi s x = psi s 0 := by
      rw [psi, psi, if_pos (by linarith), if_pos one_pos, max_eq_right h, max_self]
    rw [e]
    exact hP 0 (by simp)
  · rcases lt_or_ge x 1 with h1 | h1
    · exact hP x ⟨h, h1.le⟩
    · rw [psi, if_neg (not_lt.2 h1), abs_zero]
      exact (norm_nonneg _).trans (hP 0 (by simp))

/-- `φ` extended -/
noncomputable def phiE (s x : ℝ) : ℝ := s + 10 * tan (1 / 2 * π * max x 0)

theorem phiE_cont (s : ℝ) {x : ℝ} (hx : x < 1) : ContinuousAt (phiE s) x := by
  unfold phiE
  have := tan_cont hx
  fun_prop

/-- the kernel on the line -/
noncomputable def kE (s x y : ℝ) : ℝ := psi s x * psi s y * gS (phiE s x) (phiE s y)

/-- the diagonal on the line -/
noncomputable def dE (eps s x : ℝ) : ℝ := psi s x * psi s x * exp eps * gS (phiE s x) (phiE s x - eps)

theorem continuous_mul_bdd {X : Type*} [TopologicalSpace X] {p q : X → ℝ} (hp : Continuous p) {C : ℝ} (hq : ∀ z, |q z| ≤ C)
    (h : ∀ z, p z ≠ 0 → ContinuousAt q z) : Continuous fun z => p z * q z := by
  rw [continuous_iff_continuousAt]
  intro z
  by_cases hz : p z = 0
  · rw [ContinuousAt, hz, zero_mul]
    refine squeeze_zero_norm (a := fun z => |p z| * C) (fun y => ?_) ?_
    · rw [norm_mul]
      exact mul_le_mul_of_nonneg_left (hq y) (norm_nonneg _)
    · have := (hp.abs.tendsto z).mul_const C
      simpa [hz] using this
  · exact hp.continuousAt.mul (h z hz)

theorem psi_ne {s x : ℝ} (h : psi s x ≠ 0) : x < 1 := by
  by_contra hc
  exact h (by rw [psi, if_neg hc])

theorem gS_comp {X : Type*} [TopologicalSpace X] {a b : X → ℝ} {z : X} (ha : ContinuousAt a z) (hb : ContinuousAt b z) :
    ContinuousAt (fun z => gS (a z) (b z)) z := by
  have h1 : Tendsto (fun z => (a z, b z)) (nhds z) (nhds (a z, b z)) := Tendsto.prodMk_nhds ha hb
  have h2 : Tendsto (Function.uncurry gS) (nhds (a z, b z)) (nhds (gS (a z) (b z))) := gS_continuous.tendsto (a z, b z)
  have h3 := h2.comp h1
  exact h3

theorem kE_continuous (s : ℝ) : Continuous (Function.uncurry (kE s)) := by
  have hp : Continuous fun z : ℝ × ℝ => psi s z.1 * psi s z.2 :=
    ((psi_continuous s).comp continuous_fst).mul ((psi_continuous s).comp continuous_snd)
  have hq : ∀ z : ℝ × ℝ, psi s z.1 * psi s z.2 ≠ 0 → ContinuousAt (fun z : ℝ × ℝ => gS (phiE s z.1) (phiE s z.2)) z := by
    intro z hz
    have h1 := phiE_cont s (psi_ne (left_ne_zero_of_mul hz))
    have h2 := phiE_cont s (psi_ne (right_ne_zero_of_mul hz))
    have h3 : ContinuousAt (fun z : ℝ × ℝ => phiE s z.1) z := ContinuousAt.comp (f := Prod.fst) (x := z) h1 continuousAt_fst
    have h4 : ContinuousAt (fun z : ℝ × ℝ => phiE s z.2) z := ContinuousAt.comp (f := Prod.snd) (x := z) h2 continuousAt_snd
    exact gS_comp h3 h4
  have e : Function.uncurry (kE s) = fun z : ℝ × ℝ => psi s z.1 * psi s z.2 * gS (phiE s z.1) (phiE s z.2) := by
    funext z
    rfl
  rw [e]
  exact continuous_mul_bdd hp (fun z : ℝ × ℝ => gS_le (phiE s z.1) (phiE s z.2)) hq

theorem dE_continuous (eps s : ℝ) : Continuous (dE eps s) := by
  have hp : Continuous fun z : ℝ => psi s z * psi s z * exp eps := ((psi_continuous s).mul (psi_continuous s)).mul continuous_const
  have hq : ∀ z : ℝ, psi s z * psi s z * exp eps ≠ 0 → ContinuousAt (fun z : ℝ => gS (phiE s z) (phiE s z - eps)) z := by
    intro z hz
    have h1 := phiE_cont s (psi_ne (right_ne_zero_of_mul (left_ne_zero_of_mul hz)))
    exact gS_comp h1 (h1.sub continuousAt_const)
  have e : dE eps s = fun z : ℝ => psi s z * psi s z * exp eps * gS (phiE s z) (phiE s z - eps) := rfl
  rw [e]
  exact continuous_mul_bdd hp (fun z : ℝ => gS_le (phiE s z) (phiE s z - eps)) hq

theorem kE_bdd (s : ℝ) : ∃ B, 0 ≤ B ∧ ∀ x y, |kE s x y| ≤ B := by
  obtain ⟨P, hP0, hP⟩ := psi_bdd s
  refine ⟨P * P * aB ^ 2, by positivity, fun x y => ?_⟩
  rw [kE, abs_mul, abs_mul]
  exact mul_le_mul (mul_le_mul (hP x) (hP y) (abs_nonneg _) hP0) (gS_le _ _) (abs_nonneg _) (by positivity)

theorem dE_bdd (eps s : ℝ) : ∃ B, 0 ≤ B ∧ ∀ x, |dE eps s x| ≤ B := by
  obtain ⟨P, hP0, hP⟩ := psi_bdd s
  refine ⟨P * P * exp eps * aB ^ 2, by positivity, fun x => ?_⟩
  rw [dE, abs_mul, abs_mul, abs_mul, abs_of_pos (exp_pos eps)]
  refine mul_le_mul ?_ (gS_le _ _) (abs_nonneg _) (by positivity)
  exact mul_le_mul_of_nonneg_right (mul_le_mul (hP x) (hP x) (abs_nonneg _) hP0) (exp_pos _).le

theorem psi_eq {s x : ℝ} (hx : x ∈ Set.Ioo (0 : ℝ) 1) : psi s x = √(twDPhi x) * exp (-twPhi s x) := by
  rw [psi, if_pos hx.2, max_eq_left hx.1.le]
  rfl

theorem phiE_eq {s x : ℝ} (hx : x ∈ Set.Ioo (0 : ℝ) 1) : phiE s x = twPhi s x := by
  rw [phiE, max_eq_left hx.1.le]
  rfl

theorem kE_eq {s x y : ℝ} (hx : x ∈ Set.Ioo (0 : ℝ) 1) (hy : y ∈ Set.Ioo (0 : ℝ) 1) :
    kE s x y = √(twDPhi x) * airyKernel (twPhi s x) (twPhi s y) * √(twDPhi y) := by
  rw [kE, psi_eq hx, psi_eq hy, phiE_eq hx, phiE_eq hy, kernel_integral]
  ring

theorem dE_eq {eps s x : ℝ} (hx : x ∈ Set.Ioo (0 : ℝ) 1) :
    dE eps s x = √(twDPhi x) * airyKernel (twPhi s x) (twPhi s x - eps) * √(twDPhi x) := by
  rw [dE, psi_eq hx, phiE_eq hx, kernel_integral, show -(twPhi s x - eps) = -twPhi s x + eps by ring, exp_add]
  ring

end Verif.Lemmas.TW
