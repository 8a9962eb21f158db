import Verif.Model.PolyPotential
import Mathlib.Probability.Distributions.Gaussian.Real
import Mathlib.Tactic.LinearCombination
import Mathlib.Algebra.Polynomial.Roots

/-!
MALA (C51): the acceptance ratio has the proposal densities the wrong way round.  Detailed balance fails, and the target is not
invariant.
-/

namespace Verif.Props
open Verif Verif.Model MeasureTheory ProbabilityTheory Set Polynomial

/-- `exp(-V(x))` times the density of the proposal `y` from `x` times the probability `min(1, exp(acc x y))` of accepting it:
the flow from `x` to `y`, for a log acceptance ratio `acc`. -/
noncomputable def malaFlow (V : ℝ[X]) (sigma : ℝ) (acc : ℝ → ℝ → ℝ) (x y : ℝ) : ℝ :=
  Real.exp (-V.eval x) * gaussianPDFReal (malaMean V sigma x) (NNReal.mk (sigma ^ 2) (sq_nonneg sigma)) y * min 1 (Real.exp (acc x y))

/-- residuals of the two proposals -/
noncomputable def resid (V : ℝ[X]) (sigma x y : ℝ) : ℝ := y - malaMean V sigma x

theorem malaFlow_eq (V : ℝ[X]) {sigma : ℝ} (hs : 0 < sigma) (acc : ℝ → ℝ → ℝ) (x y : ℝ) :
    malaFlow V sigma acc x y = (√(2 * Real.pi * sigma ^ 2))⁻¹
      * Real.exp (-V.eval x - resid V sigma x y ^ 2 / (2 * sigma ^ 2) + min 0 (acc x y)) := by
  have hmin : min 1 (Real.exp (acc x y)) = Real.exp (min 0 (acc x y)) := by
    rcases le_total 0 (acc x y) with h | h
    · rw [min_eq_left h, Real.exp_zero, min_eq_left (Real.one_le_exp h)]
    · rw [min_eq_right h, min_eq_right (Real.exp_le_one_iff.2 h)]
  rw [malaFlow, gaussianPDFReal_def, hmin, Real.exp_add, Real.exp_sub]
  dsimp only
  simp only [NNReal.coe_mk, resid]
  rw [show -(y - malaMean V sigma x) ^ 2 / (2 * sigma ^ 2) = -((y - malaMean V sigma x) ^ 2 / (2 * sigma ^ 2)) by ring,
    Real.exp_neg ((y - malaMean V sigma x) ^ 2 / (2 * sigma ^ 2))]
  ring

theorem malaAccept_eq (V : ℝ[X]) (sigma x y : ℝ) :
    malaAccept V sigma x y = V.eval x - V.eval y
      + (resid V sigma y x ^ 2 - resid V sigma x y ^ 2) / (2 * sigma ^ 2) := by
  simp only [malaAccept, resid, malaMean]
  ring

theorem flow_const_pos {sigma : ℝ} (hs : 0 < sigma) : 0 < (√(2 * Real.pi * sigma ^ 2))⁻¹ := by
  have := Real.pi_pos
  positivity

/-- **C51** (refuted pointwise, exactly) For every potential, step size and pair of points: the update satisfies detailed
balance at `(x, y)` if and only if the two residuals have the same square, i.e. only where the proposal is symmetric. -/
theorem C51_detailed_balance_iff (V : ℝ[X]) {sigma : ℝ} (hs : 0 < sigma) (x y : ℝ) :
    malaFlow V sigma (malaAccept V sigma) x y = malaFlow V sigma (malaAccept V sigma) y x
      ↔ (x - y + 1 / 2 * sigma ^ 2 * V.derivative.eval y) ^ 2 = (y - x + 1 / 2 * sigma ^ 2 * V.derivative.eval x) ^ 2 := by
  have hr : ∀ x y, resid V sigma x y = y - x + 1 / 2 * sigma ^ 2 * V.derivative.eval x := by
    intro x y; simp only [resid, malaMean]; ring
  rw [malaFlow_eq V hs, malaFlow_eq V hs, mul_right_inj' (flow_const_pos hs).ne', Real.exp_eq_exp, malaAccept_eq,
    malaAccept_eq, ← hr, ← hr]
  have hs2 : 0 < 2 * sigma ^ 2 := by positivity
  set A := resid V sigma y x ^ 2
  set B := resid V sigma x y ^ 2
  set d := (A - B) / (2 * sigma ^ 2) with hd
  have hdB : (B - A) / (2 * sigma ^ 2) = -d := by rw [hd]; ring
  have hAB : A / (2 * sigma ^ 2) - B / (2 * sigma ^ 2) = d := by rw [hd]; ring
  have hiff : A = B ↔ d = 0 := by
    rw [hd, div_eq_zero_iff]
    constructor
    · intro h; left; linarith
    · intro h; rcases h with h | h
      · linarith
      · exact absurd h hs2.ne'
  rw [hiff, hdB]
  rcases le_total 0 (V.eval x - V.eval y + d) with h | h
  · rw [min_eq_left h, min_eq_right (by linarith)]
    constructor <;> intro h' <;> linarith
  · rw [min_eq_right h, min_eq_left (by linarith)]
    constructor <;> intro h' <;> linarith

/-- With the sign of the quadratic term corrected, detailed balance holds everywhere. -/
theorem C51_corrected_is_reversible (V : ℝ[X]) {sigma : ℝ} (hs : 0 < sigma) (x y : ℝ) :
    malaFlow V sigma (fun x y => 2 * (V.eval x - V.eval y) - malaAccept V sigma x y) x y
      = malaFlow V sigma (fun x y => 2 * (V.eval x - V.eval y) - malaAccept V sigma x y) y x := by
  rw [malaFlow_eq V hs, malaFlow_eq V hs, malaAccept_eq, malaAccept_eq]
  congr 2
  set A := resid V sigma y x ^ 2
  set B := resid V sigma x y ^ 2
  set d := (A - B) / (2 * sigma ^ 2) with hd
  have hdB : (B - A) / (2 * sigma ^ 2) = -d := by rw [hd]; ring
  have hAB : A / (2 * sigma ^ 2) - B / (2 * sigma ^ 2) = d := by rw [hd]; ring
  rw [hdB]
  rcases le_total 0 (2 * (V.eval x - V.eval y) - (V.eval x - V.eval y + d)) with h | h
  · rw [min_eq_left h, min_eq_right (by linarith)]; linarith
  · rw [min_eq_right h, min_eq_left (by linarith)]; linarith

/-- the potentials `c (x - mu)^2 + d`: the conditionals of the diagonal coefficients for a quadratic potential -/
noncomputable def quadPot (c mu d : ℝ) : ℝ[X] := C c * (X - C mu) ^ 2 + C d

theorem quadPot_eval (c mu d x : ℝ) : (quadPot c mu d).eval x = c * (x - mu) ^ 2 + d := by
  simp [quadPot]

theorem quadPot_deriv (c mu d x : ℝ) : (quadPot c mu d).derivative.eval x = 2 * c * (x - mu) := by
  simp [quadPot, derivative_pow]; ring

/-- with a quadratic potential more mass flows towards the mode than away from it -/
theorem flow_lt {c mu d sigma : ℝ} (hc : 0 < c) (hs : 0 < sigma) (hsc : sigma ^ 2 * c < 2) {x y : ℝ}
    (h : (y - mu) ^ 2 < (x - mu) ^ 2) :
    malaFlow (quadPot c mu d) sigma (malaAccept (quadPot c mu d) sigma) y x
      < malaFlow (quadPot c mu d) sigma (malaAccept (quadPot c mu d) sigma) x y := by
  rw [malaFlow_eq _ hs, malaFlow_eq _ hs]
  refine mul_lt_mul_of_pos_left (Real.exp_lt_exp.2 ?_) (flow_const_pos hs)
  rw [malaAccept_eq, malaAccept_eq]
  have hs2 : 0 < 2 * sigma ^ 2 := by positivity
  have hA : resid (quadPot c mu d) sigma y x = x - y + sigma ^ 2 * c * (y - mu) := by
    simp only [resid, malaMean, quadPot_deriv]; ring
  have hB : resid (quadPot c mu d) sigma x y = y - x + sigma ^ 2 * c * (x - mu) := by
    simp only [resid, malaMean, quadPot_deriv]; ring
  have hAB : resid (quadPot c mu d) sigma y x ^ 2 - resid (quadPot c mu d) sigma x y ^ 2
      = (2 - sigma ^ 2 * c) * (sigma ^ 2 * c) * ((x - mu) ^ 2 - (y - mu) ^ 2) := by
    rw [hA, hB]; ring
  have hpos : 0 < resid (quadPot c mu d) sigma y x ^ 2 - resid (quadPot c mu d) sigma x y ^ 2 := by
    rw [hAB]
    have : 0 < sigma ^ 2 * c := by positivity
    exact mul_pos (mul_pos (by linarith) this) (by linarith)
  have hV : 0 < (quadPot c mu d).eval x - (quadPot c mu d).eval y := by
    rw [quadPot_eval, quadPot_eval]; nlinarith
  set A := resid (quadPot c mu d) sigma y x ^ 2
  set B := resid (quadPot c mu d) sigma x y ^ 2
  set e := (A - B) / (2 * sigma ^ 2) with he
  have hep : 0 < e := div_pos hpos hs2
  have hdB : (B - A) / (2 * sigma ^ 2) = -e := by rw [he]; ring
  have hABe : A / (2 * sigma ^ 2) - B / (2 * sigma ^ 2) = e := by rw [he]; ring
  rw [hdB, min_eq_left (by linarith : 0 ≤ (quadPot c mu d).eval x - (quadPot c mu d).eval y + e),
    min_eq_right (by linarith)]
  linarith

/-- `exp(-V)` as a measure -/
noncomputable def targetMeasure (V : ℝ[X]) : Measure ℝ := volume.withDensity fun x => ENNReal.ofReal (Real.exp (-V.eval x))

/-- expectation of `φ` after one step of `sampler_mala` from `x`: `rng.randn()` is standard normal, `rng.rand()` uniform. -/
noncomputable def malaStepExp (V : ℝ[X]) (sigma : ℝ) (φ : ℝ → ENNReal) (x : ℝ) : ENNReal :=
  ∫⁻ g, ∫⁻ u in Ioo (0 : ℝ) 1, φ (malaChain V sigma x [(g, u)]) ∂volume ∂(gaussianReal 0 1)

open Classical in
theorem lint_uniform_lt (d : ℝ) (A B : ENNReal) :
    ∫⁻ u in Ioo (0 : ℝ) 1, (if Real.log u < d then A else B)
      = ENNReal.ofReal (min 1 (Real.exp d)) * A + ENNReal.ofReal (1 - min 1 (Real.exp d)) * B := by
  set m := min 1 (Real.exp d) with hm
  have hm0 : 0 < m := lt_min zero_lt_one (Real.exp_pos d)
  have hm1 : m ≤ 1 := min_le_left _ _
  have hsplit : ∫⁻ u in Ioo (0 : ℝ) 1, (if Real.log u < d then A else B)
      = (∫⁻ u in Ioo (0 : ℝ) m, (if Real.log u < d then A else B)) + ∫⁻ u in Ico m 1, (if Real.log u < d then A else B) := by
    rw [← Ioo_union_Ico_eq_Ioo hm0 hm1, lintegral_union measurableSet_Ico]
    rw [Set.disjoint_left]
    intro u hu hu'
    exact absurd hu.2 (not_lt.2 hu'.1)
  rw [hsplit, setLIntegral_congr_fun measurableSet_Ioo (g := fun _ => A),
    setLIntegral_congr_fun measurableSet_Ico (g := fun _ => B), setLIntegral_const, setLIntegral_const, Real.volume_Ioo,
    Real.volume_Ico, sub_zero, mul_comm A, mul_comm B]
  · rintro u ⟨h1, h2⟩
    have hu : 0 < u := hm0.trans_le h1
    have : ¬ Real.log u < d := by
      rw [not_lt, Real.le_log_iff_exp_le hu]
      rcases min_le_iff.1 h1 with h | h
      · linarith
      · exact h
    simp only [if_neg this]
  · rintro u ⟨h1, h2⟩
    have : Real.log u < d := by
      rw [Real.log_lt_iff_lt_exp h1]; exact lt_of_lt_of_le h2 (min_le_right _ _)
    simp only [if_pos this]

/-- the step as an integral over the proposal -/
theorem stepExp_eq (V : ℝ[X]) {sigma : ℝ} (hs : 0 < sigma) {φ : ℝ → ENNReal} (hφ : Measurable φ) (x : ℝ) :
    malaStepExp V sigma φ x = ∫⁻ y, gaussianPDF (malaMean V sigma x) (NNReal.mk (sigma ^ 2) (sq_nonneg sigma)) y
      * (ENNReal.ofReal (min 1 (Real.exp (malaAccept V sigma x y))) * φ y
        + ENNReal.ofReal (1 - min 1 (Real.exp (malaAccept V sigma x y))) * φ x) := by
  have hacc : Continuous fun y => malaAccept V sigma x y := by
    simp only [malaAccept]; fun_prop
  have haccm := hacc.measurable
  have hv : (NNReal.mk (sigma ^ 2) (sq_nonneg sigma)) ≠ 0 := by
    rw [Ne, ← NNReal.coe_eq_zero, NNReal.coe_mk]; positivity
  set H : ℝ → ENNReal := fun y => ENNReal.ofReal (min 1 (Real.exp (malaAccept V sigma x y))) * φ y
        + ENNReal.ofReal (1 - min 1 (Real.exp (malaAccept V sigma x y))) * φ x with hH
  have hHm : Measurable H := by
    rw [hH]
    exact Measurable.add (Measurable.mul (by fun_prop) hφ) (by fun_prop)
  have h1 : malaStepExp V sigma φ x = ∫⁻ g, H (malaMean V sigma x + sigma * g) ∂(gaussianReal 0 1) := by
    refine lintegral_congr fun g => ?_
    simp only [malaChain, apply_ite φ]
    exact lint_uniform_lt _ _ _
  have h2 : (gaussianReal 0 1).map (fun g => malaMean V sigma x + sigma * g)
      = gaussianReal (malaMean V sigma x) (NNReal.mk (sigma ^ 2) (sq_nonneg sigma)) := by
    rw [show (fun g => malaMean V sigma x + sigma * g) = (fun z => malaMean V sigma x + z) ∘ (fun g => sigma * g) from rfl,
      ← Measure.map_map (by fun_prop) (by fun_prop), gaussianReal_map_const_mul, gaussianReal_map_const_add]
    congr 1
    · ring
    · simp
  rw [h1, ← lintegral_map (f := H) hHm (by fun_prop), h2, gaussianReal_of_var_ne_zero _ hv,
    lintegral_withDensity_eq_lintegral_mul _ (measurable_gaussianPDF _ _) hHm]
  rfl

/-- **C51** (refuted) For the potentials `c (x - mu)^2 + d`, `c > 0`, and every step size with `sigma^2 c < 2`, one step of
`sampler_mala` does not leave `exp(-V)` invariant: mass accumulates around the mode. -/
theorem C51_not_invariant {c mu d sigma : ℝ} (hc : 0 < c) (hs : 0 < sigma) (hsc : sigma ^ 2 * c < 2) :
    ¬ ∀ φ : ℝ → ENNReal, Measurable φ →
      ∫⁻ x, malaStepExp (quadPot c mu d) sigma φ x ∂(targetMeasure (quadPot c mu d))
        = ∫⁻ x, φ x ∂(targetMeasure (quadPot c mu d)) := by
  classical
  intro hinv
  set V := quadPot c mu d with hV
  set v : NNReal := (NNReal.mk (sigma ^ 2) (sq_nonneg sigma)) with hvdef
  have hv : v ≠ 0 := by
    rw [Ne, ← NNReal.coe_eq_zero, hvdef, NNReal.coe_mk]; positivity
  set B : Set ℝ := Icc (mu - 1) (mu + 1) with hB
  have hBm : MeasurableSet B := measurableSet_Icc
  set w : ℝ → ENNReal := fun x => ENNReal.ofReal (Real.exp (-V.eval x)) with hw
  have hwm : Measurable w := by
    have : Continuous fun x => Real.exp (-V.eval x) := by fun_prop
    exact this.measurable.ennreal_ofReal
  set p : ℝ → ℝ → ENNReal := fun x y => gaussianPDF (malaMean V sigma x) v y with hp
  set a : ℝ → ℝ → ENNReal := fun x y => ENNReal.ofReal (min 1 (Real.exp (malaAccept V sigma x y))) with ha
  set f : ℝ → ℝ → ENNReal := fun x y => ENNReal.ofReal (malaFlow V sigma (malaAccept V sigma) x y) with hf
  have hf_eq : ∀ x y, f x y = w x * (p x y * a x y) := by
    intro x y
    simp only [hf, hw, hp, ha, malaFlow, gaussianPDF]
    rw [ENNReal.ofReal_mul (mul_nonneg (Real.exp_pos _).le (gaussianPDFReal_nonneg _ _ _)),
      ENNReal.ofReal_mul (Real.exp_pos _).le, mul_assoc]
  have hfc : Continuous fun z : ℝ × ℝ => malaFlow V sigma (malaAccept V sigma) z.1 z.2 := by
    have e : (fun z : ℝ × ℝ => malaFlow V sigma (malaAccept V sigma) z.1 z.2) = fun z : ℝ × ℝ =>
        (√(2 * Real.pi * sigma ^ 2))⁻¹ * Real.exp (-V.eval z.1 - resid V sigma z.1 z.2 ^ 2 / (2 * sigma ^ 2)
          + min 0 (malaAccept V sigma z.1 z.2)) := funext fun z => malaFlow_eq V hs _ _ _
    rw [e]
    simp only [malaAccept, resid, malaMean]
    fun_prop
  have hfm : Measurable (Function.uncurry f) := hfc.measurable.ennreal_ofReal
  -- measurability in `y`
  have ham : ∀ x, Measurable (a x) := fun x => by
    have : Continuous fun y => min 1 (Real.exp (malaAccept V sigma x y)) := by
      simp only [malaAccept]; fun_prop
    exact this.measurable.ennreal_ofReal
  have hpm : ∀ x, Measurable (p x) := fun x => measurable_gaussianPDF _ _
  have hpam : ∀ x, Measurable fun y => p x y * a x y := fun x => (hpm x).mul (ham x)
  set φ : ℝ → ENNReal := B.indicator 1 with hφ
  have hφm : Measurable φ := measurable_one.indicator hBm
  have hstep := fun x => stepExp_eq V hs hφm x
  have hout : ∀ x ∈ Bᶜ, malaStepExp V sigma φ x = ∫⁻ y in B, p x y * a x y := by
    intro x hx
    rw [hstep, ← lintegral_indicator hBm]
    refine lintegral_congr fun y => ?_
    have hx0 : φ x = 0 := indicator_of_notMem hx _
    rw [hx0, mul_zero, add_zero]
    by_cases hy : y ∈ B
    · rw [indicator_of_mem hy, hφ, indicator_of_mem hy, Pi.one_apply, mul_one]
    · rw [indicator_of_notMem hy, hφ, indicator_of_notMem hy, mul_zero, mul_zero]
  have hin : ∀ x ∈ B, malaStepExp V sigma φ x + ∫⁻ y in Bᶜ, p x y * a x y = 1 := by
    intro x hx
    rw [hstep, ← lintegral_indicator hBm.compl,
      ← lintegral_add_right _ ((hpam x).indicator hBm.compl), ← lintegral_gaussianPDF_eq_one (malaMean V sigma x) hv]
    refine lintegral_congr fun y => ?_
    have hx1 : φ x = 1 := indicator_of_mem hx _
    have hsum : ENNReal.ofReal (min 1 (Real.exp (malaAccept V sigma x y)))
        + ENNReal.ofReal (1 - min 1 (Real.exp (malaAccept V sigma x y))) = 1 := by
      rw [← ENNReal.ofReal_add (le_min zero_le_one (Real.exp_pos _).le)
        (by linarith [min_le_left 1 (Real.exp (malaAccept V sigma x y))])]
      simp
    rw [hx1, mul_one]
    by_cases hy : y ∈ B
    · rw [indicator_of_notMem (by simpa using hy), hφ, indicator_of_mem hy, Pi.one_apply, mul_one, hsum, mul_one, add_zero]
    · rw [indicator_of_mem (by simpa using hy), hφ, indicator_of_notMem hy, mul_zero, zero_add]
      change p x y * _ + p x y * _ = p x y
      rw [← mul_add, add_comm, hsum, mul_one]
  have hpull : ∀ (T : Set ℝ) (x : ℝ), w x * ∫⁻ y in T, p x y * a x y = ∫⁻ y in T, f x y := by
    intro T x
    rw [← lintegral_const_mul' _ _ ENNReal.ofReal_ne_top]
    exact lintegral_congr fun y => (hf_eq x y).symm
  have hmF : ∀ T : Set ℝ, Measurable fun x => ∫⁻ y in T, f x y := fun T => hfm.lintegral_prod_right'
  -- masses
  set W := ∫⁻ x in B, w x with hWdef
  have hWfin : W < ⊤ := by
    refine lt_of_le_of_lt (setLIntegral_mono (g := fun _ => ENNReal.ofReal (Real.exp (-d))) measurable_const fun x _ => ?_) ?_
    · refine ENNReal.ofReal_le_ofReal (Real.exp_le_exp.2 ?_)
      rw [hV, quadPot_eval]
      nlinarith [sq_nonneg (x - mu)]
    · rw [setLIntegral_const, hB, Real.volume_Icc]
      exact ENNReal.mul_lt_top ENNReal.ofReal_lt_top ENNReal.ofReal_lt_top
  set S := ∫⁻ x in B, w x * malaStepExp V sigma φ x with hSdef
  have hW2 : W = S + ∫⁻ x in B, ∫⁻ y in Bᶜ, f x y := by
    rw [hSdef, ← lintegral_add_right _ (hmF _), hWdef]
    refine setLIntegral_congr_fun hBm fun x hx => ?_
    rw [← hpull, ← mul_add, hin x hx, mul_one]
  have hI : ∀ g : ℝ → ENNReal, ∫⁻ x, g x ∂(targetMeasure V) = ∫⁻ x, w x * g x := by
    intro g
    rw [targetMeasure, lintegral_withDensity_eq_lintegral_mul_non_measurable _ hwm
      (Filter.Eventually.of_forall fun x => ENNReal.ofReal_lt_top)]
    rfl
  have hW3 : W = S + ∫⁻ x in Bᶜ, ∫⁻ y in B, f x y := by
    have h1 := hinv φ hφm
    rw [hI, hI, ← lintegral_add_compl _ hBm] at h1
    have e1 : ∫⁻ x, w x * φ x = W := by
      rw [hWdef, ← lintegral_indicator hBm]
      refine lintegral_congr fun x => ?_
      by_cases hx : x ∈ B
      · rw [indicator_of_mem hx, hφ, indicator_of_mem hx, Pi.one_apply, mul_one]
      · rw [indicator_of_notMem hx, hφ, indicator_of_notMem hx, mul_zero]
    rw [e1] at h1
    rw [← h1]
    congr 1
    refine setLIntegral_congr_fun hBm.compl fun x hx => ?_
    rw [hout x hx, hpull]
  have hSfin : S ≠ ⊤ := by
    intro h
    rw [h, top_add] at hW2
    exact hWfin.ne hW2
  have hflux : ∫⁻ x in Bᶜ, ∫⁻ y in B, f x y = ∫⁻ x in B, ∫⁻ y in Bᶜ, f x y :=
    (ENNReal.add_right_inj hSfin).1 (hW3.symm.trans hW2)
  have hswap : ∫⁻ x in B, ∫⁻ y in Bᶜ, f x y = ∫⁻ y in Bᶜ, ∫⁻ x in B, f x y :=
    lintegral_lintegral_swap hfm.aemeasurable
  rw [hswap] at hflux
  have hle : ∫⁻ y in Bᶜ, ∫⁻ x in B, f x y ≠ ⊤ := by
    rw [← hswap]
    intro h
    rw [h, add_top] at hW2
    exact hWfin.ne hW2
  have hBpos : volume.restrict B ≠ 0 := by
    rw [Ne, Measure.restrict_eq_zero, hB, Real.volume_Icc, ENNReal.ofReal_eq_zero]
    norm_num
  have hBcpos : volume.restrict Bᶜ ≠ 0 := by
    rw [Ne, Measure.restrict_eq_zero]
    intro h
    have h2 : volume (Ioo (mu + 1) (mu + 2)) ≤ volume Bᶜ := measure_mono fun x hx => by
      rw [hB, mem_compl_iff, mem_Icc]; intro hc; linarith [hx.1, hc.2]
    rw [h, Real.volume_Ioo] at h2
    norm_num at h2
  have hfswap : Measurable (Function.uncurry fun y x => f x y) := hfm.comp measurable_swap
  have hlt : ∫⁻ y in Bᶜ, ∫⁻ x in B, f x y < ∫⁻ x in Bᶜ, ∫⁻ y in B, f x y := by
    refine lintegral_strict_mono hBcpos (hmF B).aemeasurable hle ?_
    have hfin : ∀ᵐ y ∂(volume.restrict Bᶜ), ∫⁻ x in B, f x y < ⊤ :=
      ae_lt_top hfswap.lintegral_prod_right' hle
    filter_upwards [hfin, ae_restrict_mem hBm.compl] with z hz hzB
    refine lintegral_strict_mono hBpos (hfm.of_uncurry_left).aemeasurable hz.ne ?_
    filter_upwards [ae_restrict_mem hBm] with y hy
    simp only [hf]
    have hsq : (y - mu) ^ 2 < (z - mu) ^ 2 := by
      rw [hB, mem_compl_iff, mem_Icc, not_and_or, not_le, not_le] at hzB
      rw [hB, mem_Icc] at hy
      rcases hzB with h | h
      · nlinarith [hy.1, hy.2]
      · nlinarith [hy.1, hy.2]
    have := flow_lt (d := d) hc hs hsc hsq
    refine (ENNReal.ofReal_lt_ofReal_iff (lt_of_le_of_lt ?_ this)).2 this
    rw [malaFlow_eq _ hs]
    exact (mul_pos (flow_const_pos hs) (Real.exp_pos _)).le
  exact hlt.ne hflux.symm

/-- **C51** The Gibbs sampler with a quadratic potential `V = g1 x + g2 x^2`: whatever the state and the index, the polynomial given
to MALA is of this form, so with the step `sigma = 0.01` of `sample_mcmc` the conditional of `a_i` is not invariant as soon as
`beta * N * g2 < 40000`. -/
theorem C51_gibbs_not_invariant {beta g1 g2 : ℝ} {N : ℕ} (hbeta : 0 < beta) (hN : 0 < N) (hg : 0 < g2)
    (hsmall : beta * N * g2 < 40000) (i : ℤ) (a b : List ℝ) :
    ¬ ∀ φ : ℝ → ENNReal, Measurable φ →
      ∫⁻ x, malaStepExp (C (1 / 2 * beta * N) * condPolyA i a b (C g1 * X + C g2 * X ^ 2)) (1 / 100) φ x
          ∂(targetMeasure (C (1 / 2 * beta * N) * condPolyA i a b (C g1 * X + C g2 * X ^ 2)))
        = ∫⁻ x, φ x ∂(targetMeasure (C (1 / 2 * beta * N) * condPolyA i a b (C g1 * X + C g2 * X ^ 2))) := by
  have hNp : (0 : ℝ) < N := by exact_mod_cast hN
  set k := 1 / 2 * beta * (N : ℝ) with hk
  have hkp : 0 < k := by positivity
  have e : C k * condPolyA i a b (C g1 * X + C g2 * X ^ 2)
      = quadPot (k * g2) (-(g1 / (2 * g2))) (-(k * (g1 ^ 2 / (4 * g2)))) := by
    have h1 : condPolyA i a b (C g1 * X + C g2 * X ^ 2) = C g1 * X + C g2 * X ^ 2 := by
      simp only [condPolyA, coeff_add, coeff_C_mul, coeff_X, coeff_X_pow]
      norm_num
    rw [h1]
    apply Polynomial.funext
    intro x
    rw [quadPot_eval]
    simp only [eval_mul, eval_add, eval_C, eval_X, eval_pow]
    field_simp
    ring
  rw [e]
  refine C51_not_invariant (by positivity) (by norm_num) ?_
  rw [hk]; nlinarith

/-- the hypotheses are met by a concrete case -/
example : ¬ ∀ φ : ℝ → ENNReal, Measurable φ →
    ∫⁻ x, malaStepExp (quadPot 1 0 0) (1 / 100) φ x ∂(targetMeasure (quadPot 1 0 0))
      = ∫⁻ x, φ x ∂(targetMeasure (quadPot 1 0 0)) :=
  C51_not_invariant (by norm_num) (by norm_num) (by norm_num)

/-- detailed balance fails for `V = x^2` between `1` and `0` -/
example : malaFlow (quadPot 1 0 0) (1 / 100) (malaAccept (quadPot 1 0 0) (1 / 100)) 1 0
    ≠ malaFlow (quadPot 1 0 0) (1 / 100) (malaAccept (quadPot 1 0 0) (1 / 100)) 0 1 := by
  rw [Ne, C51_detailed_balance_iff _ (by norm_num)]
  simp only [quadPot_deriv]
  norm_num

end Verif.Props
