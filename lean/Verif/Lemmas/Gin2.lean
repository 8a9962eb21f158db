import Verif.Lemmas.Gin1
import Mathlib.MeasureTheory.Function.Jacobian
import Mathlib.RingTheory.Complex
import Mathlib.RingTheory.Norm.Transitivity
import Mathlib.LinearAlgebra.Eigenspace.Basic
import Mathlib.LinearAlgebra.Matrix.SchurComplement
import Mathlib.LinearAlgebra.Matrix.NonsingularInverse

/-!
# Ginibre ensemble: the change of variables from the corner entry to an eigenvalue
-/

namespace Verif.Lemmas
open Finset Matrix MeasureTheory ProbabilityTheory Verif.Model Verif.Spec

variable {n : ℕ}

theorem det_bord_col (a : ℂ) (w : Fin n → ℂ) (K : Matrix (Fin n) (Fin n) ℂ) : (bord a w 0 K).det = a * K.det := by
  rw [Matrix.det_succ_column_zero, Fin.sum_univ_succ, sum_eq_zero (fun j _ => by rw [bord_s0]; simp)]
  have : (bord a w 0 K).submatrix (Fin.succAbove 0) Fin.succ = K := by ext i j; simp
  rw [this]
  simp

theorem det_bord_row (a : ℂ) (v : Fin n → ℂ) (K : Matrix (Fin n) (Fin n) ℂ) : (bord a 0 v K).det = a * K.det := by
  rw [Matrix.det_succ_row_zero, Fin.sum_univ_succ, sum_eq_zero (fun j _ => by rw [bord_0s]; simp)]
  have : (bord a 0 v K).submatrix Fin.succ (Fin.succAbove 0) = K := by ext i j; simp
  rw [this]
  simp

theorem det_bord_inv (a : ℂ) (w c : Fin n → ℂ) {K : Matrix (Fin n) (Fin n) ℂ} (hK : K.det ≠ 0) :
    (bord a w c K).det = K.det * (a - w ⬝ᵥ (K⁻¹ *ᵥ c)) := by
  have hu : IsUnit K.det := isUnit_iff_ne_zero.2 hK
  have e : bord a w c K * bord 1 0 (-(K⁻¹ *ᵥ c)) 1 = bord (a - w ⬝ᵥ (K⁻¹ *ᵥ c)) w 0 K := by
    rw [bord_mul]
    congr 1
    · rw [dotProduct_neg]; ring
    · funext j; simp
    · funext i
      rw [Matrix.mulVec_neg, Matrix.mulVec_mulVec, Matrix.mul_nonsing_inv _ hu]; simp
    · ext i j; simp
  have := congrArg Matrix.det e
  rw [Matrix.det_mul, det_bord_row, det_bord_col, Matrix.det_one, mul_one, mul_one] at this
  rw [this]; ring

theorem smul_sub_bord (t a : ℂ) (w c : Fin n → ℂ) (C : Matrix (Fin n) (Fin n) ℂ) :
    t • (1 : Matrix (Fin (n + 1)) (Fin (n + 1)) ℂ) - bord a w c C = bord (t - a) (-w) (-c) (t • 1 - C) := by
  apply bord_ext <;> intros <;> simp [Matrix.one_apply, Fin.succ_ne_zero, (Fin.succ_ne_zero _).symm]

/-- the resolvent -/
noncomputable def rsv (C : Matrix (Fin n) (Fin n) ℂ) (t : ℂ) : Matrix (Fin n) (Fin n) ℂ := (t • 1 - C)⁻¹

/-- the corner entry of the matrices with eigenvalue `t` and given other entries -/
noncomputable def hcor (w c : Fin n → ℂ) (C : Matrix (Fin n) (Fin n) ℂ) (t : ℂ) : ℂ := t - w ⬝ᵥ (rsv C t *ᵥ c)

theorem det_shift (t a : ℂ) (w c : Fin n → ℂ) {C : Matrix (Fin n) (Fin n) ℂ} (h : (t • 1 - C).det ≠ 0) :
    (t • (1 : Matrix (Fin (n + 1)) (Fin (n + 1)) ℂ) - bord a w c C).det = (t • 1 - C).det * (hcor w c C t - a) := by
  rw [smul_sub_bord, det_bord_inv _ _ _ h, hcor, rsv]
  simp only [Matrix.mulVec_neg, neg_dotProduct_neg]
  ring

/-! ### Derivative -/

theorem continuousAt_rsv {C : Matrix (Fin n) (Fin n) ℂ} {t : ℂ} (h : (t • 1 - C).det ≠ 0) (i j : Fin n) :
    ContinuousAt (fun s => rsv C s i j) t := by
  have e : (fun s => rsv C s i j) = fun s => (s • 1 - C).det⁻¹ * (s • 1 - C).adjugate i j := by
    funext s
    rw [rsv, Matrix.inv_def, Ring.inverse_eq_inv']; rfl
  have hc : Continuous fun s : ℂ => (s • 1 - C : Matrix (Fin n) (Fin n) ℂ) := by fun_prop
  rw [e]
  refine ContinuousAt.mul (ContinuousAt.inv₀ hc.matrix_det.continuousAt h) ?_
  exact (hc.matrix_adjugate.matrix_elem i j).continuousAt

theorem eventually_det {C : Matrix (Fin n) (Fin n) ℂ} {t : ℂ} (h : (t • 1 - C).det ≠ 0) : ∀ᶠ s in nhds t, (s • 1 - C).det ≠ 0 := by
  have hc : Continuous fun s : ℂ => (s • 1 - C : Matrix (Fin n) (Fin n) ℂ).det := by fun_prop
  exact hc.continuousAt.eventually_ne h

theorem rsv_sub {C : Matrix (Fin n) (Fin n) ℂ} {s t : ℂ} (hs : (s • 1 - C).det ≠ 0) (ht : (t • 1 - C).det ≠ 0) :
    rsv C s - rsv C t = -(s - t) • (rsv C s * rsv C t) := by
  have us : IsUnit (s • 1 - C).det := isUnit_iff_ne_zero.2 hs
  have ut : IsUnit (t • 1 - C).det := isUnit_iff_ne_zero.2 ht
  have e : (t • 1 - C) - (s • 1 - C) = -(s - t) • (1 : Matrix (Fin n) (Fin n) ℂ) := by
    rw [neg_sub, sub_smul]; abel
  calc rsv C s - rsv C t = rsv C s * ((t • 1 - C) - (s • 1 - C)) * rsv C t := by
        rw [Matrix.mul_sub, Matrix.sub_mul, Matrix.mul_assoc, rsv, rsv, Matrix.mul_nonsing_inv _ ut, Matrix.nonsing_inv_mul _ us]; simp
    _ = _ := by rw [e]; simp

theorem hasDerivAt_hcor (w c : Fin n → ℂ) {C : Matrix (Fin n) (Fin n) ℂ} {t : ℂ} (h : (t • 1 - C).det ≠ 0) :
    HasDerivAt (hcor w c C) (1 + w ⬝ᵥ ((rsv C t * rsv C t) *ᵥ c)) t := by
  rw [hasDerivAt_iff_tendsto_slope]
  have hc : ContinuousAt (fun s => 1 + w ⬝ᵥ ((rsv C s * rsv C t) *ᵥ c)) t := by
    refine continuousAt_const.add ?_
    simp only [dotProduct, Matrix.mulVec, Matrix.mul_apply]
    refine tendsto_finsetSum _ fun i _ => tendsto_const_nhds.mul ?_
    refine tendsto_finsetSum _ fun j _ => Filter.Tendsto.mul ?_ tendsto_const_nhds
    refine tendsto_finsetSum _ fun k _ => Filter.Tendsto.mul (continuousAt_rsv h i k) tendsto_const_nhds
  refine (hc.tendsto.mono_left nhdsWithin_le_nhds).congr' ?_
  filter_upwards [nhdsWithin_le_nhds (eventually_det h), self_mem_nhdsWithin] with s hs hst
  have hst' : s - t ≠ 0 := sub_ne_zero.2 hst
  rw [slope_def_field, hcor, hcor]
  have e : w ⬝ᵥ (rsv C s *ᵥ c) - w ⬝ᵥ (rsv C t *ᵥ c) = -(s - t) * (w ⬝ᵥ ((rsv C s * rsv C t) *ᵥ c)) := by
    rw [← dotProduct_sub, ← Matrix.sub_mulVec, rsv_sub hs h, Matrix.smul_mulVec, dotProduct_smul, smul_eq_mul]
  rw [eq_div_iff hst']
  linear_combination e

theorem det_mulC (z : ℂ) : (((ContinuousLinearMap.toSpanSingleton ℂ z : ℂ →L[ℂ] ℂ).restrictScalars ℝ)).det = ‖z‖ ^ 2 := by
  have : ((((ContinuousLinearMap.toSpanSingleton ℂ z : ℂ →L[ℂ] ℂ).restrictScalars ℝ)) : ℂ →L[ℝ] ℂ).toLinearMap
      = ((ContinuousLinearMap.toSpanSingleton ℂ z : ℂ →L[ℂ] ℂ).toLinearMap).restrictScalars ℝ := rfl
  rw [ContinuousLinearMap.det, this, LinearMap.det_restrictScalars, Algebra.norm_complex_apply, Complex.normSq_eq_norm_sq]
  congr 2
  rw [LinearMap.det_ring]; simp

/-! ### The change of variables -/

/-- the values of `t` for which the matrix with first eigenvalue `t` is well defined -/
def Dset (w c : Fin n → ℂ) (C : Matrix (Fin n) (Fin n) ℂ) : Set ℂ :=
  {t | (t • 1 - C).det ≠ 0 ∧ evs (bord (hcor w c C t) w c C) 0 = t}

theorem measurable_det_shift {X : Type} [MeasurableSpace X] {t : X → ℂ} {C : X → Matrix (Fin n) (Fin n) ℂ} (ht : Measurable t)
    (hC : ∀ i j, Measurable fun x => C x i j) : Measurable fun x => (t x • 1 - C x).det := by
  refine measurable_det fun i j => ?_
  simp only [Matrix.sub_apply, Matrix.smul_apply, smul_eq_mul]
  exact (ht.mul_const _).sub (hC i j)

theorem measurable_adj {X : Type} [MeasurableSpace X] {A : X → Matrix (Fin n) (Fin n) ℂ} (h : ∀ i j, Measurable fun x => A x i j)
    (i j : Fin n) : Measurable fun x => (A x).adjugate i j := by
  simp only [Matrix.adjugate_apply]
  refine measurable_det fun k l => ?_
  simp only [Matrix.updateRow_apply]
  by_cases hk : k = j
  · simp only [hk, if_true]; exact measurable_const
  · simp only [hk, if_false]; exact h k l

theorem measurable_rsv {X : Type} [MeasurableSpace X] {t : X → ℂ} {C : X → Matrix (Fin n) (Fin n) ℂ} (ht : Measurable t)
    (hC : ∀ i j, Measurable fun x => C x i j) (i j : Fin n) : Measurable fun x => rsv (C x) (t x) i j := by
  have e : (fun x => rsv (C x) (t x) i j) = fun x => (t x • 1 - C x).det⁻¹ * (t x • 1 - C x).adjugate i j := by
    funext s
    rw [rsv, Matrix.inv_def, Ring.inverse_eq_inv']; rfl
  rw [e]
  refine (measurable_det_shift ht hC).inv.mul (measurable_adj (fun i j => ?_) i j)
  simp only [Matrix.sub_apply, Matrix.smul_apply, smul_eq_mul]
  exact (ht.mul_const _).sub (hC i j)

theorem measurable_hcor {X : Type} [MeasurableSpace X] {t : X → ℂ} {w c : X → Fin n → ℂ} {C : X → Matrix (Fin n) (Fin n) ℂ} (ht : Measurable t)
    (hw : Measurable w) (hc : Measurable c) (hC : ∀ i j, Measurable fun x => C x i j) : Measurable fun x => hcor (w x) (c x) (C x) (t x) := by
  simp only [hcor, dotProduct, Matrix.mulVec]
  refine ht.sub (Finset.measurable_sum _ fun i _ => ((measurable_pi_apply i).comp hw).mul ?_)
  exact Finset.measurable_sum _ fun j _ => (measurable_rsv ht hC i j).mul ((measurable_pi_apply j).comp hc)

theorem measurable_bordG {X : Type} [MeasurableSpace X] {m : ℕ} {a : X → ℂ} {w : X → Fin m → ℂ} {c : X → Fin n → ℂ} {C : X → Matrix (Fin n) (Fin m) ℂ}
    (ha : Measurable a) (hw : Measurable w) (hc : Measurable c) (hC : ∀ i j, Measurable fun x => C x i j) (i : Fin (n + 1)) (j : Fin (m + 1)) :
    Measurable fun x => bord (a x) (w x) (c x) (C x) i j := by
  induction i using Fin.cases with
  | zero => induction j using Fin.cases with
    | zero => exact ha
    | succ j => exact (measurable_pi_apply j).comp hw
  | succ i => induction j using Fin.cases with
    | zero => exact (measurable_pi_apply i).comp hc
    | succ j => exact hC i j

theorem measurableSet_Dset {X : Type} [MeasurableSpace X] {t : X → ℂ} {w c : X → Fin n → ℂ} {C : X → Matrix (Fin n) (Fin n) ℂ} (ht : Measurable t)
    (hw : Measurable w) (hc : Measurable c) (hC : ∀ i j, Measurable fun x => C x i j) : MeasurableSet {x | t x ∈ Dset (w x) (c x) (C x)} := by
  have h1 : MeasurableSet {x | (t x • 1 - C x).det ≠ 0} := (measurableSet_eq_fun (measurable_det_shift ht hC) measurable_const).compl
  have h2 : Measurable fun x => evs (bord (hcor (w x) (c x) (C x) (t x)) (w x) (c x) (C x)) :=
    measurable_evs (measurable_bordG (measurable_hcor ht hw hc hC) hw hc hC)
  exact h1.inter (measurableSet_eq_fun ((measurable_pi_apply 0).comp h2) ht)

theorem line_change {w c : Fin n → ℂ} {C : Matrix (Fin n) (Fin n) ℂ}
    (hG : ∀ a t : ℂ, (t • (1 : Matrix (Fin (n + 1)) (Fin (n + 1)) ℂ) - bord a w c C).det = 0 → (t • 1 - C).det ≠ 0) (Ψ : ℂ → ENNReal) :
    ∫⁻ a, Ψ a = ∫⁻ t in Dset w c C, ENNReal.ofReal (‖1 + w ⬝ᵥ ((rsv C t * rsv C t) *ᵥ c)‖ ^ 2) * Ψ (hcor w c C t) := by
  have hD : MeasurableSet (Dset w c C) := measurableSet_Dset (X := ℂ) measurable_id measurable_const measurable_const fun _ _ => measurable_const
  have hinj : Set.InjOn (hcor w c C) (Dset w c C) := fun s hs t ht e => by
    rw [← hs.2, ← ht.2, e]
  have himg : hcor w c C '' Dset w c C = Set.univ := by
    refine Set.eq_univ_of_forall fun a => ?_
    set t := evs (bord a w c C) 0 with htd
    have h0 : (t • (1 : Matrix (Fin (n + 1)) (Fin (n + 1)) ℂ) - bord a w c C).det = 0 := by
      rw [← evs_det, prod_eq_zero (mem_univ 0)]; rw [← htd]; ring
    have h1 := hG a t h0
    have h2 : hcor w c C t = a := by
      rw [det_shift _ _ _ _ h1] at h0
      exact sub_eq_zero.1 ((mul_eq_zero.1 h0).resolve_left h1)
    exact ⟨t, ⟨h1, by rw [h2]⟩, h2⟩
  have h := lintegral_image_eq_lintegral_abs_det_fderiv_mul volume hD
    (fun t ht => (((hasDerivAt_hcor w c ht.1).hasFDerivAt.restrictScalars ℝ).hasFDerivWithinAt)) hinj Ψ
  rw [himg, setLIntegral_univ] at h
  rw [h]
  refine lintegral_congr fun t => ?_
  rw [det_mulC, abs_of_nonneg (by positivity)]

end Verif.Lemmas
