import Verif.Lemmas.Gin2
import Mathlib.MeasureTheory.Group.LIntegral

/-!
# Ginibre ensemble: eigenvalue and eigenvector as new variables
-/

namespace Verif.Lemmas
open Finset Matrix MeasureTheory ProbabilityTheory Verif.Model Verif.Spec

variable {n : ℕ}

/-! ### Linear changes of variables -/

theorem lin_change {K : Matrix (Fin n) (Fin n) ℂ} (hK : K.det ≠ 0) {f : (Fin n → ℂ) → ENNReal} (hf : Measurable f) :
    ∫⁻ c, f c = ENNReal.ofReal (‖K.det‖ ^ 2) * ∫⁻ u, f (K *ᵥ u) := by
  have hd : LinearMap.det ((Matrix.toLin' K).restrictScalars ℝ) = ‖K.det‖ ^ 2 := by
    rw [LinearMap.det_restrictScalars, Algebra.norm_complex_apply, Complex.normSq_eq_norm_sq, LinearMap.det_toLin']
  have hp : 0 < ‖K.det‖ ^ 2 := by positivity
  have h := Measure.map_linearMap_addHaar_eq_smul_addHaar (μ := (volume : Measure (Fin n → ℂ))) (f := (Matrix.toLin' K).restrictScalars ℝ)
    (by rw [hd]; exact hp.ne')
  have hm : Measurable fun u : Fin n → ℂ => ((Matrix.toLin' K).restrictScalars ℝ) u := by
    have : (fun u : Fin n → ℂ => ((Matrix.toLin' K).restrictScalars ℝ) u) = fun u => K *ᵥ u := rfl
    rw [this]; exact measurable_mulVec K
  have e : ∫⁻ u, f (K *ᵥ u) = ENNReal.ofReal (‖K.det‖ ^ 2)⁻¹ * ∫⁻ c, f c := by
    have h1 : ∫⁻ c, f c ∂(Measure.map (fun u => ((Matrix.toLin' K).restrictScalars ℝ) u) (volume : Measure (Fin n → ℂ))) = ∫⁻ u, f (K *ᵥ u) :=
      lintegral_map hf hm
    rw [← h1, h, lintegral_smul_measure, hd, abs_of_pos (inv_pos.2 hp), smul_eq_mul]
  rw [e, ← mul_assoc, ← ENNReal.ofReal_mul hp.le, mul_inv_cancel₀ hp.ne', ENNReal.ofReal_one, one_mul]

theorem lin_const {E : Type} [NormedAddCommGroup E] [NormedSpace ℝ E] [FiniteDimensional ℝ E] [MeasurableSpace E] [BorelSpace E]
    (μ : Measure E) [μ.IsAddHaarMeasure] (L : E →ₗ[ℝ] E) (hL : Function.Injective L) :
    ∃ κ : ENNReal, κ ≠ 0 ∧ κ ≠ ⊤ ∧ ∀ f : E → ENNReal, Measurable f → ∫⁻ x, f (L x) ∂μ = κ * ∫⁻ x, f x ∂μ := by
  have hd : LinearMap.det L ≠ 0 := by
    have := (LinearEquiv.ofInjectiveEndo L hL).isUnit_det'
    exact this.ne_zero
  refine ⟨ENNReal.ofReal |(LinearMap.det L)⁻¹|, ?_, ENNReal.ofReal_ne_top, fun f hf => ?_⟩
  · exact (ENNReal.ofReal_pos.2 (abs_pos.2 (inv_ne_zero hd))).ne'
  · have h := Measure.map_linearMap_addHaar_eq_smul_addHaar (μ := μ) hd
    have hm : Measurable L := (L.continuous_of_finiteDimensional).measurable
    rw [← lintegral_map hf hm, h, lintegral_smul_measure, smul_eq_mul]

theorem hyperC_null {l : Fin n → ℂ} (hl : l ≠ 0) : ∀ᵐ c : Fin n → ℂ, l ⬝ᵥ c ≠ 0 := by
  let S : Submodule ℝ (Fin n → ℂ) :=
    { carrier := {c | l ⬝ᵥ c = 0}
      add_mem' := fun {a b} ha hb => by
        simp only [Set.mem_ofPred_eq, dotProduct_add] at *
        rw [ha, hb, add_zero]
      zero_mem' := dotProduct_zero l
      smul_mem' := fun r a ha => by
        simp only [Set.mem_ofPred_eq, dotProduct_smul] at *
        rw [ha, smul_zero] }
  have h := Measure.addHaar_submodule volume S fun h => hl <| by
    funext i
    have : Pi.single i (1 : ℂ) ∈ S := h ▸ Submodule.mem_top
    have h2 : l ⬝ᵥ Pi.single i (1 : ℂ) = 0 := this
    simpa using h2
  rw [ae_iff]
  simp only [not_not]
  exact h

/-! ### Generic matrices -/

theorem exists_diag {C : Matrix (Fin n) (Fin n) ℂ} (h : Function.Injective (evs C)) :
    ∃ P : Matrix (Fin n) (Fin n) ℂ, P.det ≠ 0 ∧ C * P = P * Matrix.diagonal (evs C) := by
  have hv : ∀ i, ∃ v : Fin n → ℂ, v ≠ 0 ∧ (evs C i • 1 - C) *ᵥ v = 0 := fun i => by
    refine Matrix.exists_mulVec_eq_zero_iff.2 ?_
    rw [← evs_det, prod_eq_zero (mem_univ i) (sub_self _)]
  choose v hv0 hv1 using hv
  have hC : ∀ i, C *ᵥ v i = evs C i • v i := fun i => by
    have := hv1 i
    rw [Matrix.sub_mulVec, Matrix.smul_mulVec, Matrix.one_mulVec, sub_eq_zero] at this
    exact this.symm
  have hli : LinearIndependent ℂ v := Module.End.eigenvectors_linearIndependent' (Matrix.toLin' C) (evs C) h v fun i => by
    refine ⟨Module.End.mem_eigenspace_iff.2 ?_, hv0 i⟩
    rw [Matrix.toLin'_apply, hC]
  refine ⟨(Matrix.of v)ᵀ, ?_, ?_⟩
  · have h2 : IsUnit (Matrix.of v)ᵀ := Matrix.linearIndependent_cols_iff_isUnit.1 hli
    exact ((Matrix.isUnit_iff_isUnit_det _).1 h2).ne_zero
  · ext i j
    have := congrFun (hC j) i
    simp only [Matrix.mulVec, dotProduct, Pi.smul_apply, smul_eq_mul] at this
    rw [Matrix.mul_apply, Matrix.mul_diagonal]
    simp only [Matrix.transpose_apply, Matrix.of_apply]
    rw [this, mul_comm]

theorem generic_border {C P : Matrix (Fin n) (Fin n) ℂ} {z : Fin n → ℂ} (hz : Function.Injective z) (hP : P.det ≠ 0)
    (hCP : C * P = P * Matrix.diagonal z) {w c : Fin n → ℂ} (hw : ∀ i, (w ᵥ* P) i ≠ 0) (hc : ∀ i, (P⁻¹ *ᵥ c) i ≠ 0) (a t : ℂ)
    (h0 : (t • (1 : Matrix (Fin (n + 1)) (Fin (n + 1)) ℂ) - bord a w c C).det = 0) : (t • 1 - C).det ≠ 0 := by
  intro hd
  have hu : IsUnit P.det := isUnit_iff_ne_zero.2 hP
  have hdiag : ∀ s : ℂ, s • 1 - C = P * (Matrix.diagonal fun i => s - z i) * P⁻¹ := fun s => by
    have e1 : (Matrix.diagonal fun i => s - z i) = s • 1 - Matrix.diagonal z := by
      rw [Matrix.smul_one_eq_diagonal, Matrix.diagonal_sub]
    rw [e1, Matrix.mul_sub, ← hCP, Matrix.sub_mul, Matrix.mul_assoc C, Matrix.mul_nonsing_inv _ hu]
    simp [Matrix.mul_nonsing_inv _ hu]
  -- t is one of the eigenvalues
  obtain ⟨i, hi⟩ : ∃ i, t = z i := by
    rw [hdiag, Matrix.det_mul, Matrix.det_mul, Matrix.det_diagonal] at hd
    rcases mul_eq_zero.1 hd with hd | hd
    · rcases mul_eq_zero.1 hd with hd | hd
      · exact absurd hd hP
      · obtain ⟨i, _, hi⟩ := prod_eq_zero_iff.1 hd
        exact ⟨i, sub_eq_zero.1 hi⟩
    · exact absurd hd (by rw [Matrix.det_nonsing_inv, Ring.inverse_eq_inv']; exact inv_ne_zero hP)
  rw [smul_sub_bord] at h0
  obtain ⟨y, hy0, hy⟩ := Matrix.exists_mulVec_eq_zero_iff.2 h0
  have r0 : (t - a) * y 0 - w ⬝ᵥ (fun i : Fin n => y i.succ) = 0 := by
    have := congrFun hy 0
    simp only [Matrix.mulVec, dotProduct, Fin.sum_univ_succ, bord_00, bord_0s, Pi.neg_apply, Pi.zero_apply] at this
    rw [← this, dotProduct, sub_eq_add_neg, ← sum_neg_distrib]
    congr 1
    exact sum_congr rfl fun k _ => by ring
  have r1 : (t • 1 - C) *ᵥ (fun i : Fin n => y i.succ) = y 0 • c := by
    funext k
    have := congrFun hy k.succ
    simp only [Matrix.mulVec, dotProduct, Fin.sum_univ_succ, bord_s0, bord_ss, Pi.neg_apply, Pi.zero_apply] at this
    simp only [Matrix.mulVec, dotProduct, Pi.smul_apply, smul_eq_mul]
    linear_combination this
  obtain ⟨y', hy'⟩ : ∃ y', y' = P⁻¹ *ᵥ (fun i : Fin n => y i.succ) := ⟨_, rfl⟩
  have hyP : (fun i : Fin n => y i.succ) = P *ᵥ y' := by
    rw [hy', Matrix.mulVec_mulVec, Matrix.mul_nonsing_inv _ hu, Matrix.one_mulVec]
  have r2 : ∀ k, (t - z k) * y' k = y 0 * (P⁻¹ *ᵥ c) k := fun k => by
    have := congrArg (fun v => P⁻¹ *ᵥ v) r1
    rw [hdiag, Matrix.mulVec_mulVec, ← Matrix.mul_assoc, ← Matrix.mul_assoc, Matrix.nonsing_inv_mul _ hu, Matrix.one_mul, ← Matrix.mulVec_mulVec, ← hy'] at this
    have := congrFun this k
    rw [Matrix.mulVec_diagonal, Matrix.mulVec_smul, Pi.smul_apply, smul_eq_mul] at this
    exact this
  have hy00 : y 0 = 0 := by
    have := r2 i
    rw [hi, sub_self, zero_mul] at this
    exact (mul_eq_zero.1 this.symm).resolve_right (hc i)
  have hyk : ∀ k, k ≠ i → y' k = 0 := fun k hk => by
    have := r2 k
    rw [hy00, zero_mul] at this
    refine (mul_eq_zero.1 this).resolve_left fun h => hk (hz ?_)
    rw [← hi]; exact (sub_eq_zero.1 h).symm
  have hyi : y' i = 0 := by
    rw [hy00, mul_zero, zero_sub, neg_eq_zero, hyP, Matrix.dotProduct_mulVec, dotProduct, Finset.sum_eq_single i] at r0
    · exact (mul_eq_zero.1 r0).resolve_left (hw i)
    · intro k _ hk; rw [hyk k hk, mul_zero]
    · intro h; exact absurd (mem_univ i) h
  have hy'0 : y' = 0 := by
    funext k
    by_cases hk : k = i
    · rw [hk, hyi]; rfl
    · rw [hyk k hk]; rfl
  apply hy0
  funext k
  induction k using Fin.cases with
  | zero => exact hy00
  | succ k => have := congrFun hyP k; rw [hy'0, Matrix.mulVec_zero] at this; exact this

theorem ae_generic {C : Matrix (Fin n) (Fin n) ℂ} (h : Function.Injective (evs C)) :
    ∀ᵐ w : Fin n → ℂ, ∀ᵐ c : Fin n → ℂ, ∀ a t : ℂ,
      (t • (1 : Matrix (Fin (n + 1)) (Fin (n + 1)) ℂ) - bord a w c C).det = 0 → (t • 1 - C).det ≠ 0 := by
  obtain ⟨P, hP, hCP⟩ := exists_diag h
  have hu : IsUnit P.det := isUnit_iff_ne_zero.2 hP
  have h1 : ∀ᵐ w : Fin n → ℂ, ∀ i, (w ᵥ* P) i ≠ 0 := by
    rw [ae_all_iff]
    intro i
    have hne : (fun k => P k i) ≠ 0 := fun h0 => hP (Matrix.det_eq_zero_of_column_eq_zero i fun k => congrFun h0 k)
    filter_upwards [hyperC_null hne] with w hw
    rwa [dotProduct_comm] at hw
  have h2 : ∀ᵐ c : Fin n → ℂ, ∀ i, (P⁻¹ *ᵥ c) i ≠ 0 := by
    rw [ae_all_iff]
    intro i
    have hne : P⁻¹ i ≠ 0 := fun h0 => by
      have : P⁻¹.det = 0 := Matrix.det_eq_zero_of_row_eq_zero i fun k => congrFun h0 k
      rw [Matrix.det_nonsing_inv, Ring.inverse_eq_inv'] at this
      exact inv_ne_zero hP this
    exact hyperC_null hne
  filter_upwards [h1] with w hw
  filter_upwards [h2] with c hc
  exact fun a t h0 => generic_border h hP hCP hw hc a t h0

end Verif.Lemmas
