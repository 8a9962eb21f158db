import Verif.Lemmas.Haar3

/-!
# Real and complex Gaussian entries
-/

namespace Verif.Lemmas
open Finset Matrix MeasureTheory ProbabilityTheory Verif.Model

local notation "g₀" => gaussianReal 0 1

theorem mem_realK {z : ℂ} : z ∈ (⊥ : StarSubalgebra ℝ ℂ) ↔ z.im = 0 := by
  rw [StarSubalgebra.mem_bot]
  constructor
  · rintro ⟨r, rfl⟩; simp
  · intro h
    exact ⟨z.re, Complex.ext (by simp) (by simp [h])⟩

theorem gauss_ne_zero : ∀ᵐ x ∂(g₀), x ≠ 0 := by
  have := noAtoms_gaussianReal (μ := 0) (v := 1) one_ne_zero
  have h : (g₀) {(0 : ℝ)} = 0 := measure_singleton 0
  rw [ae_iff]
  convert h using 2
  ext x; simp

theorem gaussK_one : GaussK gam1 ⊥ 1 where
  ok := gaussOK_one
  beta_pos := one_pos
  meas := by
    have : {z : ℂ | z ∈ (⊥ : StarSubalgebra ℝ ℂ)} = {z | z.im = 0} := by ext z; exact mem_realK
    rw [this]
    exact measurableSet_eq_fun Complex.measurable_im measurable_const
  nz := by
    have hm : Measurable fun x : ℝ => (x : ℂ) := by fun_prop
    refine (ae_map_iff hm.aemeasurable (measurableSet_singleton (0 : ℂ)).compl).2 ?_
    filter_upwards [gauss_ne_zero] with x hx
    simpa using hx
  pres n U hU := by
    have e : U = (U.map Complex.re).map (fun x : ℝ => (x : ℂ)) := by
      ext i j
      rw [Matrix.map_apply, Matrix.map_apply]
      exact Complex.ext (by simp) (by simpa using mem_realK.1 (hU.mem i j))
    rw [e]
    refine pres_gam1 ?_
    have h := hU.conj_mul
    ext i j
    have h2 := congrArg Complex.re (congrFun (congrFun h i) j)
    rw [Matrix.mul_apply, Complex.re_sum] at h2
    rw [Matrix.mul_apply]
    convert h2 using 1
    · refine sum_congr rfl fun k _ => ?_
      have := mem_realK.1 (hU.mem k i)
      simp [Complex.mul_re, this]
    · simp only [Matrix.one_apply]
      split_ifs <;> simp
  rot n := by
    have hre : ∀ᵐ v ∂(Measure.pi fun _ : Fin (n + 1) => gam1), ∀ i, (v i).im = 0 := by
      rw [pi_gam1]
      have hm : Measurable (fun (x : Fin (n + 1) → ℝ) i => ((x i : ℝ) : ℂ)) := by fun_prop
      refine (ae_map_iff hm.aemeasurable ?_).2 (Filter.Eventually.of_forall fun x => ?_)
      · have : {x : Fin (n + 1) → ℂ | ∀ i, (x i).im = 0} = ⋂ i, {x | (x i).im = 0} := by ext; simp
        rw [this]
        refine MeasurableSet.iInter fun i => ?_
        exact measurableSet_eq_fun (by fun_prop) measurable_const
      · intro i
        simp
    filter_upwards [hre] with v hv
    obtain ⟨O, hO, hOv⟩ := exists_unitary (fun i => (v i).re)
    rw [Matrix.conjTranspose_eq_transpose_of_trivial] at hO
    have hc : (O.map (fun x : ℝ => (x : ℂ)))ᴴ = Oᵀ.map (fun x : ℝ => (x : ℂ)) := by
      ext i j; simp
    have hv2 : ∀ i, (((v i).re : ℝ) : ℂ) = v i := fun i => Complex.ext (by simp) (by simp [hv i])
    refine ⟨O.map (fun x : ℝ => (x : ℂ)), ⟨?_, fun i j => mem_realK.2 (by simp)⟩, ?_⟩
    · rw [mem_unitaryGroup_iff', star_eq_conjTranspose, hc]
      have : (Oᵀ * O).map (fun x : ℝ => (x : ℂ)) = 1 := by rw [hO]; ext i j; simp [Matrix.one_apply, apply_ite]
      rw [← this]
      ext i j
      simp [Matrix.mul_apply]
    · funext i
      have h1 := congrFun hOv i
      rw [← hv2 i, ← h1]
      simp only [Matrix.mulVec_single, Matrix.map_apply, MulOpposite.smul_eq_mul_unop, MulOpposite.unop_op, Pi.smul_apply, Matrix.col_apply]
      have h2 : ∑ i, Complex.normSq (v i) = ∑ i, ‖(v i).re‖ ^ 2 := by
        refine sum_congr rfl fun i _ => ?_
        rw [Complex.normSq_apply, hv i, Real.norm_eq_abs, sq_abs]; ring
      rw [h2]
      push_cast
      rfl

theorem gaussK_two : GaussK gam2 ⊤ 2 where
  ok := gaussOK_two
  beta_pos := two_pos
  meas := by
    have : {z : ℂ | z ∈ (⊤ : StarSubalgebra ℝ ℂ)} = Set.univ := by ext z; simp
    rw [this]
    exact MeasurableSet.univ
  nz := by
    refine (ae_map_iff measurable_toCx.aemeasurable (measurableSet_singleton (0 : ℂ)).compl).2 ?_
    have hp := measurePreserving_eval (fun _ : Fin 2 => g₀) 0
    have h0 := gauss_ne_zero
    rw [← hp.map_eq] at h0
    filter_upwards [ae_of_ae_map hp.measurable.aemeasurable h0] with x hx h
    exact hx (by simpa [toCx] using congrArg Complex.re h)
  pres n U hU := pres_gam2 hU.conj_mul
  rot n := by
    refine Filter.Eventually.of_forall fun v => ?_
    obtain ⟨U, hU, hv⟩ := exists_unitary v
    refine ⟨U, ⟨?_, fun i j => by simp⟩, ?_⟩
    · rw [mem_unitaryGroup_iff', star_eq_conjTranspose, hU]
    · simp only [Complex.normSq_eq_norm_sq]
      exact hv

end Verif.Lemmas
