import Verif.Lemmas.ChiSquare
import Verif.Model.RandProg
import Mathlib.Probability.Distributions.Gaussian.Multivariate
import Mathlib.Analysis.InnerProductSpace.PiL2
import Mathlib.LinearAlgebra.UnitaryGroup

/-!
# Gaussian vectors: real and complex, invariance by rotation
-/

namespace Verif.Lemmas
open Finset Matrix MeasureTheory ProbabilityTheory Verif.Model

local notation "g₀" => gaussianReal 0 1

/-! ### Real vectors -/

/-- a linear map that preserves the Euclidean norm preserves the law of the standard Gaussian vector -/
theorem gauss_iso {ι : Type} [Fintype ι] (T : (ι → ℝ) →ₗ[ℝ] (ι → ℝ)) (hT : ∀ x, ∑ i, (T x i) ^ 2 = ∑ i, x i ^ 2) :
    (Measure.pi fun _ : ι => g₀).map T = Measure.pi fun _ : ι => g₀ := by
  let li : EuclideanSpace ℝ ι →ₗᵢ[ℝ] EuclideanSpace ℝ ι :=
    { toFun := fun x => WithLp.toLp 2 (T (WithLp.ofLp x))
      map_add' := fun x y => by simp
      map_smul' := fun c x => by simp
      norm_map' := fun x => by
        rw [← sq_eq_sq₀ (norm_nonneg _) (norm_nonneg _), EuclideanSpace.real_norm_sq_eq, EuclideanSpace.real_norm_sq_eq]
        exact hT _ }
  let e := li.toLinearIsometryEquiv rfl
  have hTm : Measurable T := by
    have : Continuous T := T.continuous_of_finiteDimensional
    exact this.measurable
  have h := stdGaussian_map e
  rw [← map_pi_eq_stdGaussian, Measure.map_map (by fun_prop) (by fun_prop)] at h
  have h2 := congrArg (Measure.map (WithLp.ofLp : EuclideanSpace ℝ ι → ι → ℝ)) h
  rw [Measure.map_map (by fun_prop) (by fun_prop), Measure.map_map (by fun_prop) (by fun_prop)] at h2
  have e1 : (WithLp.ofLp : EuclideanSpace ℝ ι → ι → ℝ) ∘ (e ∘ WithLp.toLp 2) = T := by
    funext x; rfl
  have e2 : (WithLp.ofLp : EuclideanSpace ℝ ι → ι → ℝ) ∘ WithLp.toLp 2 = id := by funext x; rfl
  rw [e1, e2, Measure.map_id] at h2
  exact h2

theorem sum_sq_orth {ι : Type} [Fintype ι] [DecidableEq ι] {O : Matrix ι ι ℝ} (hO : Oᵀ * O = 1) (x : ι → ℝ) :
    ∑ i, (O *ᵥ x) i ^ 2 = ∑ i, x i ^ 2 := by
  have h : ∀ y : ι → ℝ, ∑ i, y i ^ 2 = y ⬝ᵥ y := fun y => by simp [dotProduct, sq]
  rw [h, h, Matrix.dotProduct_mulVec, Matrix.vecMul_mulVec, hO, Matrix.vecMul_one]

/-- rotation invariance of the standard Gaussian vector -/
theorem gauss_orth {ι : Type} [Fintype ι] [DecidableEq ι] {O : Matrix ι ι ℝ} (hO : Oᵀ * O = 1) :
    (Measure.pi fun _ : ι => g₀).map (fun x => O *ᵥ x) = Measure.pi fun _ : ι => g₀ :=
  gauss_iso O.mulVecLin (sum_sq_orth hO)

/-- a family indexed by pairs, seen as a family of families -/
theorem pi_uncurry {ι κ α : Type} [Fintype ι] [Fintype κ] [MeasurableSpace α] (γ : Measure α) [IsProbabilityMeasure γ] :
    (Measure.pi fun _ : ι => Measure.pi fun _ : κ => γ).map (fun x (p : ι × κ) => x p.1 p.2) = Measure.pi fun _ : ι × κ => γ := by
  symm
  refine Measure.pi_eq fun s hs => ?_
  rw [Measure.map_apply (by fun_prop) (MeasurableSet.univ_pi hs)]
  have e : (fun x (p : ι × κ) => x p.1 p.2) ⁻¹' (Set.pi Set.univ s)
      = Set.pi Set.univ fun i => Set.pi Set.univ fun j => s (i, j) := by
    ext x
    simp only [Set.mem_preimage, Set.mem_pi, Set.mem_univ, true_implies, Prod.forall]
  rw [e, Measure.pi_pi, Fintype.prod_prod_type]
  exact prod_congr rfl fun i _ => Measure.pi_pi _ _

/-- an operation on pairs applied entry by entry -/
theorem pi_pair {ι α δ : Type} [Fintype ι] [MeasurableSpace α] [MeasurableSpace δ] {γ : Measure α} [IsProbabilityMeasure γ]
    {γ' : Measure δ} [IsProbabilityMeasure γ'] (f : ι → α × α → δ) (hf : ∀ i, Measurable (f i)) (h : ∀ i, (γ.prod γ).map (f i) = γ') :
    ((Measure.pi fun _ : ι => γ).prod (Measure.pi fun _ : ι => γ)).map (fun p i => f i (p.1 i, p.2 i)) = Measure.pi fun _ : ι => γ' := by
  have h1 := measurePreserving_arrowProdEquivProdArrow α α ι (fun _ => γ) (fun _ => γ)
  rw [← h1.map_eq, Measure.map_map (by fun_prop) (MeasurableEquiv.measurable _)]
  have h2 : ∀ i, IsProbabilityMeasure ((γ.prod γ).map (f i)) := fun i => by rw [h i]; infer_instance
  have h3 := Measure.pi_map_pi (μ := fun _ : ι => γ.prod γ) (f := f) (fun i => (hf i).aemeasurable)
  rw [show (fun i => (γ.prod γ).map (f i)) = fun _ => γ' from funext h] at h3
  rw [← h3]
  rfl

/-- squared norm, any index type -/
theorem chi_square_ι {ι : Type} [Fintype ι] {d : ℕ} (hd : 1 ≤ d) (e : Fin d ≃ ι) :
    (Measure.pi fun _ : ι => g₀).map (fun x => ∑ i, x i ^ 2) = gammaMeasure ((d : ℝ) / 2) (1 / 2) := by
  rw [← chi_square hd]
  have h := measurePreserving_piCongrLeft (fun _ : ι => g₀) e
  rw [← h.map_eq, Measure.map_map (by fun_prop) h.measurable]
  congr 1
  funext x
  simp only [Function.comp_apply]
  rw [← Equiv.sum_comp e]
  refine sum_congr rfl fun i _ => ?_
  rw [MeasurableEquiv.piCongrLeft, MeasurableEquiv.coe_mk, Equiv.piCongrLeft_apply_apply]

/-! ### Vectors with complex entries -/

/-- `x ↦ U x` keeps the law of a vector with independent entries of law `γ` -/
def Pres (γ : Measure ℂ) {n : ℕ} (U : Matrix (Fin n) (Fin n) ℂ) : Prop :=
  (Measure.pi fun _ : Fin n => γ).map (fun x => U *ᵥ x) = Measure.pi fun _ : Fin n => γ

/-- what is used of the law of the entries of a Gaussian matrix -/
structure GaussOK (γ : Measure ℂ) (beta : ℝ) : Prop where
  prob : IsProbabilityMeasure γ
  rot : ∀ n : ℕ, ∀ᵐ v ∂(Measure.pi fun _ : Fin (n + 1) => γ), ∃ U : Matrix (Fin (n + 1)) (Fin (n + 1)) ℂ,
    U ∈ unitaryGroup (Fin (n + 1)) ℂ ∧ U *ᵥ (Pi.single 0 ((√(∑ i, Complex.normSq (v i)) : ℝ) : ℂ)) = v ∧ Pres γ Uᴴ ∧ Pres γ Uᵀ
  sym : (γ.prod γ).map (fun p => (p.1 + (starRingEnd ℂ) p.2) / ((√2 : ℝ) : ℂ)) = γ
  norm : ∀ n : ℕ, (Measure.pi fun _ : Fin n => γ).map (fun x => ∑ i, Complex.normSq (x i)) = RP.gammaLaw (beta / 2 * n) 2
  diag : γ.map (fun z => √2 * z.re) = gaussianReal 0 (Real.toNNReal 2)

/-- a unitary matrix with a given first column -/
theorem exists_unitary {𝕜 : Type} [RCLike 𝕜] {n : ℕ} (v : Fin (n + 1) → 𝕜) : ∃ U : Matrix (Fin (n + 1)) (Fin (n + 1)) 𝕜,
    Uᴴ * U = 1 ∧ U *ᵥ (Pi.single 0 ((√(∑ i, ‖v i‖ ^ 2) : ℝ) : 𝕜)) = v := by
  set w : EuclideanSpace 𝕜 (Fin (n + 1)) := WithLp.toLp 2 v with hw
  have hn : √(∑ i, ‖v i‖ ^ 2) = ‖w‖ := by rw [EuclideanSpace.norm_eq]
  rw [hn]
  by_cases h0 : w = 0
  · refine ⟨1, by simp, ?_⟩
    rw [h0, norm_zero]
    have : v = 0 := by
      have h1 := congrArg (WithLp.ofLp) h0
      simpa [hw] using h1
    simp [this]
  · have hn0 : ‖w‖ ≠ 0 := norm_ne_zero_iff.2 h0
    set u : Fin (n + 1) → EuclideanSpace 𝕜 (Fin (n + 1)) := fun _ => ((‖w‖⁻¹ : ℝ) : 𝕜) • w with hu
    have ho : Orthonormal 𝕜 (({0} : Set (Fin (n + 1))).domRestrict u) := by
      rw [orthonormal_iff_ite]
      rintro ⟨i, hi⟩ ⟨j, hj⟩
      have hi' : i = 0 := hi
      have hj' : j = 0 := hj
      subst hi' hj'
      change inner 𝕜 (u 0) (u 0) = if _ then _ else _
      rw [if_pos rfl, hu, inner_self_eq_norm_sq_to_K, norm_smul]
      simp [hn0]
    obtain ⟨b, hb⟩ := ho.exists_orthonormalBasis_extension_of_card_eq (by simp)
    refine ⟨Matrix.of fun i j => b j i, ?_, ?_⟩
    · ext i j
      rw [Matrix.mul_apply]
      have h1 := orthonormal_iff_ite.1 b.orthonormal i j
      rw [PiLp.inner_apply] at h1
      simp only [Matrix.conjTranspose_apply, Matrix.of_apply, Matrix.one_apply]
      rw [← h1]
      exact sum_congr rfl fun k _ => by simp [mul_comm]
    · funext i
      have h1 := hb 0 rfl
      simp only [Matrix.mulVec_single, Matrix.of_apply, MulOpposite.smul_eq_mul_unop, MulOpposite.unop_op, Pi.smul_apply, Matrix.col_apply]
      rw [h1]
      simp only [hu, PiLp.smul_apply, smul_eq_mul]
      have : ((‖w‖⁻¹ : ℝ) : 𝕜) * w i * ((‖w‖ : ℝ) : 𝕜) = w i := by
        rw [mul_comm, ← mul_assoc, ← RCLike.ofReal_mul, mul_inv_cancel₀ hn0, RCLike.ofReal_one, one_mul]
      rw [this]

/-! ### Real entries -/

/-- law of `rng.randn()`, as a complex number -/
noncomputable def gam1 : Measure ℂ := (g₀).map (fun x : ℝ => (x : ℂ))

theorem prob_gam1 : IsProbabilityMeasure gam1 := Measure.isProbabilityMeasure_map (by fun_prop)

theorem pi_gam1 (n : ℕ) : (Measure.pi fun _ : Fin n => gam1) = (Measure.pi fun _ : Fin n => g₀).map (fun x i => ((x i : ℝ) : ℂ)) := by
  have := prob_gam1
  have h : ∀ _ : Fin n, SigmaFinite ((g₀).map (fun x : ℝ => (x : ℂ))) := fun _ => (inferInstance : SigmaFinite gam1)
  exact (Measure.pi_map_pi (μ := fun _ : Fin n => g₀) (f := fun _ x => ((x : ℝ) : ℂ)) (fun _ => by fun_prop)).symm

theorem measurable_mulVec {m n : ℕ} (U : Matrix (Fin m) (Fin n) ℂ) : Measurable fun x : Fin n → ℂ => U *ᵥ x := by
  refine measurable_pi_lambda _ fun i => ?_
  simp only [Matrix.mulVec, dotProduct]
  fun_prop

theorem pres_gam1 {n : ℕ} {O : Matrix (Fin n) (Fin n) ℝ} (hO : Oᵀ * O = 1) : Pres gam1 (O.map (fun x : ℝ => (x : ℂ))) := by
  have hc : Measurable (fun (x : Fin n → ℝ) i => ((x i : ℝ) : ℂ)) := by fun_prop
  have hm : Measurable fun x : Fin n → ℝ => O *ᵥ x := by
    refine measurable_pi_lambda _ fun i => ?_
    simp only [Matrix.mulVec, dotProduct]
    fun_prop
  rw [Pres, pi_gam1, Measure.map_map (measurable_mulVec _) hc]
  have e : (fun x : Fin n → ℂ => O.map (fun x : ℝ => (x : ℂ)) *ᵥ x) ∘ (fun (x : Fin n → ℝ) i => ((x i : ℝ) : ℂ))
      = (fun (x : Fin n → ℝ) i => ((x i : ℝ) : ℂ)) ∘ fun x => O *ᵥ x := by
    funext x i
    simp [Matrix.mulVec, dotProduct]
  rw [e, ← Measure.map_map hc hm, gauss_orth hO]

theorem gauss_add : ((g₀).prod g₀).map (fun p : ℝ × ℝ => (p.1 + p.2) / √2) = g₀ := by
  have h := gaussianReal_conv_gaussianReal (m₁ := 0) (m₂ := 0) (v₁ := 1) (v₂ := 1)
  rw [Measure.conv] at h
  have h2 := congrArg (Measure.map fun x : ℝ => x / √2) h
  rw [Measure.map_map (by fun_prop) (by fun_prop), gaussianReal_map_div_const] at h2
  have e : (fun x : ℝ => x / √2) ∘ (fun p : ℝ × ℝ => p.1 + p.2) = fun p => (p.1 + p.2) / √2 := rfl
  rw [e] at h2
  rw [h2]
  congr 1
  · simp
  · have : (1 : NNReal) + 1 = 2 := by norm_num
    ext; simp [this]

theorem gauss_sub : ((g₀).prod g₀).map (fun p : ℝ × ℝ => (p.1 - p.2) / √2) = g₀ := by
  have h : MeasurePreserving (fun x : ℝ => -x) g₀ g₀ := ⟨measurable_neg, by rw [gaussianReal_map_neg, neg_zero]⟩
  have h2 := (MeasurePreserving.id g₀).prod h
  have h3 := gauss_add
  nth_rw 1 [← h2.map_eq] at h3
  rw [Measure.map_map (by fun_prop) h2.measurable] at h3
  refine Eq.trans ?_ h3
  congr 1

theorem diag_gauss : (g₀).map (fun x => √2 * x) = gaussianReal 0 (Real.toNNReal 2) := by
  rw [gaussianReal_map_const_mul]
  congr 1
  · simp
  · ext; simp

theorem measurable_sumNormSq (n : ℕ) : Measurable fun x : Fin n → ℂ => ∑ i, Complex.normSq (x i) := by
  refine Finset.measurable_sum _ fun i _ => ?_
  exact Complex.continuous_normSq.measurable.comp (measurable_pi_apply i)

theorem gaussOK_one : GaussOK gam1 1 where
  prob := prob_gam1
  rot n := by
    have hre : ∀ᵐ v ∂(Measure.pi fun _ : Fin (n + 1) => gam1), ∀ i, (v i).im = 0 := by
      rw [pi_gam1]
      have hm : Measurable (fun (x : Fin (n + 1) → ℝ) i => ((x i : ℝ) : ℂ)) := by fun_prop
      refine (ae_map_iff hm.aemeasurable ?_).2 (Filter.Eventually.of_forall fun x => ?_)
      · have : {x : Fin (n + 1) → ℂ | ∀ i, (x i).im = 0} = ⋂ i, {x | (x i).im = 0} := by ext; simp
        rw [this]
        refine MeasurableSet.iInter fun i => ?_
        exact measurableSet_eq_fun (by fun_prop) measurable_const
      · intro i
        simp
    filter_upwards [hre] with v hv
    obtain ⟨O, hO, hOv⟩ := exists_unitary (fun i => (v i).re)
    rw [Matrix.conjTranspose_eq_transpose_of_trivial] at hO
    have hO' : O * Oᵀ = 1 := mul_eq_one_comm.1 hO
    have hc : (O.map (fun x : ℝ => (x : ℂ)))ᴴ = Oᵀ.map (fun x : ℝ => (x : ℂ)) := by
      ext i j; simp
    have hv2 : ∀ i, (((v i).re : ℝ) : ℂ) = v i := fun i => Complex.ext (by simp) (by simp [hv i])
    refine ⟨O.map (fun x : ℝ => (x : ℂ)), ?_, ?_, ?_, ?_⟩
    · rw [mem_unitaryGroup_iff', star_eq_conjTranspose, hc]
      have : (Oᵀ * O).map (fun x : ℝ => (x : ℂ)) = 1 := by rw [hO]; ext i j; simp [Matrix.one_apply, apply_ite]
      rw [← this]
      ext i j
      simp [Matrix.mul_apply]
    · funext i
      have h1 := congrFun hOv i
      rw [← hv2 i, ← h1]
      simp only [Matrix.mulVec_single, Matrix.map_apply, MulOpposite.smul_eq_mul_unop, MulOpposite.unop_op, Pi.smul_apply, Matrix.col_apply]
      have h2 : ∑ i, Complex.normSq (v i) = ∑ i, ‖(v i).re‖ ^ 2 := by
        refine sum_congr rfl fun i _ => ?_
        rw [Complex.normSq_apply, hv i, Real.norm_eq_abs, sq_abs]; ring
      rw [h2]
      push_cast
      rfl
    · rw [hc]; exact pres_gam1 (by rw [Matrix.transpose_transpose, hO'])
    · exact pres_gam1 (O := Oᵀ) (by rw [Matrix.transpose_transpose, hO'])
  sym := by
    have := prob_gam1
    have h : gam1.prod gam1 = ((g₀).prod g₀).map (Prod.map (fun x : ℝ => (x : ℂ)) (fun x : ℝ => (x : ℂ))) :=
      Measure.map_prod_map _ _ (by fun_prop) (by fun_prop)
    rw [h, Measure.map_map (by fun_prop) (by fun_prop)]
    have e : (fun p : ℂ × ℂ => (p.1 + (starRingEnd ℂ) p.2) / ((√2 : ℝ) : ℂ)) ∘ (Prod.map (fun x : ℝ => (x : ℂ)) (fun x : ℝ => (x : ℂ)))
        = (fun x : ℝ => (x : ℂ)) ∘ fun p : ℝ × ℝ => (p.1 + p.2) / √2 := by
      funext p
      simp
    rw [e, ← Measure.map_map (by fun_prop) (by fun_prop), gauss_add, gam1]
  norm n := by
    rw [pi_gam1, Measure.map_map (measurable_sumNormSq n) (by fun_prop)]
    have e : (fun x : Fin n → ℂ => ∑ i, Complex.normSq (x i)) ∘ (fun (x : Fin n → ℝ) i => ((x i : ℝ) : ℂ))
        = fun x => ∑ i, x i ^ 2 := by
      funext x; simp [sq]
    rw [e]
    rcases Nat.eq_zero_or_pos n with rfl | hn
    · rw [RP.gammaLaw, if_pos (.inl (by simp))]
      simp
    · have : (0 : ℝ) < n := by exact_mod_cast hn
      rw [RP.gammaLaw, if_neg (by rintro (h | h); exacts [(show (0:ℝ) < 1 / 2 * n by positivity).ne' h, two_ne_zero h]), chi_square hn]
      congr 1; ring
  diag := by
    rw [gam1, Measure.map_map (by fun_prop) (by fun_prop), ← diag_gauss]
    rfl

/-! ### Complex entries -/

/-- the complex number with given coordinates -/
noncomputable def toCx (z : Fin 2 → ℝ) : ℂ := ⟨z 0, z 1⟩

theorem measurable_toCx : Measurable toCx := by
  have h : toCx = fun z => ((z 0 : ℝ) : ℂ) + ((z 1 : ℝ) : ℂ) * Complex.I := by
    funext z; exact Complex.mk_eq_add_mul_I _ _
  rw [h]
  fun_prop

/-- law of `rng.randn() + 1j * rng.randn()` -/
noncomputable def gam2 : Measure ℂ := (Measure.pi fun _ : Fin 2 => g₀).map toCx

theorem prob_gam2 : IsProbabilityMeasure gam2 := Measure.isProbabilityMeasure_map measurable_toCx.aemeasurable

/-- complex vectors from real vectors of twice the size -/
noncomputable def toCxV {n : ℕ} (z : Fin n × Fin 2 → ℝ) (i : Fin n) : ℂ := ⟨z (i, 0), z (i, 1)⟩

theorem measurable_toCxV {n : ℕ} : Measurable (toCxV (n := n)) := by
  refine measurable_pi_lambda _ fun i => ?_
  exact measurable_toCx.comp (f := fun (z : Fin n × Fin 2 → ℝ) (a : Fin 2) => z (i, a)) (by fun_prop)

theorem pi_gam2 (n : ℕ) : (Measure.pi fun _ : Fin n => gam2) = (Measure.pi fun _ : Fin n × Fin 2 => g₀).map toCxV := by
  have := prob_gam2
  have h : ∀ _ : Fin n, SigmaFinite ((Measure.pi fun _ : Fin 2 => g₀).map toCx) := fun _ => (inferInstance : SigmaFinite gam2)
  have h2 := Measure.pi_map_pi (μ := fun _ : Fin n => Measure.pi fun _ : Fin 2 => g₀) (f := fun _ x => toCx x)
    (fun _ => measurable_toCx.aemeasurable)
  rw [← pi_uncurry, Measure.map_map measurable_toCxV (by fun_prop)]
  exact h2.symm

theorem sum_toCxV {n : ℕ} (z : Fin n × Fin 2 → ℝ) : ∑ i, Complex.normSq (toCxV z i) = ∑ p, z p ^ 2 := by
  rw [Fintype.sum_prod_type]
  refine sum_congr rfl fun i _ => ?_
  rw [Fin.sum_univ_two, Complex.normSq_mk]
  simp only [toCxV]
  ring

theorem sum_normSq_unitary {n : ℕ} {U : Matrix (Fin n) (Fin n) ℂ} (hU : Uᴴ * U = 1) (x : Fin n → ℂ) :
    ∑ i, Complex.normSq ((U *ᵥ x) i) = ∑ i, Complex.normSq (x i) := by
  have h : ∀ y : Fin n → ℂ, ((∑ i, Complex.normSq (y i) : ℝ) : ℂ) = star y ⬝ᵥ y := fun y => by
    simp only [dotProduct, Pi.star_apply, Complex.ofReal_sum, Complex.normSq_eq_conj_mul_self]
    rfl
  have h1 : ((∑ i, Complex.normSq ((U *ᵥ x) i) : ℝ) : ℂ) = ((∑ i, Complex.normSq (x i) : ℝ) : ℂ) := by
    rw [h, h, Matrix.star_mulVec, Matrix.dotProduct_mulVec, Matrix.vecMul_vecMul, hU, Matrix.vecMul_one]
  exact_mod_cast h1

/-- a complex matrix acting on pairs of real coordinates -/
noncomputable def realAct {n : ℕ} (U : Matrix (Fin n) (Fin n) ℂ) : (Fin n × Fin 2 → ℝ) →ₗ[ℝ] (Fin n × Fin 2 → ℝ) where
  toFun z p := if p.2 = 0 then ((U *ᵥ toCxV z) p.1).re else ((U *ᵥ toCxV z) p.1).im
  map_add' z w := by
    have h : toCxV (z + w) = toCxV z + toCxV w := by funext i; exact Complex.ext (by simp [toCxV]) (by simp [toCxV])
    funext p
    rw [h, Matrix.mulVec_add]
    by_cases hp : p.2 = 0 <;> simp [hp]
  map_smul' c z := by
    have h : toCxV (c • z) = (c : ℂ) • toCxV z := by funext i; exact Complex.ext (by simp [toCxV]) (by simp [toCxV])
    funext p
    rw [h, Matrix.mulVec_smul]
    by_cases hp : p.2 = 0 <;> simp [hp]

theorem toCxV_realAct {n : ℕ} (U : Matrix (Fin n) (Fin n) ℂ) (z : Fin n × Fin 2 → ℝ) : toCxV (realAct U z) = U *ᵥ toCxV z := by
  funext i
  exact Complex.ext (by simp [toCxV, realAct]) (by simp [toCxV, realAct])

theorem pres_gam2 {n : ℕ} {U : Matrix (Fin n) (Fin n) ℂ} (hU : Uᴴ * U = 1) : Pres gam2 U := by
  have hm : Measurable (realAct U) := ((realAct U).continuous_of_finiteDimensional).measurable
  rw [Pres, pi_gam2, Measure.map_map (measurable_mulVec _) measurable_toCxV]
  have e : (fun x : Fin n → ℂ => U *ᵥ x) ∘ toCxV = toCxV ∘ realAct U := by
    funext z
    exact (toCxV_realAct U z).symm
  rw [e, ← Measure.map_map measurable_toCxV hm, gauss_iso]
  intro x
  rw [← sum_toCxV, ← sum_toCxV, toCxV_realAct, sum_normSq_unitary hU]

theorem gaussOK_two : GaussOK gam2 2 where
  prob := prob_gam2
  rot n := by
    refine Filter.Eventually.of_forall fun v => ?_
    obtain ⟨U, hU, hv⟩ := exists_unitary v
    have hU' : U * Uᴴ = 1 := mul_eq_one_comm.1 hU
    refine ⟨U, ?_, ?_, ?_, ?_⟩
    · rw [mem_unitaryGroup_iff', star_eq_conjTranspose, hU]
    · simp only [Complex.normSq_eq_norm_sq]
      exact hv
    · exact pres_gam2 (by rw [Matrix.conjTranspose_conjTranspose, hU'])
    · refine pres_gam2 ?_
      have : (Uᵀ)ᴴ * Uᵀ = (U * Uᴴ)ᵀ := by
        rw [Matrix.transpose_mul]; rfl
      rw [this, hU', Matrix.transpose_one]
  sym := by
    have := prob_gam2
    have h : gam2.prod gam2 = ((Measure.pi fun _ : Fin 2 => g₀).prod (Measure.pi fun _ : Fin 2 => g₀)).map (Prod.map toCx toCx) :=
      Measure.map_prod_map _ _ measurable_toCx measurable_toCx
    have hc := measurable_toCx
    have hm : Measurable (fun p : ℂ × ℂ => (p.1 + (starRingEnd ℂ) p.2) / ((√2 : ℝ) : ℂ)) := by
      fun_prop
    rw [h, Measure.map_map hm (by fun_prop)]
    have hp := pi_pair (γ := g₀) (γ' := g₀) (fun i : Fin 2 => if i = 0 then fun p : ℝ × ℝ => (p.1 + p.2) / √2 else fun p => (p.1 - p.2) / √2)
      (fun i => by by_cases hi : i = 0 <;> simp only [hi, if_true, if_false] <;> fun_prop)
      (fun i => by by_cases hi : i = 0 <;> simp only [hi, if_true, if_false]; exacts [gauss_add, gauss_sub])
    rw [gam2]
    conv_rhs => rw [← hp]
    rw [Measure.map_map hc (by
      refine measurable_pi_lambda _ fun i => ?_
      by_cases hi : i = 0 <;> simp only [hi, if_true, if_false] <;> fun_prop)]
    congr 1
    funext p
    simp only [Function.comp_apply, Prod.map, toCx]
    refine Complex.ext ?_ ?_
    · rw [Complex.div_ofReal_re]; simp
    · rw [Complex.div_ofReal_im]; simp [sub_eq_add_neg]
  norm n := by
    rw [pi_gam2, Measure.map_map (measurable_sumNormSq n) measurable_toCxV]
    have e : (fun x : Fin n → ℂ => ∑ i, Complex.normSq (x i)) ∘ toCxV = fun z => ∑ p, z p ^ 2 := funext sum_toCxV
    rw [e]
    rcases Nat.eq_zero_or_pos n with rfl | hn
    · rw [RP.gammaLaw, if_pos (.inl (by simp))]
      simp
    · have : (0 : ℝ) < n := by exact_mod_cast hn
      rw [RP.gammaLaw, if_neg (by rintro (h | h); exacts [(show (0:ℝ) < 2 / 2 * n by positivity).ne' h, two_ne_zero h]),
        chi_square_ι (show 1 ≤ n * 2 by omega) finProdFinEquiv.symm]
      congr 1
      push_cast
      ring
  diag := by
    rw [gam2, Measure.map_map (by fun_prop) measurable_toCx, ← diag_gauss]
    have h := measurePreserving_eval (fun _ : Fin 2 => g₀) 0
    conv_rhs => rw [← h.map_eq]
    rw [Measure.map_map (by fun_prop) h.measurable]
    rfl

end Verif.Lemmas
