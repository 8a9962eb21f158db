import Verif.Lemmas.Gin6
import Verif.Props.JacobiFull

/-!
# C91: the points of the Ginibre sampler follow the Ginibre ensemble
-/

namespace Verif.Lemmas
open Finset Matrix MeasureTheory ProbabilityTheory Verif.Model Verif.Spec

local notation "g₀" => gaussianReal 0 1

/-- dividing the eigenvalues by `c` gives the eigenvalues of the matrix divided by `c` -/
theorem lexSorted_scaled {la : LA} (hla : LAOK la) {N : ℕ} (A : Matrix (Fin N) (Fin N) ℂ) {c : ℂ} (hc : c ≠ 0) :
    lexSorted N ((la.eigvals A).map (· / c)) = evs (c⁻¹ • A) := by
  have hlen := (eigen_eigvals hla A).1
  rw [Fintype.card_fin] at hlen
  have hlen2 : ((la.eigvals A).map (· / c)).length = N := by rw [List.length_map, hlen]
  refine (evs_of_det (lexSorted_mono hlen2) fun s => ?_).symm
  have h1 := congrArg (Polynomial.eval s) (lexSorted_prod hlen2)
  rw [Polynomial.eval_prod] at h1
  simp only [Polynomial.eval_sub, Polynomial.eval_X, Polynomial.eval_C] at h1
  have h2 := congrArg (Polynomial.eval (c * s)) (hla.eigvals_char A)
  rw [eval_charpolyZ, Polynomial.eval_list_prod, List.map_map] at h2
  rw [h1, Polynomial.eval_list_prod, List.map_map, List.map_map]
  have h3 : (s • (1 : Matrix (Fin N) (Fin N) ℂ) - c⁻¹ • A) = c⁻¹ • ((c * s) • (1 : Matrix (Fin N) (Fin N) ℂ) - A) := by
    rw [smul_sub, smul_smul, inv_mul_cancel_left₀ hc]
  rw [h3, Matrix.det_smul, Fintype.card_fin, ← h2]
  have aux : ∀ l : List ℂ, (l.map ((Polynomial.eval s ∘ fun z => Polynomial.X - Polynomial.C z) ∘ fun x => x / c)).prod
      = c⁻¹ ^ l.length * (l.map (Polynomial.eval (c * s) ∘ fun z => Polynomial.X - Polynomial.C z)).prod := fun l => by
    induction l with
    | nil => simp
    | cons a l ih =>
      simp only [List.map_cons, List.prod_cons, List.length_cons, Function.comp_apply, Polynomial.eval_sub, Polynomial.eval_X, Polynomial.eval_C] at ih ⊢
      rw [ih, pow_succ, show s - a / c = c⁻¹ * (c * s - a) by field_simp]
      ring
  rw [aux, hlen]

theorem gam3_map (N : ℕ) : (Measure.pi fun _ : Fin N × Fin N => gam2).map (fun x p => x p / ((√2 : ℝ) : ℂ)) = Measure.pi fun _ : Fin N × Fin N => gam3 := by
  have h2 := prob_gam2
  have h3 := prob_gam3
  have hs : ∀ _ : Fin N × Fin N, SigmaFinite (gam2.map fun z : ℂ => z / ((√2 : ℝ) : ℂ)) := fun _ => by
    have : IsProbabilityMeasure (gam2.map fun z : ℂ => z / ((√2 : ℝ) : ℂ)) := prob_gam3
    infer_instance
  have hm : ∀ _ : Fin N × Fin N, AEMeasurable (fun z : ℂ => z / ((√2 : ℝ) : ℂ)) gam2 := fun _ => by fun_prop
  exact Measure.pi_map_pi (μ := fun _ : Fin N × Fin N => gam2) (f := fun _ z => z / ((√2 : ℝ) : ℂ)) hm

theorem ginibre_sampler_law {la : LA} (hla : LAOK la) (N : ℕ) :
    ((ginibreSamplerFull la N).map (lexSorted N)).law = (Measure.pi fun _ : Fin N × Fin N => gam3).map (fun x => evs (mat x)) := by
  have hc : ((√2 : ℝ) : ℂ) ≠ 0 := by
    have h2 : (0 : ℝ) < √2 := by positivity
    exact_mod_cast h2.ne'
  have hM := measurable_cplxMat N N
  have hS : Measurable fun (x : Fin N × Fin N → ℂ) (p : Fin N × Fin N) => x p / ((√2 : ℝ) : ℂ) := by fun_prop
  have hE := measurable_evm N
  have hE2 : Measurable fun x : Fin N × Fin N → ℂ => evs (mat fun p => x p / ((√2 : ℝ) : ℂ)) := hE.comp hS
  rw [← gam3_map, Measure.map_map hE hS, ← law_cplxMat]
  rw [show ((fun x => evs (mat x)) ∘ fun (x : Fin N × Fin N → ℂ) (p : Fin N × Fin N) => x p / ((√2 : ℝ) : ℂ))
    = fun x : Fin N × Fin N → ℂ => evs (mat fun p => x p / ((√2 : ℝ) : ℂ)) from rfl, Measure.map_map hE2 hM]
  rw [ginibreSamplerFull]
  simp only [RP.map, RP.law, if_neg (show ¬ (1 : ℝ) < 0 by norm_num), one_pow, Real.toNNReal_one]
  refine bind_two_law _ _ (hE2.comp hM) (Filter.Eventually.of_forall fun p => ?_)
  refine congrArg Measure.dirac ?_
  rw [lexSorted_scaled hla _ hc]
  refine congrArg evs ?_
  ext i j
  simp [mat, unmat, div_eq_inv_mul]

theorem isGinibre_of_smul {N : ℕ} {μ : Measure (Fin N → ℂ)} (hμ : IsProbabilityMeasure μ) {K : ENNReal} (h : μ = K • ginM N) (hK : K ≠ ⊤) : IsGinibre μ := by
  have h0 : K ≠ 0 := fun h0 => by
    have := hμ.measure_univ
    rw [h, h0, zero_smul] at this
    simp at this
  refine ⟨hμ, K.toReal, ENNReal.toReal_pos h0 hK, ?_⟩
  rw [h, ginM, ← withDensity_smul _ (measurable_ginD N)]
  congr 1
  funext z
  rw [Pi.smul_apply, smul_eq_mul, ENNReal.ofReal_mul ENNReal.toReal_nonneg, ENNReal.ofReal_toReal hK]

theorem ginM_ne_zero (N : ℕ) : ginM N Set.univ ≠ 0 := fun h => by
  obtain ⟨K, hK⟩ := gin_law N
  obtain ⟨k, h0, ht, hk⟩ := gam3_pi N
  have hp := prob_gam3
  have h1 : (Measure.pi fun _ : Fin N × Fin N => gam3) Set.univ = 1 := measure_univ
  have h2 := congrArg (fun m => m Set.univ) hK
  simp only [Measure.smul_apply, smul_eq_mul, h, mul_zero] at h2
  rw [Measure.map_apply (measurable_evm N) MeasurableSet.univ, Set.preimage_univ] at h2
  rw [hk, Measure.smul_apply, h2] at h1
  simp at h1

theorem isGinibre_evs (N : ℕ) : IsGinibre ((Measure.pi fun _ : Fin N × Fin N => gam3).map (fun x => evs (mat x))) := by
  obtain ⟨K, hK⟩ := gin_law N
  obtain ⟨k, h0, ht, hk⟩ := gam3_pi N
  have hp := prob_gam3
  have hμ : IsProbabilityMeasure ((Measure.pi fun _ : Fin N × Fin N => gam3).map (fun x => evs (mat x))) :=
    Measure.isProbabilityMeasure_map (measurable_evm N).aemeasurable
  have he : (Measure.pi fun _ : Fin N × Fin N => gam3).map (fun x => evs (mat x)) = (k * K) • ginM N := by
    rw [hk, Measure.map_smul, hK, smul_smul]
  refine isGinibre_of_smul hμ he fun htop => ?_
  have h1 := hμ.measure_univ
  rw [he, htop, Measure.smul_apply, smul_eq_mul, ENNReal.top_mul (ginM_ne_zero N)] at h1
  exact ENNReal.top_ne_one h1

end Verif.Lemmas

namespace Verif.Props
open Finset MeasureTheory ProbabilityTheory Verif.Model Verif.Spec Verif.Lemmas

/-- **C91**. For every `N` the points returned by `ginibre_sampler_full(N)`, in lexicographic order, follow the Ginibre ensemble:
joint density proportional to `∏_{i<j} |z_i - z_j|^2 ∏_i exp(-|z_i|^2)`. -/
theorem C91_ginibre_law {la : LA} (hla : LAOK la) (N : ℕ) : IsGinibre ((ginibreSamplerFull la N).map (lexSorted N)).law := by
  rw [ginibre_sampler_law hla N]
  exact isGinibre_evs N

/-- **C91**. Consequence: with probability one the points are pairwise distinct and there are `N` of them. -/
theorem C91_ginibre_distinct {la : LA} (hla : LAOK la) (N : ℕ) :
    ∀ᵐ z ∂((ginibreSamplerFull la N).map (lexSorted N)).law, Function.Injective z := by
  obtain ⟨_, K, _, h⟩ := C91_ginibre_law hla N
  rw [h]
  refine (withDensity_absolutelyContinuous _ _).ae_le ?_
  filter_upwards [ae_restrict_mem (measurableSet_lexStrict N)] with z hz
  exact fun i j hij => hz.injective (congrArg lexKey hij)

/-- **C91** for `GinibreEnsemble(beta).sample_full_model(size_N)`: whatever calls were made before on the object. -/
theorem C91_ginibre_method {la : LA} (hla : LAOK la) {st : EnsSt} (hk : st.kind = .ginibre) (N M1 M2 : ℕ) (h : Haar) :
    ∃ st' p, ensPrep la st (.full N M1 M2 h) = some (st', p) ∧ IsGinibre (p.map (lexSorted N)).law :=
  ⟨_, _, by simp only [ensPrep, hk]; rfl, C91_ginibre_law hla N⟩

/-- the hypotheses can be met: an exact solver exists, and the constructor of the class gives such an object -/
example : ∃ la : LA, LAOK la ∧ ∃ st, ensInit .ginibre (.int 2) = .ok st ∧ ∃ st' p, ensPrep la st (.full 3 0 0 .hermite) = some (st', p) ∧
    IsGinibre (p.map (lexSorted 3)).law := by
  obtain ⟨la, hla⟩ := exists_LAOK
  refine ⟨la, hla, ensNew .ginibre (.int 2), ?_, C91_ginibre_method hla rfl 3 0 0 _⟩
  have : ¬ (BetaVal.int 2).val ≠ 2 := by simp [BetaVal.val]
  simp [ensInit, ensInitBase, BetaVal.val]

end Verif.Props
