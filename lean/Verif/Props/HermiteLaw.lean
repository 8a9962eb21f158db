import Verif.Lemmas.JacHermite2
import Verif.Lemmas.LAExists
import Verif.Spec.Ensemble
import Mathlib.Data.List.GetD

/-!
# C79: the banded Hermite model has the law of the Hermite beta ensemble
-/

namespace Verif.Lemmas
open Finset MeasureTheory ProbabilityTheory Verif.Model Verif.Spec

theorem ensemble_of_vdm {N : ℕ} {beta : ℝ} {weight : ℝ → ℝ} {l : Fin N → ℝ} (hl : StrictMono l) :
    vdm l ^ beta * ∏ i, weight (l i) = ensembleDensity beta weight l := by
  rw [ensembleDensity, vdm, ← Real.finset_prod_rpow _ _ (fun i _ => prod_nonneg fun j hj => (sub_pos.2 (hl (mem_Ioi.1 hj))).le)]
  congr 1
  refine prod_congr rfl fun i _ => ?_
  rw [← Real.finset_prod_rpow _ _ (fun j hj => (sub_pos.2 (hl (mem_Ioi.1 hj))).le)]
  refine prod_congr rfl fun j hj => ?_
  rw [abs_sub_comm, abs_of_pos (sub_pos.2 (hl (mem_Ioi.1 hj)))]

theorem isBetaEnsemble_of {N : ℕ} {beta c : ℝ} {weight : ℝ → ℝ} (hc : 0 < c) (hw : ∀ x, 0 ≤ weight x) {μ : Measure (Fin N → ℝ)}
    (hp : IsProbabilityMeasure μ) {K : ℝ} (hK : 0 < K)
    (h : μ = (volume.restrict (ordS N)).withDensity fun l => ENNReal.ofReal K * (ENNReal.ofReal (vdm l ^ beta)
      * ENNReal.ofReal (c * ∏ i, weight (l i)))) : IsBetaEnsemble μ beta weight := by
  refine ⟨hp, K * c, mul_pos hK hc, ?_⟩
  rw [h]
  refine withDensity_congr_ae ?_
  refine (ae_restrict_iff' measurableSet_ordS).2 (Filter.Eventually.of_forall fun l hl => ?_)
  have hv := (Real.rpow_pos_of_pos (vdm_pos hl) beta).le
  beta_reduce
  rw [← ENNReal.ofReal_mul hv, ← ENNReal.ofReal_mul hK.le, ← ensemble_of_vdm hl]
  congr 1
  ring

theorem toVec_ofFn {N : ℕ} (f : Fin N → ℝ) : toVec N (List.ofFn f) = f := by
  funext i
  rw [toVec, List.getD_eq_getElem _ _ (by simp)]
  simp

end Verif.Lemmas

namespace Verif.Props
open Finset MeasureTheory ProbabilityTheory Verif.Model Verif.Spec Verif.Lemmas

/-- **C79**. The points returned by the banded Hermite model with parameters `loc`, `scale`, `beta` follow the beta ensemble with
reference measure `N(loc, scale^2)`, for every size and every real `beta > 0`. -/
theorem C79_hermite_banded_law {la : LA} (hla : LAOK la) (loc : ℝ) {scale beta : ℝ} (hs : 0 < scale) (hb : 0 < beta) {N : ℕ}
    (hN : 1 ≤ N) :
    IsBetaEnsemble ((normalTridiag la loc scale beta N).map (toVec N)).law beta
      (fun x => Real.exp (-(x - loc) ^ 2 / (2 * scale ^ 2))) := by
  obtain ⟨n, rfl⟩ : ∃ n, N = n + 1 := ⟨N - 1, by omega⟩
  have hs2 : 0 < scale ^ 2 := by positivity
  set v : NNReal := Real.toNNReal (scale ^ 2) with hv
  have hv0 : v ≠ 0 := by rw [hv]; exact (Real.toNNReal_pos.2 hs2).ne'
  have hvc : (v : ℝ) = scale ^ 2 := Real.coe_toNNReal _ hs2.le
  set sh : Fin n → ℝ := fun i => 0.5 * beta * (((n + 1 : ℕ) : ℝ) - 1 - (i : ℕ)) with hsh
  have hshe : ∀ i : Fin n, sh i = beta / 2 * ((n : ℝ) - i) := fun i => by rw [hsh]; push_cast; ring
  have hshpos : ∀ i, 0 < sh i := fun i => by
    rw [hshe]
    have : (i : ℝ) < n := by exact_mod_cast i.2
    have : (0 : ℝ) < n - i := by linarith
    positivity
  have hr : 0 < 1 / scale ^ 2 := by positivity
  set μ : Measure (Fin (n + 1) → ℝ) := Measure.pi fun _ => gaussianReal loc v with hμ
  set ν : Fin n → Measure ℝ := fun i => gammaMeasure (sh i) (1 / scale ^ 2) with hν
  have : ∀ i, IsProbabilityMeasure (ν i) := fun i => isProbabilityMeasure_gammaMeasure (hshpos i) hr
  have hlaw : ((normalTridiag la loc scale beta (n + 1)).map (toVec (n + 1))).law = (μ.prod (Measure.pi ν)).map eigF := by
    have hgl : ∀ i, RP.gammaLaw (sh i) (scale ^ 2) = ν i := fun i => by
      rw [RP.gammaLaw, if_neg (by rintro (h | h); exacts [(hshpos i).ne' h, hs2.ne' h])]
    rw [normalTridiag, if_neg (by simpa using hb)]
    have hcond : ¬ ((∃ i : Fin (n + 1 - 1), 0.5 * beta * (((n + 1 : ℕ) : ℝ) - 1 - (i : ℕ)) < 0) ∨ scale ^ 2 < 0) := by
      rintro (⟨i, h⟩ | h)
      · exact absurd h (not_lt.2 (hshpos i).le)
      · exact absurd h (not_lt.2 hs2.le)
    simp only [RP.map, RP.law, if_neg hcond]
    rw [if_neg (not_lt.2 hs.le)]
    rw [← bind_two μ (Measure.pi ν) (F := fun a b => toVec (n + 1) (eigTridiag la (n + 1) (vget a) (fun i => √(vget b i))))
      measurable_eigF]
    · refine congrArg₂ _ rfl (funext fun a => ?_)
      refine congrArg₂ _ ?_ rfl
      exact congrArg _ (funext hgl)
    · intro a
      have hpos : ∀ᵐ b ∂(Measure.pi ν), ∀ i, 0 < b i := by
        rw [ae_all_iff]
        intro i
        have h1 : ∀ᵐ x ∂(ν i), 0 < x := by
          rw [hν]
          simp only
          rw [gammaMeasure_eq, ae_withDensity_iff (measurable_gamD _ _)]
          refine Filter.Eventually.of_forall fun x hx => ?_
          by_contra h0
          exact hx (if_neg h0)
        exact (Measure.quasiMeasurePreserving_eval ν i).ae h1
      filter_upwards [hpos] with b hbp
      rw [eig_specMap hla (cons_mem_specR (a := a) hbp), toVec_ofFn]
      · rfl
      · intro i hi; rw [pad_lt hi, vget, dif_pos hi]; rfl
      · intro i hi
        have hi' : i < n := by omega
        rw [pad_lt hi, vget, dif_pos hi']
        rfl
  have hμd : μ = volume.withDensity fun x => ∏ i, gaussianPDF loc v (x i) := by
    have e : (fun _ : Fin (n + 1) => gaussianReal loc v) = fun _ => (volume : Measure ℝ).withDensity (gaussianPDF loc v) := by
      rw [gaussianReal_of_var_ne_zero loc hv0]
    have : ∀ _ : Fin (n + 1), IsProbabilityMeasure ((volume : Measure ℝ).withDensity (gaussianPDF loc v)) := fun _ => by
      rw [← gaussianReal_of_var_ne_zero loc hv0]; infer_instance
    rw [hμ, e, pi_withDensity (fun _ : Fin (n + 1) => (volume : Measure ℝ)) (fun _ => measurable_gaussianPDF loc v)]
    rfl
  have hgm : Measurable fun x : Fin (n + 1) → ℝ => ∏ i, gaussianPDF loc v (x i) :=
    Finset.measurable_prod _ fun i _ => (measurable_gaussianPDF loc v).comp (measurable_pi_apply i)
  set c : ℝ := (√(2 * Real.pi * v))⁻¹ ^ (n + 1) * ∏ i, ((1 / scale ^ 2) ^ sh i / Real.Gamma (sh i)) with hc
  have hcpos : 0 < c := by
    have : 0 < (v : ℝ) := by rw [hvc]; exact hs2
    refine mul_pos (by positivity) (prod_pos fun i _ => ?_)
    have := Real.Gamma_pos_of_pos (hshpos i)
    positivity
  obtain ⟨K, hK, hm⟩ := law_of_density μ ν hgm (fun i => measurable_gamD (sh i) (1 / scale ^ 2)) hμd
    (fun i => gammaMeasure_eq _ _) (fun i x hx => by rw [gamD, if_neg (not_lt.2 hx)]) hb
    (G := fun l => ENNReal.ofReal (c * ∏ i, Real.exp (-(l i - loc) ^ 2 / (2 * scale ^ 2)))) (by fun_prop) (by
      intro y hy
      have ht := hermite_trace hy loc
      have hg : ∏ i : Fin n, gamD (sh i) (1 / scale ^ 2) (y (.inr i.succ))
          = ENNReal.ofReal (∏ i : Fin n, ((1 / scale ^ 2) ^ sh i / Real.Gamma (sh i) * y (.inr i.succ) ^ (sh i - 1)
            * Real.exp (-(1 / scale ^ 2 * y (.inr i.succ))))) := by
        rw [ENNReal.ofReal_prod_of_nonneg fun i _ => by
          have := Real.Gamma_pos_of_pos (hshpos i)
          have := hy i.succ
          positivity]
        exact prod_congr rfl fun i _ => by rw [gamD, if_pos (hy _)]
      have hn : ∏ i : Fin (n + 1), gaussianPDF loc v (y (.inl i))
          = ENNReal.ofReal (∏ i : Fin (n + 1), ((√(2 * Real.pi * v))⁻¹ * Real.exp (-(y (.inl i) - loc) ^ 2 / (2 * v)))) := by
        rw [ENNReal.ofReal_prod_of_nonneg fun i _ => by positivity]
        rfl
      rw [hg, hn, ← ENNReal.ofReal_mul (prod_nonneg fun i _ => by positivity), ← ENNReal.ofReal_mul (prod_nonneg fun i _ =>
        (Real.rpow_pos_of_pos (hy _) _).le)]
      congr 1
      simp only [prod_mul_distrib, prod_const, card_univ, Fintype.card_fin, ← Real.exp_sum, hshe, hc]
      have hexp : Real.exp (∑ j, -(specMap y (.inl j) - loc) ^ 2 / (2 * scale ^ 2))
          = Real.exp (∑ j, -(y (.inl j) - loc) ^ 2 / (2 * (v : ℝ))) * Real.exp (∑ i : Fin n, -(1 / scale ^ 2 * y (.inr i.succ))) := by
        rw [← Real.exp_add, hvc, ← sum_div, ← sum_div, sum_neg_distrib, sum_neg_distrib, sum_neg_distrib, ht, ← mul_sum]
        congr 1
        field_simp
        ring
      rw [hexp]
      ring)
  rw [hlaw]
  refine isBetaEnsemble_of hcpos (fun x => (Real.exp_pos _).le) ?_ hK hm
  exact Measure.isProbabilityMeasure_map measurable_eigF.aemeasurable

/-- the hypotheses of C79 can be met: a solver that meets the contract exists, here with `beta = 1/2` and four points -/
example : ∃ la : LA, LAOK la ∧ IsBetaEnsemble ((normalTridiag la 0 1 (1 / 2) 4).map (toVec 4)).law (1 / 2)
    (fun x => Real.exp (-(x - 0) ^ 2 / (2 * 1 ^ 2))) := by
  obtain ⟨la, hla⟩ := exists_LAOK
  exact ⟨la, hla, C79_hermite_banded_law hla 0 one_pos (by norm_num) (by norm_num)⟩

end Verif.Props
