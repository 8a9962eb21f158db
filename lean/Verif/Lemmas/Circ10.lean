import Verif.Lemmas.Circ7
import Verif.Lemmas.JacLaw

/-!
# The angles are independent of the weights
-/

namespace Verif.Lemmas
open Finset MeasureTheory Verif Verif.Model Verif.Spec ProbabilityTheory
open scoped ComplexConjugate

variable {n : ℕ}

/-- sorted angles -/
def angS (N : ℕ) : Set (Fin N → ℝ) := {t | StrictMono t ∧ ∀ i, 0 ≤ t i ∧ t i < 2 * Real.pi}

theorem measurableSet_angS {N : ℕ} : MeasurableSet (angS N) := by
  have : angS N = ordS N ∩ ⋂ i, {t | 0 ≤ t i ∧ t i < 2 * Real.pi} := by
    ext t; simp [angS, ordS]
  rw [this]
  refine measurableSet_ordS.inter (MeasurableSet.iInter fun i => ?_)
  exact (measurableSet_le measurable_const (measurable_pi_apply i)).inter (measurableSet_lt (measurable_pi_apply i) measurable_const)

/-- points from the angles -/
noncomputable def expI {N : ℕ} (t : Fin N → ℝ) (j : Fin N) : ℂ := Complex.exp ((t j : ℂ) * Complex.I)

theorem vdmC_nonneg {N : ℕ} (z : Fin N → ℂ) : 0 ≤ vdmC z := prod_nonneg fun _ _ => prod_nonneg fun _ _ => norm_nonneg _

theorem circularDensity_eq {N : ℕ} (beta : ℝ) (t : Fin N → ℝ) : circularDensity beta t = vdmC (expI t) ^ beta := by
  rw [circularDensity, vdmC, ← Real.finsetProd_rpow _ _ fun i _ => prod_nonneg fun j _ => norm_nonneg _]
  refine prod_congr rfl fun i _ => ?_
  rw [← Real.finsetProd_rpow _ _ fun i _ => norm_nonneg _]
  refine prod_congr rfl fun j _ => ?_
  rw [norm_sub_rev]; rfl

theorem measurable_vdmC_expI {N : ℕ} : Measurable fun t : Fin N → ℝ => vdmC (expI t) := by
  unfold vdmC expI
  fun_prop

theorem circ_gamma {beta : ℝ} (hb : 0 < beta) {q : (Fin (n + 1) → ℝ) → ENNReal} (hq : Measurable q) :
    ENNReal.ofReal (Real.Gamma (beta / 2) ^ (n + 1)) * ∫⁻ t in angS (n + 1), ENNReal.ofReal (vdmC (expI t) ^ beta) * q t
      = ENNReal.ofReal (circK n * Real.Gamma ((n + 1 : ℕ) * (beta / 2))) * ∫⁻ y in goodC n ∩ domT n,
        ENNReal.ofReal (coefC n beta (alC y)) * gamD ((n + 1 : ℕ) * (beta / 2)) 1 (massC y) * q (fun j => spX y (.inl j)) := by
  set K := Real.Gamma (beta / 2) with hK
  have hKpos : 0 < K := Real.Gamma_pos_of_pos (by positivity)
  set a0 : ℝ := (n + 1 : ℕ) * (beta / 2) with ha0
  have ha0pos : 0 < a0 := by positivity
  have hG0 := Real.Gamma_pos_of_pos ha0pos
  have hKc := circK_pos (n := n)
  have hch := circ_change beta (fun x : Cd (n + 1) => ENNReal.ofReal (Real.exp (-(∑ j, x (.inr j)))) * q (fun j => x (.inl j)))
  have hR : (∫⁻ y in goodC n ∩ domT n, ENNReal.ofReal (circK n * (coefC n beta (alC y) * massC y ^ (a0 - 1)))
        * (ENNReal.ofReal (Real.exp (-(∑ j, spX y (.inr j)))) * q (fun j => spX y (.inl j))))
      = ENNReal.ofReal (circK n * Real.Gamma a0) * ∫⁻ y in goodC n ∩ domT n,
        ENNReal.ofReal (coefC n beta (alC y)) * gamD a0 1 (massC y) * q (fun j => spX y (.inl j)) := by
    rw [← lintegral_const_mul' _ _ ENNReal.ofReal_ne_top]
    refine setLIntegral_congr_fun (measurableSet_goodC.inter measurableSet_domT) fun y hy => ?_
    have hm := hy.1.1
    have hco : 0 ≤ coefC n beta (alC y) := prod_nonneg fun k hk => Real.rpow_nonneg (by
      have := hy.1.2 k (mem_range.1 hk); nlinarith [norm_nonneg (alC y k)]) _
    beta_reduce
    rw [(spX_spec hy.1).mass, ← mul_assoc, ← mul_assoc (ENNReal.ofReal (circK n * Real.Gamma a0))]
    congr 1
    rw [gamD, if_pos hm, ← ENNReal.ofReal_mul (by positivity), ← ENNReal.ofReal_mul hco, ← ENNReal.ofReal_mul (by positivity)]
    congr 1
    rw [Real.one_rpow, one_mul]
    field_simp
  rw [← hR, ← hch]
  have hL : (∫⁻ x in specC n, ENNReal.ofReal (vdmC (zC x) ^ beta * ∏ j, x (.inr j) ^ (beta / 2 - 1))
        * (ENNReal.ofReal (Real.exp (-(∑ j, x (.inr j)))) * q (fun j => x (.inl j))))
      = ∫⁻ x : Cd (n + 1), (angS (n + 1)).indicator (fun l => ENNReal.ofReal (K ^ (n + 1)) * (ENNReal.ofReal (vdmC (expI l) ^ beta) * q l))
          (fun j => x (.inl j)) * ∏ j, gamD (beta / 2) 1 (x (.inr j)) := by
    rw [← lintegral_indicator measurableSet_specC]
    refine lintegral_congr fun x => ?_
    by_cases hx : x ∈ specC n
    · rw [Set.indicator_of_mem hx, Set.indicator_of_mem (show (fun j => x (.inl j)) ∈ angS (n + 1) from ⟨hx.1, hx.2.1⟩)]
      have hg : ∏ j, gamD (beta / 2) 1 (x (.inr j))
          = ENNReal.ofReal (∏ j, (K⁻¹ * (x (.inr j) ^ (beta / 2 - 1) * Real.exp (-(x (.inr j)))))) := by
        rw [ENNReal.ofReal_prod_of_nonneg fun j _ => by have := hx.2.2 j; positivity]
        refine prod_congr rfl fun j _ => ?_
        rw [gamD, if_pos (hx.2.2 j), Real.one_rpow, one_mul, one_div, mul_assoc]
      have hv : 0 ≤ vdmC (zC x) ^ beta := Real.rpow_nonneg (vdmC_nonneg _) _
      have hw : 0 ≤ ∏ j, x (.inr j) ^ (beta / 2 - 1) := prod_nonneg fun j _ => Real.rpow_nonneg (hx.2.2 j).le _
      have hw2 : 0 ≤ ∏ j, (K⁻¹ * (x (.inr j) ^ (beta / 2 - 1) * Real.exp (-(x (.inr j))))) := prod_nonneg fun j _ => by
        have := hx.2.2 j; positivity
      have e3 : K ^ (n + 1) * K⁻¹ ^ (n + 1) = 1 := by rw [← mul_pow, mul_inv_cancel₀ hKpos.ne', one_pow]
      have key : vdmC (zC x) ^ beta * (∏ j, x (.inr j) ^ (beta / 2 - 1)) * Real.exp (-(∑ j, x (.inr j)))
          = K ^ (n + 1) * vdmC (zC x) ^ beta * ∏ j, (K⁻¹ * (x (.inr j) ^ (beta / 2 - 1) * Real.exp (-(x (.inr j))))) := by
        rw [prod_mul_distrib, prod_mul_distrib, prod_const, card_univ, Fintype.card_fin, ← Real.exp_sum, sum_neg_distrib]
        linear_combination (-(vdmC (zC x) ^ beta * (∏ j, x (.inr j) ^ (beta / 2 - 1)) * Real.exp (-(∑ j, x (.inr j))))) * e3
      have hz : expI (fun j => x (.inl j)) = zC x := rfl
      rw [hg, hz, ← mul_assoc, ← ENNReal.ofReal_mul (mul_nonneg hv hw), key, ENNReal.ofReal_mul (mul_nonneg (by positivity) hv),
        ENNReal.ofReal_mul (by positivity)]
      ring
    · rw [Set.indicator_of_notMem hx]
      by_cases h1 : (fun j => x (.inl j)) ∈ angS (n + 1)
      · have : ∃ j, ¬ 0 < x (.inr j) := by
          by_contra h; push Not at h; exact hx ⟨h1.1, h1.2, h⟩
        obtain ⟨j, hj⟩ := this
        rw [prod_eq_zero (mem_univ j) (by rw [gamD, if_neg hj]), mul_zero]
      · rw [Set.indicator_of_notMem h1, zero_mul]
  rw [hL]
  have hvm := measurable_vdmC_expI (N := n + 1)
  have hm1 : Measurable ((angS (n + 1)).indicator fun l => ENNReal.ofReal (K ^ (n + 1)) * (ENNReal.ofReal (vdmC (expI l) ^ beta) * q l)) :=
    Measurable.indicator (by fun_prop) measurableSet_angS
  have hm2 : Measurable fun w : Fin (n + 1) → ℝ => ∏ j, gamD (beta / 2) 1 (w j) :=
    Finset.measurable_prod _ fun j _ => (measurable_gamD _ _).comp (measurable_pi_apply j)
  have hpres := volume_measurePreserving_sumPiEquivProdPi_symm (fun _ : Fin (n + 1) ⊕ Fin (n + 1) => ℝ)
  rw [← hpres.lintegral_comp_emb (MeasurableEquiv.measurableEmbedding _)]
  have e : ∀ p : (Fin (n + 1) → ℝ) × (Fin (n + 1) → ℝ),
      (angS (n + 1)).indicator (fun l => ENNReal.ofReal (K ^ (n + 1)) * (ENNReal.ofReal (vdmC (expI l) ^ beta) * q l))
          (fun j => (MeasurableEquiv.sumPiEquivProdPi (fun _ : Fin (n + 1) ⊕ Fin (n + 1) => ℝ)).symm p (.inl j))
        * ∏ j, gamD (beta / 2) 1 ((MeasurableEquiv.sumPiEquivProdPi (fun _ : Fin (n + 1) ⊕ Fin (n + 1) => ℝ)).symm p (.inr j))
      = (angS (n + 1)).indicator (fun l => ENNReal.ofReal (K ^ (n + 1)) * (ENNReal.ofReal (vdmC (expI l) ^ beta) * q l)) p.1
        * ∏ j, gamD (beta / 2) 1 (p.2 j) := fun p => rfl
  simp only [e]
  rw [Measure.volume_eq_prod, lintegral_prod_mul hm1.aemeasurable hm2.aemeasurable]
  have h1 : ∫⁻ w : Fin (n + 1) → ℝ, ∏ j, gamD (beta / 2) 1 (w j) = 1 := by
    rw [show (volume : Measure (Fin (n + 1) → ℝ)) = Measure.pi fun _ => volume from rfl,
      lintegral_pi_prod _ (fun _ => measurable_gamD _ _)]
    exact prod_eq_one fun j _ => lintegral_gamD (by positivity) one_pos
  rw [h1, mul_one, lintegral_indicator measurableSet_angS, lintegral_const_mul' _ _ ENNReal.ofReal_ne_top]

end Verif.Lemmas
