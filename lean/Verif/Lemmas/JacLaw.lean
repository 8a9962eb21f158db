import Verif.Lemmas.JacSpec
import Verif.Lemmas.PiDensity
import Mathlib.Probability.Distributions.Gamma

/-!
# The change of variables in the form used for the beta ensembles
-/

namespace Verif.Lemmas
open Finset Matrix MeasureTheory Verif.Model ProbabilityTheory

variable {N : ℕ}

/-- `∏_k B_0 ⋯ B_k = ∏_i B_i ^ (N - i)` -/
theorem prod_kryH (B : ℕ → ℝ) (N : ℕ) : ∏ k ∈ range N, kryH B k = ∏ i ∈ range N, B i ^ (N - i) := by
  induction N with
  | zero => simp
  | succ N ih =>
    rw [prod_range_succ, ih, kryH, prod_range_succ, prod_range_succ, ← mul_assoc, ← prod_mul_distrib]
    congr 1
    · refine prod_congr rfl fun i hi => ?_
      rw [← pow_succ]; congr 1
      have := mem_range.1 hi; omega
    · simp

theorem kryH_prod_pos {y : Cd N} (hy : y ∈ specR N) : 0 < ∏ k ∈ range N, kryH (pad fun i => y (.inr i)) k :=
  prod_pos fun k hk => kryH_pos fun i hi => by
    have := mem_range.1 hk
    rw [pad_lt (by omega)]; exact hy _

/-- the law of the coefficients -/
noncomputable def coefD (beta : ℝ) (y : Cd N) : ℝ := ∏ i : Fin N, y (.inr i) ^ (beta / 2 * ((N : ℝ) - i) - 1)

theorem coefD_eq (beta : ℝ) {y : Cd N} (hy : y ∈ specR N) : coefD beta y
    = (∏ k ∈ range N, kryH (pad fun i => y (.inr i)) k) ^ 2 / (∏ j, y (.inr j))
      * (∏ k ∈ range N, kryH (pad fun i => y (.inr i)) k) ^ (beta / 2 - 2) := by
  have hP := kryH_prod_pos hy
  have h1 : (∏ k ∈ range N, kryH (pad fun i => y (.inr i)) k) ^ 2
      * (∏ k ∈ range N, kryH (pad fun i => y (.inr i)) k) ^ (beta / 2 - 2)
      = (∏ k ∈ range N, kryH (pad fun i => y (.inr i)) k) ^ (beta / 2) := by
    rw [← Real.rpow_natCast, ← Real.rpow_add hP]; congr 1; push_cast; ring
  have h2 : (∏ k ∈ range N, kryH (pad fun i => y (.inr i)) k) ^ (beta / 2)
      = ∏ i : Fin N, y (.inr i) ^ (beta / 2 * ((N : ℝ) - i)) := by
    rw [prod_kryH, ← Fin.prod_univ_eq_prod_range (fun i => pad (fun i => y (.inr i)) i ^ (N - i)),
      ← Real.finset_prod_rpow _ _ (fun i _ => by rw [pad_fin]; exact pow_nonneg (hy i).le _)]
    refine prod_congr rfl fun i _ => ?_
    rw [pad_fin, ← Real.rpow_natCast, ← Real.rpow_mul (hy i).le, Nat.cast_sub i.2.le]
    congr 1; ring
  rw [div_mul_eq_mul_div, h1, h2, ← prod_div_distrib, coefD]
  refine prod_congr rfl fun i _ => ?_
  rw [Real.rpow_sub_one (hy i).ne']

/-- the ordered configurations -/
def ordS (N : ℕ) : Set (Fin N → ℝ) := {l | StrictMono l}

theorem measurableSet_ordS : MeasurableSet (ordS N) := by
  have : ordS N = ⋂ i : Fin N, ⋂ j : Fin N, {y | i < j → y i < y j} := by ext y; simp [ordS, StrictMono]
  rw [this]
  refine MeasurableSet.iInter fun i => MeasurableSet.iInter fun j => ?_
  by_cases h : i < j
  · simp only [h, true_imp_iff]
    exact measurableSet_lt (measurable_pi_apply _) (measurable_pi_apply _)
  · simp [h]

/-- density of a gamma variable, with a null value at `0` -/
noncomputable def gamD (a r x : ℝ) : ENNReal :=
  if 0 < x then ENNReal.ofReal (r ^ a / Real.Gamma a * x ^ (a - 1) * Real.exp (-(r * x))) else 0

theorem measurable_gamD (a r : ℝ) : Measurable (gamD a r) := by
  unfold gamD
  refine Measurable.ite measurableSet_Ioi ?_ measurable_const
  fun_prop

theorem gammaMeasure_eq (a r : ℝ) : gammaMeasure a r = volume.withDensity (gamD a r) := by
  rw [gammaMeasure]
  refine withDensity_congr_ae ?_
  have h0 : ∀ᵐ x : ℝ, x ≠ 0 := by
    rw [ae_iff]; simp
  filter_upwards [h0] with x hx
  unfold gamD
  split_ifs with h
  · rw [gammaPDF_of_nonneg h.le]
  · rw [gammaPDF_of_neg (lt_of_le_of_ne (not_lt.1 h) hx)]

theorem lintegral_gamD {a r : ℝ} (ha : 0 < a) (hr : 0 < r) : ∫⁻ x, gamD a r x = 1 := by
  have : IsProbabilityMeasure (gammaMeasure a r) := isProbabilityMeasure_gammaMeasure ha hr
  have h := measure_univ (μ := gammaMeasure a r)
  rwa [gammaMeasure_eq, withDensity_apply _ MeasurableSet.univ, setLIntegral_univ] at h

/-- **the eigenvalues and the weights are independent**, in integral form -/
theorem spec_change_gamma {Φ : Cd N → Cd N} (hΦ : ∀ y ∈ specR N, Φ y ∈ specS N ∧ momF (Φ y) = momG y) {beta s : ℝ}
    (hb : 0 < beta) (hs : 0 < s) {G : (Fin N → ℝ) → ENNReal} (hG : Measurable G) :
    (∫⁻ y in specR N, ENNReal.ofReal (coefD beta y * Real.exp (-(s * pad (fun i => y (.inr i)) 0))) * G (fun j => Φ y (.inl j)))
      = ENNReal.ofReal ((Real.Gamma (beta / 2) / s ^ (beta / 2)) ^ N)
        * ∫⁻ l in ordS N, ENNReal.ofReal (vdm l ^ beta) * G l := by
  set K := Real.Gamma (beta / 2) / s ^ (beta / 2) with hK
  have hKpos : 0 < K := div_pos (Real.Gamma_pos_of_pos (by positivity)) (Real.rpow_pos_of_pos hs _)
  have hch := spec_change hΦ (fun x => ENNReal.ofReal ((vdm (fun j => x (.inl j)) ^ 2 * ∏ j, x (.inr j)) ^ (beta / 2 - 2)
    * Real.exp (-(s * ∑ j, x (.inr j)))) * G (fun j => x (.inl j)))
  have hL : (∫⁻ y in specR N, ENNReal.ofReal (coefD beta y * Real.exp (-(s * pad (fun i => y (.inr i)) 0)))
      * G (fun j => Φ y (.inl j))) = ∫⁻ y in specR N,
        ENNReal.ofReal ((∏ k ∈ range N, kryH (pad fun i => y (.inr i)) k) ^ 2 / ∏ j, y (.inr j))
        * (ENNReal.ofReal ((vdm (fun j => Φ y (.inl j)) ^ 2 * ∏ j, Φ y (.inr j)) ^ (beta / 2 - 2)
          * Real.exp (-(s * ∑ j, Φ y (.inr j)))) * G (fun j => Φ y (.inl j))) := by
    refine setLIntegral_congr_fun measurableSet_specR fun y hy => ?_
    have hm := fun {k : ℕ} (hk : k < 2 * N) => momF_eq_momG (hΦ y hy).2 hk
    have h1 := hankel (lam := fun j => Φ y (.inl j)) (w := fun j => Φ y (.inr j)) (fun k hk => hm hk)
    have h2 : s * ∑ j, Φ y (.inr j) = s * pad (fun i => y (.inr i)) 0 := by
      rcases Nat.eq_zero_or_pos N with h0 | h0
      · subst h0; simp [pad]
      · have := hm (show 0 < 2 * N by omega)
        simp only [pow_zero, mul_one] at this
        rw [this, mom, kry, if_pos rfl, mul_one]
    beta_reduce
    rw [h1, h2, ← mul_assoc, ← ENNReal.ofReal_mul (by have := kryH_prod_pos hy; have := prod_pos fun j (_ : j ∈ univ) => hy j; positivity),
      coefD_eq beta hy, mul_assoc]
  rw [hL, ← hch]
  -- product structure
  have hR : (∫⁻ x in specS N, ENNReal.ofReal (vdm (fun j => x (.inl j)) ^ 4 * ∏ j, x (.inr j))
      * (ENNReal.ofReal ((vdm (fun j => x (.inl j)) ^ 2 * ∏ j, x (.inr j)) ^ (beta / 2 - 2)
        * Real.exp (-(s * ∑ j, x (.inr j)))) * G (fun j => x (.inl j))))
      = ∫⁻ x : Cd N, (ordS N).indicator (fun l => ENNReal.ofReal (K ^ N) * (ENNReal.ofReal (vdm l ^ beta) * G l)) (fun j => x (.inl j))
          * ∏ j, gamD (beta / 2) s (x (.inr j)) := by
    rw [← lintegral_indicator measurableSet_specS]
    refine lintegral_congr fun x => ?_
    by_cases hx : x ∈ specS N
    · rw [Set.indicator_of_mem hx, Set.indicator_of_mem (show (fun j => x (.inl j)) ∈ ordS N from hx.1)]
      have hv := vdm_pos hx.1
      have hw : 0 < ∏ j, x (.inr j) := prod_pos fun j _ => hx.2 j
      have hg : ∏ j, gamD (beta / 2) s (x (.inr j))
          = ENNReal.ofReal (∏ j, (K⁻¹ * (x (.inr j) ^ (beta / 2 - 1) * Real.exp (-(s * x (.inr j)))))) := by
        rw [ENNReal.ofReal_prod_of_nonneg fun j _ => by have := hx.2 j; positivity]
        refine prod_congr rfl fun j _ => ?_
        rw [gamD, if_pos (hx.2 j), hK, inv_div, mul_assoc]
      have e1 : vdm (fun j => x (.inl j)) ^ 4 * (vdm (fun j => x (.inl j)) ^ 2) ^ (beta / 2 - 2) = vdm (fun j => x (.inl j)) ^ beta := by
        rw [← Real.rpow_natCast, ← Real.rpow_natCast, ← Real.rpow_mul hv.le, ← Real.rpow_add hv]; congr 1; push_cast; ring
      have e2 : (∏ j, x (.inr j)) * (∏ j, x (.inr j)) ^ (beta / 2 - 2) = (∏ j, x (.inr j)) ^ (beta / 2 - 1) := by
        rw [show beta / 2 - 1 = 1 + (beta / 2 - 2) by ring, Real.rpow_add hw, Real.rpow_one]
      have e3 : K ^ N * K⁻¹ ^ N = 1 := by rw [← mul_pow, mul_inv_cancel₀ hKpos.ne', one_pow]
      have key : vdm (fun j => x (.inl j)) ^ 4 * (∏ j, x (.inr j))
          * ((vdm (fun j => x (.inl j)) ^ 2 * ∏ j, x (.inr j)) ^ (beta / 2 - 2) * Real.exp (-(s * ∑ j, x (.inr j))))
          = K ^ N * (vdm (fun j => x (.inl j)) ^ beta)
            * ∏ j, (K⁻¹ * (x (.inr j) ^ (beta / 2 - 1) * Real.exp (-(s * x (.inr j))))) := by
        rw [prod_mul_distrib, prod_mul_distrib, prod_const, card_univ, Fintype.card_fin, ← Real.exp_sum, sum_neg_distrib, ← mul_sum,
          Real.finset_prod_rpow _ _ (fun j _ => (hx.2 j).le), Real.mul_rpow (by positivity) hw.le, ← e1, ← e2]
        linear_combination (-(vdm (fun j => x (.inl j)) ^ 4 * (vdm (fun j => x (.inl j)) ^ 2) ^ (beta / 2 - 2)
          * ((∏ j, x (.inr j)) * (∏ j, x (.inr j)) ^ (beta / 2 - 2)) * Real.exp (-(s * ∑ j, x (.inr j))))) * e3
      have hpos : 0 ≤ vdm (fun j => x (.inl j)) ^ 4 * ∏ j, x (.inr j) := by positivity
      have hpos2 : 0 ≤ K ^ N * vdm (fun j => x (.inl j)) ^ beta := by positivity
      rw [hg, ← mul_assoc, ← ENNReal.ofReal_mul hpos, key, ENNReal.ofReal_mul hpos2, ENNReal.ofReal_mul (by positivity)]
      ring
    · rw [Set.indicator_of_notMem hx]
      by_cases h1 : (fun j => x (.inl j)) ∈ ordS N
      · have : ∃ j, ¬ 0 < x (.inr j) := by
          by_contra h; push Not at h; exact hx ⟨h1, h⟩
        obtain ⟨j, hj⟩ := this
        rw [prod_eq_zero (mem_univ j) (by rw [gamD, if_neg hj]), mul_zero]
      · rw [Set.indicator_of_notMem h1, zero_mul]
  rw [hR]
  have hvm : Measurable fun l : Fin N → ℝ => vdm l := by unfold vdm; fun_prop
  have hm1 : Measurable ((ordS N).indicator fun l => ENNReal.ofReal (K ^ N) * (ENNReal.ofReal (vdm l ^ beta) * G l)) :=
    Measurable.indicator (by fun_prop) measurableSet_ordS
  have hm2 : Measurable fun w : Fin N → ℝ => ∏ j, gamD (beta / 2) s (w j) :=
    Finset.measurable_prod _ fun j _ => (measurable_gamD _ _).comp (measurable_pi_apply j)
  have hpres := volume_measurePreserving_sumPiEquivProdPi_symm (fun _ : Fin N ⊕ Fin N => ℝ)
  rw [← hpres.lintegral_comp_emb (MeasurableEquiv.measurableEmbedding _)]
  have e : ∀ p : (Fin N → ℝ) × (Fin N → ℝ),
      (ordS N).indicator (fun l => ENNReal.ofReal (K ^ N) * (ENNReal.ofReal (vdm l ^ beta) * G l))
          (fun j => (MeasurableEquiv.sumPiEquivProdPi (fun _ : Fin N ⊕ Fin N => ℝ)).symm p (.inl j))
        * ∏ j, gamD (beta / 2) s ((MeasurableEquiv.sumPiEquivProdPi (fun _ : Fin N ⊕ Fin N => ℝ)).symm p (.inr j))
      = (ordS N).indicator (fun l => ENNReal.ofReal (K ^ N) * (ENNReal.ofReal (vdm l ^ beta) * G l)) p.1
        * ∏ j, gamD (beta / 2) s (p.2 j) := fun p => rfl
  simp only [e]
  rw [Measure.volume_eq_prod, lintegral_prod_mul hm1.aemeasurable hm2.aemeasurable]
  have h1 : ∫⁻ w : Fin N → ℝ, ∏ j, gamD (beta / 2) s (w j) = 1 := by
    rw [show (volume : Measure (Fin N → ℝ)) = Measure.pi fun _ => volume from rfl,
      lintegral_pi_prod _ (fun _ => measurable_gamD _ _)]
    exact prod_eq_one fun j _ => lintegral_gamD (by positivity) hs
  rw [h1, mul_one, lintegral_indicator measurableSet_ordS, lintegral_const_mul _ (by fun_prop)]

end Verif.Lemmas
