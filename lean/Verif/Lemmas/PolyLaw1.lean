import Verif.Lemmas.JacHermite2
import Verif.Spec.Ensemble

/-!
Law of the eigenvalues of a Jacobi matrix whose coefficients have a density that is not a product.
-/

namespace Verif.Lemmas.PL
open Finset MeasureTheory Verif.Model Verif.Spec Verif.Lemmas

variable {n : ℕ}

open Classical in
/-- power part of the density of the off-diagonal coefficients -/
noncomputable def coefB (beta : ℝ) (b : Fin n → ℝ) : ENNReal :=
  if ∀ i, 0 < b i then ENNReal.ofReal (∏ i : Fin n, b i ^ (beta / 2 * ((n : ℝ) - i) - 1)) else 0

theorem measurable_coefB (beta : ℝ) : Measurable (coefB (n := n) beta) := by
  unfold coefB
  refine Measurable.ite ?_ (by fun_prop) measurable_const
  have : {b : Fin n → ℝ | ∀ i, 0 < b i} = ⋂ i, {b | 0 < b i} := by ext b; simp
  rw [this]
  exact MeasurableSet.iInter fun i => measurableSet_lt measurable_const (measurable_pi_apply i)

theorem measurable_tailV : Measurable (tailV (n := n)) := measurable_pi_lambda _ fun i => measurable_pi_apply _

theorem add_mass {a0 : ℝ} (ha0 : 0 < a0) {h : (Fin n → ℝ) → ENNReal} (hh : Measurable h) :
    ∫⁻ b : Fin (n + 1) → ℝ, gamD a0 1 (b 0) * h (tailV b) = ∫⁻ b, h b := by
  have hp := volume_preserving_piFinSuccAbove (fun _ : Fin (n + 1) => ℝ) 0
  have e : ∀ b : Fin (n + 1) → ℝ, gamD a0 1 (b 0) * h (tailV b)
      = (fun z : ℝ × (Fin n → ℝ) => gamD a0 1 z.1 * h z.2) (MeasurableEquiv.piFinSuccAbove (fun _ : Fin (n + 1) => ℝ) 0 b) := by
    intro b; rfl
  rw [lintegral_congr e]
  refine (hp.lintegral_comp_emb (MeasurableEquiv.measurableEmbedding _) (fun z : ℝ × (Fin n → ℝ) => gamD a0 1 z.1 * h z.2)).trans ?_
  rw [Measure.volume_eq_prod]
  rw [lintegral_prod_mul (measurable_gamD a0 1).aemeasurable hh.aemeasurable, lintegral_gamD ha0 one_pos, one_mul]

/-- the constant -/
noncomputable def jacK (n : ℕ) (beta : ℝ) : ℝ := (Real.Gamma (beta / 2 * (n + 1)))⁻¹ * (Real.Gamma (beta / 2) / 1 ^ (beta / 2)) ^ (n + 1)

theorem jacK_pos (n : ℕ) {beta : ℝ} (hb : 0 < beta) : 0 < jacK n beta := by
  have := Real.Gamma_pos_of_pos (show 0 < beta / 2 * (n + 1) by positivity)
  have := Real.Gamma_pos_of_pos (show 0 < beta / 2 by positivity)
  unfold jacK
  positivity

theorem jac_change {beta : ℝ} (hb : 0 < beta) {G : (Fin (n + 1) → ℝ) → ENNReal} (hG : Measurable G) :
    ∫⁻ p : (Fin (n + 1) → ℝ) × (Fin n → ℝ), coefB beta p.2 * G (eigF p)
      = ENNReal.ofReal (jacK n beta) * ∫⁻ l in ordS (n + 1), ENNReal.ofReal (vdm l ^ beta) * G l := by
  obtain ⟨a0, ha0⟩ : ∃ a0 : ℝ, a0 = beta / 2 * (n + 1) := ⟨_, rfl⟩
  have ha0pos : 0 < a0 := by rw [ha0]; positivity
  have hH : Measurable fun p : (Fin (n + 1) → ℝ) × (Fin n → ℝ) => coefB beta p.2 * G (eigF p) :=
    ((measurable_coefB beta).comp measurable_snd).mul (hG.comp measurable_eigF)
  have h1 : ∫⁻ p : (Fin (n + 1) → ℝ) × (Fin n → ℝ), coefB beta p.2 * G (eigF p)
      = ∫⁻ z : (Fin (n + 1) → ℝ) × (Fin (n + 1) → ℝ), gamD a0 1 (z.2 0) * (coefB beta (tailV z.2) * G (eigF (z.1, tailV z.2))) := by
    rw [Measure.volume_eq_prod, Measure.volume_eq_prod, lintegral_prod _ hH.aemeasurable, lintegral_prod]
    · refine lintegral_congr fun a => ?_
      exact (add_mass ha0pos (h := fun b => coefB beta b * G (eigF (a, b))) (hH.comp measurable_prodMk_left)).symm
    · refine Measurable.aemeasurable ?_
      refine ((measurable_gamD a0 1).comp ((measurable_pi_apply 0).comp measurable_snd)).mul ?_
      exact hH.comp (measurable_fst.prodMk (measurable_tailV.comp measurable_snd))
  rw [h1]
  have hvol := volume_measurePreserving_sumPiEquivProdPi (fun _ : Fin (n + 1) ⊕ Fin (n + 1) => ℝ)
  rw [← hvol.lintegral_comp_emb (MeasurableEquiv.measurableEmbedding _)]
  have hch := spec_change_gamma (specMap_ok (N := n + 1)) hb one_pos hG
  have e1 : ∀ y : Cd (n + 1), (fun z : (Fin (n + 1) → ℝ) × (Fin (n + 1) → ℝ) =>
        gamD a0 1 (z.2 0) * (coefB beta (tailV z.2) * G (eigF (z.1, tailV z.2))))
      (MeasurableEquiv.sumPiEquivProdPi (fun _ : Fin (n + 1) ⊕ Fin (n + 1) => ℝ) y)
      = (specR (n + 1)).indicator (fun y => ENNReal.ofReal (Real.Gamma a0)⁻¹ *
        (ENNReal.ofReal (coefD beta y * Real.exp (-(1 * pad (fun i => y (.inr i)) 0)))
          * G (fun j => specMap y (.inl j)))) y := by
    intro y
    have hz : (MeasurableEquiv.sumPiEquivProdPi (fun _ : Fin (n + 1) ⊕ Fin (n + 1) => ℝ) y)
      = (fun i => y (.inl i), fun i => y (.inr i)) := rfl
    rw [hz]
    simp only
    by_cases hy : y ∈ specR (n + 1)
    · rw [Set.indicator_of_mem hy, eigF_specMap hy, coefB, if_pos (show ∀ i : Fin n, 0 < tailV (fun i => y (Sum.inr i)) i from fun i => hy i.succ), gamD, if_pos (hy 0)]
      have hpad : pad (fun i => y (.inr i)) 0 = y (.inr 0) := pad_lt (Nat.succ_pos n)
      have hc : coefD beta y = y (.inr 0) ^ (a0 - 1) * ∏ i : Fin n, y (.inr i.succ) ^ (beta / 2 * ((n : ℝ) - i) - 1) := by
        rw [coefD, Fin.prod_univ_succ]
        congr 1
        · congr 1; rw [ha0]; push_cast; simp
        · refine prod_congr rfl fun i _ => ?_
          congr 3
          rw [Fin.val_succ]; push_cast; ring
      have hG0 := Real.Gamma_pos_of_pos ha0pos
      have hy0 : 0 < y (.inr 0) := hy 0
      have hpr : 0 ≤ ∏ i : Fin n, y (.inr i.succ) ^ (beta / 2 * ((n : ℝ) - i) - 1) :=
        prod_nonneg fun i _ => (Real.rpow_pos_of_pos (hy _) _).le
      rw [hpad, hc, ← mul_assoc, ← mul_assoc, ← ENNReal.ofReal_mul (by positivity), ← ENNReal.ofReal_mul (by positivity)]
      congr 2
      rw [Real.one_rpow]
      simp only [tailV]
      ring
    · rw [Set.indicator_of_notMem hy]
      have : ∃ j, ¬ 0 < y (.inr j) := by
        by_contra hc; push Not at hc; exact hy hc
      obtain ⟨j, hj⟩ := this
      revert hj
      refine Fin.cases ?_ (fun i => ?_) j
      · intro hj
        rw [gamD, if_neg hj, zero_mul]
      · intro hj
        rw [coefB, if_neg (fun h => hj (h i)), zero_mul, mul_zero]
  rw [lintegral_congr e1, lintegral_indicator measurableSet_specR, lintegral_const_mul' _ _ ENNReal.ofReal_ne_top, hch,
    ← mul_assoc, ← ENNReal.ofReal_mul (inv_nonneg.2 (Real.Gamma_pos_of_pos ha0pos).le), jacK, ha0]

end Verif.Lemmas.PL
