import Verif.Lemmas.JacJacobi
import Verif.Props.LaguerreLaw

/-!
# C81: the banded Jacobi model has the law of the Jacobi beta ensemble
-/

namespace Verif.Lemmas
open Finset Matrix MeasureTheory Verif.Model ProbabilityTheory Verif.Spec

variable {n : ℕ}

/-- the powers of the coordinates -/
theorem jac_powers {a b beta : ℝ} {y : Cd (n + 1)} (hy : y ∈ jacO n) :
    ((∏ i : Fin (n + 1), y (.inl i) ^ (beta / 2 * ((n : ℝ) - i) + a - 1))
        * ∏ i : Fin (n + 1), (1 - y (.inl i)) ^ (beta / 2 * ((n : ℝ) - i) + b - 1))
      * (y (.inr 0) ^ (beta / 2 * (n + 1) - 1) * ((∏ i : Fin n, y (.inr i.succ) ^ (beta / 2 * ((n : ℝ) - i) - 1))
        * ∏ i : Fin n, (1 - y (.inr i.succ)) ^ (beta / 2 * ((n : ℝ) - (i + 1)) + a + b - 1)))
    = (fderiv ℝ jacQ y).det * (coefD beta (jacQ y) * ((∏ j, specMap (jacQ y) (.inl j)) ^ (a - 1)
        * (∏ j, (1 - specMap (jacQ y) (.inl j))) ^ (b - 1))) := by
  have h := lag_powers (shape := a) (beta := beta) (jacH_mem hy)
  have hco : ∀ i, 0 < y (.inl i) := fun i => (hy.1 i).1
  have hco' : ∀ i, 0 < 1 - y (.inl i) := fun i => sub_pos.2 (hy.1 i).2
  have hce : ∀ i : Fin n, 0 < y (.inr i.succ) := fun i => (hy.2.2 i).1
  have hce' : ∀ i : Fin n, 0 < 1 - y (.inr i.succ) := fun i => sub_pos.2 (hy.2.2 i).2
  have e1 : ∏ i : Fin (n + 1), jacH y (.inl i) ^ (beta / 2 * ((n : ℝ) - i) + a - 1)
      = (∏ i : Fin (n + 1), y (.inl i) ^ (beta / 2 * ((n : ℝ) - i) + a - 1))
        * ∏ i : Fin n, (1 - y (.inr i.succ)) ^ (beta / 2 * ((n : ℝ) - (i + 1)) + a - 1) := by
    rw [Fin.prod_univ_succ, Fin.prod_univ_succ (fun i : Fin (n + 1) => y (.inl i) ^ (beta / 2 * ((n : ℝ) - i) + a - 1)), mul_assoc,
      ← prod_mul_distrib, jacH_l0]
    congr 1
    refine prod_congr rfl fun i _ => ?_
    rw [jacH_ls, Real.mul_rpow (hce' i).le (hco _).le, mul_comm, Fin.val_succ, Nat.cast_add, Nat.cast_one]
  have e2 : ∏ i : Fin n, jacH y (.inr i.succ) ^ (beta / 2 * ((n : ℝ) - i) - 1)
      = (∏ i : Fin n, (1 - y (.inl i.castSucc)) ^ (beta / 2 * ((n : ℝ) - i) - 1))
        * ∏ i : Fin n, y (.inr i.succ) ^ (beta / 2 * ((n : ℝ) - i) - 1) := by
    rw [← prod_mul_distrib]
    refine prod_congr rfl fun i _ => ?_
    rw [jacH_rs, Real.mul_rpow (hco' _).le (hce _).le]
  have e3 : (∏ j, (1 - specMap (jacQ y) (.inl j))) ^ (b - 1)
      = (∏ k : Fin (n + 1), (1 - y (.inl k)) ^ (b - 1)) * ∏ i : Fin n, (1 - y (.inr i.succ)) ^ (b - 1) := by
    rw [jac_det hy, Real.mul_rpow (prod_nonneg fun i _ => (hco' i).le) (prod_nonneg fun i _ => (hce' i).le),
      Real.finsetProd_rpow _ _ (fun k _ => (hco' k).le), Real.finsetProd_rpow _ _ (fun k _ => (hce' k).le)]
  have e4 : ∏ i : Fin (n + 1), (1 - y (.inl i)) ^ (beta / 2 * ((n : ℝ) - i) + b - 1)
      = (∏ i : Fin n, (1 - y (.inl i.castSucc))) * ((∏ i : Fin n, (1 - y (.inl i.castSucc)) ^ (beta / 2 * ((n : ℝ) - i) - 1))
        * ∏ i : Fin (n + 1), (1 - y (.inl i)) ^ (b - 1)) := by
    rw [Fin.prod_univ_castSucc, Fin.prod_univ_castSucc (fun i : Fin (n + 1) => (1 - y (.inl i)) ^ (b - 1)), ← mul_assoc, ← mul_assoc,
      ← prod_mul_distrib, ← prod_mul_distrib]
    congr 1
    · refine prod_congr rfl fun i _ => ?_
      have e : beta / 2 * ((n : ℝ) - (i.castSucc : Fin (n + 1))) + b - 1
          = 1 + (beta / 2 * ((n : ℝ) - i) - 1) + (b - 1) := by rw [Fin.val_castSucc]; ring
      rw [e, Real.rpow_add (hco' _), Real.rpow_add (hco' _), Real.rpow_one]
    · congr 1; simp
  have e5 : ∏ i : Fin n, (1 - y (.inr i.succ)) ^ (beta / 2 * ((n : ℝ) - (i + 1)) + a + b - 1)
      = (∏ i : Fin n, (1 - y (.inr i.succ))) * ((∏ i : Fin n, (1 - y (.inr i.succ)) ^ (beta / 2 * ((n : ℝ) - (i + 1)) + a - 1))
        * ∏ i : Fin n, (1 - y (.inr i.succ)) ^ (b - 1)) := by
    rw [← prod_mul_distrib, ← prod_mul_distrib]
    refine prod_congr rfl fun i _ => ?_
    have e : beta / 2 * ((n : ℝ) - (i + 1)) + a + b - 1
        = 1 + ((beta / 2 * ((n : ℝ) - (i + 1)) + a - 1) + (b - 1)) := by ring
    rw [e, Real.rpow_add (hce' _), Real.rpow_one, Real.rpow_add (hce' _)]
  rw [e1, e2, jacH_r0] at h
  rw [e4, e5, e3, det_jacQ]
  rw [jacQ]
  set A1 := ∏ i : Fin (n + 1), y (.inl i) ^ (beta / 2 * ((n : ℝ) - i) + a - 1)
  set A2 := ∏ i : Fin n, (1 - y (.inr i.succ)) ^ (beta / 2 * ((n : ℝ) - (i + 1)) + a - 1)
  set A3 := ∏ i : Fin n, (1 - y (.inl i.castSucc)) ^ (beta / 2 * ((n : ℝ) - i) - 1)
  set A4 := ∏ i : Fin n, y (.inr i.succ) ^ (beta / 2 * ((n : ℝ) - i) - 1)
  set A5 := ∏ i : Fin n, (1 - y (.inl i.castSucc))
  set A6 := ∏ i : Fin (n + 1), (1 - y (.inl i)) ^ (b - 1)
  set A7 := ∏ i : Fin n, (1 - y (.inr i.succ))
  set A8 := ∏ i : Fin n, (1 - y (.inr i.succ)) ^ (b - 1)
  linear_combination (A5 * A6 * A7 * A8) * h

/-- reference density of the Jacobi ensemble -/
noncomputable def jacW (a b x : ℝ) : ℝ := if 0 < x ∧ x < 1 then x ^ (a - 1) * (1 - x) ^ (b - 1) else 0

theorem jacW_nonneg (a b x : ℝ) : 0 ≤ jacW a b x := by
  unfold jacW; split_ifs with h
  · exact mul_nonneg (Real.rpow_nonneg h.1.le _) (Real.rpow_nonneg (sub_pos.2 h.2).le _)
  · exact le_rfl

theorem measurable_jacW (a b : ℝ) : Measurable (jacW a b) := by
  unfold jacW
  refine Measurable.ite (measurableSet_Ioi.inter measurableSet_Iio) ?_ measurable_const
  fun_prop

/-- normalisation of the densities of the draws -/
noncomputable def jacC (a b bt : ℝ) (n : ℕ) : ℝ :=
  (∏ i : Fin (n + 1), 1 / beta (bt / 2 * ((n : ℝ) - i) + a) (bt / 2 * ((n : ℝ) - i) + b))
    * ∏ i : Fin n, 1 / beta (bt / 2 * ((n : ℝ) - i)) (bt / 2 * ((n : ℝ) - (i + 1)) + a + b)

theorem fin_nonneg' {n : ℕ} (i : Fin n) : (0 : ℝ) ≤ n - (i + 1) := by
  have : ((i : ℕ) : ℝ) + 1 ≤ n := by exact_mod_cast i.2
  linarith

theorem jacC_pos {a b bt : ℝ} (ha : 0 < a) (hb : 0 < b) (hbt : 0 < bt) : 0 < jacC a b bt n := by
  refine mul_pos (prod_pos fun i _ => ?_) (prod_pos fun i _ => ?_)
  · have := fin_nonneg i
    have := beta_pos (show 0 < bt / 2 * ((n : ℝ) - i) + a by positivity) (show 0 < bt / 2 * ((n : ℝ) - i) + b by positivity)
    positivity
  · have := fin_pos i
    have := fin_nonneg' i
    have := beta_pos (show 0 < bt / 2 * ((n : ℝ) - i) by positivity) (show 0 < bt / 2 * ((n : ℝ) - (i + 1)) + a + b by positivity)
    positivity

/-- density of the draws in terms of the eigenvalues -/
theorem jac_density {a b bt : ℝ} (ha : 0 < a) (hb : 0 < b) (hbt : 0 < bt) {y : Cd (n + 1)} (hy : y ∈ jacO n) :
    drawD (bt / 2 * (n + 1)) (fun i : Fin (n + 1) => betaPDF (bt / 2 * ((n : ℝ) - i) + a) (bt / 2 * ((n : ℝ) - i) + b))
      (fun i : Fin n => betaPDF (bt / 2 * ((n : ℝ) - i)) (bt / 2 * ((n : ℝ) - (i + 1)) + a + b)) y
    = ENNReal.ofReal |(fderiv ℝ jacQ y).det| * (ENNReal.ofReal (Real.Gamma (bt / 2 * (n + 1)))⁻¹
        * (ENNReal.ofReal (coefD bt (jacQ y) * Real.exp (-(jacQ y (.inr 0))))
          * ENNReal.ofReal (jacC a b bt n * ∏ j, jacW a b (specMap (jacQ y) (.inl j))))) := by
  have hG0 := Real.Gamma_pos_of_pos (show 0 < bt / 2 * ((n : ℝ) + 1) by positivity)
  have hdet : 0 ≤ (fderiv ℝ jacQ y).det := by
    rw [det_jacQ]
    exact mul_nonneg (prod_nonneg fun i _ => (jacH_mem hy _).le) (mul_nonneg (prod_nonneg fun i _ => (sub_pos.2 (hy.2.2 i).2).le)
      (prod_nonneg fun i _ => (sub_pos.2 (hy.1 _).2).le))
  have hco : 0 ≤ coefD bt (jacQ y) := prod_nonneg fun i _ => Real.rpow_nonneg (jacQ_mem hy i).le _
  have hf : ∀ i : Fin (n + 1), 0 ≤ 1 / beta (bt / 2 * ((n : ℝ) - i) + a) (bt / 2 * ((n : ℝ) - i) + b)
      * y (.inl i) ^ (bt / 2 * ((n : ℝ) - i) + a - 1) * (1 - y (.inl i)) ^ (bt / 2 * ((n : ℝ) - i) + b - 1) := fun i => by
    have := fin_nonneg i
    have := beta_pos (show 0 < bt / 2 * ((n : ℝ) - i) + a by positivity) (show 0 < bt / 2 * ((n : ℝ) - i) + b by positivity)
    have := (hy.1 i).1
    have := sub_pos.2 (hy.1 i).2
    positivity
  have hg : ∀ i : Fin n, 0 ≤ 1 / beta (bt / 2 * ((n : ℝ) - i)) (bt / 2 * ((n : ℝ) - (i + 1)) + a + b)
      * y (.inr i.succ) ^ (bt / 2 * ((n : ℝ) - i) - 1) * (1 - y (.inr i.succ)) ^ (bt / 2 * ((n : ℝ) - (i + 1)) + a + b - 1) :=
      fun i => by
    have := fin_pos i
    have := fin_nonneg' i
    have := beta_pos (show 0 < bt / 2 * ((n : ℝ) - i) by positivity) (show 0 < bt / 2 * ((n : ℝ) - (i + 1)) + a + b by positivity)
    have := (hy.2.2 i).1
    have := sub_pos.2 (hy.2.2 i).2
    positivity
  have hr := hy.2.1
  rw [abs_of_nonneg hdet, ← ENNReal.ofReal_mul (mul_nonneg hco (Real.exp_pos _).le), ← ENNReal.ofReal_mul (inv_pos.2 hG0).le,
    ← ENNReal.ofReal_mul hdet, drawD]
  rw [gamD, if_pos hr]
  simp only [betaPDF_of_pos_lt_one (hy.1 _).1 (hy.1 _).2, betaPDF_of_pos_lt_one (hy.2.2 _).1 (hy.2.2 _).2]
  rw [← ENNReal.ofReal_prod_of_nonneg (fun i _ => hf i), ← ENNReal.ofReal_prod_of_nonneg (fun i _ => hg i),
    ← ENNReal.ofReal_mul (by positivity), ← ENNReal.ofReal_mul (prod_nonneg fun i _ => hf i)]
  congr 1
  have hw : ∏ j, jacW a b (specMap (jacQ y) (.inl j))
      = (∏ j, specMap (jacQ y) (.inl j)) ^ (a - 1) * (∏ j, (1 - specMap (jacQ y) (.inl j))) ^ (b - 1) := by
    simp only [jacW, if_pos (⟨jac_pos hy _, jac_lt hy _⟩ : _ ∧ _)]
    rw [prod_mul_distrib, Real.finsetProd_rpow _ _ (fun j _ => (jac_pos hy j).le),
      Real.finsetProd_rpow _ _ (fun j _ => (sub_pos.2 (jac_lt hy j)).le)]
  have hp := jac_powers (a := a) (b := b) (beta := bt) hy
  have hq0 : jacQ y (.inr 0) = y (.inr 0) := rfl
  rw [hw, hq0]
  simp only [prod_mul_distrib]
  rw [jacC, Real.one_rpow, one_mul, one_div (Real.Gamma _)]
  linear_combination ((∏ i : Fin (n + 1), 1 / beta (bt / 2 * ((n : ℝ) - i) + a) (bt / 2 * ((n : ℝ) - i) + b))
    * (∏ i : Fin n, 1 / beta (bt / 2 * ((n : ℝ) - i)) (bt / 2 * ((n : ℝ) - (i + 1)) + a + b))
    * Real.exp (-y (.inr 0)) * (Real.Gamma (bt / 2 * ((n : ℝ) + 1)))⁻¹) * hp

end Verif.Lemmas

namespace Verif.Lemmas
open Finset Matrix MeasureTheory Verif.Model ProbabilityTheory Verif.Spec

variable {n : ℕ}

theorem measurable_betaPDF (a b : ℝ) : Measurable (betaPDF a b) := (measurable_betaPDFReal a b).ennreal_ofReal

theorem betaPDF_zero {a b x : ℝ} (h : ¬ (0 < x ∧ x < 1)) : betaPDF a b x = 0 := by
  by_cases h0 : 0 < x
  · exact betaPDF_eq_zero_of_one_le (not_lt.1 fun h1 => h ⟨h0, h1⟩)
  · exact betaPDF_eq_zero_of_nonpos (not_lt.1 h0)

theorem ae_beta_mem (a b : ℝ) : ∀ᵐ x ∂(betaMeasure a b), 0 < x ∧ x < 1 := by
  rw [betaMeasure, ae_withDensity_iff (measurable_betaPDF _ _)]
  refine Filter.Eventually.of_forall fun x hx => ?_
  by_contra h0
  exact hx (betaPDF_zero h0)

theorem drawD_zero_jac {a0 : ℝ} {f : Fin (n + 1) → ℝ → ENNReal} {g : Fin n → ℝ → ENNReal} {y : Cd (n + 1)} (hy : y ∉ jacO n)
    (hf : ∀ i x, ¬ (0 < x ∧ x < 1) → f i x = 0) (hg : ∀ i x, ¬ (0 < x ∧ x < 1) → g i x = 0) : drawD a0 f g y = 0 := by
  by_contra hne
  rw [drawD, mul_eq_zero, mul_eq_zero, not_or, not_or] at hne
  refine hy ⟨fun k => ?_, ?_, fun i => ?_⟩
  · by_contra hc; exact hne.1 (prod_eq_zero (mem_univ k) (hf k _ hc))
  · by_contra hc; exact hne.2.1 (if_neg hc)
  · by_contra hc; exact hne.2.2 (prod_eq_zero (mem_univ i) (hg i _ hc))

end Verif.Lemmas

namespace Verif.Lemmas
open Finset Matrix MeasureTheory Verif.Model ProbabilityTheory Verif.Spec

/-- the law of a measurable function of the points of the banded model, in terms of the draws -/
theorem betaTridiag_law_map {E : Type} [MeasurableSpace E] {la : LA} (hla : LAOK la) {a b beta : ℝ} (ha : 0 < a) (hb : 0 < b)
    (hbt : 0 < beta) (n : ℕ) {g : (Fin (n + 1) → ℝ) → E} (hg : Measurable g) :
    ((betaTridiag la a b beta (n + 1)).map (fun l => g (toVec (n + 1) l))).law
      = ((Measure.pi fun i : Fin (n + 1) => betaMeasure (beta / 2 * ((n : ℝ) - i) + a) (beta / 2 * ((n : ℝ) - i) + b)).prod
          (Measure.pi fun i : Fin n => betaMeasure (beta / 2 * ((n : ℝ) - i)) (beta / 2 * ((n : ℝ) - (i + 1)) + a + b))).map
        (fun p => g fun j => specMap (jacQ (unitM p)) (.inl j)) := by
  set μ : Fin (n + 1) → Measure ℝ := fun i => betaMeasure (beta / 2 * ((n : ℝ) - i) + a) (beta / 2 * ((n : ℝ) - i) + b) with hμ
  set ν : Fin n → Measure ℝ := fun i => betaMeasure (beta / 2 * ((n : ℝ) - i)) (beta / 2 * ((n : ℝ) - (i + 1)) + a + b) with hν
  have hk1 : ∀ i : Fin (n + 1), 0 < beta / 2 * ((n : ℝ) - i) + a := fun i => by
    have := fin_nonneg i
    positivity
  have hk1' : ∀ i : Fin (n + 1), 0 < beta / 2 * ((n : ℝ) - i) + b := fun i => by
    have := fin_nonneg i
    positivity
  have hk2 : ∀ i : Fin n, 0 < beta / 2 * ((n : ℝ) - i) := fun i => by
    have := fin_pos i
    positivity
  have hk2' : ∀ i : Fin n, 0 < beta / 2 * ((n : ℝ) - (i + 1)) + a + b := fun i => by
    have := fin_nonneg' i
    positivity
  have hpμ : ∀ i, IsProbabilityMeasure (μ i) := fun i => isProbabilityMeasureBeta (hk1 i) (hk1' i)
  have hpν : ∀ i, IsProbabilityMeasure (ν i) := fun i => isProbabilityMeasureBeta (hk2 i) (hk2' i)
  have hm : Measurable (fun p : (Fin (n + 1) → ℝ) × (Fin n → ℝ) => fun j => specMap (jacQ (unitM p)) (.inl j)) :=
    measurable_pi_lambda _ fun j => (measurable_pi_apply _).comp
      (measurable_specMap.comp (diff_jacQ.continuous.measurable.comp measurable_unitM))
  have e1 : ∀ (c : ℝ) (i : Fin (n + 1)), 0.5 * beta * (((n + 1 : ℕ) : ℝ) - 1 - (i : ℕ)) + c = beta / 2 * ((n : ℝ) - i) + c :=
    fun c i => by push_cast; ring
  have e2 : ∀ i : Fin (n + 1 - 1), 0.5 * beta * (((n + 1 : ℕ) : ℝ) - 1 - (i : ℕ)) = beta / 2 * ((n : ℝ) - (i : ℕ)) :=
    fun i => by push_cast; ring
  have e3 : ∀ i : Fin (n + 1 - 1), 0.5 * beta * (((n + 1 : ℕ) : ℝ) - 1 - ((i : ℕ) + 1)) + a + b
      = beta / 2 * ((n : ℝ) - ((i : ℕ) + 1)) + a + b := fun i => by push_cast; ring
  have hc1 : ¬ (∃ i : Fin (n + 1), beta / 2 * ((n : ℝ) - (i : ℕ)) + a ≤ 0 ∨ beta / 2 * ((n : ℝ) - (i : ℕ)) + b ≤ 0) := by
    rintro ⟨i, h | h⟩
    · exact absurd h (not_le.2 (hk1 i))
    · exact absurd h (not_le.2 (hk1' i))
  have hc2 : ¬ (∃ i : Fin (n + 1 - 1), beta / 2 * ((n : ℝ) - (i : ℕ)) ≤ 0
      ∨ beta / 2 * ((n : ℝ) - ((i : ℕ) + 1)) + a + b ≤ 0) := by
    rintro ⟨i, h | h⟩
    · exact absurd h (not_le.2 (hk2 i))
    · exact absurd h (not_le.2 (hk2' i))
  rw [betaTridiag, if_neg (by simpa using hbt)]
  simp only [RP.map, RP.law, e1, e2, e3, if_neg hc1, if_neg hc2]
  rw [← bind_two_ae (Measure.pi μ) (Measure.pi ν) (F := fun co ce => g (toVec (n + 1) (eigTridiag la (n + 1)
    (xiAlpha (betaXiOdd (vget co) (shiftZero ce)) (betaXiEven (vget co) (shiftZero ce)))
    (fun i => √(xiBeta (betaXiOdd (vget co) (shiftZero ce)) (betaXiEven (vget co) (shiftZero ce)) i))))) (show Measurable fun p : (Fin (n + 1) → ℝ) × (Fin n → ℝ) => g fun j => specMap (jacQ (unitM p)) (.inl j) from hg.comp hm)]
  · rfl
  · filter_upwards [ae_pi_of μ (P := fun _ x => 0 < x ∧ x < 1) fun i => ae_beta_mem _ _] with co hco
    filter_upwards [ae_pi_of ν (P := fun _ x => 0 < x ∧ x < 1) fun i => ae_beta_mem _ _] with ce hce
    have hO : unitM (co, ce) ∈ jacO n := ⟨hco, one_pos, hce⟩
    have hcoS : coS (unitM (co, ce)) = vget co := rfl
    have hceS : ∀ i < n + 1, shiftZero ce i = evenSeq (unitM (co, ce)) i := by
      intro i hi
      rcases i with _ | i
      · rfl
      · rw [shiftZero, evenSeq, if_neg (by omega), if_neg (by omega), pad_lt hi, vget, Nat.add_sub_cancel,
          dif_pos (show i < n by omega)]
        rfl
    have hev : ∀ i < n + 1, betaXiEven (vget co) (shiftZero ce) i = evenSeq (jacH (unitM (co, ce))) i := by
      intro i hi
      rcases i with _ | i
      · rfl
      · rw [jacH_r _ hi, betaXiEven, if_neg (by omega), hceS _ hi, Nat.add_sub_cancel, hcoS]
    rw [eig_specMap hla (jacQ_mem hO), toVec_ofFn]
    · intro i hi
      rw [jacQ, pad_lagQ_l _ hi, xiAlpha, add_comm, betaXiOdd, hev i hi, jacH_l _ hi, hceS i hi, hcoS]
    · intro i hi
      rw [jacQ, pad_lagQ_r _ hi, xiBeta, betaXiOdd, hev _ hi, jacH_l _ (by omega), hceS i (by omega), hcoS]

end Verif.Lemmas

namespace Verif.Props
open Finset MeasureTheory ProbabilityTheory Verif.Model Verif.Spec Verif.Lemmas

/-- **C81**. The points returned by the banded Jacobi model with parameters `a`, `b`, `beta` follow the beta ensemble with
reference measure `Beta(a, b)`, for every size and every real `beta > 0`. -/
theorem C81_jacobi_banded_law {la : LA} (hla : LAOK la) {a b beta : ℝ} (ha : 0 < a) (hb : 0 < b) (hbt : 0 < beta)
    {N : ℕ} (hN : 1 ≤ N) :
    IsBetaEnsemble ((betaTridiag la a b beta N).map (toVec N)).law beta
      (fun x => if 0 < x ∧ x < 1 then x ^ (a - 1) * (1 - x) ^ (b - 1) else 0) := by
  obtain ⟨n, rfl⟩ : ∃ n, N = n + 1 := ⟨N - 1, by omega⟩
  set μ : Fin (n + 1) → Measure ℝ := fun i => betaMeasure (beta / 2 * ((n : ℝ) - i) + a) (beta / 2 * ((n : ℝ) - i) + b) with hμ
  set ν : Fin n → Measure ℝ := fun i => betaMeasure (beta / 2 * ((n : ℝ) - i)) (beta / 2 * ((n : ℝ) - (i + 1)) + a + b) with hν
  have hk1 : ∀ i : Fin (n + 1), 0 < beta / 2 * ((n : ℝ) - i) + a := fun i => by
    have := fin_nonneg i
    positivity
  have hk1' : ∀ i : Fin (n + 1), 0 < beta / 2 * ((n : ℝ) - i) + b := fun i => by
    have := fin_nonneg i
    positivity
  have hk2 : ∀ i : Fin n, 0 < beta / 2 * ((n : ℝ) - i) := fun i => by
    have := fin_pos i
    positivity
  have hk2' : ∀ i : Fin n, 0 < beta / 2 * ((n : ℝ) - (i + 1)) + a + b := fun i => by
    have := fin_nonneg' i
    positivity
  have hpμ : ∀ i, IsProbabilityMeasure (μ i) := fun i => isProbabilityMeasureBeta (hk1 i) (hk1' i)
  have hpν : ∀ i, IsProbabilityMeasure (ν i) := fun i => isProbabilityMeasureBeta (hk2 i) (hk2' i)
  have hm : Measurable (fun p : (Fin (n + 1) → ℝ) × (Fin n → ℝ) => fun j => specMap (jacQ (unitM p)) (.inl j)) :=
    measurable_pi_lambda _ fun j => (measurable_pi_apply _).comp
      (measurable_specMap.comp (diff_jacQ.continuous.measurable.comp measurable_unitM))
  have hlaw : ((betaTridiag la a b beta (n + 1)).map (toVec (n + 1))).law
      = ((Measure.pi μ).prod (Measure.pi ν)).map (fun p => fun j => specMap (jacQ (unitM p)) (.inl j)) :=
    betaTridiag_law_map hla ha hb hbt n measurable_id
  have hmain := law_pipeline μ ν (fun i => measurable_betaPDF _ _) (fun i => measurable_betaPDF _ _)
    (fun i => rfl) (fun i => rfl) hbt measurableSet_jacO
    (fun z hz => drawD_zero_jac hz (fun i x hx => betaPDF_zero hx) (fun i x hx => betaPDF_zero hx)) diff_jacQ jacQ_injOn
    (fun z hz => jacQ_mem hz) (fun z hz => ⟨unitM_jac hz, jac_mass z⟩)
    (G := fun l => ENNReal.ofReal (jacC a b beta n * ∏ i, jacW a b (l i)))
    (by
      refine ENNReal.measurable_ofReal.comp (Measurable.const_mul ?_ _)
      exact Finset.measurable_prod _ fun i _ => (measurable_jacW _ _).comp (measurable_pi_apply i))
    (by
      intro y hy hn
      have : ∃ j, ¬ (0 < specMap y (.inl j) ∧ specMap y (.inl j) < 1) := by
        by_contra hc
        push Not at hc
        exact hn (jac_surj hy (fun j => (hc j).1) fun j => (hc j).2)
      obtain ⟨j, hj⟩ := this
      rw [prod_eq_zero (mem_univ j) (by rw [jacW, if_neg hj]), mul_zero, ENNReal.ofReal_zero])
    (fun z hz => jac_density ha hb hbt hz)
  rw [hlaw]
  exact isBetaEnsemble_of (jacC_pos ha hb hbt) (jacW_nonneg a b)
    (Measure.isProbabilityMeasure_map hm.aemeasurable) (massK_pos hbt) hmain

/-- the hypotheses of C81 can be met: a solver that meets the contract exists, here with `beta = 1/2` and four points -/
example : ∃ la : LA, LAOK la ∧ IsBetaEnsemble ((betaTridiag la (1 / 3) 2 (1 / 2) 4).map (toVec 4)).law (1 / 2)
    (fun x => if 0 < x ∧ x < 1 then x ^ ((1 / 3 : ℝ) - 1) * (1 - x) ^ ((2 : ℝ) - 1) else 0) := by
  obtain ⟨la, hla⟩ := exists_LAOK
  exact ⟨la, hla, C81_jacobi_banded_law hla (by norm_num) (by norm_num) (by norm_num) (by norm_num)⟩

end Verif.Props
