import Verif.Lemmas.JacLaguerre
import Verif.Props.HermiteLaw

/-!
# C80: the banded Laguerre model has the law of the Laguerre beta ensemble
-/

namespace Verif.Lemmas
open Finset Matrix MeasureTheory Verif.Model ProbabilityTheory Verif.Spec

/-- as `bind_two`, with an equality for almost all values of the first draw -/
theorem bind_two_ae {X Y Z : Type} [MeasurableSpace X] [MeasurableSpace Y] [MeasurableSpace Z] (μ : Measure X) (ν : Measure Y)
    [SFinite μ] [SFinite ν] {F : X → Y → Z} {F' : X × Y → Z} (hF' : Measurable F') (h : ∀ᵐ x ∂μ, ∀ᵐ y ∂ν, F x y = F' (x, y)) :
    μ.bind (fun x => ν.bind fun y => Measure.dirac (F x y)) = (μ.prod ν).map F' := by
  rw [← bind_two μ ν hF' (F := fun x y => F' (x, y)) fun x => Filter.Eventually.of_forall fun y => rfl]
  rw [Measure.bind, Measure.bind]
  congr 1
  refine Measure.map_congr ?_
  filter_upwards [h] with x hx
  rw [Measure.bind, Measure.bind]
  congr 1
  refine Measure.map_congr ?_
  filter_upwards [hx] with y hy
  rw [hy]

theorem ae_pi_of {N : ℕ} (ν : Fin N → Measure ℝ) [∀ i, IsProbabilityMeasure (ν i)] {P : Fin N → ℝ → Prop}
    (h : ∀ i, ∀ᵐ x ∂(ν i), P i x) : ∀ᵐ b ∂(Measure.pi ν), ∀ i, P i (b i) := by
  rw [ae_all_iff]
  intro i
  exact (Measure.quasiMeasurePreserving_eval ν i).ae (h i)

theorem ae_gamma_pos (a r : ℝ) : ∀ᵐ x ∂(gammaMeasure a r), 0 < x := by
  rw [gammaMeasure_eq, ae_withDensity_iff (measurable_gamD _ _)]
  refine Filter.Eventually.of_forall fun x hx => ?_
  by_contra h0
  exact hx (if_neg h0)

variable {n : ℕ}

theorem unitM_mem {a : Fin (n + 1) → ℝ} {b : Fin n → ℝ} (ha : ∀ i, 0 < a i) (hb : ∀ i, 0 < b i) :
    unitM (a, b) ∈ posO (n + 1) := by
  rintro (k | k)
  · exact ha k
  · refine Fin.cases ?_ (fun i => ?_) k
    · exact one_pos
    · exact hb i

/-- reference density of the Laguerre ensemble -/
noncomputable def lagW (shape scale x : ℝ) : ℝ := if 0 < x then x ^ (shape - 1) * Real.exp (-x / scale) else 0

/-- normalisation of the densities of the draws -/
noncomputable def lagC (shape scale beta : ℝ) (n : ℕ) : ℝ :=
  (∏ i : Fin (n + 1), (1 / scale) ^ (beta / 2 * ((n : ℝ) - i) + shape) / Real.Gamma (beta / 2 * ((n : ℝ) - i) + shape))
    * ∏ i : Fin n, (1 / scale) ^ (beta / 2 * ((n : ℝ) - i)) / Real.Gamma (beta / 2 * ((n : ℝ) - i))

theorem fin_pos {n : ℕ} (i : Fin n) : (0 : ℝ) < n - i := by
  have : (i : ℝ) < n := by exact_mod_cast i.2
  linarith

theorem fin_nonneg {n : ℕ} (i : Fin (n + 1)) : (0 : ℝ) ≤ n - i := by
  have : (i : ℝ) ≤ n := by exact_mod_cast Nat.lt_succ_iff.1 i.2
  linarith

theorem lagC_pos {shape scale beta : ℝ} (hsh : 0 < shape) (hs : 0 < scale) (hb : 0 < beta) : 0 < lagC shape scale beta n := by
  refine mul_pos (prod_pos fun i _ => ?_) (prod_pos fun i _ => ?_)
  · have := fin_nonneg i
    have := Real.Gamma_pos_of_pos (show 0 < beta / 2 * ((n : ℝ) - i) + shape by positivity)
    positivity
  · have := fin_pos i
    have := Real.Gamma_pos_of_pos (show 0 < beta / 2 * ((n : ℝ) - i) by positivity)
    positivity

/-- the powers of the coordinates -/
theorem lag_powers {shape beta : ℝ} {y : Cd (n + 1)} (hy : y ∈ posO (n + 1)) :
    (∏ i : Fin (n + 1), y (.inl i) ^ (beta / 2 * ((n : ℝ) - i) + shape - 1))
      * (y (.inr 0) ^ (beta / 2 * (n + 1) - 1) * ∏ i : Fin n, y (.inr i.succ) ^ (beta / 2 * ((n : ℝ) - i) - 1))
    = (∏ i : Fin n, y (.inl i.castSucc)) * (coefD beta (lagQ y) * (∏ j, specMap (lagQ y) (.inl j)) ^ (shape - 1)) := by
  rw [lag_det hy, ← Real.finset_prod_rpow _ _ (fun k _ => (hy _).le), coefD_split, lagQ_r0]
  simp only [lagQ_rs]
  have h1 : ∏ i : Fin n, (y (.inl i.castSucc) * y (.inr i.succ)) ^ (beta / 2 * ((n : ℝ) - i) - 1)
      = (∏ i : Fin n, y (.inl i.castSucc) ^ (beta / 2 * ((n : ℝ) - i) - 1))
        * ∏ i : Fin n, y (.inr i.succ) ^ (beta / 2 * ((n : ℝ) - i) - 1) := by
    rw [← prod_mul_distrib]
    exact prod_congr rfl fun i _ => Real.mul_rpow (hy _).le (hy _).le
  rw [h1, Fin.prod_univ_castSucc, Fin.prod_univ_castSucc (fun i => y (.inl i) ^ (shape - 1))]
  have h2 : ∏ i : Fin n, y (.inl i.castSucc) ^ (beta / 2 * ((n : ℝ) - (i.castSucc : Fin (n + 1))) + shape - 1)
      = (∏ i : Fin n, y (.inl i.castSucc)) * ((∏ i : Fin n, y (.inl i.castSucc) ^ (beta / 2 * ((n : ℝ) - i) - 1))
        * ∏ i : Fin n, y (.inl i.castSucc) ^ (shape - 1)) := by
    rw [← prod_mul_distrib, ← prod_mul_distrib]
    refine prod_congr rfl fun i _ => ?_
    have hp := hy (.inl i.castSucc)
    have e : beta / 2 * ((n : ℝ) - (i.castSucc : Fin (n + 1))) + shape - 1
        = 1 + ((beta / 2 * ((n : ℝ) - i) - 1) + (shape - 1)) := by rw [Fin.val_castSucc]; ring
    rw [e, Real.rpow_add hp, Real.rpow_one, Real.rpow_add hp]
  have h3 : beta / 2 * ((n : ℝ) - (Fin.last n : Fin (n + 1))) + shape - 1 = shape - 1 := by simp
  rw [h2, h3]
  ring

theorem lagW_nonneg (shape scale x : ℝ) : 0 ≤ lagW shape scale x := by
  unfold lagW; split_ifs with h
  · exact mul_nonneg (Real.rpow_nonneg h.le _) (Real.exp_pos _).le
  · exact le_rfl

theorem measurable_lagW (shape scale : ℝ) : Measurable (lagW shape scale) := by
  unfold lagW
  refine Measurable.ite measurableSet_Ioi ?_ measurable_const
  fun_prop

/-- density of the draws in terms of the eigenvalues -/
theorem lag_density {shape scale beta : ℝ} (hsh : 0 < shape) (hs : 0 < scale) (hb : 0 < beta) {y : Cd (n + 1)}
    (hy : y ∈ posO (n + 1)) :
    drawD (beta / 2 * (n + 1)) (fun i : Fin (n + 1) => gamD (beta / 2 * ((n : ℝ) - i) + shape) (1 / scale))
      (fun i : Fin n => gamD (beta / 2 * ((n : ℝ) - i)) (1 / scale)) y
    = ENNReal.ofReal |(fderiv ℝ lagQ y).det| * (ENNReal.ofReal (Real.Gamma (beta / 2 * (n + 1)))⁻¹
        * (ENNReal.ofReal (coefD beta (lagQ y) * Real.exp (-(lagQ y (.inr 0))))
          * ENNReal.ofReal (lagC shape scale beta n * ∏ j, lagW shape scale (specMap (lagQ y) (.inl j))))) := by
  have hG0 := Real.Gamma_pos_of_pos (show 0 < beta / 2 * ((n : ℝ) + 1) by positivity)
  have hdet : 0 ≤ ∏ i : Fin n, y (.inl i.castSucc) := prod_nonneg fun i _ => (hy _).le
  have hco : 0 ≤ coefD beta (lagQ y) := prod_nonneg fun i _ => Real.rpow_nonneg (lagQ_mem hy i).le _
  have hf : ∀ i : Fin (n + 1), 0 ≤ (1 / scale) ^ (beta / 2 * ((n : ℝ) - i) + shape)
      / Real.Gamma (beta / 2 * ((n : ℝ) - i) + shape) * y (.inl i) ^ (beta / 2 * ((n : ℝ) - i) + shape - 1)
      * Real.exp (-(1 / scale * y (.inl i))) := fun i => by
    have := fin_nonneg i
    have := Real.Gamma_pos_of_pos (show 0 < beta / 2 * ((n : ℝ) - i) + shape by positivity)
    have := hy (.inl i)
    positivity
  have hg : ∀ i : Fin n, 0 ≤ (1 / scale) ^ (beta / 2 * ((n : ℝ) - i))
      / Real.Gamma (beta / 2 * ((n : ℝ) - i)) * y (.inr i.succ) ^ (beta / 2 * ((n : ℝ) - i) - 1)
      * Real.exp (-(1 / scale * y (.inr i.succ))) := fun i => by
    have := fin_pos i
    have := Real.Gamma_pos_of_pos (show 0 < beta / 2 * ((n : ℝ) - i) by positivity)
    have := hy (.inr i.succ)
    positivity
  rw [det_lagQ, abs_of_nonneg hdet, ← ENNReal.ofReal_mul (mul_nonneg hco (Real.exp_pos _).le), ← ENNReal.ofReal_mul (inv_pos.2 hG0).le,
    ← ENNReal.ofReal_mul hdet, drawD]
  simp only [gamD, if_pos (hy _)]
  rw [← ENNReal.ofReal_prod_of_nonneg (fun i _ => hf i), ← ENNReal.ofReal_prod_of_nonneg (fun i _ => hg i),
    ← ENNReal.ofReal_mul (by have := hy (.inr 0); positivity), ← ENNReal.ofReal_mul (prod_nonneg fun i _ => hf i)]
  congr 1
  have hw : ∏ j, lagW shape scale (specMap (lagQ y) (.inl j))
      = (∏ j, specMap (lagQ y) (.inl j)) ^ (shape - 1) * (Real.exp (∑ k, -(1 / scale * y (.inl k)))
        * Real.exp (∑ i : Fin n, -(1 / scale * y (.inr i.succ)))) := by
    simp only [lagW, if_pos (lag_pos hy _)]
    rw [prod_mul_distrib, Real.finset_prod_rpow _ _ (fun j _ => (lag_pos hy j).le), ← Real.exp_sum, ← Real.exp_add]
    congr 2
    rw [← sum_div, sum_neg_distrib, sum_neg_distrib, sum_neg_distrib, lag_trace hy, ← mul_sum, ← mul_sum]
    field_simp
    ring
  rw [hw, lagQ_r0]
  simp only [prod_mul_distrib, ← Real.exp_sum]
  have hp := lag_powers (shape := shape) (beta := beta) hy
  rw [lagC, Real.one_rpow, one_mul]
  set P1 := ∏ i : Fin (n + 1), y (.inl i) ^ (beta / 2 * ((n : ℝ) - i) + shape - 1)
  set P2 := ∏ i : Fin n, y (.inr i.succ) ^ (beta / 2 * ((n : ℝ) - i) - 1)
  set D := ∏ i : Fin n, y (.inl i.castSucc)
  set L := ∏ j, specMap (lagQ y) (.inl j)
  set C1 := ∏ i : Fin (n + 1), (1 / scale) ^ (beta / 2 * ((n : ℝ) - i) + shape) / Real.Gamma (beta / 2 * ((n : ℝ) - i) + shape)
  set C2 := ∏ i : Fin n, (1 / scale) ^ (beta / 2 * ((n : ℝ) - i)) / Real.Gamma (beta / 2 * ((n : ℝ) - i))
  set E1 := Real.exp (∑ k, -(1 / scale * y (.inl k)))
  set E2 := Real.exp (∑ i : Fin n, -(1 / scale * y (.inr i.succ)))
  rw [one_div (Real.Gamma _)]
  linear_combination (C1 * C2 * E1 * E2 * Real.exp (-y (.inr 0)) * (Real.Gamma (beta / 2 * ((n : ℝ) + 1)))⁻¹) * hp

theorem drawD_zero {a0 : ℝ} {f : Fin (n + 1) → ℝ → ENNReal} {g : Fin n → ℝ → ENNReal} {y : Cd (n + 1)} (hy : y ∉ posO (n + 1))
    (hf : ∀ i x, ¬ 0 < x → f i x = 0) (hg : ∀ i x, ¬ 0 < x → g i x = 0) : drawD a0 f g y = 0 := by
  simp only [posO, Set.mem_setOf_eq, not_forall] at hy
  obtain ⟨c, hc⟩ := hy
  rw [drawD]
  rcases c with k | k
  · rw [prod_eq_zero (mem_univ k) (hf k _ hc), zero_mul]
  · revert hc
    refine Fin.cases (fun hc => ?_) (fun i hc => ?_) k
    · rw [gamD, if_neg hc, zero_mul, mul_zero]
    · rw [prod_eq_zero (mem_univ i) (hg i _ hc), mul_zero, mul_zero]

end Verif.Lemmas

namespace Verif.Props
open Finset MeasureTheory ProbabilityTheory Verif.Model Verif.Spec Verif.Lemmas

/-- **C80**. The points returned by the banded Laguerre model with parameters `shape`, `scale`, `beta` follow the beta ensemble with
reference measure `Gamma(shape, scale)`, for every size and every real `beta > 0`. -/
theorem C80_laguerre_banded_law {la : LA} (hla : LAOK la) {shape scale beta : ℝ} (hsh : 0 < shape) (hs : 0 < scale) (hb : 0 < beta)
    {N : ℕ} (hN : 1 ≤ N) :
    IsBetaEnsemble ((gammaTridiag la shape scale beta N).map (toVec N)).law beta
      (fun x => if 0 < x then x ^ (shape - 1) * Real.exp (-x / scale) else 0) := by
  obtain ⟨n, rfl⟩ : ∃ n, N = n + 1 := ⟨N - 1, by omega⟩
  have hs0 : 0 < 1 / scale := by positivity
  set μ : Fin (n + 1) → Measure ℝ := fun i => gammaMeasure (beta / 2 * ((n : ℝ) - i) + shape) (1 / scale) with hμ
  set ν : Fin n → Measure ℝ := fun i => gammaMeasure (beta / 2 * ((n : ℝ) - i)) (1 / scale) with hν
  have hk1 : ∀ i : Fin (n + 1), 0 < beta / 2 * ((n : ℝ) - i) + shape := fun i => by
    have := fin_nonneg i
    positivity
  have hk2 : ∀ i : Fin n, 0 < beta / 2 * ((n : ℝ) - i) := fun i => by
    have := fin_pos i
    positivity
  have hpμ : ∀ i, IsProbabilityMeasure (μ i) := fun i => isProbabilityMeasure_gammaMeasure (hk1 i) hs0
  have hpν : ∀ i, IsProbabilityMeasure (ν i) := fun i => isProbabilityMeasure_gammaMeasure (hk2 i) hs0
  have hm : Measurable (fun p : (Fin (n + 1) → ℝ) × (Fin n → ℝ) => fun j => specMap (lagQ (unitM p)) (.inl j)) :=
    measurable_pi_lambda _ fun j => (measurable_pi_apply _).comp
      (measurable_specMap.comp (diff_lagQ.continuous.measurable.comp measurable_unitM))
  have hlaw : ((gammaTridiag la shape scale beta (n + 1)).map (toVec (n + 1))).law
      = ((Measure.pi μ).prod (Measure.pi ν)).map (fun p => fun j => specMap (lagQ (unitM p)) (.inl j)) := by
    have e1 : ∀ i : Fin (n + 1), 0.5 * beta * (((n + 1 : ℕ) : ℝ) - 1 - (i : ℕ)) + shape = beta / 2 * ((n : ℝ) - i) + shape :=
      fun i => by push_cast; ring
    have e2 : ∀ i : Fin (n + 1 - 1), 0.5 * beta * (((n + 1 : ℕ) : ℝ) - 1 - (i : ℕ)) = beta / 2 * ((n : ℝ) - (i : ℕ)) :=
      fun i => by push_cast; ring
    have hc1 : ¬ ((∃ i : Fin (n + 1), beta / 2 * ((n : ℝ) - (i : ℕ)) + shape < 0) ∨ scale < 0) := by
      rintro (⟨i, h⟩ | h)
      · exact absurd h (not_lt.2 (hk1 i).le)
      · exact absurd h (not_lt.2 hs.le)
    have hc2 : ¬ ((∃ i : Fin (n + 1 - 1), beta / 2 * ((n : ℝ) - (i : ℕ)) < 0) ∨ scale < 0) := by
      rintro (⟨i, h⟩ | h)
      · exact absurd h (not_lt.2 (hk2 i).le)
      · exact absurd h (not_lt.2 hs.le)
    have hg1 : ∀ i : Fin (n + 1), RP.gammaLaw (beta / 2 * ((n : ℝ) - (i : ℕ)) + shape) scale = μ i := fun i => by
      rw [RP.gammaLaw, if_neg (by rintro (h | h); exacts [(hk1 i).ne' h, hs.ne' h])]
    have hg2 : ∀ i : Fin n, RP.gammaLaw (beta / 2 * ((n : ℝ) - (i : ℕ))) scale = ν i := fun i => by
      rw [RP.gammaLaw, if_neg (by rintro (h | h); exacts [(hk2 i).ne' h, hs.ne' h])]
    rw [gammaTridiag, if_neg (by simpa using hb)]
    simp only [RP.map, RP.law, e1, e2, if_neg hc1, if_neg hc2]
    rw [← bind_two_ae (Measure.pi μ) (Measure.pi ν) (F := fun xo xe => toVec (n + 1) (eigTridiag la (n + 1)
      (xiAlpha (vget xo) (shiftZero xe)) (fun i => √(xiBeta (vget xo) (shiftZero xe) i)))) hm]
    · refine congrArg₂ _ (congrArg _ (funext hg1)) (funext fun a => ?_)
      exact congrArg₂ _ (congrArg _ (funext hg2)) rfl
    · filter_upwards [ae_pi_of μ (P := fun _ x => 0 < x) fun i => ae_gamma_pos _ _] with a ha
      filter_upwards [ae_pi_of ν (P := fun _ x => 0 < x) fun i => ae_gamma_pos _ _] with b hb'
      have hO := unitM_mem ha hb'
      rw [eig_specMap hla (lagQ_mem hO), toVec_ofFn]
      · intro i hi
        rw [pad_lagQ_l _ hi, xiAlpha, add_comm]
        congr 1
        rcases i with _ | i
        · rfl
        · rw [shiftZero, evenSeq, if_neg (by omega), if_neg (by omega), pad_lt hi, vget, Nat.add_sub_cancel,
            dif_pos (show i < n by omega)]
          rfl
      · intro i hi
        rw [pad_lagQ_r _ hi, xiBeta]
        congr 2
        rw [shiftZero, evenSeq, if_neg (by omega), if_neg (by omega), pad_lt hi, vget, Nat.add_sub_cancel,
          dif_pos (show i < n by omega)]
        rfl
  have hmain := law_pipeline μ ν (fun i => measurable_gamD _ _) (fun i => measurable_gamD _ _)
    (fun i => gammaMeasure_eq _ _) (fun i => gammaMeasure_eq _ _) hb measurableSet_posO
    (fun z hz => drawD_zero hz (fun i x hx => if_neg hx) (fun i x hx => if_neg hx)) diff_lagQ lagQ_injOn (fun z hz => lagQ_mem hz)
    (fun z hz => ⟨unitM_pos hz, lag_mass z⟩)
    (G := fun l => ENNReal.ofReal (lagC shape scale beta n * ∏ i, lagW shape scale (l i)))
    (by
      refine ENNReal.measurable_ofReal.comp (Measurable.const_mul ?_ _)
      exact Finset.measurable_prod _ fun i _ => (measurable_lagW _ _).comp (measurable_pi_apply i))
    (by
      intro y hy hn
      have : ∃ j, ¬ 0 < specMap y (.inl j) := by
        by_contra hc
        push Not at hc
        exact hn (lag_surj hy hc)
      obtain ⟨j, hj⟩ := this
      rw [prod_eq_zero (mem_univ j) (by rw [lagW, if_neg hj]), mul_zero, ENNReal.ofReal_zero])
    (fun z hz => lag_density hsh hs hb hz)
  rw [hlaw]
  exact isBetaEnsemble_of (lagC_pos hsh hs hb) (lagW_nonneg shape scale)
    (Measure.isProbabilityMeasure_map hm.aemeasurable) (massK_pos hb) hmain

/-- the hypotheses of C80 can be met: a solver that meets the contract exists, here with `beta = 1/2` and four points -/
example : ∃ la : LA, LAOK la ∧ IsBetaEnsemble ((gammaTridiag la (1 / 3) 2 (1 / 2) 4).map (toVec 4)).law (1 / 2)
    (fun x => if 0 < x then x ^ ((1 / 3 : ℝ) - 1) * Real.exp (-x / 2) else 0) := by
  obtain ⟨la, hla⟩ := exists_LAOK
  exact ⟨la, hla, C80_laguerre_banded_law hla (by norm_num) (by norm_num) (by norm_num) (by norm_num)⟩

end Verif.Props
