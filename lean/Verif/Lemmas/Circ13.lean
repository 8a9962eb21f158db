import Verif.Lemmas.Circ12
import Mathlib.Logic.Equiv.Fin.Rotate

/-!
# The angles of the banded circular model follow the circular beta ensemble
-/

namespace Verif.Lemmas
open Finset MeasureTheory Verif Verif.Model Verif.Spec ProbabilityTheory
open scoped ComplexConjugate

theorem lintegral_pi_prodα {α : Type} [MeasurableSpace α] : ∀ {n : ℕ} (μ : Fin n → Measure α) [∀ i, SigmaFinite (μ i)]
    {f : Fin n → α → ENNReal} (_ : ∀ i, Measurable (f i)), ∫⁻ x, ∏ i, f i (x i) ∂(Measure.pi μ) = ∏ i, ∫⁻ t, f i t ∂(μ i)
  | 0, μ, _, f, hf => by
    simp only [univ_eq_empty, prod_empty, lintegral_const, one_mul]
    rw [Measure.pi_of_empty]
    simp
  | n + 1, μ, _, f, hf => by
    have h := (measurePreserving_piFinSuccAbove μ 0).symm
    rw [← h.lintegral_comp (by fun_prop)]
    have hm : Measurable fun y : Fin n → α => ∏ i, f i.succ (y i) :=
      Finset.measurable_prod _ fun i _ => (hf _).comp (measurable_pi_apply i)
    have e : ∀ a : α × (Fin n → α), ∏ i, f i ((MeasurableEquiv.piFinSuccAbove (fun _ => α) (0 : Fin (n + 1))).symm a i)
        = f 0 a.1 * ∏ i, f i.succ (a.2 i) := by
      intro a
      rw [Fin.prod_univ_succ]
      rfl
    simp only [e]
    rw [lintegral_prod_mul (hf 0).aemeasurable hm.aemeasurable]
    rw [Fin.prod_univ_succ]
    congr 1
    exact lintegral_pi_prodα (fun i => μ i.succ) (fun i => hf i.succ)

/-- a product of measures with densities has the product density -/
theorem pi_withDensityα {α : Type} [MeasurableSpace α] {n : ℕ} (μ : Fin n → Measure α) [∀ i, SigmaFinite (μ i)] {f : Fin n → α → ENNReal}
    (hf : ∀ i, Measurable (f i)) [∀ i, SigmaFinite ((μ i).withDensity (f i))] :
    Measure.pi (fun i => (μ i).withDensity (f i)) = (Measure.pi μ).withDensity fun x => ∏ i, f i (x i) := by
  refine Measure.pi_eq fun s hs => ?_
  rw [withDensity_apply _ (MeasurableSet.univ_pi hs), ← lintegral_indicator (MeasurableSet.univ_pi hs)]
  have e : ∀ x : Fin n → α, (Set.univ.pi s).indicator (fun x => ∏ i, f i (x i)) x = ∏ i, (s i).indicator (f i) (x i) := by
    intro x
    by_cases hx : x ∈ Set.univ.pi s
    · rw [Set.indicator_of_mem hx]
      exact prod_congr rfl fun i _ => (Set.indicator_of_mem (hx i (Set.mem_univ i)) _).symm
    · rw [Set.indicator_of_notMem hx]
      have : ∃ i, x i ∉ s i := by simpa [Set.mem_pi] using hx
      obtain ⟨i, hi⟩ := this
      exact (prod_eq_zero (mem_univ i) (Set.indicator_of_notMem hi _)).symm
  simp only [e]
  rw [lintegral_pi_prodα μ fun i => (hf i).indicator (hs i)]
  refine prod_congr rfl fun i _ => ?_
  rw [withDensity_apply _ (hs i), lintegral_indicator (hs i)]

variable {n : ℕ}

/-- a coefficient from two real coordinates -/
noncomputable def hP (n : ℕ) (k : Fin (n + 1)) (p : ℝ × ℝ) : ℂ :=
  if (k : ℕ) < n then (p.1 : ℂ) + (p.2 : ℂ) * Complex.I else lastC n p.1

/-- unnormalised density of the two coordinates -/
noncomputable def dP (n : ℕ) (beta : ℝ) (k : Fin (n + 1)) (p : ℝ × ℝ) : ENNReal :=
  if (k : ℕ) < n then discD (beta / 2 * ((n : ℝ) - k) - 1) ((p.1 : ℂ) + (p.2 : ℂ) * Complex.I)
  else (Set.Ico 0 (2 * Real.pi)).indicator 1 p.1 * gamD ((n + 1 : ℕ) * (beta / 2)) 1 p.2

theorem measurable_hP (k : Fin (n + 1)) : Measurable (hP n k) := by
  unfold hP
  split_ifs
  · fun_prop
  · exact (measurable_lastC n).comp measurable_fst

theorem measurable_dP (beta : ℝ) (k : Fin (n + 1)) : Measurable (dP n beta k) := by
  unfold dP
  split_ifs
  · exact (measurable_discD _).comp (by fun_prop)
  · exact ((measurable_one.indicator measurableSet_Ico).comp measurable_fst).mul ((measurable_gamD _ _).comp measurable_snd)

theorem nuV_real {b : ℕ} (hb : 1 ≤ b) (k : Fin (n + 1)) : ∃ C : ENNReal, C ≠ 0 ∧ C ≠ ⊤ ∧
    nuV b (n + 1) k = (volume.withDensity fun p => C * dP n b k p).map (hP n k) := by
  by_cases hk : (k : ℕ) < n
  · have he : 1 ≤ b * (n + 1 - 1 - k) := Nat.mul_pos hb (by omega)
    obtain ⟨C, h0, h1, hC⟩ := nuC_density he
    refine ⟨C, h0, h1, ?_⟩
    rw [nuV, show 1 + b * (n + 1 - 1 - k) + 1 = 2 + b * (n + 1 - 1 - k) by omega, hC]
    have hs : ((b * (n + 1 - 1 - k) : ℕ) : ℝ) / 2 - 1 = (b : ℝ) / 2 * ((n : ℝ) - k) - 1 := by
      rw [show n + 1 - 1 - (k : ℕ) = n - k by omega, Nat.cast_mul, Nat.cast_sub hk.le]; ring
    rw [hs]
    have hv := Complex.volume_preserving_equiv_real_prod.symm
    have hc : ∀ p : ℝ × ℝ, Complex.measurableEquivRealProd.symm p = (p.1 : ℂ) + (p.2 : ℂ) * Complex.I := fun p =>
      Complex.mk_eq_add_mul_I _ _
    refine Measure.ext_of_lintegral _ fun q hq => ?_
    have hd := (measurable_discD ((b : ℝ) / 2 * ((n : ℝ) - k) - 1)).const_mul C
    rw [lintegral_map hq (measurable_hP k), lintegral_withDensity_eq_lintegral_mul _ hd hq,
      lintegral_withDensity_eq_lintegral_mul _ ((measurable_dP _ _).const_mul C)
        (show Measurable fun p => q (hP n k p) from hq.comp (measurable_hP k)),
      ← hv.lintegral_comp_emb (MeasurableEquiv.measurableEmbedding _)]
    refine lintegral_congr fun p => ?_
    simp only [Pi.mul_apply, hc, dP, hP, hk, if_true]
  · have hl : k = Fin.last n := Fin.ext (by simp; omega)
    subst hl
    obtain ⟨C, h0, h1, hC⟩ := nuC_two n
    refine ⟨C, h0, h1, ?_⟩
    rw [nuV, show 1 + b * (n + 1 - 1 - ((Fin.last n : Fin (n + 1)) : ℕ)) + 1 = 2 by simp, hC]
    refine Measure.ext_of_lintegral _ fun q hq => ?_
    have hbpos : (0 : ℝ) < b := by exact_mod_cast hb
    have hql : Measurable fun s => q (lastC n s) := hq.comp (measurable_lastC n)
    have hA : Measurable fun s => (Set.Ico 0 (2 * Real.pi)).indicator (fun s => q (lastC n s)) s := hql.indicator measurableSet_Ico
    rw [lintegral_map hq (measurable_hP _), lintegral_map hq (measurable_lastC n), lintegral_smul_measure,
      lintegral_withDensity_eq_lintegral_mul _ ((measurable_dP _ _).const_mul C)
        (show Measurable fun p => q (hP n (Fin.last n) p) from hq.comp (measurable_hP _))]
    have e : ∀ p : ℝ × ℝ, ((fun p => C * dP n b (Fin.last n) p) * fun p => q (hP n (Fin.last n) p)) p
        = C * ((Set.Ico 0 (2 * Real.pi)).indicator (fun s => q (lastC n s)) p.1 * gamD ((n + 1 : ℕ) * ((b : ℝ) / 2)) 1 p.2) := by
      intro p
      simp only [Pi.mul_apply, dP, hP, Fin.val_last, lt_irrefl, if_false]
      by_cases hp : p.1 ∈ Set.Ico 0 (2 * Real.pi)
      · rw [Set.indicator_of_mem hp, Set.indicator_of_mem hp, Pi.one_apply]; ring
      · rw [Set.indicator_of_notMem hp, Set.indicator_of_notMem hp]; simp
    have e' := lintegral_congr (μ := volume) e
    refine Eq.trans ?_ e'.symm
    rw [lintegral_const_mul' _ _ h1, Measure.volume_eq_prod, lintegral_prod_mul hA.aemeasurable (measurable_gamD _ _).aemeasurable,
      lintegral_gamD (by positivity) one_pos, mul_one, lintegral_indicator measurableSet_Ico, smul_eq_mul]

/-- the coordinates in pairs -/
def pairs (y : Cd (n + 1)) (k : Fin (n + 1)) : ℝ × ℝ := (y (.inl k), y (.inr (finRotate (n + 1) k)))

theorem pairs_preserving : MeasurePreserving (pairs (n := n)) volume volume := by
  have hA := volume_measurePreserving_sumPiEquivProdPi (fun _ : Fin (n + 1) ⊕ Fin (n + 1) => ℝ)
  have hB := (MeasurePreserving.id (volume : Measure (Fin (n + 1) → ℝ))).prod
    (volume_measurePreserving_piCongrLeft (fun _ : Fin (n + 1) => ℝ) (finRotate (n + 1)).symm)
  have hC := (volume_measurePreserving_arrowProdEquivProdArrow ℝ ℝ (Fin (n + 1))).symm
  have h := hC.comp (hB.comp hA)
  refine (show pairs (n := n) = _ from ?_) ▸ h
  funext y k
  refine Prod.ext rfl ?_
  show y (.inr (finRotate (n + 1) k)) = (MeasurableEquiv.piCongrLeft (fun _ : Fin (n + 1) => ℝ) (finRotate (n + 1)).symm
    (fun j => y (.inr j))) k
  have := Equiv.piCongrLeft_apply_apply (fun _ : Fin (n + 1) => ℝ) (finRotate (n + 1)).symm (fun j => y (.inr j)) (finRotate (n + 1) k)
  rw [Equiv.symm_apply_apply] at this
  exact this.symm

theorem pairs_last (y : Cd (n + 1)) : pairs y (Fin.last n) = (y (.inl (Fin.last n)), massC y) := by
  rw [pairs, finRotate_last]; rfl

theorem hP_pairs (y : Cd (n + 1)) (k : Fin (n + 1)) : hP n k (pairs y k) = alC y k := by
  by_cases hk : (k : ℕ) < n
  · rw [hP, if_pos hk, alC_lt y hk, pairs]
    have : finRotate (n + 1) k = ⟨(k : ℕ) + 1, by omega⟩ := finRotate_of_lt hk
    rw [this]
  · have hl : k = Fin.last n := Fin.ext (by simp; omega)
    subst hl
    rw [hP, if_neg hk, pairs_last]
    exact (alC_last y).symm

theorem prod_dP (beta : ℝ) (y : Cd (n + 1)) (q : ENNReal) : (∏ k, dP n beta k (pairs y k)) * q
    = (goodC n ∩ domT n).indicator (fun y => ENNReal.ofReal (coefC n beta (alC y)) * gamD ((n + 1 : ℕ) * (beta / 2)) 1 (massC y) * q) y := by
  have hlt : ∀ k : Fin n, dP n beta k.castSucc (pairs y k.castSucc) = discD (beta / 2 * ((n : ℝ) - k) - 1) (alC y k) := by
    intro k
    have h1 := hP_pairs y k.castSucc
    rw [hP, if_pos (by simp)] at h1
    rw [dP, if_pos (by simp), h1]; simp
  have hla : dP n beta (Fin.last n) (pairs y (Fin.last n))
      = (Set.Ico 0 (2 * Real.pi)).indicator 1 (y (.inl (Fin.last n))) * gamD ((n + 1 : ℕ) * (beta / 2)) 1 (massC y) := by
    rw [dP, if_neg (by simp), pairs_last]
  rw [Fin.prod_univ_castSucc, hla, prod_congr rfl fun k _ => hlt k]
  by_cases hy : y ∈ goodC n ∩ domT n
  · rw [Set.indicator_of_mem hy, Set.indicator_of_mem (show y (.inl (Fin.last n)) ∈ Set.Ico 0 (2 * Real.pi) from hy.2), Pi.one_apply, one_mul, coefC,
      prod_range, ENNReal.ofReal_prod_of_nonneg]
    · congr 2
      refine prod_congr rfl fun k _ => ?_
      rw [discD, if_pos (hy.1.2 k k.2)]
    · intro k _
      have := hy.1.2 k k.2
      exact Real.rpow_nonneg (by nlinarith [norm_nonneg (alC y k)]) _
  · rw [Set.indicator_of_notMem hy]
    by_cases h1 : y ∈ domT n
    · by_cases h2 : 0 < massC y
      · have : ∃ k < n, ¬ ‖alC y k‖ < 1 := by
          by_contra hc; push Not at hc; exact hy ⟨⟨h2, hc⟩, h1⟩
        obtain ⟨k, hk, hk2⟩ := this
        rw [prod_eq_zero (mem_univ (⟨k, hk⟩ : Fin n)) (by rw [discD, if_neg hk2])]
        simp
      · rw [gamD, if_neg h2]; simp
    · rw [Set.indicator_of_notMem (show y (.inl (Fin.last n)) ∉ Set.Ico 0 (2 * Real.pi) from h1)]; simp

/-- **law of the angles** of the matrix with independent coefficients -/
theorem law_angF {b : ℕ} (hb : 1 ≤ b) : IsCircularEnsemble ((Measure.pi (nuV b (n + 1))).map angF) b := by
  have hprob : IsProbabilityMeasure ((Measure.pi (nuV b (n + 1))).map angF) :=
    Measure.isProbabilityMeasure_map measurable_angF.aemeasurable
  refine ⟨hprob, ?_⟩
  have hbpos : (0 : ℝ) < b := by exact_mod_cast hb
  choose C hC0 hCt hC using fun k : Fin (n + 1) => nuV_real (n := n) hb k
  have hdm : ∀ k : Fin (n + 1), Measurable fun p => C k * dP n b k p := fun k => (measurable_dP _ k).const_mul _
  have hsig : ∀ k, SigmaFinite (((volume : Measure (ℝ × ℝ)).withDensity fun p => C k * dP n b k p).map (hP n k)) := fun k => by
    rw [← hC k]; infer_instance
  have hsig2 : ∀ k, SigmaFinite ((volume : Measure (ℝ × ℝ)).withDensity fun p => C k * dP n b k p) := fun k =>
    (hsig k).of_map _ (measurable_hP k).aemeasurable
  have hpi : Measure.pi (nuV b (n + 1)) = ((volume : Measure (Fin (n + 1) → ℝ × ℝ)).withDensity
      fun p => ∏ k, C k * dP n b k (p k)).map fun p k => hP n k (p k) := by
    rw [show nuV b (n + 1) = fun k => ((volume : Measure (ℝ × ℝ)).withDensity fun p => C k * dP n b k p).map (hP n k) from funext hC,
      ← Measure.pi_map_pi (μ := fun k => (volume : Measure (ℝ × ℝ)).withDensity fun p => C k * dP n b k p) (f := fun k => hP n k)
        (fun k => (measurable_hP k).aemeasurable),
      pi_withDensityα (fun _ : Fin (n + 1) => (volume : Measure (ℝ × ℝ))) hdm]
    rfl
  have hhm : Measurable fun (p : Fin (n + 1) → ℝ × ℝ) k => hP n k (p k) :=
    measurable_pi_lambda _ fun k => (measurable_hP k).comp (measurable_pi_apply k)
  have hprodm : Measurable fun p : Fin (n + 1) → ℝ × ℝ => ∏ k, C k * dP n b k (p k) :=
    Finset.measurable_prod _ fun k _ => (hdm k).comp (measurable_pi_apply k)
  set P : ENNReal := ∏ k, C k with hP
  have hP0 : P ≠ 0 := prod_ne_zero_iff.2 fun k _ => hC0 k
  have hPt : P ≠ ⊤ := ENNReal.prod_ne_top fun k _ => hCt k
  set A : ENNReal := ENNReal.ofReal (circK n * Real.Gamma ((n + 1 : ℕ) * ((b : ℝ) / 2))) with hA
  set B : ENNReal := ENNReal.ofReal (Real.Gamma ((b : ℝ) / 2) ^ (n + 1)) with hB
  have hApos : 0 < circK n * Real.Gamma ((n + 1 : ℕ) * ((b : ℝ) / 2)) :=
    mul_pos circK_pos (Real.Gamma_pos_of_pos (by positivity))
  have hBpos : 0 < Real.Gamma ((b : ℝ) / 2) ^ (n + 1) := pow_pos (Real.Gamma_pos_of_pos (by positivity)) _
  have hA0 : A ≠ 0 := (ENNReal.ofReal_pos.2 hApos).ne'
  have hB0 : B ≠ 0 := (ENNReal.ofReal_pos.2 hBpos).ne'
  have main : ∀ q : (Fin (n + 1) → ℝ) → ENNReal, Measurable q → ∫⁻ t, q t ∂((Measure.pi (nuV b (n + 1))).map angF)
      = P * (A⁻¹ * B) * ∫⁻ t in angS (n + 1), ENNReal.ofReal (vdmC (expI t) ^ (b : ℝ)) * q t := by
    intro q hq
    have hqF : Measurable fun p : Fin (n + 1) → ℝ × ℝ => q (angF fun k => Verif.Lemmas.hP n k (p k)) := hq.comp (measurable_angF.comp hhm)
    rw [lintegral_map hq measurable_angF, hpi, lintegral_map (show Measurable fun a => q (angF a) from hq.comp measurable_angF) hhm,
      lintegral_withDensity_eq_lintegral_mul _ hprodm hqF, ← pairs_preserving.lintegral_comp (hprodm.mul hqF)]
    have e : ∀ y : Cd (n + 1), ((fun p : Fin (n + 1) → ℝ × ℝ => ∏ k, C k * dP n b k (p k))
        * fun p : Fin (n + 1) → ℝ × ℝ => q (angF fun k => Verif.Lemmas.hP n k (p k))) (pairs y)
        = P * (goodC n ∩ domT n).indicator (fun y => ENNReal.ofReal (coefC n b (alC y))
          * gamD ((n + 1 : ℕ) * ((b : ℝ) / 2)) 1 (massC y) * q (fun j => spX y (.inl j))) y := by
      intro y
      rw [Pi.mul_apply, prod_mul_distrib, mul_assoc, prod_dP]
      congr 1
      by_cases hy : y ∈ goodC n ∩ domT n
      · rw [Set.indicator_of_mem hy, Set.indicator_of_mem hy]
        congr 2
        exact angF_eq hy.1 fun i => hP_pairs y i
      · rw [Set.indicator_of_notMem hy, Set.indicator_of_notMem hy]
    rw [lintegral_congr e, lintegral_const_mul' _ _ hPt, lintegral_indicator (measurableSet_goodC.inter measurableSet_domT), mul_assoc,
      mul_assoc, circ_gamma hbpos hq, ← mul_assoc A⁻¹, ENNReal.inv_mul_cancel hA0 ENNReal.ofReal_ne_top, one_mul]
  have hK0 : P * (A⁻¹ * B) ≠ 0 := mul_ne_zero hP0 (mul_ne_zero (ENNReal.inv_ne_zero.2 ENNReal.ofReal_ne_top) hB0)
  have hKt : P * (A⁻¹ * B) ≠ ⊤ := ENNReal.mul_ne_top hPt (ENNReal.mul_ne_top (ENNReal.inv_ne_top.2 hA0) ENNReal.ofReal_ne_top)
  refine ⟨(P * (A⁻¹ * B)).toReal, ENNReal.toReal_pos hK0 hKt, ?_⟩
  refine Measure.ext_of_lintegral _ fun q hq => ?_
  have hvm := measurable_vdmC_expI (N := n + 1)
  rw [main q hq]
  have hd : Measurable fun t : Fin (n + 1) → ℝ => ENNReal.ofReal ((P * (A⁻¹ * B)).toReal * circularDensity b t) := by
    simp only [circularDensity_eq]; fun_prop
  rw [lintegral_withDensity_eq_lintegral_mul _ hd hq, ← lintegral_const_mul' _ _ hKt]
  refine lintegral_congr fun t => ?_
  rw [Pi.mul_apply, circularDensity_eq, ENNReal.ofReal_mul ENNReal.toReal_nonneg, ENNReal.ofReal_toReal hKt]
  ring

end Verif.Lemmas
