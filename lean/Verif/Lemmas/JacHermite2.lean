import Verif.Lemmas.JacHermite

/-!
# Law of the eigenvalues of the banded Hermite model (continued)
-/

namespace Verif.Lemmas
open Finset Matrix MeasureTheory Verif.Model ProbabilityTheory

variable {n : ℕ}

/-- the exponent of the Gaussian weight in terms of the coefficients -/
theorem hermite_trace {y : Cd (n + 1)} (hy : y ∈ specR (n + 1)) (m : ℝ) :
    ∑ j, (specMap y (.inl j) - m) ^ 2 = ∑ i, (y (.inl i) - m) ^ 2 + 2 * ∑ i : Fin n, y (.inr i.succ) := by
  have h1 := specMap_trace hy 1
  have h2 := specMap_trace hy 2
  rw [pow_one, jacT, trace_tridiag] at h1
  rw [jacT, trace_tridiag_sq] at h2
  simp only [pad_fin, pow_one] at h1 h2
  have h3 : ∑ p ∈ range (n + 1 - 1), √(pad (fun i => y (.inr i)) (p + 1)) ^ 2 = ∑ i : Fin n, y (.inr i.succ) := by
    rw [Nat.add_sub_cancel, ← Fin.sum_univ_eq_sum_range (fun p => √(pad (fun i => y (.inr i)) (p + 1)) ^ 2)]
    refine sum_congr rfl fun i _ => ?_
    have : pad (fun i => y (.inr i)) (i + 1) = y (.inr i.succ) := by rw [pad_lt (by omega)]; rfl
    rw [this, Real.sq_sqrt (hy _).le]
  rw [h3] at h2
  have e : ∀ f : Fin (n + 1) → ℝ, ∑ j, (f j - m) ^ 2 = ∑ j, f j ^ 2 - 2 * m * ∑ j, f j + (n + 1) * m ^ 2 := by
    intro f
    simp only [sub_sq, sum_add_distrib, sum_sub_distrib, sum_const, card_univ, Fintype.card_fin, nsmul_eq_mul, mul_sum]
    push_cast
    congr 2
    exact sum_congr rfl fun j _ => by ring
  rw [e, e, ← h2, ← h1]
  ring

/-- tail of a vector -/
def tailV (b : Fin (n + 1) → ℝ) : Fin n → ℝ := fun i => b i.succ

theorem tail_preserving (ν : Fin (n + 1) → Measure ℝ) [∀ i, IsProbabilityMeasure (ν i)] :
    MeasurePreserving (tailV (n := n)) (Measure.pi ν) (Measure.pi fun i => ν i.succ) := by
  have h := measurePreserving_piFinSuccAbove ν 0
  have h2 : MeasurePreserving (Prod.snd : ℝ × (Fin n → ℝ) → _) ((ν 0).prod (Measure.pi fun i => ν i.succ))
      (Measure.pi fun i => ν i.succ) := measurePreserving_snd
  exact h2.comp h

/-- the eigenvalues as a function of the draws -/
noncomputable def eigF (p : (Fin (n + 1) → ℝ) × (Fin n → ℝ)) : Fin (n + 1) → ℝ :=
  fun j => specMap (Sum.elim p.1 (Fin.cons 1 p.2)) (.inl j)

theorem measurable_eigF : Measurable (eigF (n := n)) := by
  refine measurable_pi_lambda _ fun j => ?_
  refine (measurable_pi_apply _).comp (measurable_specMap.comp ?_)
  refine measurable_pi_lambda _ fun c => ?_
  rcases c with i | i
  · exact (measurable_pi_apply i).comp measurable_fst
  · refine Fin.cases ?_ (fun i => ?_) i
    · exact measurable_const
    · exact (measurable_pi_apply i).comp measurable_snd

theorem cons_mem_specR {a : Fin (n + 1) → ℝ} {b : Fin n → ℝ} (hb : ∀ i, 0 < b i) :
    (Sum.elim a (Fin.cons 1 b) : Cd (n + 1)) ∈ specR (n + 1) := by
  intro j
  refine Fin.cases ?_ (fun i => ?_) j
  · simp
  · simpa using hb i

theorem eigF_specMap {y : Cd (n + 1)} (hy : y ∈ specR (n + 1)) :
    eigF (fun i => y (.inl i), tailV fun i => y (.inr i)) = fun j => specMap y (.inl j) := by
  funext j
  refine specMap_congr (cons_mem_specR fun i => hy _) hy ?_ j
  refine tridiag_congr (fun i hi => ?_) (fun i hi => ?_)
  · rw [pad_lt hi, pad_lt hi]; rfl
  · rw [pad_lt hi, pad_lt hi]; rfl

/-- **general law of the eigenvalues**: coefficients drawn with a density of the form below give the ensemble with density
`Δ^β G` -/
theorem law_of_density (μ : Measure (Fin (n + 1) → ℝ)) (ν : Fin n → Measure ℝ) [IsProbabilityMeasure μ]
    [∀ i, IsProbabilityMeasure (ν i)]
    {f : (Fin (n + 1) → ℝ) → ENNReal} {g : Fin n → ℝ → ENNReal} (hf : Measurable f) (hg : ∀ i, Measurable (g i))
    (hμ : μ = volume.withDensity f) (hν : ∀ i, ν i = volume.withDensity (g i))
    (hg0 : ∀ i x, x ≤ 0 → g i x = 0) {beta : ℝ} (hb : 0 < beta) {G : (Fin (n + 1) → ℝ) → ENNReal} (hG : Measurable G)
    (h : ∀ y ∈ specR (n + 1), f (fun i => y (.inl i)) * ∏ i, g i (y (.inr i.succ))
      = ENNReal.ofReal (∏ i : Fin n, y (.inr i.succ) ^ (beta / 2 * ((n : ℝ) - i) - 1)) * G (fun j => specMap y (.inl j))) :
    ∃ K : ℝ, 0 < K ∧ (μ.prod (Measure.pi ν)).map eigF
      = (volume.restrict (ordS (n + 1))).withDensity fun l => ENNReal.ofReal K * (ENNReal.ofReal (vdm l ^ beta) * G l) := by
  classical
  set a0 : ℝ := beta / 2 * (n + 1) with ha0
  have ha0pos : 0 < a0 := by positivity
  have hvm : Measurable fun l : Fin (n + 1) → ℝ => vdm l := by unfold vdm; fun_prop
  refine ⟨(Real.Gamma a0)⁻¹ * (Real.Gamma (beta / 2) / 1 ^ (beta / 2)) ^ (n + 1), ?_, ?_⟩
  · have := Real.Gamma_pos_of_pos ha0pos
    have := Real.Gamma_pos_of_pos (show 0 < beta / 2 by positivity)
    positivity
  -- add an independent mass
  set ν' : Fin (n + 1) → Measure ℝ := Fin.cons (gammaMeasure a0 1) ν with hν'
  set g' : Fin (n + 1) → ℝ → ENNReal := Fin.cons (gamD a0 1) g with hg'
  have hg'm : ∀ i, Measurable (g' i) := by
    intro i; refine Fin.cases ?_ (fun i => ?_) i
    · exact measurable_gamD _ _
    · exact hg i
  have hν'd : ∀ i, ν' i = volume.withDensity (g' i) := by
    intro i; refine Fin.cases ?_ (fun i => ?_) i
    · exact gammaMeasure_eq _ _
    · exact hν i
  have hν'p : ∀ i, IsProbabilityMeasure (ν' i) := by
    intro i; refine Fin.cases ?_ (fun i => ?_) i
    · exact isProbabilityMeasure_gammaMeasure ha0pos one_pos
    · exact (inferInstance : IsProbabilityMeasure (ν i))
  have hpi : Measure.pi ν' = volume.withDensity fun x => ∏ i, g' i (x i) := by
    have e : ν' = fun i => (volume : Measure ℝ).withDensity (g' i) := funext hν'd
    have : ∀ i, IsProbabilityMeasure ((volume : Measure ℝ).withDensity (g' i)) := fun i => by rw [← hν'd i]; exact hν'p i
    rw [e, pi_withDensity (fun _ : Fin (n + 1) => (volume : Measure ℝ)) hg'm]
    rfl
  have hpres : MeasurePreserving (Prod.map id (tailV (n := n))) (μ.prod (Measure.pi ν')) (μ.prod (Measure.pi ν)) :=
    (MeasurePreserving.id μ).prod (tail_preserving ν')
  rw [← hpres.map_eq, Measure.map_map measurable_eigF hpres.measurable]
  have hg'pm : Measurable fun x : Fin (n + 1) → ℝ => ∏ i, g' i (x i) :=
    Finset.measurable_prod _ fun i _ => (hg'm i).comp (measurable_pi_apply i)
  have hprod : μ.prod (Measure.pi ν') = ((volume : Measure (Fin (n + 1) → ℝ)).prod volume).withDensity
      fun z : (Fin (n + 1) → ℝ) × (Fin (n + 1) → ℝ) => f z.1 * ∏ i, g' i (z.2 i) := by
    rw [hpi, hμ]
    have : SFinite ((volume : Measure (Fin (n + 1) → ℝ)).withDensity f) := by rw [← hμ]; infer_instance
    exact prod_withDensity hf hg'pm
  ext A hA
  rw [Measure.map_apply (measurable_eigF.comp hpres.measurable) hA, hprod,
    withDensity_apply _ ((measurable_eigF.comp hpres.measurable) hA),
    ← lintegral_indicator ((measurable_eigF.comp hpres.measurable) hA)]
  have hvol := volume_measurePreserving_sumPiEquivProdPi (fun _ : Fin (n + 1) ⊕ Fin (n + 1) => ℝ)
  rw [← Measure.volume_eq_prod, ← hvol.lintegral_comp_emb (MeasurableEquiv.measurableEmbedding _)]
  rw [withDensity_apply _ hA, ← lintegral_indicator hA]
  have hGA : Measurable (A.indicator G) := hG.indicator hA
  have hch := spec_change_gamma (specMap_ok (N := n + 1)) hb one_pos hGA
  have e1 : ∀ y : Cd (n + 1), ((eigF ∘ Prod.map id (tailV (n := n))) ⁻¹' A).indicator (fun z => f z.1 * ∏ i, g' i (z.2 i))
      (MeasurableEquiv.sumPiEquivProdPi (fun _ : Fin (n + 1) ⊕ Fin (n + 1) => ℝ) y)
      = (specR (n + 1)).indicator (fun y => ENNReal.ofReal (Real.Gamma a0)⁻¹ *
        (ENNReal.ofReal (coefD beta y * Real.exp (-(1 * pad (fun i => y (.inr i)) 0)))
          * A.indicator G (fun j => specMap y (.inl j)))) y := by
    intro y
    have hz : (MeasurableEquiv.sumPiEquivProdPi (fun _ : Fin (n + 1) ⊕ Fin (n + 1) => ℝ) y)
      = (fun i => y (.inl i), fun i => y (.inr i)) := rfl
    rw [hz]
    by_cases hy : y ∈ specR (n + 1)
    · rw [Set.indicator_of_mem hy]
      have hmem : ((fun i => y (.inl i), fun i => y (.inr i)) ∈ (eigF ∘ Prod.map id (tailV (n := n))) ⁻¹' A)
          ↔ (fun j => specMap y (.inl j)) ∈ A := by
        rw [Set.mem_preimage, Function.comp, ← eigF_specMap hy]; rfl
      by_cases hm : (fun j => specMap y (.inl j)) ∈ A
      · rw [Set.indicator_of_mem hm, Set.indicator_of_mem (hmem.2 hm)]
        simp only
        rw [Fin.prod_univ_succ]
        have e0 : g' 0 = gamD a0 1 := rfl
        have es : ∀ i : Fin n, g' i.succ = g i := fun i => rfl
        simp only [e0, es]
        rw [mul_left_comm, h y hy, gamD, if_pos (hy 0)]
        have hpad : pad (fun i => y (.inr i)) 0 = y (.inr 0) := pad_lt (Nat.succ_pos n)
        have hc : coefD beta y = y (.inr 0) ^ (a0 - 1) * ∏ i : Fin n, y (.inr i.succ) ^ (beta / 2 * ((n : ℝ) - i) - 1) := by
          rw [coefD, Fin.prod_univ_succ]
          congr 1
          · congr 1; rw [ha0]; push_cast; simp
          · refine prod_congr rfl fun i _ => ?_
            congr 3
            rw [Fin.val_succ]; push_cast; ring
        have hG0 := Real.Gamma_pos_of_pos ha0pos
        have hy0 := hy 0
        have hpr : 0 ≤ ∏ i : Fin n, y (.inr i.succ) ^ (beta / 2 * ((n : ℝ) - i) - 1) :=
          prod_nonneg fun i _ => (Real.rpow_pos_of_pos (hy _) _).le
        rw [hpad, hc, ← mul_assoc, ← mul_assoc, ← ENNReal.ofReal_mul (by positivity), ← ENNReal.ofReal_mul (by positivity)]
        congr 2
        rw [Real.one_rpow]
        ring
      · rw [Set.indicator_of_notMem hm, Set.indicator_of_notMem (fun hh => hm (hmem.1 hh))]
        simp
    · rw [Set.indicator_of_notMem hy]
      have : ∃ j, ¬ 0 < y (.inr j) := by
        by_contra hc; push Not at hc; exact hy hc
      obtain ⟨j, hj⟩ := this
      have hzero : ∏ i, g' i (y (.inr i)) = 0 := by
        refine prod_eq_zero (mem_univ j) ?_
        revert hj
        refine Fin.cases ?_ (fun i => ?_) j
        · intro hj
          change gamD a0 1 _ = 0
          rw [gamD, if_neg hj]
        · intro hj
          exact hg0 i _ (not_lt.1 hj)
      rw [Set.indicator_apply]
      simp only [hzero, mul_zero, ite_self]
  rw [lintegral_congr e1, lintegral_indicator measurableSet_specR, lintegral_const_mul' _ _ ENNReal.ofReal_ne_top, hch,
    ← mul_assoc, ← ENNReal.ofReal_mul (inv_nonneg.2 (Real.Gamma_pos_of_pos ha0pos).le), ← lintegral_const_mul' _ _ ENNReal.ofReal_ne_top]
  refine lintegral_congr fun l => ?_
  by_cases hl : l ∈ A
  · rw [Set.indicator_of_mem hl, Set.indicator_of_mem hl]
  · rw [Set.indicator_of_notMem hl, Set.indicator_of_notMem hl]; simp

end Verif.Lemmas
