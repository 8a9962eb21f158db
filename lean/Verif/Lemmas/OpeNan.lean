import Verif.Lemmas.OpeLimit
import Verif.Lemmas.OpeBounds
import Mathlib.MeasureTheory.Integral.Pi

/-!
A coordinate with exactly one parameter equal to `-1/2`: the bound is `nan` and no proposal is ever accepted.
-/

namespace Verif.Lemmas
open MeasureTheory ProbabilityTheory Verif Verif.Model Verif.Spec Verif.Props Matrix Filter Topology
open scoped ENNReal

variable {d : ℕ} {par : Fin d → ℝ × ℝ}

/-- without a bound every proposal is rejected and the last one is returned -/
theorem propLoop_nan (par : Fin d → ℝ × ℝ) {L : List (List ℕ)} {ind : Fin L.length} (hb : opeBound par L ind = none) (T : ℕ) (x : Fin d → ℝ) :
    (opePropLoop par L ind (T + 1) x).law = arcPi d := by
  have hbeta := isProbabilityMeasureBeta (α := 1 / 2) (β := 1 / 2) (by norm_num) (by norm_num)
  have e : ∀ T x, opePropLoop par L ind (T + 1) x
      = .beta d (fun _ => 1 / 2) (fun _ => 1 / 2) fun y => .unif 1 fun _ => opePropLoop par L ind T (opePoint y) := by
    intro T x
    rw [opePropLoop]
    congr 1
    funext y
    congr 1
    funext u
    rw [if_neg]
    rw [hb]
    exact id
  have hu : ∀ m : Measure (Fin d → ℝ), (Measure.pi fun _ : Fin 1 => volume.restrict (Set.Ico (0 : ℝ) 1)).bind (fun _ => m) = m := by
    intro m
    rw [Measure.bind_const]
    simp
  induction T generalizing x with
  | zero =>
    rw [e]
    simp only [RP.law]
    rw [if_neg (by rintro ⟨i, h | h⟩ <;> norm_num at h)]
    simp only [hu, opePropLoop, RP.law]
    rw [← map_opePoint, Measure.bind_dirac_eq_map _ measurable_opePoint]
  | succ T ih =>
    rw [e]
    simp only [RP.law]
    rw [if_neg (by rintro ⟨i, h | h⟩ <;> norm_num at h)]
    simp only [hu, ih]
    rw [Measure.bind_const, measure_univ, one_smul]

/-- the entry of degree zero when exactly one parameter is `-1/2` -/
theorem opeLogBound_nan {a b : ℝ} (ha : -1 / 2 ≤ a) (hb : -1 / 2 ≤ b) (h : a = -1 / 2 ∨ b = -1 / 2) (hn : ¬ (a = -1 / 2 ∧ b = -1 / 2)) :
    opeLogBound a b 0 = none := by
  rw [opeLogBound, if_neg (by norm_num; intro h1 h2; exact hn ⟨by linarith, by linarith⟩), if_pos rfl, opeLogBound0, if_pos]
  rcases h with rfl | rfl
  · have hb' : -1 / 2 < b := lt_of_le_of_ne hb fun h => hn ⟨rfl, h.symm⟩
    refine Or.inr (Or.inl ?_)
    rw [opeMode, show b - -1 / 2 = -1 / 2 + b + 1 by ring, div_self (by linarith)]
    simp
  · have ha' : -1 / 2 < a := lt_of_le_of_ne ha fun h => hn ⟨h.symm, rfl⟩
    refine Or.inr (Or.inr ?_)
    rw [opeMode, show (-1 / 2 : ℝ) - a = -(a + -1 / 2 + 1) by ring, neg_div, div_self (by linarith)]
    simp

theorem entry2_zero (d : ℕ) (ind : Fin [List.replicate d 0].length) (j : ℕ) : entry2 [List.replicate d 0] ind j = 0 := by
  have hi : (ind : ℕ) = 0 := Nat.lt_one_iff.1 ind.2
  rw [entry2, hi]
  simp only [List.getD_cons_zero]
  by_cases hj : j < d
  · rw [List.getD_eq_getElem _ _ (by simpa using hj)]; simp
  · rw [List.getD_eq_default _ _ (by simpa using hj)]

theorem opePhi_zero (hd : 1 ≤ d) (x : Fin d → ℝ) (ind : Fin [List.replicate d 0].length) :
    opePhi par [List.replicate d 0] x ind = ∏ j : Fin d, 1 / opeNorm par 0 j := by
  rw [opePhi_eq hd par (by simp)]
  refine Finset.prod_congr rfl fun j _ => ?_
  rw [entry2_zero, opeP, jacobiPoly_zero]

theorem opePhi_zero_ne (hd : 1 ≤ d) (hpar : ∀ j, -1 < (par j).1 ∧ -1 < (par j).2) (x : Fin d → ℝ) (ind : Fin [List.replicate d 0].length) :
    opePhi par [List.replicate d 0] x ind ≠ 0 := by
  rw [opePhi_zero hd]
  refine Finset.prod_ne_zero_iff.2 fun j _ => ?_
  exact one_div_ne_zero (Real.sqrt_pos.2 (squareNorm1D_pos (hpar j).1 (hpar j).2 0)).ne'

/-- with one point the first proposal is kept -/
theorem sample_one (hd : 1 ≤ d) (hpar : ∀ j, -1 < (par j).1 ∧ -1 < (par j).2) {T0 T : ℕ} (hT0 : T0 ≠ 0) (hT : T ≠ 0) :
    (opeSample par [List.replicate d 0] T0 T).law = (opeProposal par [List.replicate d 0] T0).law.map fun x _ => x := by
  obtain ⟨T, rfl⟩ := Nat.exists_eq_succ_of_ne_zero hT
  refine Measure.ext fun A hA => ?_
  have hG : Measurable (A.indicator fun _ => (1 : ℝ≥0∞)) := measurable_const.indicator hA
  have e2 : (opeSample par [List.replicate d 0] T0 (T + 1)).law A
      = ∫⁻ z, A.indicator (fun _ => (1 : ℝ≥0∞)) z.1 ∂(opeSteps par [List.replicate d 0] T0 (T + 1) [⟨0, by simp⟩] (0, 0)).law := by
    rw [opeSample, law_map_of_meas ((steps_meas hT0 _).2 _) measurable_fst, ← lintegral_indicator_one hA]
    exact lintegral_map hG measurable_fst
  have hF : Measurable fun z : OpeSt d [List.replicate d 0].length => A.indicator (fun _ => (1 : ℝ≥0∞)) z.1 := hG.comp measurable_fst
  rw [e2, steps_cons hT0 (Nat.succ_ne_zero T) _ _ _ hF]
  have e3 : ∀ z : OpeSt d [List.replicate d 0].length, ∫⁻ w, A.indicator (fun _ => (1 : ℝ≥0∞)) w.1 ∂(opeSteps par [List.replicate d 0] T0 (T + 1) [] z).law
      = A.indicator (fun _ => (1 : ℝ≥0∞)) z.1 := by
    intro z
    rw [opeSteps, RP.law, lintegral_dirac' _ hF]
  simp only [e3]
  rw [trials_value par _ hT0 T _ hF, Measure.map_apply (by fun_prop) hA, ← lintegral_indicator_one (by exact (by fun_prop : Measurable fun (x : Fin d → ℝ) (_ : Fin [List.replicate d 0].length) => x) hA)]
  refine lintegral_congr fun x => ?_
  have hr : chR par (⟨0, by simp⟩ : Fin [List.replicate d 0].length) (0, 0) x = 1 := by
    have : chRatio par [List.replicate d 0] ⟨0, by simp⟩ (0, 0) x = 1 := by
      rw [chRatio, jacRatio, opeRows]
      simp only [List.take_zero, jacResid, List.map_nil, List.sum_nil, sub_zero]
      refine div_self ?_
      have h0 := opePhi_zero_ne hd hpar x
      rw [dotProduct]
      have : ∑ i, opePhi par [List.replicate d 0] x i * opePhi par [List.replicate d 0] x i > 0 := by
        refine Finset.sum_pos (fun i _ => mul_self_pos.2 (h0 i)) ⟨⟨0, by simp⟩, Finset.mem_univ _⟩
      exact this.ne'
    rw [chR, this]; simp
  rw [hr, tsub_self, zero_mul, add_zero, one_mul]
  have : (chAcc par [List.replicate d 0] ⟨0, by simp⟩ (0, 0) x).1 = fun _ => x := by
    funext i
    have hi : i = ⟨0, by simp⟩ := Fin.ext (Nat.lt_one_iff.1 i.2)
    rw [hi]
    simp only [chAcc, Function.update_self]
  rw [this]
  rfl

/-- the law of the sample of one point -/
theorem sample_one_nan (hd : 1 ≤ d) (hpar : ∀ j, -1 < (par j).1 ∧ -1 < (par j).2)
    (hb : ∀ ind, opeBound par [List.replicate d 0] ind = none) {T0 T : ℕ} (hT0 : T0 ≠ 0) (hT : T ≠ 0) :
    (opeSample par [List.replicate d 0] T0 T).law = (arcPi d).map fun x _ => x := by
  rw [sample_one hd hpar hT0 hT, proposal_law par _ hT0]
  obtain ⟨T0, rfl⟩ := Nat.exists_eq_succ_of_ne_zero hT0
  simp only [propLoop_nan par (hb _)]
  rw [Finset.sum_const, Finset.card_univ, Fintype.card_fin]
  simp

/-! ### The two laws have different means -/

theorem jacobiPoly_one (a b u : ℝ) : jacobiPoly 1 a b u = (a + 1) + (a + b + 2) * ((u - 1) / 2) := by
  simp [jacobiPoly, jacobiCoeff, poch, Finset.sum_range_succ]
  ring

theorem jacobi_mean {a b : ℝ} (ha : -1 < a) (hb : -1 < b) :
    (a + b + 2) * ∫ u, u ∂(jacobiMeasure a b) = (b - a) * squareNorm1D a b 0 := by
  have h1 := jacobiPoly_integral ha hb 1 0
  have h0 := jacobiPoly_integral ha hb 0 0
  simp only [jacobiPoly_zero, mul_one, jacobiPoly_one, if_neg one_ne_zero, if_true] at h0 h1
  have i1 : Integrable (fun _ : ℝ => (1 : ℝ)) (jacobiMeasure a b) := integrable_jacobiMeasure ha hb continuous_const
  have i2 : Integrable (fun u : ℝ => u) (jacobiMeasure a b) := integrable_jacobiMeasure ha hb continuous_id
  have e : (fun u : ℝ => (a + 1) + (a + b + 2) * ((u - 1) / 2)) = fun u => (a - b) / 2 * 1 + (a + b + 2) / 2 * u := by
    funext u; ring
  rw [e, integral_add (i1.const_mul _) (i2.const_mul _), integral_const_mul, integral_const_mul, h0] at h1
  linarith

theorem arcM_eq : arcM = ENNReal.ofReal Real.pi⁻¹ • jacobiMeasure (-1 / 2) (-1 / 2) := by
  rw [arcM, jacobiMeasure, ← withDensity_smul _ (by fun_prop)]
  congr 1
  funext u
  rw [arcD, ENNReal.ofReal_mul (by positivity), Pi.smul_apply, smul_eq_mul, neg_div]

theorem arc_mean : ∫ u, u ∂arcM = 0 := by
  have := jacobi_mean (a := -1 / 2) (b := -1 / 2) (by norm_num) (by norm_num)
  rw [sub_self, zero_mul] at this
  rw [arcM_eq, integral_smul_measure]
  rcases mul_eq_zero.1 this with h | h
  · norm_num at h
  · rw [h, smul_zero]

theorem jacobi_mass {a b : ℝ} (ha : -1 < a) (hb : -1 < b) : ∫ _u, (1 : ℝ) ∂(jacobiMeasure a b) = squareNorm1D a b 0 := by
  have h0 := jacobiPoly_integral ha hb 0 0
  simpa only [jacobiPoly_zero, mul_one, if_true] using h0

/-- mean of a coordinate of the determinantal process with one point -/
theorem dpp_one_mean (hd : 1 ≤ d) (hpar : ∀ j, -1 < (par j).1 ∧ -1 < (par j).2) (j : Fin d) :
    ∫ x : Fin [List.replicate d 0].length → Fin d → ℝ, x ⟨0, by simp⟩ j ∂(opeDPP par [List.replicate d 0])
      = ((par j).2 - (par j).1) / ((par j).1 + (par j).2 + 2) := by
  have hnorm : ∀ i, opeNorm par 0 i ^ 2 = squareNorm1D (par i).1 (par i).2 0 := fun i => by
    rw [opeNorm, Real.sq_sqrt (squareNorm1D_pos (hpar i).1 (hpar i).2 0).le]
  have hdens : ∀ x : Fin [List.replicate d 0].length → Fin d → ℝ,
      (Matrix.of fun i i' => featKernel (opePhi par [List.replicate d 0]) (x i) (x i')).det / (([List.replicate d 0].length).factorial : ℝ)
        = ∏ i : Fin d, (squareNorm1D (par i).1 (par i).2 0)⁻¹ := by
    intro x
    have : (Matrix.of fun i i' => featKernel (opePhi par [List.replicate d 0]) (x i) (x i')).det
        = featKernel (opePhi par [List.replicate d 0]) (x ⟨0, by simp⟩) (x ⟨0, by simp⟩) := Matrix.det_fin_one _
    rw [this, featKernel]
    have h1 : ∑ k, opePhi par [List.replicate d 0] (x ⟨0, by simp⟩) k * opePhi par [List.replicate d 0] (x ⟨0, by simp⟩) k
        = opePhi par [List.replicate d 0] (x ⟨0, by simp⟩) ⟨0, by simp⟩ * opePhi par [List.replicate d 0] (x ⟨0, by simp⟩) ⟨0, by simp⟩ :=
      Fin.sum_univ_one _
    rw [h1, opePhi_zero hd, ← sq, ← Finset.prod_pow]
    simp only [List.length_singleton, Nat.factorial_one, Nat.cast_one, div_one, one_div, inv_pow, hnorm]
  have hc : 0 < ∏ i : Fin d, (squareNorm1D (par i).1 (par i).2 0)⁻¹ :=
    Finset.prod_pos fun i _ => inv_pos.2 (squareNorm1D_pos (hpar i).1 (hpar i).2 0)
  rw [opeDPP]
  simp only [hdens]
  rw [withDensity_const, integral_smul_measure, ENNReal.toReal_ofReal hc.le]
  have hx : ∀ x : Fin [List.replicate d 0].length → Fin d → ℝ, x ⟨0, by simp⟩ j
      = ∏ i, ∏ j', (if j' = j then x i j' else 1) := by
    intro x
    have : ∏ i, ∏ j', (if j' = j then x i j' else 1) = ∏ j', (if j' = j then x ⟨0, by simp⟩ j' else 1) := Fin.prod_univ_one _
    rw [this, Finset.prod_ite_eq' Finset.univ j fun j' => x ⟨0, by simp⟩ j', if_pos (Finset.mem_univ _)]
  simp only [hx]
  rw [integral_fintype_prod_eq_prod (𝕜 := ℝ) (fun (_ : Fin [List.replicate d 0].length) (y : Fin d → ℝ) => ∏ j', (if j' = j then y j' else 1))]
  have e1 : ∏ _i : Fin [List.replicate d 0].length, ∫ y : Fin d → ℝ, ∏ j', (if j' = j then y j' else 1) ∂(opeMu par)
      = ∫ y : Fin d → ℝ, ∏ j', (if j' = j then y j' else 1) ∂(opeMu par) := Fin.prod_univ_one _
  rw [e1, opeMu, integral_fintype_prod_eq_prod (𝕜 := ℝ) (fun (j' : Fin d) (u : ℝ) => if j' = j then u else 1), smul_eq_mul,
    ← Finset.prod_mul_distrib]
  have e2 : ∀ j' : Fin d, (squareNorm1D (par j').1 (par j').2 0)⁻¹ * ∫ u, (if j' = j then u else 1) ∂(jacobiMeasure (par j').1 (par j').2)
      = if j' = j then ((par j').2 - (par j').1) / ((par j').1 + (par j').2 + 2) else 1 := by
    intro j'
    have hs := squareNorm1D_pos (hpar j').1 (hpar j').2 0
    by_cases h : j' = j
    · simp only [if_pos h]
      have hm := jacobi_mean (hpar j').1 (hpar j').2
      have h2 : (par j').1 + (par j').2 + 2 ≠ 0 := by linarith [(hpar j').1, (hpar j').2]
      rw [eq_div_iff h2, mul_assoc, mul_comm (∫ u, u ∂_), hm]
      field_simp
    · simp only [if_neg h]
      rw [jacobi_mass (hpar j').1 (hpar j').2, inv_mul_cancel₀ hs.ne']
  rw [Finset.prod_congr rfl fun j' _ => e2 j', Finset.prod_ite_eq' Finset.univ j fun j' => ((par j').2 - (par j').1) / ((par j').1 + (par j').2 + 2),
    if_pos (Finset.mem_univ _)]

/-- mean of a coordinate of the unfiltered proposals -/
theorem arc_one_mean (j : Fin d) :
    ∫ x : Fin [List.replicate d 0].length → Fin d → ℝ, x ⟨0, by simp⟩ j ∂((arcPi d).map fun x _ => x) = 0 := by
  have hm : Measurable fun x : Fin [List.replicate d 0].length → Fin d → ℝ => x ⟨0, by simp⟩ j :=
    (measurable_pi_apply j).comp (measurable_pi_apply _)
  rw [integral_map (by fun_prop) hm.aestronglyMeasurable]
  have := (measurePreserving_eval (fun _ : Fin d => arcM) j).map_eq
  have h2 : ∫ u, u ∂arcM = ∫ x : Fin d → ℝ, x j ∂(arcPi d) := by
    conv_lhs => rw [← this]
    exact integral_map (μ := Measure.pi fun _ : Fin d => arcM) (φ := Function.eval j) (f := fun u : ℝ => u) (measurable_pi_apply j).aemeasurable
      measurable_id.aestronglyMeasurable
  rw [← h2, arc_mean]

end Verif.Lemmas
