import Verif.Lemmas.TW1
import Mathlib.MeasureTheory.Measure.FiniteMeasurePi
import Mathlib.MeasureTheory.Measure.Portmanteau
import Mathlib.MeasureTheory.Measure.Lebesgue.EqHaar
import Mathlib.Analysis.Normed.Group.Tannery

/-!
Convergence of determinants of quadrature matrices to Fredholm series.
-/

set_option linter.unusedVariables false

namespace Verif.Lemmas.TW
open Matrix Finset MeasureTheory Filter

/-- a discrete measure -/
noncomputable def disc {m : ℕ} (x w : Fin m → ℝ) : Measure ℝ := ∑ i, ENNReal.ofReal (w i) • Measure.dirac (x i)

instance {m : ℕ} (x w : Fin m → ℝ) : IsFiniteMeasure (disc x w) := by
  unfold disc
  refine ⟨?_⟩
  simp

theorem disc_pi {m : ℕ} (x w : Fin m → ℝ) (n : ℕ) :
    Measure.pi (fun _ : Fin n => disc x w)
      = ∑ f : Fin n → Fin m, (∏ a, ENNReal.ofReal (w (f a))) • Measure.dirac (fun a => x (f a)) := by
  refine Measure.pi_eq fun s hs => ?_
  rw [Measure.finsetSum_apply]
  simp only [disc, Measure.finsetSum_apply, Measure.smul_apply, smul_eq_mul]
  rw [Finset.prod_univ_sum, Fintype.piFinset_univ]
  refine Finset.sum_congr rfl fun f _ => ?_
  rw [Finset.prod_mul_distrib]
  congr 1
  rw [Measure.dirac_apply' _ (MeasurableSet.univ_pi hs)]
  simp only [Measure.dirac_apply' _ (hs _)]
  by_cases h : (fun a => x (f a)) ∈ Set.univ.pi s
  · rw [Set.indicator_of_mem h]
    symm
    refine Finset.prod_eq_one fun a _ => ?_
    rw [Set.indicator_of_mem (h a (Set.mem_univ a))]
    rfl
  · rw [Set.indicator_of_notMem h]
    simp only [Set.mem_pi, Set.mem_univ, true_imp_iff, not_forall] at h
    obtain ⟨a, ha⟩ := h
    symm
    exact Finset.prod_eq_zero (Finset.mem_univ a) (Set.indicator_of_notMem ha _)

theorem disc_integral {m : ℕ} (x w : Fin m → ℝ) (hw : ∀ i, 0 ≤ w i) (n : ℕ) (H : (Fin n → ℝ) → ℝ) :
    ∫ y, H y ∂(Measure.pi fun _ : Fin n => disc x w) = ∑ f : Fin n → Fin m, (∏ a, w (f a)) * H fun a => x (f a) := by
  have hf : ∀ f : Fin n → Fin m, (∏ a, ENNReal.ofReal (w (f a))) ≠ ⊤ := fun f =>
    ENNReal.prod_ne_top fun a _ => ENNReal.ofReal_ne_top
  rw [disc_pi, integral_finsetSum_measure]
  · refine Finset.sum_congr rfl fun f _ => ?_
    rw [integral_smul_measure, integral_dirac, smul_eq_mul, ENNReal.toReal_prod]
    congr 1
    exact Finset.prod_congr rfl fun a _ => ENNReal.toReal_ofReal (hw _)
  · intro f _
    exact (integrable_dirac (by simp)).smul_measure (hf f)

/-- the determinants in the Fredholm series: kernel `k`, diagonal `d` -/
noncomputable def gDet (k : ℝ → ℝ → ℝ) (d : ℝ → ℝ) (n : ℕ) (y : Fin n → ℝ) : ℝ :=
  (Matrix.of fun a b : Fin n => if a = b then d (y a) else k (y a) (y b)).det

/-- the quadrature matrix -/
noncomputable def qMat (k : ℝ → ℝ → ℝ) (d : ℝ → ℝ) {m : ℕ} (x w : Fin m → ℝ) : Matrix (Fin m) (Fin m) ℝ :=
  Matrix.of fun i j => √(w i) * (if i = j then d (x i) else k (x i) (x j)) * √(w j)

theorem qMat_minor (k : ℝ → ℝ → ℝ) (d : ℝ → ℝ) {m : ℕ} (x w : Fin m → ℝ) (hw : ∀ i, 0 ≤ w i) (n : ℕ) (f : Fin n → Fin m)
    (hf : Function.Injective f) :
    ((qMat k d x w).submatrix (Subtype.val : {z // z ∈ Finset.univ.image f} → Fin m) Subtype.val).det
      = (∏ a, w (f a)) * gDet k d n fun a => x (f a) := by
  have hb : Function.Bijective (fun a => (⟨f a, Finset.mem_image_of_mem f (Finset.mem_univ a)⟩ : {z // z ∈ Finset.univ.image f})) := by
    refine ⟨fun a b hab => hf (Subtype.ext_iff.1 hab), ?_⟩
    rintro ⟨y, hy⟩
    obtain ⟨a, -, ha⟩ := Finset.mem_image.1 hy
    exact ⟨a, Subtype.ext ha⟩
  let e := Equiv.ofBijective _ hb
  rw [← det_submatrix_equiv_self e]
  have h1 : (((qMat k d x w).submatrix (Subtype.val : {z // z ∈ Finset.univ.image f} → Fin m) Subtype.val).submatrix e e)
      = diagonal (fun a => √(w (f a))) * (Matrix.of fun a b : Fin n => if a = b then d (x (f a)) else k (x (f a)) (x (f b)))
        * diagonal (fun a => √(w (f a))) := by
    ext a b
    rw [mul_diagonal, diagonal_mul]
    simp only [submatrix_apply, qMat, of_apply]
    change √(w (f a)) * (if f a = f b then d (x (f a)) else k (x (f a)) (x (f b))) * √(w (f b)) = _
    simp only [hf.eq_iff]
  rw [h1, det_mul, det_mul, det_diagonal, mul_right_comm, ← Finset.prod_mul_distrib]
  congr 1
  exact Finset.prod_congr rfl fun a _ => Real.mul_self_sqrt (hw _)

theorem det_qMat (k : ℝ → ℝ → ℝ) (d : ℝ → ℝ) {m : ℕ} (x w : Fin m → ℝ) (hw : ∀ i, 0 ≤ w i) (hx : Function.Injective x) :
    (1 - qMat k d x w).det
      = ∑' n : ℕ, (-1) ^ n / (n.factorial : ℝ)
          * ∫ y, ({y : Fin n → ℝ | Function.Injective y}.indicator (gDet k d n)) y ∂(Measure.pi fun _ : Fin n => disc x w) := by
  classical
  have hterm : ∀ n : ℕ, (-1) ^ n / (n.factorial : ℝ)
          * ∫ y, ({y : Fin n → ℝ | Function.Injective y}.indicator (gDet k d n)) y ∂(Measure.pi fun _ : Fin n => disc x w)
      = ∑ s ∈ (Finset.univ : Finset (Finset (Fin m))) with s.card = n,
          (-1) ^ s.card * ((qMat k d x w).submatrix (Subtype.val : s → Fin m) (Subtype.val : s → Fin m)).det := by
    intro n
    rw [sum_subsets n fun s => (-1) ^ s.card * ((qMat k d x w).submatrix (Subtype.val : s → Fin m) (Subtype.val : s → Fin m)).det,
      disc_integral x w hw, Finset.mul_sum, Finset.mul_sum]
    refine Finset.sum_congr rfl fun f _ => ?_
    by_cases hf : Function.Injective f
    · rw [if_pos hf, qMat_minor k d x w hw n f hf, Finset.card_image_of_injective _ hf, Finset.card_univ, Fintype.card_fin,
        Set.indicator_of_mem (show (fun a => x (f a)) ∈ {y : Fin n → ℝ | Function.Injective y} from hx.comp hf)]
      ring
    · rw [if_neg hf, Set.indicator_of_notMem, mul_zero, mul_zero, mul_zero]
      intro h
      exact hf (Function.Injective.of_comp (f := x) h)
  have h0 : ∀ n ∉ Finset.range (m + 1), ∑ s ∈ (Finset.univ : Finset (Finset (Fin m))) with s.card = n,
          (-1) ^ s.card * ((qMat k d x w).submatrix (Subtype.val : s → Fin m) (Subtype.val : s → Fin m)).det = 0 := by
    intro n hn
    rw [Finset.filter_eq_empty_iff.2, Finset.sum_empty]
    intro s _ hs
    have := Finset.card_le_univ s
    simp at this hn
    omega
  rw [tsum_congr hterm, tsum_eq_sum h0, det_one_sub]
  symm
  refine Finset.sum_fiberwise_of_maps_to (fun s _ => ?_) _
  have := Finset.card_le_univ s
  simp at this ⊢
  omega

/-- Lebesgue measure on `[0, 1]` -/
noncomputable def leb01 : Measure ℝ := volume.restrict (Set.Icc 0 1)

instance : IsProbabilityMeasure leb01 := ⟨by simp [leb01]⟩

/-- the same as a point of the space of probability measures -/
noncomputable def lebP : ProbabilityMeasure ℝ := ⟨leb01, inferInstance⟩

/-- discrete probability measure -/
noncomputable def discP {m : ℕ} (x w : Fin m → ℝ) (h : IsProbabilityMeasure (disc x w)) : ProbabilityMeasure ℝ := ⟨disc x w, h⟩

theorem notInj_closed (n : ℕ) : IsClosed {y : Fin n → ℝ | ¬ Function.Injective y} := by
  have e : {y : Fin n → ℝ | ¬ Function.Injective y} = ⋃ a : Fin n, ⋃ b : Fin n, {y | a ≠ b ∧ y a = y b} := by
    ext y
    simp only [Set.mem_ofPred_eq, Set.mem_iUnion, Function.Injective]
    push Not
    constructor
    · rintro ⟨a, b, h1, h2⟩; exact ⟨a, b, h2, h1⟩
    · rintro ⟨a, b, h1, h2⟩; exact ⟨a, b, h2, h1⟩
  rw [e]
  refine isClosed_iUnion_of_finite fun a => isClosed_iUnion_of_finite fun b => ?_
  by_cases h : a = b
  · simp [h]
  · have : {y : Fin n → ℝ | a ≠ b ∧ y a = y b} = {y | y a = y b} := by ext; simp [h]
    rw [this]
    exact isClosed_eq (continuous_apply a) (continuous_apply b)

theorem notInj_null (n : ℕ) : (Measure.pi fun _ : Fin n => leb01) {y : Fin n → ℝ | ¬ Function.Injective y} = 0 := by
  have e : {y : Fin n → ℝ | ¬ Function.Injective y} = ⋃ a : Fin n, ⋃ b : Fin n, {y | a ≠ b ∧ y a = y b} := by
    ext y
    simp only [Set.mem_ofPred_eq, Set.mem_iUnion, Function.Injective]
    push Not
    constructor
    · rintro ⟨a, b, h1, h2⟩; exact ⟨a, b, h2, h1⟩
    · rintro ⟨a, b, h1, h2⟩; exact ⟨a, b, h2, h1⟩
  have hpi : (Measure.pi fun _ : Fin n => leb01) = (volume : Measure (Fin n → ℝ)).restrict (Set.univ.pi fun _ => Set.Icc 0 1) := by
    rw [volume_pi, Measure.restrict_pi_pi]
    rfl
  rw [hpi]
  refine Measure.absolutelyContinuous_of_le Measure.restrict_le_self ?_
  rw [e, measure_iUnion_null_iff]
  intro a
  rw [measure_iUnion_null_iff]
  intro b
  by_cases h : a = b
  · simp [h]
  · have hs : {y : Fin n → ℝ | a ≠ b ∧ y a = y b}
        = (LinearMap.ker ((LinearMap.proj a : (Fin n → ℝ) →ₗ[ℝ] ℝ) - LinearMap.proj b) : Set (Fin n → ℝ)) := by
      ext y
      simp [h, sub_eq_zero]
    rw [hs]
    refine Measure.addHaar_submodule _ _ ?_
    intro ht
    have := LinearMap.congr_fun (LinearMap.ker_eq_top.1 ht) (Pi.single a 1)
    simp [Ne.symm h] at this

theorem gDet_continuous {k : ℝ → ℝ → ℝ} {d : ℝ → ℝ} (hk : Continuous (Function.uncurry k)) (hd : Continuous d) (n : ℕ) :
    Continuous (gDet k d n) := by
  unfold gDet
  refine Continuous.matrix_det ?_
  refine continuous_matrix fun a b => ?_
  simp only [of_apply]
  split_ifs
  · exact hd.comp (continuous_apply a)
  · exact hk.comp (Continuous.prodMk (f := fun y : Fin n → ℝ => y a) (g := fun y : Fin n → ℝ => y b) (continuous_apply a) (continuous_apply b))

theorem gDet_bound {k : ℝ → ℝ → ℝ} {d : ℝ → ℝ} {B : ℝ} (hB : 0 ≤ B) (hkB : ∀ x y, |k x y| ≤ B) (hdB : ∀ x, |d x| ≤ B) (n : ℕ)
    (y : Fin n → ℝ) : |gDet k d n y| ≤ (B * √(n : ℝ)) ^ n := by
  refine abs_det_le _ hB fun i j => ?_
  rw [of_apply]
  split_ifs
  · exact hdB _
  · exact hkB _ _

/-- Convergence of the quadrature of the Fredholm determinant. -/
theorem tendsto_det {k : ℝ → ℝ → ℝ} {d : ℝ → ℝ} (hk : Continuous (Function.uncurry k)) (hd : Continuous d) {B : ℝ} (hB : 0 ≤ B)
    (hkB : ∀ x y, |k x y| ≤ B) (hdB : ∀ x, |d x| ≤ B) (x w : (m : ℕ) → Fin (m + 1) → ℝ) (hw : ∀ m i, 0 ≤ w m i)
    (hx : ∀ m, Function.Injective (x m)) (hprob : ∀ m, IsProbabilityMeasure (disc (x m) (w m)))
    (hlim : Tendsto (fun m => discP (x m) (w m) (hprob m)) atTop (nhds lebP)) :
    Tendsto (fun m => (1 - qMat k d (x m) (w m)).det) atTop
      (nhds (∑' n : ℕ, (-1) ^ n / (n.factorial : ℝ) * ∫ y, gDet k d n y ∂(Measure.pi fun _ : Fin n => leb01))) := by
  classical
  have hfun : (fun m => (1 - qMat k d (x m) (w m)).det) = fun m => ∑' n : ℕ, (-1) ^ n / (n.factorial : ℝ)
      * ∫ y, ({y : Fin n → ℝ | Function.Injective y}.indicator (gDet k d n)) y ∂(Measure.pi fun _ : Fin n => disc (x m) (w m)) := by
    funext m
    exact det_qMat k d _ _ (hw m) (hx m)
  rw [hfun]
  have hbd : ∀ n y, |({y : Fin n → ℝ | Function.Injective y}.indicator (gDet k d n)) y| ≤ (B * √(n : ℝ)) ^ n := by
    intro n y
    rw [Set.indicator_apply]
    split_ifs
    · exact gDet_bound hB hkB hdB n y
    · rw [abs_zero]; positivity
  refine tendsto_tsum_of_dominated_convergence (bound := fun n : ℕ => (B * √(n : ℝ)) ^ n / (n.factorial : ℝ)) (hadamard_summable B hB) ?_ ?_
  · intro n
    refine Tendsto.const_mul _ ?_
    -- product measures
    have hpi : Tendsto (fun m => ProbabilityMeasure.pi fun _ : Fin n => discP (x m) (w m) (hprob m)) atTop
        (nhds (ProbabilityMeasure.pi fun _ : Fin n => lebP)) := by
      have hc := (ProbabilityMeasure.continuous_pi (ι := Fin n) (α := fun _ => ℝ)).tendsto fun _ => lebP
      exact hc.comp (tendsto_pi_nhds.2 fun _ => hlim)
    have h1 : Tendsto (fun m => ∫ y, gDet k d n y ∂(Measure.pi fun _ : Fin n => disc (x m) (w m))) atTop
        (nhds (∫ y, gDet k d n y ∂(Measure.pi fun _ : Fin n => leb01))) := by
      have := (ProbabilityMeasure.tendsto_iff_forall_integral_tendsto.1 hpi)
        (BoundedContinuousFunction.ofNormedAddCommGroup (gDet k d n) (gDet_continuous hk hd n) _ (gDet_bound hB hkB hdB n))
      exact this
    have h2 : Tendsto (fun m => ((Measure.pi fun _ : Fin n => disc (x m) (w m)) {y : Fin n → ℝ | ¬ Function.Injective y})) atTop (nhds 0) := by
      have hl := ProbabilityMeasure.limsup_measure_closed_le_of_tendsto hpi (notInj_closed n)
      change limsup (fun m => ((Measure.pi fun _ : Fin n => disc (x m) (w m)) {y : Fin n → ℝ | ¬ Function.Injective y})) atTop
        ≤ (Measure.pi fun _ : Fin n => leb01) {y : Fin n → ℝ | ¬ Function.Injective y} at hl
      rw [notInj_null] at hl
      exact tendsto_of_le_liminf_of_limsup_le (by simp) hl
    have h3 : Tendsto (fun m => ((Measure.pi fun _ : Fin n => disc (x m) (w m)).real {y : Fin n → ℝ | ¬ Function.Injective y})) atTop (nhds 0) := by
      have := (ENNReal.tendsto_toReal ENNReal.zero_ne_top).comp h2
      exact this
    have h4 : Tendsto (fun m => ∫ y, gDet k d n y ∂(Measure.pi fun _ : Fin n => disc (x m) (w m))
        - ∫ y, ({y : Fin n → ℝ | Function.Injective y}.indicator (gDet k d n)) y ∂(Measure.pi fun _ : Fin n => disc (x m) (w m))) atTop (nhds 0) := by
      refine squeeze_zero_norm (a := fun m => (B * √(n : ℝ)) ^ n
        * (Measure.pi fun _ : Fin n => disc (x m) (w m)).real {y : Fin n → ℝ | ¬ Function.Injective y}) (fun m => ?_) ?_
      · have := hprob m
        have hms : MeasurableSet {y : Fin n → ℝ | ¬ Function.Injective y} := (notInj_closed n).measurableSet
        have hms' : MeasurableSet {y : Fin n → ℝ | Function.Injective y} := by
          have := hms.compl
          simpa [Set.compl_ofPred] using this
        have hint : Integrable (gDet k d n) (Measure.pi fun _ : Fin n => disc (x m) (w m)) :=
          Integrable.of_bound (gDet_continuous hk hd n).aestronglyMeasurable _ (ae_of_all _ (gDet_bound hB hkB hdB n))
        have hsplit := integral_add_compl hms' hint
        rw [integral_indicator hms', ← hsplit, add_sub_cancel_left]
        have hcompl : {y : Fin n → ℝ | Function.Injective y}ᶜ = {y : Fin n → ℝ | ¬ Function.Injective y} := rfl
        rw [hcompl]
        exact norm_setIntegral_le_of_norm_le_const (measure_lt_top _ _) fun y _ => gDet_bound hB hkB hdB n y
      · simpa using h3.const_mul ((B * √(n : ℝ)) ^ n)
    have := h1.sub h4
    simpa using this
  · refine Eventually.of_forall fun m n => ?_
    have := hprob m
    rw [norm_mul, norm_div, norm_pow, norm_neg, norm_one, one_pow, Real.norm_natCast, div_mul_eq_mul_div, one_mul]
    gcongr
    refine (norm_integral_le_of_norm_le_const (C := (B * √(n : ℝ)) ^ n) (ae_of_all _ fun y => hbd n y)).trans ?_
    simp

end Verif.Lemmas.TW
