import Verif.Lemmas.TW2
import Mathlib.MeasureTheory.Integral.Pi
import Mathlib.Analysis.SpecialFunctions.Exponential

/-!
Changing the diagonal of a kernel multiplies the Fredholm series by an exponential.
-/

set_option linter.unusedVariables false

namespace Verif.Lemmas.TW
open Matrix Finset MeasureTheory Filter

/-- determinant of a kernel at points indexed by a finite type -/
noncomputable def kDet (k : ℝ → ℝ → ℝ) {ι : Type} [Fintype ι] [DecidableEq ι] (y : ι → ℝ) : ℝ := (Matrix.of fun a b => k (y a) (y b)).det

theorem kDet_integral_congr (k : ℝ → ℝ → ℝ) (μ : Measure ℝ) [SigmaFinite μ] {ι κ : Type} [Fintype ι] [DecidableEq ι] [Fintype κ] [DecidableEq κ]
    (e : κ ≃ ι) : ∫ y, kDet k y ∂(Measure.pi fun _ : ι => μ) = ∫ y, kDet k y ∂(Measure.pi fun _ : κ => μ) := by
  have h := (measurePreserving_piCongrLeft (α := fun _ : ι => ℝ) (fun _ => μ) e).integral_comp' (fun y => kDet k y)
  rw [← h]
  refine integral_congr_ae (ae_of_all _ fun y => ?_)
  change kDet k (MeasurableEquiv.piCongrLeft (fun _ : ι => ℝ) e y) = kDet k y
  unfold kDet
  rw [← det_submatrix_equiv_self e]
  congr 1
  ext a b
  simp only [submatrix_apply, of_apply]
  have hh : ∀ a, MeasurableEquiv.piCongrLeft (fun _ : ι => ℝ) e y (e a) = y a := fun a =>
    Equiv.piCongrLeft_apply_apply (fun _ : ι => ℝ) e y a
  rw [hh, hh]

theorem gDet_expand (k : ℝ → ℝ → ℝ) (d : ℝ → ℝ) (n : ℕ) (y : Fin n → ℝ) :
    gDet k d n y = ∑ s : Finset (Fin n), (∏ a ∈ sᶜ, (d (y a) - k (y a) (y a))) * kDet k (fun a : s => y a) := by
  have h := det_add_diagonal (Matrix.of fun a b : Fin n => k (y a) (y b)) (fun a => d (y a) - k (y a) (y a))
  rw [gDet]
  have e : (Matrix.of fun a b : Fin n => if a = b then d (y a) else k (y a) (y b))
      = (Matrix.of fun a b : Fin n => k (y a) (y b)) + diagonal (fun a => d (y a) - k (y a) (y a)) := by
    ext a b
    by_cases hab : a = b
    · subst hab; simp
    · simp [hab]
  rw [e, h]
  rfl

theorem kDet_continuous {k : ℝ → ℝ → ℝ} (hk : Continuous (Function.uncurry k)) {ι : Type} [Fintype ι] [DecidableEq ι] :
    Continuous (kDet k : (ι → ℝ) → ℝ) := by
  unfold kDet
  refine Continuous.matrix_det (continuous_matrix fun a b => ?_)
  exact hk.comp (Continuous.prodMk (f := fun y : ι → ℝ => y a) (g := fun y : ι → ℝ => y b) (continuous_apply a) (continuous_apply b))

theorem kDet_bound {k : ℝ → ℝ → ℝ} {B : ℝ} (hB : 0 ≤ B) (hkB : ∀ x y, |k x y| ≤ B) {ι : Type} [Fintype ι] [DecidableEq ι] (y : ι → ℝ) :
    |kDet k y| ≤ (B * √(Fintype.card ι : ℝ)) ^ Fintype.card ι := by
  unfold kDet
  rw [← det_submatrix_equiv_self (Fintype.equivFin ι).symm]
  exact abs_det_le _ hB fun i j => hkB _ _

/-- product of the differences on the diagonal -/
noncomputable def dProd (k : ℝ → ℝ → ℝ) (d : ℝ → ℝ) {ι : Type} [Fintype ι] (z : ι → ℝ) : ℝ := ∏ a, (d (z a) - k (z a) (z a))

theorem term_integral {k : ℝ → ℝ → ℝ} {d : ℝ → ℝ} (μ : Measure ℝ) [IsFiniteMeasure μ] (n : ℕ) (s : Finset (Fin n)) :
    ∫ y, (∏ a ∈ sᶜ, (d (y a) - k (y a) (y a))) * kDet k (fun a : s => y a) ∂(Measure.pi fun _ : Fin n => μ)
      = (∫ x, (d x - k x x) ∂μ) ^ (n - s.card) * ∫ y, kDet k y ∂(Measure.pi fun _ : Fin s.card => μ) := by
  have h := (measurePreserving_piEquivPiSubtypeProd (α := fun _ : Fin n => ℝ) (fun _ => μ) (fun a => a ∈ s)).integral_comp'
    (fun z : ({a // a ∈ s} → ℝ) × ({a // a ∉ s} → ℝ) => kDet k z.1 * dProd k d z.2)
  have hl : ∀ y : Fin n → ℝ, (∏ a ∈ sᶜ, (d (y a) - k (y a) (y a))) * kDet k (fun a : s => y a)
      = kDet k ((MeasurableEquiv.piEquivPiSubtypeProd (fun _ : Fin n => ℝ) (fun a => a ∈ s)) y).1
        * dProd k d ((MeasurableEquiv.piEquivPiSubtypeProd (fun _ : Fin n => ℝ) (fun a => a ∈ s)) y).2 := by
    intro y
    rw [mul_comm]
    refine congrArg₂ _ rfl ?_
    rw [Finset.prod_subtype (p := fun a => a ∉ s) _ (fun a => Finset.mem_compl)]
    rfl
  have h2 : ∫ z : ({a // a ∈ s} → ℝ) × ({a // a ∉ s} → ℝ), kDet k z.1 * dProd k d z.2
        ∂((Measure.pi fun _ : {a // a ∈ s} => μ).prod (Measure.pi fun _ : {a // a ∉ s} => μ))
      = (∫ z, kDet k z ∂(Measure.pi fun _ : {a // a ∈ s} => μ)) * ∫ z, dProd k d z ∂(Measure.pi fun _ : {a // a ∉ s} => μ) :=
    integral_prod_mul _ _
  have h3 : ∫ z, dProd k d z ∂(Measure.pi fun _ : {a // a ∉ s} => μ) = (∫ x, (d x - k x x) ∂μ) ^ Fintype.card {a // a ∉ s} :=
    integral_fintype_prod_eq_pow (fun x => d x - k x x)
  rw [integral_congr_ae (ae_of_all _ hl)]
  have hfi : (Subtype.fintype fun a => a ∈ s) = Finset.Subtype.fintype s := Subsingleton.elim _ _
  rw [hfi] at h
  refine (h.trans h2).trans ?_
  rw [h3, mul_comm]
  congr 1
  · congr 1
    rw [Fintype.card_subtype_compl]
    simp
  · exact kDet_integral_congr k μ (Finset.equivFin s).symm

/-- The Fredholm series with another diagonal. -/
theorem fredholm_diag {k : ℝ → ℝ → ℝ} {d : ℝ → ℝ} (hk : Continuous (Function.uncurry k)) (hd : Continuous d) {B : ℝ} (hB : 0 ≤ B)
    (hkB : ∀ x y, |k x y| ≤ B) (hdB : ∀ x, |d x| ≤ B) (μ : Measure ℝ) [IsProbabilityMeasure μ] :
    Summable (fun n : ℕ => ‖(-1) ^ n / (n.factorial : ℝ) * ∫ y, kDet k y ∂(Measure.pi fun _ : Fin n => μ)‖)
      ∧ ∑' n : ℕ, (-1) ^ n / (n.factorial : ℝ) * ∫ y, gDet k d n y ∂(Measure.pi fun _ : Fin n => μ)
        = Real.exp (-∫ x, (d x - k x x) ∂μ) * ∑' n : ℕ, (-1) ^ n / (n.factorial : ℝ) * ∫ y, kDet k y ∂(Measure.pi fun _ : Fin n => μ) := by
  have hsum : Summable (fun n : ℕ => ‖(-1) ^ n / (n.factorial : ℝ) * ∫ y, kDet k y ∂(Measure.pi fun _ : Fin n => μ)‖) := by
    refine Summable.of_nonneg_of_le (fun n => norm_nonneg _) (fun n => ?_) (hadamard_summable B hB)
    rw [norm_mul, norm_div, norm_pow, norm_neg, norm_one, one_pow, Real.norm_natCast, div_mul_eq_mul_div, one_mul]
    gcongr
    refine (norm_integral_le_of_norm_le_const (C := (B * √(n : ℝ)) ^ n) (ae_of_all _ fun y => ?_)).trans ?_
    · simpa using kDet_bound hB hkB y
    · simp
  refine ⟨hsum, ?_⟩
  obtain ⟨D, hD⟩ : ∃ D, D = ∫ x, (d x - k x x) ∂μ := ⟨_, rfl⟩
  have hn : ∀ n : ℕ, ∫ y, gDet k d n y ∂(Measure.pi fun _ : Fin n => μ)
      = ∑ j ∈ range (n + 1), (n.choose j : ℝ) * (D ^ (n - j) * ∫ y, kDet k y ∂(Measure.pi fun _ : Fin j => μ)) := by
    intro n
    simp_rw [gDet_expand]
    have hdk : Continuous fun x => d x - k x x := hd.sub (hk.comp (continuous_id.prodMk continuous_id))
    rw [integral_finsetSum]
    · simp_rw [term_integral, ← hD]
      have := Finset.sum_powerset_apply_card (x := (Finset.univ : Finset (Fin n))) (fun j => D ^ (n - j) * ∫ y, kDet k y ∂(Measure.pi fun _ : Fin j => μ))
      rw [Finset.powerset_univ, Finset.card_univ, Fintype.card_fin] at this
      rw [this]
      simp [nsmul_eq_mul]
    · intro s _
      have hc : Continuous fun y : Fin n → ℝ => (∏ a ∈ sᶜ, (d (y a) - k (y a) (y a))) * kDet k (fun a : s => y a) := by
        refine Continuous.mul ?_ ?_
        · exact continuous_finsetProd _ fun a _ => hdk.comp (continuous_apply a)
        · exact (kDet_continuous hk).comp (continuous_pi fun a => continuous_apply _)
      refine Integrable.of_bound hc.aestronglyMeasurable ((2 * B) ^ sᶜ.card * (B * √(Fintype.card s : ℝ)) ^ Fintype.card s) (ae_of_all _ fun y => ?_)
      rw [norm_mul]
      refine mul_le_mul ?_ (kDet_bound hB hkB _) (norm_nonneg _) (by positivity)
      rw [norm_prod]
      calc ∏ a ∈ sᶜ, ‖d (y a) - k (y a) (y a)‖ ≤ ∏ a ∈ sᶜ, (2 * B) := by
            refine Finset.prod_le_prod (fun _ _ => norm_nonneg _) fun a _ => (norm_sub_le _ _).trans ?_
            have h1 := hdB (y a)
            have h2 := hkB (y a) (y a)
            rw [← Real.norm_eq_abs] at h1 h2
            linarith
        _ = (2 * B) ^ sᶜ.card := by simp
  have hexp : Real.exp (-D) = ∑' n : ℕ, (-D) ^ n / (n.factorial : ℝ) := by
    rw [Real.exp_eq_exp_ℝ, NormedSpace.exp_eq_tsum_div]
  have hes : Summable fun n : ℕ => ‖(-D) ^ n / (n.factorial : ℝ)‖ := by
    have := Real.summable_pow_div_factorial |D|
    refine this.congr fun n => ?_
    rw [norm_div, norm_pow, norm_neg, Real.norm_eq_abs, Real.norm_natCast]
  rw [← hD, hexp, mul_comm, tsum_mul_tsum_eq_tsum_sum_range_of_summable_norm hsum hes]
  refine tsum_congr fun n => ?_
  rw [hn, Finset.mul_sum]
  refine Finset.sum_congr rfl fun j hj => ?_
  have hj' : j ≤ n := by simpa [Nat.lt_succ_iff] using hj
  have hf := Nat.choose_mul_factorial_mul_factorial hj'
  have hf' : (n.choose j : ℝ) * j.factorial * (n - j).factorial = n.factorial := by exact_mod_cast hf
  have h1 : (j.factorial : ℝ) ≠ 0 := by positivity
  have h2 : ((n - j).factorial : ℝ) ≠ 0 := by positivity
  have h3 : (n.factorial : ℝ) ≠ 0 := by positivity
  have h4 : (n.choose j : ℝ) = n.factorial / (j.factorial * (n - j).factorial) := by
    rw [eq_div_iff (by positivity), ← hf']; ring
  rw [h4, neg_pow D (n - j), show ((-1 : ℝ)) ^ n = (-1) ^ j * (-1) ^ (n - j) by rw [← pow_add]; congr 1; omega]
  field_simp

end Verif.Lemmas.TW
