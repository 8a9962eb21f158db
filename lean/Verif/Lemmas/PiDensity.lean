import Mathlib.MeasureTheory.Constructions.Pi
import Mathlib.MeasureTheory.Measure.WithDensity

/-!
# Product measures of measures with densities
-/

namespace Verif.Lemmas
open MeasureTheory Finset

theorem lintegral_pi_prod : ∀ {n : ℕ} (μ : Fin n → Measure ℝ) [∀ i, SigmaFinite (μ i)] {f : Fin n → ℝ → ENNReal}
    (_ : ∀ i, Measurable (f i)), ∫⁻ x, ∏ i, f i (x i) ∂(Measure.pi μ) = ∏ i, ∫⁻ t, f i t ∂(μ i)
  | 0, μ, _, f, hf => by
    simp only [univ_eq_empty, prod_empty, lintegral_const, one_mul]
    rw [Measure.pi_of_empty]
    simp
  | n + 1, μ, _, f, hf => by
    have h := (measurePreserving_piFinSuccAbove μ 0).symm
    rw [← h.lintegral_comp (by fun_prop)]
    have hm : Measurable fun y : Fin n → ℝ => ∏ i, f i.succ (y i) :=
      Finset.measurable_prod _ fun i _ => (hf _).comp (measurable_pi_apply i)
    have e : ∀ a : ℝ × (Fin n → ℝ), ∏ i, f i ((MeasurableEquiv.piFinSuccAbove (fun _ => ℝ) (0 : Fin (n + 1))).symm a i)
        = f 0 a.1 * ∏ i, f i.succ (a.2 i) := by
      intro a
      rw [Fin.prod_univ_succ]
      rfl
    simp only [e]
    rw [lintegral_prod_mul (hf 0).aemeasurable hm.aemeasurable]
    rw [Fin.prod_univ_succ]
    congr 1
    exact lintegral_pi_prod (fun i => μ i.succ) (fun i => hf i.succ)

/-- a product of measures with densities has the product density -/
theorem pi_withDensity {n : ℕ} (μ : Fin n → Measure ℝ) [∀ i, SigmaFinite (μ i)] {f : Fin n → ℝ → ENNReal}
    (hf : ∀ i, Measurable (f i)) [∀ i, SigmaFinite ((μ i).withDensity (f i))] :
    Measure.pi (fun i => (μ i).withDensity (f i)) = (Measure.pi μ).withDensity fun x => ∏ i, f i (x i) := by
  refine Measure.pi_eq fun s hs => ?_
  rw [withDensity_apply _ (MeasurableSet.univ_pi hs), ← lintegral_indicator (MeasurableSet.univ_pi hs)]
  have e : ∀ x : Fin n → ℝ, (Set.univ.pi s).indicator (fun x => ∏ i, f i (x i)) x = ∏ i, (s i).indicator (f i) (x i) := by
    intro x
    by_cases hx : x ∈ Set.univ.pi s
    · rw [Set.indicator_of_mem hx]
      exact prod_congr rfl fun i _ => (Set.indicator_of_mem (hx i (Set.mem_univ i)) _).symm
    · rw [Set.indicator_of_notMem hx]
      have : ∃ i, x i ∉ s i := by simpa [Set.mem_pi] using hx
      obtain ⟨i, hi⟩ := this
      exact (prod_eq_zero (mem_univ i) (Set.indicator_of_notMem hi _)).symm
  simp only [e]
  rw [lintegral_pi_prod μ fun i => (hf i).indicator (hs i)]
  refine prod_congr rfl fun i _ => ?_
  rw [withDensity_apply _ (hs i), lintegral_indicator (hs i)]

end Verif.Lemmas
