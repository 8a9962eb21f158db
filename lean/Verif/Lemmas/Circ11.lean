import Verif.Lemmas.Circ8
import Verif.Lemmas.Circ9
import Verif.Lemmas.Circ10
import Verif.Lemmas.RPLaw

/-!
# Law of the coefficients drawn by the program
-/

namespace Verif.Lemmas
open Finset MeasureTheory Verif Verif.Model Verif.Spec ProbabilityTheory
open scoped ComplexConjugate

variable {n : ℕ}

/-- laws of the coefficients -/
noncomputable def nuV (b n : ℕ) (i : Fin n) : Measure ℂ := nuC (1 + b * (n - 1 - i) + 1)

instance prob_nuV (b n : ℕ) (i : Fin n) : IsProbabilityMeasure (nuV b n i) := prob_nuC _

theorem nuV_zero (b n : ℕ) : nuV b (n + 1) 0 = nuC (1 + b * n + 1) := by
  rw [nuV]; simp

theorem nuV_succ (b n : ℕ) (i : Fin n) : nuV b (n + 1) i.succ = nuV b n i := by
  rw [nuV, nuV, Fin.val_succ, show n + 1 - 1 - (i + 1) = n - 1 - (i : ℕ) by omega]

theorem sumsq_ne_zero (d : ℕ) : ∀ᵐ g ∂(Measure.pi fun _ : Fin (d + 1) => gaussianReal 0 1), ∑ i, g i ^ 2 ≠ 0 := by
  have hm : Measurable fun x : Fin (d + 1) → ℝ => ∑ i, x i ^ 2 := by fun_prop
  have h := chi_square (d := d + 1) (by omega)
  have h0 : ∀ᵐ r ∂((Measure.pi fun _ : Fin (d + 1) => gaussianReal 0 1).map fun x => ∑ i, x i ^ 2), r ≠ 0 := by
    rw [h, gammaMeasure_eq]
    have hv : ∀ᵐ r : ℝ, r ≠ 0 := by rw [ae_iff]; simp
    exact (withDensity_absolutelyContinuous _ _).ae_le hv
  exact ae_of_ae_map hm.aemeasurable h0

theorem pi_cons_eq (b n : ℕ) : ((nuC (1 + b * n + 1)).prod (Measure.pi (nuV b n))).map (fun p => (Fin.cons p.1 p.2 : Fin (n + 1) → ℂ))
    = Measure.pi (nuV b (n + 1)) := by
  have h := (measurePreserving_piFinSuccAbove (nuV b (n + 1)) 0).symm
  have e1 : (fun j => nuV b (n + 1) (Fin.succAbove 0 j)) = nuV b n := by
    funext j; rw [Fin.succAbove_zero]; exact nuV_succ b n j
  have h2 := h.map_eq
  rw [e1, nuV_zero] at h2
  rw [← h2]
  congr 1
  funext p
  simp [MeasurableEquiv.piFinSuccAbove, Fin.insertNthEquiv, Fin.insertNth_zero']

theorem measurable_consC {n : ℕ} : Measurable fun p : ℂ × (Fin n → ℂ) => (Fin.cons p.1 p.2 : Fin (n + 1) → ℂ) := by
  refine measurable_pi_lambda _ fun i => ?_
  refine Fin.cases ?_ (fun i => ?_) i
  · simp only [Fin.cons_zero]; fun_prop
  · simp only [Fin.cons_succ]; fun_prop

/-- law of the program that draws the coefficients -/
theorem law_verblunsky {Z : Type} [MeasurableSpace Z] (b : ℕ) : ∀ (n : ℕ) (acc : List ℂ) (k : List ℂ → RP Z) (F : (Fin n → ℂ) → Z),
    Measurable F → (∀ᵐ a ∂(Measure.pi (nuV b n)), (k (acc.reverse ++ List.ofFn a)).law = Measure.dirac (F a)) →
    (verblunsky b n acc k).law = (Measure.pi (nuV b n)).map F
  | 0, acc, k, F, hF, h => by
    obtain ⟨a, ha⟩ := h.exists
    rw [List.ofFn_zero, List.append_nil] at ha
    rw [verblunsky, ha, Measure.pi_of_empty _ a]
    exact (Measure.map_dirac' hF a).symm
  | n + 1, acc, k, F, hF, h => by
    rw [← pi_cons_eq] at h ⊢
    have h1 : ∀ᵐ x ∂(nuC (1 + b * n + 1)), ∀ᵐ a ∂(Measure.pi (nuV b n)),
        (k (acc.reverse ++ List.ofFn (Fin.cons x a : Fin (n + 1) → ℂ))).law = Measure.dirac (F (Fin.cons x a)) :=
      Measure.ae_ae_of_ae_prod (ae_of_ae_map measurable_consC.aemeasurable h)
    rw [nuC] at h1
    replace h1 := ae_of_ae_map measurable_coefOf.aemeasurable h1
    have hFc : Measurable fun p : ℂ × (Fin n → ℂ) => F (Fin.cons p.1 p.2) := hF.comp measurable_consC
    set H : ℂ → Measure Z := fun x => (Measure.pi (nuV b n)).map fun a => F (Fin.cons x a) with hH
    have hHm : Measurable H := by
      refine Measure.measurable_of_measurable_coe _ fun s hs => ?_
      have : (fun x => H x s) = fun x => (Measure.pi (nuV b n)) (Prod.mk x ⁻¹' ((fun p : ℂ × (Fin n → ℂ) => F (Fin.cons p.1 p.2)) ⁻¹' s)) := by
        funext x
        exact Measure.map_apply (hFc.comp measurable_prodMk_left) hs
      rw [this]
      exact measurable_measure_prodMk_left (hFc hs)
    have h2 : (verblunsky b (n + 1) acc k).law
        = (Measure.pi fun _ : Fin (1 + b * n + 1) => gaussianReal 0 1).bind fun g => H (coefOf g) := by
      rw [verblunsky, RP.law, if_neg (by norm_num), one_pow, Real.toNNReal_one, Measure.bind, Measure.bind]
      congr 1
      refine Measure.map_congr ?_
      filter_upwards [h1, sumsq_ne_zero (1 + b * n)] with g hg hg0
      rw [if_neg hg0]
      refine law_verblunsky b n _ k (fun a => F (Fin.cons (coefOf g) a)) (hFc.comp measurable_prodMk_left) ?_
      filter_upwards [hg] with a ha
      rw [← ha, List.reverse_cons, List.append_assoc, List.ofFn_cons]
      rfl
    rw [h2]
    ext s hs
    rw [Measure.bind_apply hs (show Measurable fun g => H (coefOf g) from hHm.comp measurable_coefOf).aemeasurable, Measure.map_apply hF hs,
      Measure.map_apply measurable_consC (hF hs), Measure.prod_apply (measurable_consC (hF hs)), nuC,
      lintegral_map (measurable_measure_prodMk_left (measurable_consC (hF hs))) measurable_coefOf]
    refine lintegral_congr fun g => ?_
    exact Measure.map_apply (hFc.comp measurable_prodMk_left) hs

theorem map_verblunsky {α β : Type} (f : α → β) (b : ℕ) : ∀ (n : ℕ) (acc : List ℂ) (k : List ℂ → RP α),
    (verblunsky b n acc k).map f = verblunsky b n acc fun l => (k l).map f
  | 0, acc, k => rfl
  | n + 1, acc, k => by
    rw [verblunsky, verblunsky, RP.map]
    congr 1
    funext g
    split_ifs
    · rfl
    · exact map_verblunsky f b n _ k

end Verif.Lemmas
