import Verif.Lemmas.Circ13
import Verif.Lemmas.LAExists
import Verif.Props.BandedClass

/-!
# C88: the banded circular model has the law of the circular beta ensemble
-/

namespace Verif.Spec
open MeasureTheory

/-- the angles of a list of `N` points, in the order of the list -/
noncomputable def anglesOf (N : ℕ) (l : List ℂ) : Fin N → ℝ := fun i => angle (l.getD i 0)

/-- the uniform law on `[0, 2 pi)` -/
noncomputable def uniformAngle : Measure ℝ := (ENNReal.ofReal (2 * Real.pi))⁻¹ • volume.restrict (Set.Ico 0 (2 * Real.pi))

end Verif.Spec

namespace Verif.Lemmas
open Finset MeasureTheory ProbabilityTheory Verif.Model Verif.Spec

theorem map_turn : ((volume : Measure ℝ).restrict (Set.Ico 0 1)).map (fun t => 2 * Real.pi * t) = uniformAngle := by
  have hpi : (0 : ℝ) < 2 * Real.pi := by positivity
  have hm : Measurable fun t : ℝ => 2 * Real.pi * t := by fun_prop
  ext s hs
  rw [Measure.map_apply hm hs, Measure.restrict_apply (hm hs), uniformAngle, Measure.smul_apply, Measure.restrict_apply hs]
  have e : (fun t : ℝ => 2 * Real.pi * t) ⁻¹' s ∩ Set.Ico 0 1 = (fun t : ℝ => 2 * Real.pi * t) ⁻¹' (s ∩ Set.Ico 0 (2 * Real.pi)) := by
    ext t
    simp only [Set.mem_inter_iff, Set.mem_preimage, Set.mem_Ico]
    constructor
    · rintro ⟨h1, h2, h3⟩
      exact ⟨h1, by positivity, by nlinarith⟩
    · rintro ⟨h1, h2, h3⟩
      exact ⟨h1, by by_contra hc; push Not at hc; nlinarith, by by_contra hc; push Not at hc; nlinarith⟩
  rw [e, Real.volume_preimage_mul_left hpi.ne', abs_of_pos (by positivity), ENNReal.ofReal_inv_of_pos hpi, smul_eq_mul]

theorem anglesOf_unitPts {N : ℕ} {x : Fin N → ℝ} (hx : ∀ i, x i ∈ Set.Ico (0 : ℝ) 1) :
    anglesOf N (unitPts x) = fun i => 2 * Real.pi * x i := by
  have hpi : (0 : ℝ) < 2 * Real.pi := by positivity
  funext i
  rw [anglesOf, unitPts, List.getD_eq_getElem _ _ (by simp)]
  simp only [List.getElem_map, List.getElem_ofFn]
  have e : Complex.exp (2 * Complex.I * (Real.pi : ℂ) * (x i : ℂ)) = Complex.exp (((2 * Real.pi * x i : ℝ) : ℂ) * Complex.I) := by
    congr 1; push_cast; ring
  rw [e]
  exact angle_exp ⟨by have := (hx i).1; positivity, by have := (hx i).2; nlinarith⟩

/-- independent uniform points -/
theorem law_unitPts (N : ℕ) : (RP.map (anglesOf N) (.unif N fun x => .ret (unitPts x))).law = Measure.pi fun _ => uniformAngle := by
  have hm : Measurable fun (x : Fin N → ℝ) i => 2 * Real.pi * x i := by fun_prop
  have hprob : IsProbabilityMeasure ((volume : Measure ℝ).restrict (Set.Ico 0 1)) := ⟨by simp⟩
  have hae : ∀ᵐ x ∂(Measure.pi fun _ : Fin N => (volume : Measure ℝ).restrict (Set.Ico 0 1)), ∀ i, x i ∈ Set.Ico (0 : ℝ) 1 := by
    rw [ae_all_iff]
    intro i
    have hp := measurePreserving_eval (fun _ : Fin N => (volume : Measure ℝ).restrict (Set.Ico 0 1)) i
    have h0 : ∀ᵐ t ∂((volume : Measure ℝ).restrict (Set.Ico 0 1)), t ∈ Set.Ico (0 : ℝ) 1 := ae_restrict_mem measurableSet_Ico
    rw [← hp.map_eq] at h0
    exact ae_of_ae_map hp.measurable.aemeasurable h0
  simp only [RP.map, RP.law]
  have hsig : ∀ _ : Fin N, SigmaFinite (((volume : Measure ℝ).restrict (Set.Ico 0 1)).map fun t => 2 * Real.pi * t) := fun _ =>
    have : IsProbabilityMeasure (((volume : Measure ℝ).restrict (Set.Ico 0 1)).map fun t => 2 * Real.pi * t) :=
      Measure.isProbabilityMeasure_map (by fun_prop)
    inferInstance
  have e1 : (Measure.pi fun _ : Fin N => uniformAngle)
      = (Measure.pi fun _ : Fin N => (volume : Measure ℝ).restrict (Set.Ico 0 1)).map fun x i => 2 * Real.pi * x i := by
    rw [Measure.pi_map_pi (μ := fun _ : Fin N => (volume : Measure ℝ).restrict (Set.Ico 0 1)) (f := fun _ t => 2 * Real.pi * t)
      (fun _ => by fun_prop), map_turn]
  rw [e1, ← Measure.bind_dirac_eq_map _ hm, Measure.bind, Measure.bind]
  congr 1
  refine Measure.map_congr ?_
  filter_upwards [hae] with x hx
  rw [anglesOf_unitPts hx]

end Verif.Lemmas

namespace Verif.Props
open Finset MeasureTheory ProbabilityTheory Verif.Model Verif.Spec Verif.Lemmas

/-- **C88** (banded circular model): for an integer `beta > 0` and `N >= 1`, the points returned by
`mu_ref_unif_unit_circle_sampler_quindiag` are those of the circular beta ensemble: their sorted angles have a joint density
proportional to `∏_{j<k} |e^{i t_j} - e^{i t_k}|^beta`. -/
theorem C88_circular_banded_law {la : LA} (hla : LAOK la) {beta : ℤ} (hb : 0 < beta) {N : ℕ} (hN : 1 ≤ N) :
    IsCircularEnsemble ((unifQuindiag la beta N).map (sortedAngles N)).law beta := by
  obtain ⟨n, rfl⟩ : ∃ n, N = n + 1 := ⟨N - 1, by omega⟩
  rw [law_quindiag hla hb]
  have h := law_angF (n := n) (b := beta.toNat) (by omega)
  have e : ((beta.toNat : ℕ) : ℝ) = ((beta : ℤ) : ℝ) := by
    have : ((beta.toNat : ℤ)) = beta := Int.toNat_of_nonneg hb.le
    exact_mod_cast this
  rwa [e] at h

/-- **C88** for `CircularEnsemble(beta).sample_banded_model(size_N)`: the circular ensemble when `beta > 0`, independent uniform
points when `beta = 0`, whatever calls were made before on the object. -/
theorem C88_circular_banded_method {la : LA} (hla : LAOK la) {st : EnsSt} (hk : st.kind = .circular) {z : ℤ} (hz : st.beta = .int z)
    {N : ℕ} (hN : 1 ≤ N) (p q : ℝ) (M1 M2 : Option ℝ) :
    ∃ st' prog, ensPrep la st (.banded p q N M1 M2) = some (st', prog) ∧
      (0 < z → IsCircularEnsemble (prog.map (sortedAngles N)).law z) ∧
      (z = 0 → (prog.map (anglesOf N)).law = Measure.pi fun _ => uniformAngle) := by
  have hb : st.b = z := by rw [EnsSt.b, hz]; rfl
  refine ⟨_, _, by simp only [ensPrep, hk, circularBandedPrep]; rfl, fun h => ?_, fun h => ?_⟩
  · have h0 : ¬ st.b = 0 := by rw [hb]; exact_mod_cast h.ne'
    rw [if_neg h0, hz]
    exact C88_circular_banded_law hla h hN
  · have h0 : st.b = 0 := by rw [hb, h]; simp
    rw [if_pos h0]
    exact law_unitPts N

/-- **C88** for `CircularEnsemble(0).sample_full_model(size_N, haar_mode)`: independent uniform points -/
theorem C88_circular_full_beta0 {la : LA} {st : EnsSt} (hk : st.kind = .circular) (hz : st.beta = .int 0)
    (N M1 M2 : ℕ) (mode : Haar) :
    ∃ st' prog, ensPrep la st (.full N M1 M2 mode) = some (st', prog) ∧
      (prog.map (anglesOf N)).law = Measure.pi fun _ => uniformAngle := by
  refine ⟨_, _, by simp only [ensPrep, hk, circularFullPrep]; rfl, ?_⟩
  have h0 : st.b = 0 := by rw [EnsSt.b, hz]; simp [BetaVal.val]
  rw [if_pos h0]
  exact law_unitPts N

/-- the object of the previous theorem is what the constructor returns, and contracts for the linear algebra can be met -/
example : ∃ (la : LA) (st : EnsSt), LAOK la ∧ ensInit .circular (.int 3) = .ok st ∧ st.kind = .circular ∧ st.beta = .int 3 := by
  obtain ⟨la, hla⟩ := exists_LAOK
  exact ⟨la, ensNew .circular (.int 3), hla, by simp [ensInit, ensInitBase], rfl, rfl⟩

end Verif.Props
