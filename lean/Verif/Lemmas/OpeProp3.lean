import Verif.Lemmas.OpeProp2
import Mathlib.MeasureTheory.Measure.ProbabilityMeasure

/-!
Law of `sample_chain_rule_proposal`, all components.
-/

namespace Verif.Lemmas
open MeasureTheory ProbabilityTheory Verif Verif.Model Verif.Spec Verif.Props
open scoped ENNReal

variable {d : ℕ}

theorem propLoop_prob (par : Fin d → ℝ × ℝ) (L : List (List ℕ)) (ind : Fin L.length) (T : ℕ) (x : Fin d → ℝ) :
    IsProbabilityMeasure (opePropLoop par L ind T x).law := by
  induction T generalizing x with
  | zero => simp only [opePropLoop, RP.law]; infer_instance
  | succ T ih =>
    have hm := (propLoop_meas par L ind (T + 1)).2 x
    rw [opePropLoop] at hm ⊢
    have hm1 := hm.1
    have hb : ∀ i : Fin d, IsProbabilityMeasure (betaMeasure (1 / 2) (1 / 2)) := fun _ =>
      isProbabilityMeasureBeta (by norm_num) (by norm_num)
    have hu : ∀ y : Fin d → ℝ, IsProbabilityMeasure (RP.unif 1 fun u => open Classical in
        if opeAccepts (opeBound par L ind) (u 0) (opeTarget par L ind (opePoint y)) then RP.ret (opePoint y)
          else opePropLoop par L ind T (opePoint y)).law := by
      intro y
      have hm2 := (hm.2 y).1
      simp only [RP.law] at hm2 ⊢
      refine isProbabilityMeasure_bind hm2.aemeasurable (Filter.Eventually.of_forall fun u => ?_)
      split_ifs
      · simp only [RP.law]; infer_instance
      · exact ih _
    simp only [RP.law] at hm1 ⊢
    rw [if_neg (by rintro ⟨i, h | h⟩ <;> norm_num at h)]
    exact isProbabilityMeasure_bind hm1.aemeasurable (Filter.Eventually.of_forall hu)

theorem proposal_meas (par : Fin d → ℝ × ℝ) (L : List (List ℕ)) (T0 : ℕ) : RPMeas (opeProposal par L T0) := by
  intro ind
  beta_reduce
  split_ifs
  · trivial
  · exact (propLoop_meas par L ind T0).2 0

theorem proposal_law (par : Fin d → ℝ × ℝ) (L : List (List ℕ)) {T0 : ℕ} (hT : T0 ≠ 0) :
    (opeProposal par L T0).law = ∑ ind : Fin L.length, (L.length : ℝ≥0∞)⁻¹ • (opePropLoop par L ind T0 0).law := by
  simp only [opeProposal, RP.law, if_neg hT]

theorem proposal_prob (par : Fin d → ℝ × ℝ) {L : List (List ℕ)} (hne : L ≠ []) {T0 : ℕ} (hT : T0 ≠ 0) :
    IsProbabilityMeasure (opeProposal par L T0).law := by
  constructor
  rw [proposal_law par L hT, Measure.finsetSum_apply]
  have : ∀ ind : Fin L.length, ((L.length : ℝ≥0∞)⁻¹ • (opePropLoop par L ind T0 0).law) Set.univ = (L.length : ℝ≥0∞)⁻¹ := by
    intro ind
    have := propLoop_prob par L ind T0 0
    simp
  rw [Finset.sum_congr rfl fun ind _ => this ind, Finset.sum_const, Finset.card_univ, Fintype.card_fin, nsmul_eq_mul]
  exact ENNReal.mul_inv_cancel (by simpa using hne) (ENNReal.natCast_ne_top _)

/-- density of the proposals the chain rule asks for -/
noncomputable def propIdeal (par : Fin d → ℝ × ℝ) (L : List (List ℕ)) (x : Fin d → ℝ) : ℝ≥0∞ :=
  ENNReal.ofReal (featKernel (opePhi par L) x x / L.length)

theorem propIdeal_eq (par : Fin d → ℝ × ℝ) (L : List (List ℕ)) (x : Fin d → ℝ) :
    propIdeal par L x = (L.length : ℝ≥0∞)⁻¹ * ∑ ind, ENNReal.ofReal (opePhi par L x ind ^ 2) := by
  rcases Nat.eq_zero_or_pos L.length with h | h
  · obtain rfl := List.length_eq_zero_iff.1 h
    simp [propIdeal, featKernel]
  · rw [propIdeal, featKernel, ← ENNReal.ofReal_sum_of_nonneg fun i _ => sq_nonneg _, div_eq_inv_mul, ENNReal.ofReal_mul (by positivity),
      ENNReal.ofReal_inv_of_pos (by exact_mod_cast h), ENNReal.ofReal_natCast]
    simp only [sq]

theorem measurable_propIdeal (par : Fin d → ℝ × ℝ) (L : List (List ℕ)) : Measurable (propIdeal par L) := by
  have : propIdeal par L = fun x => (L.length : ℝ≥0∞)⁻¹ * ∑ ind, ENNReal.ofReal (opePhi par L x ind ^ 2) :=
    funext fun x => propIdeal_eq par L x
  rw [this]
  refine Measurable.const_mul (Finset.measurable_sum _ fun i _ => ?_) _
  exact (((measurable_pi_apply i).comp (measurable_opePhi par L)).pow_const 2).ennreal_ofReal

/-- every trial is accepted with probability at least `1 / C`: `q` is at most the probability that one of `T0` is -/
def OpeEff (par : Fin d → ℝ × ℝ) (L : List (List ℕ)) (T0 : ℕ) (q : ℝ≥0∞) : Prop :=
  ∀ ind C, opeBound par L ind = some C → q ≤ 1 - (1 - ENNReal.ofReal (1 / C)) ^ T0

/-- all the bounds are numbers and bound the densities -/
def OpeBoundsOK (par : Fin d → ℝ × ℝ) (L : List (List ℕ)) : Prop :=
  ∀ ind, ∃ C, opeBound par L ind = some C ∧ OpeDom par L ind C

theorem opeBound_pos {par : Fin d → ℝ × ℝ} {L : List (List ℕ)} {ind : Fin L.length} {C : ℝ} (h : opeBound par L ind = some C) :
    0 < C := by
  rw [opeBound] at h
  split_ifs at h
  rw [← Option.some.inj h]
  exact Real.exp_pos _

/-- the proposals dominate `q` times the density `K(x, x) / N` -/
theorem proposal_lower (hd : 1 ≤ d) {par : Fin d → ℝ × ℝ} (h : ∀ j, -1 < (par j).1 ∧ -1 < (par j).2) {L : List (List ℕ)}
    (hL : ∀ k ∈ L, k.length = d) (hnd : L.Nodup) (hB : OpeBoundsOK par L) {T0 : ℕ} (hT : T0 ≠ 0) {q : ℝ≥0∞}
    (hq : OpeEff par L T0 q) {g : (Fin d → ℝ) → ℝ≥0∞} (hg : Measurable g) :
    q * ∫⁻ x, propIdeal par L x * g x ∂(opeMu par) ≤ ∫⁻ x, g x ∂(opeProposal par L T0).law := by
  rw [proposal_law par L hT, lintegral_finsetSum_measure]
  have hm : ∀ ind : Fin L.length, Measurable fun x => ENNReal.ofReal (opePhi par L x ind ^ 2) * g x := fun ind =>
    (((measurable_pi_apply ind).comp (measurable_opePhi par L)).pow_const 2).ennreal_ofReal.mul hg
  have e : ∫⁻ x, propIdeal par L x * g x ∂(opeMu par)
      = ∑ ind, (L.length : ℝ≥0∞)⁻¹ * ∫⁻ x, ENNReal.ofReal (opePhi par L x ind ^ 2) * g x ∂(opeMu par) := by
    simp only [propIdeal_eq, mul_assoc, Finset.sum_mul]
    rw [lintegral_const_mul _ (Finset.measurable_sum _ fun ind _ => hm ind), lintegral_finsetSum _ fun ind _ => hm ind, Finset.mul_sum]
  rw [e, Finset.mul_sum]
  refine Finset.sum_le_sum fun ind _ => ?_
  obtain ⟨C, hC, hdom⟩ := hB ind
  rw [lintegral_smul_measure, smul_eq_mul, mul_left_comm]
  refine mul_le_mul_right ?_ _
  exact (mul_le_mul_left (hq ind C hC) _).trans (propLoop_lower hd h hL hnd (opeBound_pos hC) hC hdom T0 0 hg)

end Verif.Lemmas
