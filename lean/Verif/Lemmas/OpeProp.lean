import Verif.Lemmas.OpeArc
import Verif.Lemmas.PiDensity
import Verif.Props.Jacobi

/-!
Law of the proposals of `sample_chain_rule_proposal`.
-/

namespace Verif.Lemmas
open MeasureTheory ProbabilityTheory Verif Verif.Model Verif.Spec Verif.Props
open scoped ENNReal

/-! ### A rejection loop -/

theorem one_sub_lintegral {X : Type*} [MeasurableSpace X] {ν : Measure X} [IsProbabilityMeasure ν] {r : X → ℝ≥0∞} (hr : Measurable r)
    (hr1 : ∀ x, r x ≤ 1) : ∫⁻ y, (1 - r y) ∂ν = 1 - ∫⁻ y, r y ∂ν := by
  have h : ∫⁻ y, r y ∂ν ≠ ∞ := ne_top_of_le_ne_top ENNReal.one_ne_top
    ((lintegral_mono fun x => hr1 x).trans (by simp))
  rw [lintegral_sub hr h (Filter.Eventually.of_forall hr1)]
  simp

/-- `T` attempts, each accepted with probability `r y`: the part of the value due to accepted attempts -/
theorem reject_lower {X : Type*} [MeasurableSpace X] {ν : Measure X} [IsProbabilityMeasure ν] {r : X → ℝ≥0∞} (hr : Measurable r)
    (hr1 : ∀ x, r x ≤ 1) {g : X → ℝ≥0∞} (hg : Measurable g) {V : ℕ → X → ℝ≥0∞}
    (hV : ∀ T x, ∫⁻ y, (r y * g y + (1 - r y) * V T y) ∂ν ≤ V (T + 1) x) (T : ℕ) (x : X) :
    (∑ t ∈ Finset.range T, (1 - ∫⁻ y, r y ∂ν) ^ t) * ∫⁻ y, r y * g y ∂ν ≤ V T x := by
  induction T generalizing x with
  | zero => simp
  | succ T ih =>
    refine le_trans ?_ (hV T x)
    refine le_trans ?_ (lintegral_mono fun y => add_le_add_right (mul_le_mul_right (ih y) (1 - r y)) (r y * g y))
    rw [lintegral_add_left (show Measurable fun y => r y * g y from hr.mul hg), lintegral_mul_const _ (show Measurable fun y => 1 - r y from measurable_const.sub hr), one_sub_lintegral hr hr1,
      Finset.sum_range_succ', add_mul, pow_zero, one_mul, add_comm]
    refine add_le_add_right (le_of_eq ?_) _
    rw [← mul_assoc, Finset.mul_sum]
    congr 1
    exact Finset.sum_congr rfl fun t _ => by rw [pow_succ, mul_comm]

theorem geom_enn {p : ℝ≥0∞} (hp : p ≤ 1) (T : ℕ) : (∑ t ∈ Finset.range T, (1 - p) ^ t) * p = 1 - (1 - p) ^ T := by
  have hp' : p ≠ ∞ := ne_top_of_le_ne_top ENNReal.one_ne_top hp
  have hq' : 1 - p ≠ ∞ := ne_top_of_le_ne_top ENNReal.one_ne_top tsub_le_self
  induction T with
  | zero => simp
  | succ T ih =>
    have hle : (1 - p) ^ T ≤ 1 := pow_le_one₀ (by simp) tsub_le_self
    rw [Finset.sum_range_succ', add_mul, pow_zero, one_mul]
    have : (∑ t ∈ Finset.range T, (1 - p) ^ (t + 1)) * p = (1 - p) - (1 - p) ^ (T + 1) := by
      rw [show (1 - p) - (1 - p) ^ (T + 1) = (1 - p) * (1 - (1 - p) ^ T) by
        rw [ENNReal.mul_sub fun _ _ => hq', mul_one, pow_succ, mul_comm], ← ih, ← mul_assoc, Finset.mul_sum]
      congr 1
      exact Finset.sum_congr rfl fun t _ => by rw [pow_succ, mul_comm]
    have hle' : (1 - p) ^ (T + 1) ≤ 1 - p := by
      rw [pow_succ]
      exact mul_le_of_le_one_left' hle
    rw [this]
    refine ENNReal.eq_sub_of_add_eq (ne_top_of_le_ne_top hq' hle') ?_
    rw [add_right_comm, tsub_add_cancel_of_le hle', tsub_add_cancel_of_le hp]

/-! ### One uniform number -/

/-- law of `rng.rand()` -/
noncomputable def unifM : Measure (Fin 1 → ℝ) := Measure.pi fun _ => volume.restrict (Set.Ico 0 1)

instance : IsProbabilityMeasure (volume.restrict (Set.Ico (0 : ℝ) 1)) := ⟨by simp⟩
instance : IsProbabilityMeasure unifM := by unfold unifM; infer_instance

theorem unifM_lt (v : ℝ) : unifM {u | u 0 < v} = ENNReal.ofReal (min 1 (max 0 v)) := by
  have h : {u : Fin 1 → ℝ | u 0 < v} = Set.univ.pi fun _ => Set.Iio v := by
    ext u; simp [Set.mem_pi, Fin.forall_fin_one]
  rw [h, unifM, Measure.pi_pi]
  simp only [Finset.univ_unique, Finset.prod_singleton]
  rw [Measure.restrict_apply measurableSet_Iio, Set.inter_comm]
  rw [show Set.Ico (0 : ℝ) 1 ∩ Set.Iio v = Set.Ico 0 (min 1 v) by ext z; simp, Real.volume_Ico, sub_zero]
  rcases le_total v 0 with h0 | h0
  · rw [max_eq_left h0, min_eq_right (h0.trans zero_le_one), ENNReal.ofReal_of_nonpos h0]; simp
  · rw [max_eq_right h0]

theorem lintegral_unif_ite {α : Type} [MeasurableSpace α] {c : (Fin 1 → ℝ) → Prop} [DecidablePred c] (hc : MeasurableSet {u | c u})
    (a : α) (p : RP α) {g : α → ℝ≥0∞} (hg : Measurable g) :
    ∫⁻ x, g x ∂(RP.unif 1 fun u => if c u then .ret a else p).law
      = unifM {u | c u} * g a + (1 - unifM {u | c u}) * ∫⁻ x, g x ∂p.law := by
  have hm : Measurable fun u : Fin 1 → ℝ => (if c u then RP.ret a else p).law := by
    have : (fun u : Fin 1 → ℝ => (if c u then RP.ret a else p).law) = fun u => if c u then Measure.dirac a else p.law := by
      funext u; split_ifs <;> rfl
    rw [this]
    exact Measurable.ite hc measurable_const measurable_const
  simp only [RP.law]
  rw [Measure.lintegral_bind hm.aemeasurable hg.aemeasurable]
  have e : ∀ u : Fin 1 → ℝ, ∫⁻ x, g x ∂(if c u then RP.ret a else p).law
      = {u | c u}.indicator (fun _ => g a) u + {u | c u}ᶜ.indicator (fun _ => ∫⁻ x, g x ∂p.law) u := by
    intro u
    by_cases h : c u
    · rw [if_pos h, Set.indicator_of_mem (show u ∈ {u | c u} from h), Set.indicator_of_notMem (by simpa using h), add_zero]
      simp only [RP.law]
      rw [lintegral_dirac' _ hg]
    · rw [if_neg h, Set.indicator_of_notMem (show u ∉ {u | c u} from h), Set.indicator_of_mem (by simpa using h), zero_add]
  simp only [e]
  rw [lintegral_add_left (measurable_const.indicator hc), lintegral_indicator hc, lintegral_indicator hc.compl,
    setLIntegral_const, setLIntegral_const, mul_comm (g a), mul_comm (∫⁻ x, g x ∂p.law)]
  congr 2
  exact prob_compl_eq_one_sub (μ := unifM) hc

end Verif.Lemmas
