import Verif.Lemmas.OpeChain3

/-!
The determinantal law of the `N` points is a probability; total variation distance of the sample.
-/

namespace Verif.Lemmas
open MeasureTheory ProbabilityTheory Verif Verif.Model Verif.Spec Verif.Props Matrix
open scoped ENNReal

variable {d : ℕ} {par : Fin d → ℝ × ℝ} {L : List (List ℕ)}

theorem GSChain.unit_of_pos {m : ℕ} {vs rows : List (Fin m → ℝ)} (h : GSChain vs rows) (hp : gramDet vs ≠ 0) : ∀ p ∈ rows, p ⬝ᵥ p = 1 := by
  intro p hpm
  obtain ⟨i, hi, rfl⟩ := List.getElem_of_mem hpm
  rw [gramDet_eq h] at hp
  have hi' : i < vs.length := by rw [← h.length]; exact hi
  have := Finset.prod_ne_zero_iff.1 hp ⟨i, hi'⟩ (Finset.mem_univ _)
  rw [← List.getD_eq_getElem rows 0 hi, h.row hi', jacRow_dot, if_neg]
  exact this

theorem exists_good {n : ℕ} (hn : n ≤ L.length) (x : Fin L.length → Fin d → ℝ) (h : preDet par L n x ≠ 0) :
    ∃ s : OpeSt d L.length, s.1 = x ∧ OpeGood par L n s := by
  obtain ⟨rows, hr⟩ := exists_chain (((List.ofFn x).take n).map (opePhi par L))
  have hlen : rows.length = n := by rw [hr.length]; simp [hn]
  refine ⟨(x, fun i => rows.getD i 0), rfl, ?_⟩
  have e : opeRows ((x, fun i => rows.getD i 0) : OpeSt d L.length) n = rows := by
    refine List.ext_getElem (by simp [opeRows, hlen, hn]) fun i h1 h2 => ?_
    simp only [opeRows, List.getElem_take, List.getElem_ofFn]
    exact List.getD_eq_getElem _ _ h2
  constructor
  · rw [e]; exact hr
  · rw [e]
    rw [preDet, kernelDet_eq] at h
    exact hr.unit_of_pos h

theorem preDet_nonneg {n : ℕ} (hn : n ≤ L.length) (x : Fin L.length → Fin d → ℝ) : 0 ≤ preDet par L n x := by
  by_cases h : preDet par L n x = 0
  · rw [h]
  · obtain ⟨s, rfl, hs⟩ := exists_good hn x h
    exact (preDet_pos hs).le

/-- integrating out one point -/
theorem lintegral_preDet (hd : 1 ≤ d) (hpar : ∀ j, -1 < (par j).1 ∧ -1 < (par j).2) (hL : ∀ k ∈ L, k.length = d) (hnd : L.Nodup)
    (n : Fin L.length) (x : Fin L.length → Fin d → ℝ) :
    ∫⁻ y, ENNReal.ofReal (preDet par L (n + 1) (Function.update x n y)) ∂(opeMu par)
      = ENNReal.ofReal (((L.length : ℝ) - n) * preDet par L n x) := by
  by_cases h : preDet par L n x = 0
  · rw [h, mul_zero, ENNReal.ofReal_zero]
    refine (lintegral_congr fun y => ?_).trans lintegral_zero
    have h1 : preDet par L n (Function.update x n y) = 0 := by
      rw [← h]
      refine preDet_congr fun i hi => Function.update_of_ne ?_ _ _
      intro he; rw [he] at hi; exact lt_irrefl _ hi
    rw [preDet, kernelDet_eq, List.map_take] at h1
    rw [preDet, kernelDet_eq, List.map_take, gramDet_take_zero (n := n), ENNReal.ofReal_zero]
    rw [List.take_take, min_eq_left (Nat.le_succ _)]
    exact h1
  · obtain ⟨s, rfl, hs⟩ := exists_good n.2.le x h
    have ho := ope_orthonormal hd hpar hL hnd
    obtain ⟨h3, h4⟩ := integral_schur ho hs.chain.ortho hs.unit
    rw [good_length hs] at h4
    change Integrable (fun x => chSchur par L n s x) _ at h3
    change ∫ x, chSchur par L n s x ∂_ = _ at h4
    simp only [preDet_update hs]
    rw [← ofReal_integral_eq_lintegral_ofReal (h3.const_mul _), integral_const_mul, h4, mul_comm]
    exact Filter.Eventually.of_forall fun y => mul_nonneg (preDet_pos hs).le (chSchur_nonneg s y)

theorem marg_preDet (hd : 1 ≤ d) (hpar : ∀ j, -1 < (par j).1 ∧ -1 < (par j).2) (hL : ∀ k ∈ L, k.length = d) (hnd : L.Nodup) (k : ℕ) :
    ∀ n, n + k = L.length → ∀ x,
      (∫⋯∫⁻_ixFrom L.length n, (fun y => ENNReal.ofReal (preDet par L L.length y)) ∂(fun _ => opeMu par)) x
        = ENNReal.ofReal ((∏ m ∈ Finset.Ico n L.length, ((L.length : ℝ) - m)) * preDet par L n x) := by
  have hF : Measurable fun y => ENNReal.ofReal (preDet par L L.length y) := measurable_preDet.ennreal_ofReal
  induction k with
  | zero =>
    intro n hn x
    obtain rfl : n = L.length := by omega
    rw [Finset.Ico_self, Finset.prod_empty, one_mul,
      show ixFrom L.length L.length = ∅ by simp [ixFrom, Finset.filter_eq_empty_iff], lmarginal_empty]
  | succ k ih =>
    intro n hn x
    have hlt : n < L.length := by omega
    obtain ⟨n', rfl⟩ : ∃ n' : Fin L.length, n = n' := ⟨⟨n, hlt⟩, rfl⟩
    have hP : 0 < ∏ m ∈ Finset.Ico ((n' : ℕ) + 1) L.length, ((L.length : ℝ) - m) := Finset.prod_pos fun m hm => by
      have : (m : ℝ) < L.length := by exact_mod_cast (Finset.mem_Ico.1 hm).2
      linarith
    rw [ixFrom_succ, lmarginal_insert _ hF (notMem_ixFrom n')]
    simp only [fun y => ih ((n' : ℕ) + 1) (by omega) (Function.update x n' y), ENNReal.ofReal_mul hP.le]
    rw [lintegral_const_mul' _ _ ENNReal.ofReal_ne_top, lintegral_preDet hd hpar hL hnd,
      ← ENNReal.ofReal_mul hP.le, Finset.prod_eq_prod_Ico_succ_bot hlt (fun m => ((L.length : ℝ) - (m : ℕ)))]
    congr 1
    ring

theorem prod_sub_factorial (N : ℕ) : ∏ m ∈ Finset.range N, ((N : ℝ) - m) = (N.factorial : ℝ) := by
  rw [← Finset.prod_range_reflect, ← Finset.prod_range_add_one_eq_factorial]
  push_cast
  refine Finset.prod_congr rfl fun n hn => ?_
  have hn' := Finset.mem_range.1 hn
  rw [Nat.cast_sub (by omega), Nat.cast_sub (by omega)]
  push_cast; ring

theorem opeDPP_prob (hd : 1 ≤ d) (hpar : ∀ j, -1 < (par j).1 ∧ -1 < (par j).2) (hL : ∀ k ∈ L, k.length = d) (hnd : L.Nodup) :
    IsProbabilityMeasure (opeDPP par L) := by
  constructor
  have hF : Measurable fun y => ENNReal.ofReal (preDet par L L.length y) := measurable_preDet.ennreal_ofReal
  have key := marg_preDet hd hpar hL hnd L.length 0 (by omega) 0
  have h0 : ∀ x, preDet par L 0 x = 1 := fun x => by
    rw [preDet, List.take_zero, kernelDet]; exact Matrix.det_fin_zero
  have hfac : (0 : ℝ) < L.length.factorial := by exact_mod_cast Nat.factorial_pos _
  rw [← Finset.range_eq_Ico, prod_sub_factorial, h0, mul_one, show ixFrom L.length 0 = Finset.univ by simp [ixFrom], lmarginal_univ] at key
  beta_reduce at key
  rw [opeDPP, withDensity_apply _ MeasurableSet.univ, Measure.restrict_univ]
  simp only [← preDet_full, div_eq_inv_mul, ENNReal.ofReal_mul (inv_nonneg.2 hfac.le)]
  rw [lintegral_const_mul _ hF, key, ← ENNReal.ofReal_mul (inv_nonneg.2 hfac.le), inv_mul_cancel₀ hfac.ne', ENNReal.ofReal_one]

theorem trials_prob {T0 : ℕ} (hT0 : T0 ≠ 0) (n : Fin L.length) (T : ℕ) (s : OpeSt d L.length) :
    IsProbabilityMeasure (opeTrials par L T0 n T s).law := by
  have hne : L ≠ [] := by rintro rfl; exact n.elim0
  have hprob := proposal_prob par hne hT0
  induction T generalizing s with
  | zero => simp only [opeTrials, RP.law]; infer_instance
  | succ T ih =>
    constructor
    have := trials_value par n hT0 T s (g := fun _ => 1) measurable_const
    simp only [lintegral_one, mul_one] at this
    rw [this]
    have e : ∀ x, chR par n s x + (1 - chR par n s x) * (opeTrials par L T0 n T (chRej par L n s x)).law Set.univ = 1 := by
      intro x
      rw [(ih _).measure_univ, mul_one, add_tsub_cancel_of_le (chR_le_one par n s x)]
    simp only [e]
    simp

theorem steps_prob {T0 T : ℕ} (hT0 : T0 ≠ 0) (hT : T ≠ 0) (ns : List (Fin L.length)) (s : OpeSt d L.length) :
    IsProbabilityMeasure (opeSteps par L T0 T ns s).law := by
  induction ns generalizing s with
  | nil => simp only [opeSteps, RP.law]; infer_instance
  | cons n ns ih =>
    constructor
    have := steps_cons (par := par) hT0 hT n ns s (g := fun _ => 1) measurable_const
    simp only [lintegral_one, (ih _).measure_univ, (trials_prob hT0 n T s).measure_univ] at this
    exact this

theorem sample_prob {T0 T : ℕ} (hT0 : T0 ≠ 0) (hT : T ≠ 0) : IsProbabilityMeasure (opeSample par L T0 T).law := by
  have := steps_prob (par := par) hT0 hT (List.finRange L.length) (0, 0)
  rw [opeSample, law_map_of_meas ((steps_meas hT0 _).2 _) measurable_fst]
  exact Measure.isProbabilityMeasure_map measurable_fst.aemeasurable

end Verif.Lemmas
