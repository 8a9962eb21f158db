import Verif.Lemmas.OpeChain

/-!
The chain rule of `MultivariateJacobiOPE.sample`: all the points.
-/

namespace Verif.Lemmas
open MeasureTheory ProbabilityTheory Verif Verif.Model Verif.Spec Verif.Props Matrix
open scoped ENNReal

variable {d : ℕ}

/-- the first `n` points were accepted -/
structure OpeGood (par : Fin d → ℝ × ℝ) (L : List (List ℕ)) (n : ℕ) (s : OpeSt d L.length) : Prop where
  chain : GSChain (((List.ofFn s.1).take n).map (opePhi par L)) (opeRows s n)
  unit : ∀ p ∈ opeRows s n, p ⬝ᵥ p = 1

section
variable {par : Fin d → ℝ × ℝ} {L : List (List ℕ)} {n : Fin L.length}

theorem chSchur_nonneg (s : OpeSt d L.length) (x : Fin d → ℝ) : 0 ≤ chSchur par L n s x := dot_self_nonneg _

theorem take_update {α : Type*} {N : ℕ} (f : Fin N → α) (n : Fin N) (x : α) :
    (List.ofFn (Function.update f n x)).take (n + 1) = (List.ofFn f).take n ++ [x] := by
  refine List.ext_getElem ?_ fun i h1 h2 => ?_
  · simp only [List.length_take, List.length_ofFn, List.length_append, List.length_singleton]; omega
  · simp only [List.length_take, List.length_ofFn] at h1
    rw [List.getElem_take, List.getElem_ofFn]
    by_cases hi : i < n
    · rw [List.getElem_append_left (by simp; omega), List.getElem_take, List.getElem_ofFn, Function.update_of_ne]
      intro h; rw [← h] at hi; exact lt_irrefl _ hi
    · have : i = n := by omega
      subst this
      rw [List.getElem_append_right (by simp)]
      simp

theorem good_acc {s : OpeSt d L.length} (h : OpeGood par L n s) {x : Fin d → ℝ} (hx : 0 < chSchur par L n s x) :
    OpeGood par L (n + 1) (chAcc par L n s x) := by
  have e1 : opeRows (chAcc par L n s x) (n + 1) = opeRows s n ++ [jacRow (opeRows s n) (opePhi par L x)] := by
    rw [opeRows, chAcc, take_update]; rfl
  have e2 : (List.ofFn (chAcc par L n s x).1).take (n + 1) = (List.ofFn s.1).take n ++ [x] := take_update s.1 n x
  constructor
  · rw [e1, e2, List.map_append, List.map_singleton]
    exact h.chain.snoc _
  · intro p hp
    rw [e1] at hp
    rcases List.mem_append.1 hp with hp | hp
    · exact h.unit p hp
    · rw [List.mem_singleton.1 hp, jacRow_dot, if_neg]
      exact hx.ne'

/-- the determinant of the first `n` points -/
noncomputable def preDet (par : Fin d → ℝ × ℝ) (L : List (List ℕ)) (n : ℕ) (x : Fin L.length → Fin d → ℝ) : ℝ :=
  kernelDet (featKernel (opePhi par L)) ((List.ofFn x).take n)

theorem preDet_pos {n : ℕ} {s : OpeSt d L.length} (h : OpeGood par L n s) : 0 < preDet par L n s.1 := by
  rw [preDet, kernelDet_eq]
  exact gramDet_pos h.chain h.unit

theorem preDet_update {s : OpeSt d L.length} (h : OpeGood par L n s) (x : Fin d → ℝ) :
    preDet par L (n + 1) (Function.update s.1 n x) = preDet par L n s.1 * chSchur par L n s x := by
  rw [preDet, preDet, kernelDet_eq, kernelDet_eq, take_update, List.map_append, List.map_singleton, gramDet_snoc h.chain]
  rfl

/-- the part of an ideal proposal that is accepted -/
theorem ideal_mul_R {s : OpeSt d L.length} (h : OpeGood par L n s) (x : Fin d → ℝ) :
    propIdeal par L x * chR par n s x = ENNReal.ofReal (chSchur par L n s x / L.length) := by
  have hr := jacRatio_mem h.chain.ortho (opePhi par L x)
  have hK := dot_self_nonneg (opePhi par L x)
  rw [chR, chRatio, max_eq_right hr.1, min_eq_right hr.2, propIdeal, featKernel_eq, ← ENNReal.ofReal_mul (div_nonneg hK (Nat.cast_nonneg _))]
  congr 1
  rw [jacRatio]
  change _ * (chSchur par L n s x / _) = _
  by_cases h0 : opePhi par L x ⬝ᵥ opePhi par L x = 0
  · have : chSchur par L n s x = 0 := le_antisymm (h0 ▸ schur_le h.chain.ortho (opePhi par L x)) (dot_self_nonneg _)
    rw [this]; simp
  · field_simp

theorem ideal_mul_compl {s : OpeSt d L.length} (h : OpeGood par L n s) (x : Fin d → ℝ) :
    propIdeal par L x * (1 - chR par n s x)
      = ENNReal.ofReal ((opePhi par L x ⬝ᵥ opePhi par L x - chSchur par L n s x) / L.length) := by
  rw [ENNReal.mul_sub fun _ _ => by unfold propIdeal; exact ENNReal.ofReal_ne_top, mul_one, ideal_mul_R h, propIdeal,
    ← ENNReal.ofReal_sub _ (div_nonneg (chSchur_nonneg s x) (Nat.cast_nonneg _)), ← sub_div, featKernel_eq]

theorem good_length {s : OpeSt d L.length} (h : OpeGood par L n s) : (opeRows s n).length = n := by
  rw [h.chain.length]; simp

theorem lintegral_compl (hd : 1 ≤ d) (hpar : ∀ j, -1 < (par j).1 ∧ -1 < (par j).2) (hL : ∀ k ∈ L, k.length = d) (hnd : L.Nodup)
    {s : OpeSt d L.length} (h : OpeGood par L n s) :
    ∫⁻ x, propIdeal par L x * (1 - chR par n s x) ∂(opeMu par) = ENNReal.ofReal ((n : ℝ) / L.length) := by
  have ho := ope_orthonormal hd hpar hL hnd
  obtain ⟨h1, h2⟩ := integral_self ho
  obtain ⟨h3, h4⟩ := integral_schur ho h.chain.ortho h.unit
  rw [good_length h] at h4
  change Integrable (fun x => chSchur par L n s x) _ at h3
  change ∫ x, chSchur par L n s x ∂_ = _ at h4
  simp only [ideal_mul_compl h]
  have hi : Integrable (fun x => (opePhi par L x ⬝ᵥ opePhi par L x - chSchur par L n s x) / L.length) (opeMu par) :=
    (h1.sub h3).div_const _
  rw [← ofReal_integral_eq_lintegral_ofReal hi]
  · congr 1
    rw [integral_div, integral_sub h1 h3, h2, h4]
    ring
  · refine Filter.Eventually.of_forall fun x => div_nonneg (sub_nonneg.2 ?_) (Nat.cast_nonneg _)
    exact schur_le h.chain.ortho (opePhi par L x)

/-- lower bound on the probability that a point is accepted within the trials, relative to an exact draw -/
noncomputable def opeC (N : ℕ) (q : ℝ≥0∞) (T n : ℕ) : ℝ≥0∞ :=
  q * ENNReal.ofReal (((N : ℝ) - n) / N) * ∑ t ∈ Finset.range T, (q * ENNReal.ofReal ((n : ℝ) / N)) ^ t

/-- one point of the chain rule -/
theorem step_lower (hd : 1 ≤ d) (hpar : ∀ j, -1 < (par j).1 ∧ -1 < (par j).2) (hL : ∀ k ∈ L, k.length = d) (hnd : L.Nodup)
    (hB : OpeBoundsOK par L) {T0 : ℕ} (hT : T0 ≠ 0) {q : ℝ≥0∞} (hq : OpeEff par L T0 q) (T : ℕ)
    {s : OpeSt d L.length} (h : OpeGood par L n s) {g : OpeSt d L.length → ℝ≥0∞} (hg : Measurable g) :
    opeC L.length q T n * ∫⁻ x, ENNReal.ofReal (chSchur par L n s x / ((L.length : ℝ) - n)) * g (chAcc par L n s x) ∂(opeMu par)
      ≤ ∫⁻ z, g z ∂(opeTrials par L T0 n T s).law := by
  have hne : L ≠ [] := by rintro rfl; exact n.elim0
  have hprob := proposal_prob par hne hT
  have hN : (0 : ℝ) < L.length := by exact_mod_cast List.length_pos_iff.2 hne
  have hNn : (0 : ℝ) < (L.length : ℝ) - n := by
    have : ((n : ℕ) : ℝ) < L.length := by exact_mod_cast n.2
    linarith
  have hga : Measurable fun y => g (chAcc par L n s y) :=
    hg.comp ((measurable_chAcc par L n).comp (measurable_prodMk_left (x := s)))
  have hR := measurable_chR par n s
  refine le_trans ?_ (trials_lower par n hT T s hg)
  have h1 : q * ENNReal.ofReal ((n : ℝ) / L.length) ≤ 1 - ∫⁻ y, chR par n s y ∂(opeProposal par L T0).law := by
    rw [← one_sub_lintegral hR (chR_le_one par n s), ← lintegral_compl hd hpar hL hnd h]
    exact proposal_lower hd hpar hL hnd hB hT hq (measurable_const.sub hR)
  have h2 : q * (ENNReal.ofReal (((L.length : ℝ) - n) / L.length)
        * ∫⁻ x, ENNReal.ofReal (chSchur par L n s x / ((L.length : ℝ) - n)) * g (chAcc par L n s x) ∂(opeMu par))
      ≤ ∫⁻ y, chR par n s y * g (chAcc par L n s y) ∂(opeProposal par L T0).law := by
    refine le_trans (le_of_eq ?_) (proposal_lower hd hpar hL hnd hB hT hq (hR.mul hga))
    congr 1
    rw [← lintegral_const_mul' _ _ ENNReal.ofReal_ne_top]
    refine lintegral_congr fun x => ?_
    rw [← mul_assoc, ← mul_assoc, ideal_mul_R h, ← ENNReal.ofReal_mul (by positivity)]
    congr 2
    field_simp
  rw [opeC, mul_right_comm, mul_assoc q, mul_comm]
  exact mul_le_mul' (Finset.sum_le_sum fun t _ => pow_le_pow_left₀ (by simp) h1 t) h2

end

end Verif.Lemmas
