import Verif.Lemmas.PolyLaw5
import Verif.Props.HermiteLaw
import Verif.Props.DevSampler

/-!
# C106: the Gibbs sampler with exact conditionals leaves the beta ensemble with polynomial potential invariant
-/

namespace Verif.Props
open Finset MeasureTheory Verif.Model Verif.Spec Verif.Lemmas Verif.Lemmas.PL Polynomial

theorem potentialInit_ok {beta : ℝ} {V0 V : ℝ[X]} (h : potentialInit beta V0 = .ok V) (hd : 1 ≤ V0.natDegree) :
    0 < beta ∧ V.natDegree ≤ 6 ∧ 2 ≤ V.natDegree ∧ Even V.natDegree ∧ 0 < V.leadingCoeff := by
  unfold potentialInit at h
  split_ifs at h with h1 h2 h3 h4 h5
  have h6 : V0 - C (V0.coeff 0) = V := by injection h
  have hdeg : V.natDegree = V0.natDegree := by rw [← h6, natDegree_sub_C]
  have hlc : V.leadingCoeff = V0.leadingCoeff := by
    rw [← h6]
    refine leadingCoeff_sub_of_degree_lt (lt_of_le_of_lt degree_C_le ?_)
    rw [← natDegree_pos_iff_degree_pos]
    omega
  have hne : V0.leadingCoeff ≠ 0 := by
    rw [Ne, leadingCoeff_eq_zero]
    rintro rfl
    simp at hd
  refine ⟨h1, by omega, by omega, Nat.even_iff.2 (by omega), ?_⟩
  rw [hlc]
  exact lt_of_le_of_ne (not_lt.1 h5) hne.symm

/-- the coefficients held in the arrays, `a[1:N+1]` and `b[1:N]` -/
def coefsOf (n : ℕ) (st : GibbsSt) : (Fin (n + 1) → ℝ) × (Fin n → ℝ) :=
  (fun i => st.a.getD (i + 1) 0, fun i => st.b.getD (i + 1) 0)

/-- the law of the Jacobi coefficients: positive off-diagonal coefficients, density proportional to the exponential of
`Spec.jacobiLogDensity` -/
def IsJacobiLaw {n : ℕ} (π : Measure ((Fin (n + 1) → ℝ) × (Fin n → ℝ))) (beta : ℝ) (V : ℝ[X]) : Prop :=
  IsProbabilityMeasure π ∧ ∃ K : ℝ, 0 < K ∧
    π = (volume.restrict {p | ∀ i, 0 < p.2 i}).withDensity fun p => ENNReal.ofReal (K * Real.exp
      (jacobiLogDensity beta (n + 1) V (fun j => (gState p).a.getD j 0) (fun j => (gState p).b.getD j 0)))

theorem jacD_fin {n : ℕ} {beta : ℝ} {V : ℝ[X]} (hb : 0 < beta) (h2 : 2 ≤ V.natDegree) (he : Even V.natDegree)
    (hl : 0 < V.leadingCoeff) : ∫⁻ p, jacD (n := n) beta V p ≠ ⊤ := by
  have h := jac_change (n := n) hb (G := fun l => ENNReal.ofReal (Real.exp (-(beta * (n + 1 : ℕ) / 2 * ∑ i, V.eval (l i)))))
    (by
      have : Continuous fun l : Fin (n + 1) → ℝ => Real.exp (-(beta * (n + 1 : ℕ) / 2 * ∑ i, V.eval (l i))) := by fun_prop
      exact this.measurable.ennreal_ofReal)
  have h' : ∫⁻ p, jacD (n := n) beta V p = _ := h
  rw [h']
  exact ENNReal.mul_ne_top ENNReal.ofReal_ne_top (ensemble_lt_top hb (by positivity) h2 he hl).ne

theorem measurableSet_bpos (n : ℕ) : MeasurableSet {p : (Fin (n + 1) → ℝ) × (Fin n → ℝ) | ∀ i, 0 < p.2 i} := by
  have : {p : (Fin (n + 1) → ℝ) × (Fin n → ℝ) | ∀ i, 0 < p.2 i} = ⋂ i, {p | 0 < p.2 i} := by ext b; simp
  rw [this]
  exact MeasurableSet.iInter fun i => measurableSet_lt measurable_const ((measurable_pi_apply i).comp measurable_snd)

theorem jacD_pos {n : ℕ} (beta : ℝ) (V : ℝ[X]) : 0 < ∫⁻ p, jacD (n := n) beta V p := by
  rw [lintegral_pos_iff_support (measurable_jacD beta V)]
  have hop : IsOpen {p : (Fin (n + 1) → ℝ) × (Fin n → ℝ) | ∀ i, 0 < p.2 i} := by
    have : {p : (Fin (n + 1) → ℝ) × (Fin n → ℝ) | ∀ i, 0 < p.2 i} = ⋂ i, {p | 0 < p.2 i} := by ext b; simp
    rw [this]
    exact isOpen_iInter_of_finite fun i => isOpen_lt continuous_const ((continuous_apply i).comp continuous_snd)
  refine lt_of_lt_of_le (hop.measure_pos volume ⟨(0, 1), fun i => by simp⟩) (measure_mono fun p hp => ?_)
  rw [Function.mem_support, jacD_eq hp]
  exact (ENNReal.ofReal_pos.2 (Real.exp_pos _)).ne'

theorem bpos_ae {n : ℕ} {beta K : ℝ} {V : ℝ[X]} :
    ∀ᵐ p ∂((volume : Measure ((Fin (n + 1) → ℝ) × (Fin n → ℝ))).withDensity fun p => ENNReal.ofReal K * jacD beta V p),
      ∀ i, 0 < p.2 i := by
  rw [ae_withDensity_iff ((measurable_jacD beta V).const_mul _)]
  refine Filter.Eventually.of_forall fun p hp => ?_
  by_contra h
  exact hp (by rw [jacD_zero h, mul_zero])

theorem jacLaw_eq {n : ℕ} {beta K : ℝ} (hK : 0 < K) {V : ℝ[X]} :
    (volume : Measure ((Fin (n + 1) → ℝ) × (Fin n → ℝ))).withDensity (fun p => ENNReal.ofReal K * jacD beta V p)
    = (volume.restrict {p | ∀ i, 0 < p.2 i}).withDensity fun p => ENNReal.ofReal (K * Real.exp
      (jacobiLogDensity beta (n + 1) V (fun j => (gState p).a.getD j 0) (fun j => (gState p).b.getD j 0))) := by
  rw [← withDensity_indicator (measurableSet_bpos n)]
  congr 1
  funext p
  by_cases hp : ∀ i, 0 < p.2 i
  · rw [Set.indicator_of_mem (show p ∈ {p : (Fin (n + 1) → ℝ) × (Fin n → ℝ) | ∀ i, 0 < p.2 i} from hp), jacD_eq hp,
      ENNReal.ofReal_mul hK.le]
  · rw [Set.indicator_of_notMem (show p ∉ {p : (Fin (n + 1) → ℝ) × (Fin n → ℝ) | ∀ i, 0 < p.2 i} from hp), jacD_zero hp, mul_zero]

theorem coefsOf_gState {n : ℕ} (p : (Fin (n + 1) → ℝ) × (Fin n → ℝ)) : coefsOf n (gState p) = p := by
  refine Prod.ext ?_ ?_
  · funext i
    change (gState p).a.getD (i + 1) 0 = _
    rw [gS_a, dif_pos (by omega)]
    rfl
  · funext i
    change (gState p).b.getD (i + 1) 0 = _
    rw [gS_b, dif_pos (by omega)]
    rfl

/-- **C106** For every potential the constructor accepts (not constant), every size, every number of passes: there is a law of
the Jacobi coefficients, with density proportional to `prod_j b_j^(beta/2 (N-j) - 1) exp(-beta N / 2 Tr V(J))`, that the passes of
the Gibbs sampler leave invariant when the conditionals are drawn exactly, whatever is observed of the coefficients. -/
theorem C106_gibbs_invariant {beta : ℝ} {V0 V : ℝ[X]} (hV : potentialInit beta V0 = .ok V) (hd : 1 ≤ V0.natDegree) (n : ℕ) :
    ∃ π : Measure ((Fin (n + 1) → ℝ) × (Fin n → ℝ)), IsJacobiLaw π beta V
      ∧ ∀ (passes : ℕ) (φ : (Fin (n + 1) → ℝ) × (Fin n → ℝ) → ENNReal), Measurable φ →
        ∫⁻ p, gibbsRunE beta (n + 1) V exactA exactB passes (gState p) (fun st => φ (coefsOf n st)) ∂π = ∫⁻ p, φ p ∂π := by
  obtain ⟨hb, h6, h2, he, hl⟩ := potentialInit_ok hV hd
  have hfin := jacD_fin (n := n) hb h2 he hl
  have hpos := jacD_pos (n := n) beta V
  obtain ⟨K, hKdef⟩ : ∃ K : ℝ, K = (∫⁻ p, jacD (n := n) beta V p).toReal⁻¹ := ⟨_, rfl⟩
  have hK : 0 < K := by rw [hKdef]; exact inv_pos.2 (ENNReal.toReal_pos hpos.ne' hfin)
  have hD := measurable_jacD (n := n) beta V
  refine ⟨volume.withDensity fun p => ENNReal.ofReal K * jacD beta V p, ⟨⟨?_⟩, K, hK, jacLaw_eq hK⟩, fun passes φ hφ => ?_⟩
  · rw [withDensity_apply _ MeasurableSet.univ, setLIntegral_univ, lintegral_const_mul _ hD, hKdef,
      ENNReal.ofReal_inv_of_pos (ENNReal.toReal_pos hpos.ne' hfin), ENNReal.ofReal_toReal hfin,
      ENNReal.inv_mul_cancel hpos.ne' hfin]
  · obtain ⟨Ψ, hΨ, h1, h3⟩ := inv_run h6 hfin passes (fun st => φ (coefsOf n st)) φ hφ
      (fun p _ => by rw [coefsOf_gState])
    rw [lintegral_congr_ae (g := Ψ) (by filter_upwards [bpos_ae] with p hp using h1 p hp),
      lintegral_withDensity_eq_lintegral_mul _ (hD.const_mul _) hΨ, lintegral_withDensity_eq_lintegral_mul _ (hD.const_mul _) hφ]
    simp only [Pi.mul_apply, mul_assoc]
    rw [lintegral_const_mul' _ _ ENNReal.ofReal_ne_top, lintegral_const_mul' _ _ ENNReal.ofReal_ne_top, h3]

theorem gibbsEig_eq {la : LA} (hla : LAOK la) {n : ℕ} {p : (Fin (n + 1) → ℝ) × (Fin n → ℝ)} (hp : ∀ i, 0 < p.2 i) :
    toVec (n + 1) (gibbsEig la (n + 1) (gState p)) = eigF p := by
  rw [gibbsEig, eig_specMap hla (cons_mem_specR (a := p.1) hp), toVec_ofFn]
  · rfl
  · intro i hi; rw [gS_a, dif_pos (by omega), pad_lt hi]; rfl
  · intro i hi
    rw [gS_b, dif_pos (by omega), pad_lt hi]
    rfl

/-- **C106** The eigenvalues returned by `sample_mcmc` have exactly the law of the beta ensemble with potential `V`, after any
number of passes, when the coefficients start from the invariant law. -/
theorem C106_eigenvalues_law {la : LA} (hla : LAOK la) {beta : ℝ} {V0 V : ℝ[X]} (hV : potentialInit beta V0 = .ok V)
    (hd : 1 ≤ V0.natDegree) (n : ℕ) :
    ∃ (π : Measure ((Fin (n + 1) → ℝ) × (Fin n → ℝ))) (μ : Measure (Fin (n + 1) → ℝ)), IsJacobiLaw π beta V
      ∧ IsBetaEnsemble μ beta (fun x => Real.exp (-(beta * (n + 1 : ℕ) / 2 * V.eval x)))
      ∧ ∀ (passes : ℕ) (φ : (Fin (n + 1) → ℝ) → ENNReal), Measurable φ →
        ∫⁻ p, gibbsRunE beta (n + 1) V exactA exactB passes (gState p)
          (fun st => φ (toVec (n + 1) (gibbsEig la (n + 1) st))) ∂π = ∫⁻ x, φ x ∂μ := by
  obtain ⟨hb, h6, h2, he, hl⟩ := potentialInit_ok hV hd
  have hfin := jacD_fin (n := n) hb h2 he hl
  have hpos := jacD_pos (n := n) beta V
  obtain ⟨K, hKdef⟩ : ∃ K : ℝ, K = (∫⁻ p, jacD (n := n) beta V p).toReal⁻¹ := ⟨_, rfl⟩
  have hK : 0 < K := by rw [hKdef]; exact inv_pos.2 (ENNReal.toReal_pos hpos.ne' hfin)
  have hD := measurable_jacD (n := n) beta V
  have hone : ENNReal.ofReal K * ∫⁻ p, jacD (n := n) beta V p = 1 := by
    rw [hKdef, ENNReal.ofReal_inv_of_pos (ENNReal.toReal_pos hpos.ne' hfin), ENNReal.ofReal_toReal hfin,
      ENNReal.inv_mul_cancel hpos.ne' hfin]
  have hJ := jacK_pos n hb
  obtain ⟨G, hG⟩ : ∃ G : (Fin (n + 1) → ℝ) → ENNReal, G = fun l => ENNReal.ofReal (Real.exp (-(beta * (n + 1 : ℕ) / 2
    * ∑ i, V.eval (l i)))) := ⟨_, rfl⟩
  have hGm : Measurable G := by
    rw [hG]
    have : Continuous fun l : Fin (n + 1) → ℝ => Real.exp (-(beta * (n + 1 : ℕ) / 2 * ∑ i, V.eval (l i))) := by fun_prop
    exact this.measurable.ennreal_ofReal
  have hGe : ∀ l : Fin (n + 1) → ℝ, ENNReal.ofReal (1 * ∏ i, Real.exp (-(beta * (n + 1 : ℕ) / 2 * V.eval (l i)))) = G l := by
    intro l
    rw [hG, one_mul, ← Real.exp_sum, sum_neg_distrib, ← mul_sum]
  have hDG : ∀ p, jacD beta V p = coefB beta p.2 * G (eigF (n := n) p) := by
    intro p; rw [hG]; rfl
  have hvm : Measurable fun l : Fin (n + 1) → ℝ => ENNReal.ofReal (vdm l ^ beta) := by
    have : Measurable fun l : Fin (n + 1) → ℝ => vdm l := by
      unfold vdm; fun_prop
    exact (this.pow_const beta).ennreal_ofReal
  -- change of variables
  have key : ∀ φ : (Fin (n + 1) → ℝ) → ENNReal, Measurable φ →
      ENNReal.ofReal K * ∫⁻ p, jacD beta V p * φ (eigF (n := n) p)
        = ∫⁻ l in ordS (n + 1), (ENNReal.ofReal (K * jacK n beta) * (ENNReal.ofReal (vdm l ^ beta) * G l)) * φ l := by
    intro φ hφ
    have h := jac_change (n := n) hb (G := fun l => G l * φ l) (hGm.mul hφ)
    have e1 : ∫⁻ p, jacD beta V p * φ (eigF (n := n) p)
        = ∫⁻ p : (Fin (n + 1) → ℝ) × (Fin n → ℝ), coefB beta p.2 * (G (eigF p) * φ (eigF p)) :=
      lintegral_congr fun p => by rw [hDG, mul_assoc]
    rw [e1, h, ← mul_assoc, ← ENNReal.ofReal_mul hK.le, ← lintegral_const_mul' _ _ ENNReal.ofReal_ne_top]
    exact lintegral_congr fun l => by ring
  have hdm : Measurable fun l : Fin (n + 1) → ℝ => ENNReal.ofReal (K * jacK n beta) * (ENNReal.ofReal (vdm l ^ beta) * G l) :=
    (hvm.mul hGm).const_mul _
  refine ⟨volume.withDensity fun p => ENNReal.ofReal K * jacD beta V p,
    (volume.restrict (ordS (n + 1))).withDensity fun l => ENNReal.ofReal (K * jacK n beta) * (ENNReal.ofReal (vdm l ^ beta) * G l),
    ⟨⟨?_⟩, K, hK, jacLaw_eq hK⟩, ?_, fun passes φ hφ => ?_⟩
  · rw [withDensity_apply _ MeasurableSet.univ, setLIntegral_univ, lintegral_const_mul _ hD, hone]
  · refine isBetaEnsemble_of (c := 1) one_pos (fun x => (Real.exp_pos _).le) ⟨?_⟩ (mul_pos hK hJ) ?_
    · rw [withDensity_apply _ MeasurableSet.univ, setLIntegral_univ]
      have h := key (fun _ => 1) measurable_const
      simp only [mul_one] at h
      rw [← h, hone]
    · simp only [hGe]
  · obtain ⟨Ψ, hΨ, h1, h3⟩ := inv_run h6 hfin passes (fun st => φ (toVec (n + 1) (gibbsEig la (n + 1) st)))
      (fun p => φ (eigF p)) (hφ.comp measurable_eigF) (fun p hp => by rw [gibbsEig_eq hla hp])
    rw [lintegral_congr_ae (g := Ψ) (by filter_upwards [bpos_ae] with p hp using h1 p hp),
      lintegral_withDensity_eq_lintegral_mul _ (hD.const_mul _) hΨ, lintegral_withDensity_eq_lintegral_mul _ hdm hφ]
    simp only [Pi.mul_apply, mul_assoc]
    rw [lintegral_const_mul' _ _ ENNReal.ofReal_ne_top, h3, key φ hφ]
    simp only [mul_assoc]

/-- **C106** The sampler of the code with `sample_exact_cond=True`: for every potential that passes the checks of the
constructor and of `sample_mcmc` (not constant), every size and number of passes, whatever mode and roots the root finders
return when there are any: if the coefficients start from the law of the Jacobi coefficients, they keep it, and the eigenvalues
returned have exactly the law of the beta ensemble with potential `V`.  The rejection loops are idealised: they run until a
value is accepted. -/
theorem C106_exact_sampler {la : LA} (hla : LAOK la) {rA : ℝ[X] → ℝ × ℝ × ℝ} {rB : ℝ[X] → ℝ → ℝ × ℝ × ℝ} (hA : RootsA rA)
    (hB : RootsB rB) {beta : ℝ} {V0 V : ℝ[X]} (hV : potentialInit beta V0 = .ok V) (hd : 1 ≤ V0.natDegree)
    (hc : exactCondCheck V = .ok ()) (n : ℕ) :
    ∃ (π : Measure ((Fin (n + 1) → ℝ) × (Fin n → ℝ))) (μ : Measure (Fin (n + 1) → ℝ)), IsJacobiLaw π beta V
      ∧ IsBetaEnsemble μ beta (fun x => Real.exp (-(beta * (n + 1 : ℕ) / 2 * V.eval x)))
      ∧ (∀ (passes : ℕ) (φ : (Fin (n + 1) → ℝ) × (Fin n → ℝ) → ENNReal), Measurable φ →
        ∫⁻ p, gibbsRunE beta (n + 1) V (devDrawA rA) (devDrawB rB) passes (gState p) (fun st => φ (coefsOf n st)) ∂π
          = ∫⁻ p, φ p ∂π)
      ∧ ∀ (passes : ℕ) (φ : (Fin (n + 1) → ℝ) → ENNReal), Measurable φ →
        ∫⁻ p, gibbsRunE beta (n + 1) V (devDrawA rA) (devDrawB rB) passes (gState p)
          (fun st => φ (toVec (n + 1) (gibbsEig la (n + 1) st))) ∂π = ∫⁻ x, φ x ∂μ := by
  obtain ⟨hb, h6, h2, he, hl⟩ := potentialInit_ok hV hd
  have hfin := jacD_fin (n := n) hb h2 he hl
  obtain ⟨-, -, h24⟩ := exact_even hc h2 he hl
  obtain ⟨π, μ, hπ, hμ, h0⟩ := C106_eigenvalues_law hla hV hd n
  refine ⟨π, μ, hπ, hμ, ?_⟩
  obtain ⟨hprob, K, hK, hπe⟩ := hπ
  rw [← jacLaw_eq hK] at hπe
  have hD := measurable_jacD (n := n) beta V
  have hgood : ∀ᵐ p ∂π, Good p := by
    rw [hπe]
    filter_upwards [bpos_ae, (withDensity_absolutelyContinuous _ _).ae_le good_ae] with p h1 h2
    exact ⟨h1, h2⟩
  have key : ∀ (passes : ℕ) (k : GibbsSt → ENNReal) (Φ : (Fin (n + 1) → ℝ) × (Fin n → ℝ) → ENNReal), Measurable Φ →
      (∀ p, Good p → k (gState p) = Φ p) →
      ∫⁻ p, gibbsRunE beta (n + 1) V (devDrawA rA) (devDrawB rB) passes (gState p) k ∂π = ∫⁻ p, Φ p ∂π := by
    intro passes k Φ hΦ hk
    obtain ⟨Ψ, hΨ, h1, h3⟩ := inv_run_d hA hB hb hc h24 hfin passes k Φ hΦ hk
    rw [lintegral_congr_ae (g := Ψ) (by filter_upwards [hgood] with p hp using h1 p hp), hπe,
      lintegral_withDensity_eq_lintegral_mul _ (hD.const_mul _) hΨ, lintegral_withDensity_eq_lintegral_mul _ (hD.const_mul _) hΦ]
    simp only [Pi.mul_apply, mul_assoc]
    rw [lintegral_const_mul' _ _ ENNReal.ofReal_ne_top, lintegral_const_mul' _ _ ENNReal.ofReal_ne_top, h3]
  refine ⟨fun passes φ hφ => key passes _ φ hφ fun p _ => by rw [coefsOf_gState], fun passes φ hφ => ?_⟩
  rw [key passes _ (fun p => φ (eigF p)) (hφ.comp measurable_eigF) fun p hp => by rw [gibbsEig_eq hla hp.1], ← h0 0 φ hφ]
  refine lintegral_congr_ae ?_
  filter_upwards [hgood] with p hp
  rw [gibbsRunE, gibbsEig_eq hla hp.1]

/-- **C106** The draws: for a quartic exponent that meets the checks of `sample_exact_cond=True`, the value returned by the
sampler of the conditionals, given that it was accepted within the `m` rounds, is an exact draw. -/
theorem C106_draw_quartic {P : ℝ[X]} (hdeg : P.natDegree ≤ 4) (h3 : P.coeff 3 = 0) (h2 : 0 ≤ P.coeff 2)
    (h4 : 0 ≤ P.coeff 4) {mode rb ra : ℝ} (hr : QuarticRoots P mode rb ra) {m : ℕ} (hm : 0 < m) (last x : ℝ)
    {φ : ℝ → ENNReal} (hφ : Measurable φ) :
    tapeLInt m (fun ts => accObs φ (devLoop (devState P none mode rb ra) mode none last ts))
      / tapeLInt m (fun ts => accObs (fun _ => 1) (devLoop (devState P none mode rb ra) mode none last ts))
      = exactA P x φ := by
  obtain ⟨c, hc0, hct, hc⟩ := C74_quartic_exact hdeg h3 h2 h4 hr hm last
  rw [hc φ hφ, hc _ measurable_const, ENNReal.mul_div_mul_left _ _ hc0.ne' hct.ne, exactA]
  simp only [one_mul]

/-- **C106** The same for the off-diagonal coefficients with `shape > 1`. -/
theorem C106_draw_gamma {P : ℝ[X]} (hdeg : P.natDegree ≤ 3) (h2 : 0 ≤ P.coeff 2) (h3 : 0 ≤ P.coeff 3)
    {shape mode rb ra : ℝ} (hs : 1 < shape) (hr : GammaRoots shape P mode rb ra) {m : ℕ} (hm : 0 < m) (last : ℝ)
    {φ : ℝ → ENNReal} (hφ : Measurable φ) :
    tapeLInt m (fun ts => accObs φ (devLoop (devState P (some shape) mode rb ra) mode (some mode) last ts))
      / tapeLInt m (fun ts => accObs (fun _ => 1) (devLoop (devState P (some shape) mode rb ra) mode (some mode) last ts))
      = exactB P shape φ := by
  obtain ⟨c, hc0, hct, hc⟩ := C74_gamma_exact hdeg h2 h3 hs hr hm last
  rw [hc φ hφ, hc _ measurable_const, ENNReal.mul_div_mul_left _ _ hc0.ne' hct.ne, exactB]
  simp only [one_mul]
  have e : ∀ y ∈ Set.Ioi (0 : ℝ), Real.exp ((shape - 1) * Real.log y - P.eval y) = y ^ (shape - 1) * Real.exp (-P.eval y) := by
    intro y hy
    rw [Real.rpow_def_of_pos hy, ← Real.exp_add]
    congr 1
    ring
  congr 1
  · exact setLIntegral_congr_fun measurableSet_Ioi fun y hy => by beta_reduce; rw [e y hy]
  · exact setLIntegral_congr_fun measurableSet_Ioi fun y hy => by beta_reduce; rw [e y hy]

/-- **C106** With deterministic samplers of the conditionals, an iteration of the random program is an iteration of the loop of
C50. -/
theorem C106_program (beta : ℝ) (N : ℕ) (V : ℝ[X]) (dA dB : ℝ[X] → ℝ → ℝ) (i : ℕ) (st : GibbsSt) (k : GibbsSt → ENNReal) :
    gibbsStepE beta N V (fun P x φ => φ (dA P x)) (fun Q s φ => φ (dB Q s)) i st k = k (gibbsStep beta N V dA dB i st) := by
  rw [gibbsStepE, gibbsStep]
  by_cases h : i < N
  · simp only [if_pos h]
  · simp only [if_neg h]

open Classical in
/-- root finders as assumed exist -/
theorem C106_roots_exist : (∃ rA, RootsA rA) ∧ ∃ rB, RootsB rB := by
  constructor
  · refine ⟨fun P => if h : ∃ q : ℝ × ℝ × ℝ, QuarticRoots P q.1 q.2.1 q.2.2 then h.choose else 0, ?_⟩
    rintro P ⟨m, b, a, h⟩
    have hq : ∃ q : ℝ × ℝ × ℝ, QuarticRoots P q.1 q.2.1 q.2.2 := ⟨(m, b, a), h⟩
    simp only [dif_pos hq]
    exact hq.choose_spec
  · refine ⟨fun P s => if h : ∃ q : ℝ × ℝ × ℝ, GammaRoots s P q.1 q.2.1 q.2.2 then h.choose else 0, ?_⟩
    rintro P s ⟨m, b, a, h⟩
    have hq : ∃ q : ℝ × ℝ × ℝ, GammaRoots s P q.1 q.2.1 q.2.2 := ⟨(m, b, a), h⟩
    simp only [dif_pos hq]
    exact hq.choose_spec

/-- the hypotheses of C106 can be met: the quartic potential `x^4`, with six points -/
example : ∃ la : LA, LAOK la ∧ ∃ (π : Measure ((Fin (5 + 1) → ℝ) × (Fin 5 → ℝ))) (μ : Measure (Fin (5 + 1) → ℝ)),
    IsJacobiLaw π 2 (X ^ 4 : ℝ[X]) ∧ IsBetaEnsemble μ 2 (fun x => Real.exp (-(2 * (5 + 1 : ℕ) / 2 * (X ^ 4 : ℝ[X]).eval x)))
      ∧ ∀ φ : (Fin (5 + 1) → ℝ) → ENNReal, Measurable φ →
        ∫⁻ p, gibbsRunE 2 (5 + 1) (X ^ 4) exactA exactB 10 (gState p) (fun st => φ (toVec (5 + 1) (gibbsEig la (5 + 1) st))) ∂π
          = ∫⁻ x, φ x ∂μ := by
  obtain ⟨la, hla⟩ := exists_LAOK
  have h : potentialInit 2 (X ^ 4 : ℝ[X]) = .ok (X ^ 4) := by
    unfold potentialInit
    simp [coeff_X_pow]
  obtain ⟨π, μ, h1, h2, h3⟩ := C106_eigenvalues_law hla h (by simp) 5
  exact ⟨la, hla, π, μ, h1, h2, h3 10⟩

/-- ... and those of the theorem on the sampler of the code -/
example : ∃ (la : LA) (rA : ℝ[X] → ℝ × ℝ × ℝ) (rB : ℝ[X] → ℝ → ℝ × ℝ × ℝ), LAOK la ∧ RootsA rA ∧ RootsB rB
    ∧ potentialInit 2 (X ^ 4 : ℝ[X]) = .ok (X ^ 4) ∧ exactCondCheck (X ^ 4 : ℝ[X]) = .ok () := by
  obtain ⟨la, hla⟩ := exists_LAOK
  obtain ⟨⟨rA, hA⟩, ⟨rB, hB⟩⟩ := C106_roots_exist
  refine ⟨la, rA, rB, hla, hA, hB, ?_, ?_⟩
  · unfold potentialInit
    simp [coeff_X_pow]
  · unfold exactCondCheck
    have : ∀ k, 1 ≤ k → 2 * k ≤ (X ^ 4 : ℝ[X]).natDegree → 0 ≤ (X ^ 4 : ℝ[X]).coeff (2 * k) := by
      intro k _ _
      rw [coeff_X_pow]
      split <;> norm_num
    rw [if_neg (by simp [coeff_X_pow]), if_neg (by simp), if_neg (not_not.2 this)]

end Verif.Props
