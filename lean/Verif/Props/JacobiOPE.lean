import Verif.Lemmas.OpeBase
import Verif.Lemmas.OpeLimit
import Verif.Lemmas.OpeBounds
import Verif.Lemmas.OpeNan
import Verif.Lemmas.Ultra3
import Verif.Lemmas.Ope1D

/-!
# Multivariate Jacobi ensemble: the kernel (C71) for the polynomials and tables of the code
-/

namespace Verif.Props
open MeasureTheory ProbabilityTheory Verif Verif.Model Verif.Spec Verif.Lemmas
open scoped ENNReal

/-- C71: every object that the constructor returns for `N < 32768^d` (with the Jacobi polynomials of `scipy.special.eval_jacobi` and
the table of norms of the code) has `N` features, orthonormal for the measure `prod_j (1 - x_j)^(a_j) (1 + x_j)^(b_j) dx_j`; its kernel
reproduces itself and has trace `N`. -/
theorem C71_object_projection {N : ℤ} {params : List (ℝ × ℝ)} (hp : params ≠ []) (hN : N < 32768 ^ params.length)
    {J : JacobiOPE} (hJ : jacobiInit N params = .ok J) :
    OrthonormalIn (Measure.pi fun j => jacobiMeasure (params.get j).1 (params.get j).2) (opePhi params.get J.ordering) ∧
    (∀ x z, ∫ y, featKernel (opePhi params.get J.ordering) x y * featKernel (opePhi params.get J.ordering) y z
        ∂(Measure.pi fun j => jacobiMeasure (params.get j).1 (params.get j).2)
      = featKernel (opePhi params.get J.ordering) x z) ∧
    ∫ x, featKernel (opePhi params.get J.ordering) x x
        ∂(Measure.pi fun j => jacobiMeasure (params.get j).1 (params.get j).2) = (N : ℝ) := by
  have hleg : 1 ≤ N ∧ LegalParams params := by
    by_contra hn
    rw [(C09_constructor_partial hp hN).2 hn] at hJ
    exact absurd hJ (by simp)
  have hd : 1 ≤ params.length := List.length_pos_iff.2 hp
  have hpar : ∀ j, -1 < (params.get j).1 ∧ -1 < (params.get j).2 := by
    intro j
    rcases hd.lt_or_eq with h | h
    · have := hleg.2.2 h _ (List.get_mem params j)
      exact ⟨by linarith [(abs_le.1 this.1).1], by linarith [(abs_le.1 this.2).1]⟩
    · exact hleg.2.1 h.symm _ (List.get_mem params j)
  obtain ⟨J', hJ', -, -, -, -, hdeg⟩ := (C09_constructor_partial hp hN).1 hleg
  rw [hJ] at hJ'
  obtain rfl : J = J' := by simpa using hJ'
  have := C71_object_projection_partial hp hN hleg.1 hleg.2 hJ (spec1D_ope hpar J.degMax)
  rw [show J.degrees = (computeDegrees (colMax J.ordering)).2 from congrArg Prod.snd hdeg] at this
  exact this

/-- The constructor returns an object for `N = 12`, `d = 2`, parameters `(1/2, -1/3)` and `(0, -1/2)`. -/
example : ∃ J, jacobiInit 12 [(1 / 2, -1 / 3), (0, -1 / 2)] = .ok J ∧ J.ordering.length = 12 := by
  have hl : LegalParams [((1 / 2 : ℝ), (-1 / 3 : ℝ)), (0, -1 / 2)] := by
    constructor
    · simp
    · intro _ p hp
      simp only [List.mem_cons, List.not_mem_nil, or_false] at hp
      rcases hp with rfl | rfl <;> constructor <;> rw [abs_le] <;> constructor <;> norm_num
  obtain ⟨J, h1, h2, h3, h4, h5, h6⟩ := (C09_constructor_partial (N := 12) (params := [(1 / 2, -1 / 3), (0, -1 / 2)]) (by simp)
    (by norm_num)).1 ⟨by norm_num, hl⟩
  exact ⟨J, h1, by rw [h5]; exact_mod_cast h2⟩

/-! ## C86: the law of the sample -/

/-- Contract for the bound that the documentation takes from the literature (multivariate_jacobi_ope.py:776-794; Gautschi 2009, after
Chow, Gatteschi and Wong 1994): for every degree `n >= 1` and every `u` in `(-1, 1)`,
`pi (1-u)^(a+1/2) (1+u)^(b+1/2) P_n(u)^2 / ||P_n||^2 <= 2 Gamma(n+a+b+1) Gamma(n+max+1) / (n! (n+(a+b+1)/2)^(2 max) Gamma(n+min+1))`. -/
def CGWBound (a b : ℝ) : Prop :=
  ∀ n : ℕ, 1 ≤ n → ∀ u ∈ Set.Ioo (-1 : ℝ) 1,
    Real.pi * (1 - u) ^ (a + 1 / 2) * (1 + u) ^ (b + 1 / 2) * jacobiPoly n a b u ^ 2 / squareNorm1D a b n
      ≤ 2 * Real.Gamma (n + a + b + 1) * Real.Gamma (n + max a b + 1)
        / (n.factorial * (n + (a + b + 1) / 2) ^ (2 * max a b) * Real.Gamma (n + min a b + 1))

/-- parameters of a coordinate for which the table of bounds is right: both `-1/2`, or both larger than `-1/2` and the contract holds -/
def BoundedCoord (p : ℝ × ℝ) : Prop :=
  p = (-1 / 2, -1 / 2) ∨ (-1 / 2 < p.1 ∧ -1 / 2 < p.2 ∧ CGWBound p.1 p.2)

theorem dom1_pos {a b : ℝ} (ha : -1 / 2 < a) (hb : -1 / 2 < b) (hc : CGWBound a b) {n : ℕ} (hn : 1 ≤ n) : Dom1 a b n := by
  have hn' : (1 : ℝ) ≤ n := by exact_mod_cast hn
  have hmin : -1 / 2 < min a b := lt_min ha hb
  have hmax : -1 / 2 < max a b := ha.trans_le (le_max_left _ _)
  have g1 := Real.Gamma_pos_of_pos (show 0 < (n : ℝ) + 1 + a + b by linarith)
  have g2 := Real.Gamma_pos_of_pos (show 0 < (n : ℝ) + 1 + max a b by linarith)
  have g3 := Real.Gamma_pos_of_pos (show 0 < (n : ℝ) + 1 by linarith)
  have g4 := Real.Gamma_pos_of_pos (show 0 < (n : ℝ) + 1 + min a b by linarith)
  have h5 : 0 < (n : ℝ) + 0.5 * (a + b + 1) := by norm_num; linarith
  have hna : ¬ (a = -0.5 ∧ b = -0.5) := by rintro ⟨h, -⟩; rw [h] at ha; norm_num at ha
  refine ⟨_, by rw [opeLogBound, if_neg hna, if_neg (by omega)], fun u hu => ?_⟩
  have e : Real.exp (opeLogBoundPos a b n) = 2 * Real.Gamma (n + a + b + 1) * Real.Gamma (n + max a b + 1)
        / (n.factorial * (n + (a + b + 1) / 2) ^ (2 * max a b) * Real.Gamma (n + min a b + 1)) := by
    rw [opeLogBoundPos, gammaln, gammaln, gammaln, gammaln, Real.exp_sub, Real.exp_sub, Real.exp_sub, Real.exp_add, Real.exp_add,
      Real.exp_log (by norm_num), Real.exp_log g1, Real.exp_log g2, Real.exp_log g3, Real.exp_log g4, mul_comm (2 * max a b),
      ← Real.rpow_def_of_pos h5, Real.Gamma_nat_eq_factorial]
    rw [show (n : ℝ) + 1 + a + b = n + a + b + 1 by ring, show (n : ℝ) + 1 + max a b = n + max a b + 1 by ring,
      show (n : ℝ) + 1 + min a b = n + min a b + 1 by ring, show (n : ℝ) + 0.5 * (a + b + 1) = n + (a + b + 1) / 2 by norm_num; ring]
    rw [div_div, div_div, mul_assoc (n.factorial : ℝ)]
  rw [e]
  refine le_trans (le_of_eq ?_) (hc n hn u hu)
  rw [ratio1, show (0.5 : ℝ) = 1 / 2 by norm_num]
  ring

theorem dom1_of_coord {p : ℝ × ℝ} (hp : BoundedCoord p) (n : ℕ) : Dom1 p.1 p.2 n := by
  rcases hp with rfl | ⟨ha, hb, hc⟩
  · exact dom1_arcsine n
  · rcases Nat.eq_zero_or_pos n with rfl | hn
    · exact dom1_zero ha hb
    · exact dom1_pos ha hb hc hn

/-- the contract holds for equal parameters in `(-1/2, 1/2]`: no assumption is needed for the coordinates with `a = b` -/
theorem cgw_ultraspherical {a : ℝ} (h0 : -1 / 2 < a) (h1 : a ≤ 1 / 2) : CGWBound a a := by
  intro n hn u hu
  rw [max_self, min_self]
  exact ultra_bound h0 h1 hn hu

theorem boundedCoord_ultra {p : ℝ × ℝ} (he : p.1 = p.2) (h : |p.1| ≤ 1 / 2) : BoundedCoord p := by
  obtain ⟨a, b⟩ := p
  obtain rfl : a = b := he
  rw [abs_le] at h
  rcases eq_or_lt_of_le h.1 with h1 | h1
  · left
    have : a = -1 / 2 := by simp only at h1; linarith
    rw [this]
  · exact Or.inr ⟨by simp only at h1 ⊢; linarith, by simp only at h1 ⊢; linarith, cgw_ultraspherical (by simp only at h1; linarith) h.2⟩

/-- what the constructor's object satisfies -/
theorem object_facts {N : ℤ} {params : List (ℝ × ℝ)} (hp : params ≠ []) (hN : N < 32768 ^ params.length)
    {J : JacobiOPE} (hJ : jacobiInit N params = .ok J) :
    1 ≤ params.length ∧ (∀ j, -1 < (params.get j).1 ∧ -1 < (params.get j).2) ∧ (∀ k ∈ J.ordering, k.length = params.length) ∧
      J.ordering.Nodup ∧ (J.ordering.length : ℤ) = N := by
  have hleg : 1 ≤ N ∧ LegalParams params := by
    by_contra hn
    rw [(C09_constructor_partial hp hN).2 hn] at hJ
    exact absurd hJ (by simp)
  have hd : 1 ≤ params.length := List.length_pos_iff.2 hp
  obtain ⟨J', hJ', hN', hdim, hord, hlen, -⟩ := (C09_constructor_partial hp hN).1 hleg
  rw [hJ] at hJ'
  obtain rfl : J = J' := by simpa using hJ'
  have hlt : J.N < 32768 ^ params.length := by
    have : ((J.N : ℕ) : ℤ) < ((32768 ^ params.length : ℕ) : ℤ) := by rw [hN']; exact_mod_cast hN
    exact_mod_cast this
  rw [hdim] at hord
  obtain ⟨-, h2, h3, -⟩ := C09_ordering_partial hd hlt
  refine ⟨hd, ?_, by rw [hord]; exact h3, by rw [hord]; exact h2, by rw [hlen, hN']⟩
  intro j
  rcases hd.lt_or_eq with h | h
  · have := hleg.2.2 h _ (List.get_mem params j)
    exact ⟨by linarith [(abs_le.1 this.1).1], by linarith [(abs_le.1 this.2).1]⟩
  · exact hleg.2.1 h.symm _ (List.get_mem params j)

/-- the law of the ordered list of the `N` points of the determinantal process: density `det K(x_i, x_j) / N!` with respect to the
`N`-fold product of `prod_j (1-x_j)^(a_j) (1+x_j)^(b_j) dx_j`, `K` the kernel of the object -/
noncomputable def detProcess (params : List (ℝ × ℝ)) (L : List (List ℕ)) : Measure (Fin L.length → Fin params.length → ℝ) :=
  (Measure.pi fun _ => Measure.pi fun j => jacobiMeasure (params.get j).1 (params.get j).2).withDensity fun x =>
    ENNReal.ofReal ((Matrix.of fun i j => featKernel (opePhi params.get L) (x i) (x j)).det / (L.length.factorial : ℝ))

/-- C86: the law of `sample` (chain rule branch) tends to the determinantal process, event by event, as the numbers `T0` and `T` of
trials of the two rejection loops grow; the target is a probability.  The parameters are those for which the table of bounds is right
(`BoundedCoord`).  Partial: with a finite number of trials the law differs (see `C86_sample_law_partial` for the error); the code has
`T0 = 10000` whatever `nb_trials_max` is. -/
theorem C86_sample_limit_partial {N : ℤ} {params : List (ℝ × ℝ)} (hp : params ≠ []) (hN : N < 32768 ^ params.length)
    {J : JacobiOPE} (hJ : jacobiInit N params = .ok J) (hb : ∀ p ∈ params, BoundedCoord p) :
    IsProbabilityMeasure (detProcess params J.ordering) ∧
    ∀ A, MeasurableSet A →
      Filter.Tendsto (fun p : ℕ × ℕ => (opeSample params.get J.ordering p.1 p.2).law A) Filter.atTop
        (nhds (detProcess params J.ordering A)) := by
  obtain ⟨hd, hpar, hL, hnd, -⟩ := object_facts hp hN hJ
  refine ⟨opeDPP_prob hd hpar hL hnd, fun A hA => tendsto_sample hd hpar hL hnd (boundsOK_of_dom1 hpar fun ind j => ?_) hA⟩
  exact dom1_of_coord (hb _ (List.get_mem params j)) _

/-- C86, no assumption: if `a_j = b_j` in `[-1/2, 1/2]` for every coordinate, the law of `sample` (chain rule branch) tends to the
determinantal process, event by event, as the numbers of trials of the two rejection loops grow. -/
theorem C86_ultraspherical_limit {N : ℤ} {params : List (ℝ × ℝ)} (hp : params ≠ []) (hN : N < 32768 ^ params.length)
    {J : JacobiOPE} (hJ : jacobiInit N params = .ok J) (hs : ∀ p ∈ params, p.1 = p.2 ∧ |p.1| ≤ 1 / 2) :
    IsProbabilityMeasure (detProcess params J.ordering) ∧
    ∀ A, MeasurableSet A →
      Filter.Tendsto (fun p : ℕ × ℕ => (opeSample params.get J.ordering p.1 p.2).law A) Filter.atTop
        (nhds (detProcess params J.ordering A)) :=
  C86_sample_limit_partial hp hN hJ fun p h => boundedCoord_ultra (hs p h).1 (hs p h).2

/-- C86 for a finite number of trials: with `rho` the product over the `N` points of
`q (1 - n/N) sum_{t<T} (q n/N)^t`, where every rejection bound `C` satisfies `q <= 1 - (1 - 1/C)^T0`, the probability of every event
under the law of `sample` lies between `rho P(A)` and `rho P(A) + (1 - rho)`, `P` the determinantal process. -/
theorem C86_sample_law_partial {N : ℤ} {params : List (ℝ × ℝ)} (hp : params ≠ []) (hN : N < 32768 ^ params.length)
    {J : JacobiOPE} (hJ : jacobiInit N params = .ok J) (hb : ∀ p ∈ params, BoundedCoord p) {T0 T : ℕ} (hT0 : 1 ≤ T0) (hT : 1 ≤ T)
    {q : ℝ≥0∞} (hq : ∀ ind C, opeBound params.get J.ordering ind = some C → q ≤ 1 - (1 - ENNReal.ofReal (1 / C)) ^ T0)
    {rho : ℝ≥0∞} (hrho : rho = ∏ n ∈ Finset.range J.ordering.length, q * ENNReal.ofReal (((J.ordering.length : ℝ) - n) / J.ordering.length)
      * ∑ t ∈ Finset.range T, (q * ENNReal.ofReal ((n : ℝ) / J.ordering.length)) ^ t)
    {A : Set (Fin J.ordering.length → Fin params.length → ℝ)} (hA : MeasurableSet A) :
    rho * detProcess params J.ordering A ≤ (opeSample params.get J.ordering T0 T).law A ∧
    (opeSample params.get J.ordering T0 T).law A ≤ rho * detProcess params J.ordering A + (1 - rho) := by
  obtain ⟨hd, hpar, hL, hnd, -⟩ := object_facts hp hN hJ
  have hB : OpeBoundsOK params.get J.ordering := boundsOK_of_dom1 hpar fun ind j => dom1_of_coord (hb _ (List.get_mem params j)) _
  have hlow : ∀ A, MeasurableSet A → rho * detProcess params J.ordering A ≤ (opeSample params.get J.ordering T0 T).law A := by
    intro A hA
    rw [hrho]
    exact sample_lower hd hpar hL hnd hB (by omega) (by omega) hq hA
  have h1 : IsProbabilityMeasure (detProcess params J.ordering) := opeDPP_prob hd hpar hL hnd
  have h2 : IsProbabilityMeasure (opeSample params.get J.ordering T0 T).law := sample_prob (by omega) (by omega)
  exact ⟨hlow A hA, tv_of_lower hlow hA⟩

/-- C86, the proposals: one call of `sample_chain_rule_proposal` has, up to the probability `1 - q` that all its trials are rejected,
the density `K(x, x) / N`. -/
theorem C86_proposal_law_partial {N : ℤ} {params : List (ℝ × ℝ)} (hp : params ≠ []) (hN : N < 32768 ^ params.length)
    {J : JacobiOPE} (hJ : jacobiInit N params = .ok J) (hb : ∀ p ∈ params, BoundedCoord p) {T0 : ℕ} (hT0 : 1 ≤ T0)
    {q : ℝ≥0∞} (hq : ∀ ind C, opeBound params.get J.ordering ind = some C → q ≤ 1 - (1 - ENNReal.ofReal (1 / C)) ^ T0)
    {A : Set (Fin params.length → ℝ)} (hA : MeasurableSet A) :
    let mu := (Measure.pi fun j => jacobiMeasure (params.get j).1 (params.get j).2).withDensity fun x =>
      ENNReal.ofReal (featKernel (opePhi params.get J.ordering) x x / J.ordering.length)
    q * mu A ≤ (opeProposal params.get J.ordering T0).law A ∧
    (opeProposal params.get J.ordering T0).law A ≤ q * mu A + (1 - q) := by
  intro mu
  obtain ⟨hd, hpar, hL, hnd, hlen⟩ := object_facts hp hN hJ
  have hB : OpeBoundsOK params.get J.ordering := boundsOK_of_dom1 hpar fun ind j => dom1_of_coord (hb _ (List.get_mem params j)) _
  have h1N : 1 ≤ N := by
    by_contra hn
    rw [(C09_constructor_partial hp hN).2 fun h => hn h.1] at hJ
    exact absurd hJ (by simp)
  have hne : J.ordering ≠ [] := by
    intro h; rw [h] at hlen; simp at hlen; omega
  have hlow : ∀ A, MeasurableSet A → q * mu A ≤ (opeProposal params.get J.ordering T0).law A := by
    intro A hA
    have hG : Measurable (A.indicator fun _ => (1 : ℝ≥0∞)) := measurable_const.indicator hA
    have := proposal_lower hd hpar hL hnd hB (by omega : T0 ≠ 0) hq hG
    rw [show ∫⁻ x, A.indicator (fun _ => (1 : ℝ≥0∞)) x ∂(opeProposal params.get J.ordering T0).law
      = (opeProposal params.get J.ordering T0).law A from lintegral_indicator_one hA] at this
    refine le_trans (le_of_eq ?_) this
    congr 1
    rw [show mu A = _ from withDensity_apply _ hA, ← lintegral_indicator hA]
    refine lintegral_congr fun x => ?_
    by_cases hx : x ∈ A
    · rw [Set.indicator_of_mem hx, Set.indicator_of_mem hx, mul_one]; rfl
    · rw [Set.indicator_of_notMem hx, Set.indicator_of_notMem hx, mul_zero]
  have h2 : IsProbabilityMeasure (opeProposal params.get J.ordering T0).law := proposal_prob _ hne (by omega)
  have h1 : IsProbabilityMeasure mu := by
    constructor
    have ho := ope_orthonormal hd hpar hL hnd
    rw [show mu Set.univ = _ from withDensity_apply _ MeasurableSet.univ, Measure.restrict_univ]
    change ∫⁻ x, propIdeal params.get J.ordering x ∂(opeMu params.get) = 1
    simp only [propIdeal_eq]
    have hm : ∀ ind : Fin J.ordering.length, Measurable fun x => ENNReal.ofReal (opePhi params.get J.ordering x ind ^ 2) := fun ind =>
      (((measurable_pi_apply ind).comp (measurable_opePhi params.get J.ordering)).pow_const 2).ennreal_ofReal
    rw [lintegral_const_mul _ (Finset.measurable_sum _ fun ind _ => hm ind), lintegral_finsetSum _ fun ind _ => hm ind,
      Finset.sum_congr rfl fun ind _ => phi_sq_lintegral hd hpar hL hnd ind, Finset.sum_const, Finset.card_univ, Fintype.card_fin,
      nsmul_eq_mul, mul_one]
    exact ENNReal.inv_mul_cancel (by simpa using hne) (ENNReal.natCast_ne_top _)
  exact ⟨hlow A hA, tv_of_lower hlow hA⟩

/-- C86 refuted on legal parameters: when some coordinate has exactly one of `a_j`, `b_j` equal to `-1/2` the rejection bound of the
multi-index `0` is `nan`, no proposal is ever accepted, and for `N = 1` and any numbers of trials `sample` returns a point with the
product of arcsine laws, while the determinantal process has another law (a coordinate has mean `(b_j - a_j)/(a_j + b_j + 2) != 0`
instead of `0`). -/
theorem C86_mixed_half_refuted {params : List (ℝ × ℝ)} (hp : 2 ≤ params.length) (hleg : LegalParams params) {j : Fin params.length}
    (hj : (params.get j).1 = -1 / 2 ∨ (params.get j).2 = -1 / 2) (hne : (params.get j).1 ≠ (params.get j).2)
    {T0 T : ℕ} (hT0 : 1 ≤ T0) (hT : 1 ≤ T) :
    ∃ J, jacobiInit 1 params = .ok J ∧ J.ordering.length = 1 ∧ (∀ ind, opeBound params.get J.ordering ind = none) ∧
      (opeSample params.get J.ordering T0 T).law = (Measure.pi fun _ : Fin params.length => arcM).map (fun x _ => x) ∧
      (opeSample params.get J.ordering T0 T).law ≠ detProcess params J.ordering := by
  have hp0 : params ≠ [] := by rintro rfl; simp at hp
  have hN : (1 : ℤ) < 32768 ^ params.length := one_lt_pow₀ (by norm_num) (by omega)
  obtain ⟨J, hJ, hN', hdim, hord, hlen, -⟩ := (C09_constructor_partial hp0 hN).1 ⟨le_rfl, hleg⟩
  obtain ⟨hd, hpar, hL, hnd, -⟩ := object_facts hp0 hN hJ
  have hN1 : J.N = 1 := by exact_mod_cast hN'
  rw [hN1, hdim] at hord
  obtain ⟨-, -, -, -, -, hdown⟩ := C09_ordering_partial (N := 1) hd (by exact_mod_cast hN)
  rw [← hord] at hdown
  have hL0 : J.ordering = [List.replicate params.length 0] := by
    obtain ⟨k, hk⟩ := List.length_eq_one_iff.1 (hlen.trans hN1)
    rw [hk] at hdown hL ⊢
    have hk1 := hL k (by simp)
    congr 1
    by_contra hne
    have hpos : maxDeg (List.replicate params.length 0) < maxDeg k := by
      refine (maxDeg_le (m := 0) fun a ha => (List.eq_of_mem_replicate ha).le).trans_lt (Nat.pos_of_ne_zero fun h0 => hne ?_)
      exact List.eq_replicate_iff.2 ⟨hk1, fun b hb => Nat.le_zero.1 (h0 ▸ le_maxDeg hb)⟩
    have := hdown k (by simp) (List.replicate params.length 0) (by simp) (Or.inl ?_)
    · rw [List.mem_singleton] at this; exact hne this.symm
    · exact hpos
  have hb : ∀ ind, opeBound params.get J.ordering ind = none := by
    rw [hL0]
    intro ind
    rw [opeBound, if_pos]
    refine ⟨j, ?_⟩
    rw [entry2_zero]
    have hl := hleg.2 hp _ (List.get_mem params j)
    refine opeLogBound_nan (by linarith [(abs_le.1 hl.1).1]) (by linarith [(abs_le.1 hl.2).1]) hj ?_
    rintro ⟨h1, h2⟩
    exact hne (h1.trans h2.symm)
  refine ⟨J, hJ, hlen.trans hN1, hb, ?_⟩
  generalize hLL : J.ordering = L at *
  subst hL0
  have hlaw := sample_one_nan hd hpar hb (by omega : T0 ≠ 0) (by omega : T ≠ 0)
  refine ⟨hlaw, fun heq => ?_⟩
  have h1 := dpp_one_mean (par := params.get) hd hpar j
  have h2 := arc_one_mean (d := params.length) j
  rw [← hlaw, heq] at h2
  rw [show opeDPP params.get [List.replicate params.length 0] = detProcess params [List.replicate params.length 0] from rfl, h2] at h1
  have h3 : (params.get j).1 + (params.get j).2 + 2 ≠ 0 := by linarith [(hpar j).1, (hpar j).2]
  rcases div_eq_zero_iff.1 h1.symm with h | h
  · exact hne (by linarith)
  · exact h3 h

/-- The hypotheses of the refutation are met by `[(-1/2, 1/2), (0, 0)]`. -/
example : ∃ J, jacobiInit 1 [(-1 / 2, 1 / 2), (0, 0)] = .ok J ∧
    (opeSample ([(-1 / 2, 1 / 2), (0, 0)] : List (ℝ × ℝ)).get J.ordering 10000 10000).law ≠ detProcess [(-1 / 2, 1 / 2), (0, 0)] J.ordering := by
  have hl : LegalParams [((-1 / 2 : ℝ), (1 / 2 : ℝ)), (0, 0)] := by
    constructor
    · simp
    · intro _ p hp
      simp only [List.mem_cons, List.not_mem_nil, or_false] at hp
      rcases hp with rfl | rfl <;> constructor <;> rw [abs_le] <;> constructor <;> norm_num
  obtain ⟨J, h1, -, -, -, h5⟩ := C86_mixed_half_refuted (T0 := 10000) (T := 10000) (by simp) hl (j := ⟨0, by simp⟩) (Or.inl (by simp))
    (by norm_num) (by norm_num) (by norm_num)
  exact ⟨J, h1, h5⟩

/-- The bounds of the arcsine parameters are at most `2^d`. -/
theorem arcsine_bound_le {d : ℕ} (L : List (List ℕ)) (ind : Fin L.length) {C : ℝ}
    (hC : opeBound (fun _ : Fin d => ((-1 / 2 : ℝ), (-1 / 2 : ℝ))) L ind = some C) : C ≤ 2 ^ d := by
  rw [opeBound] at hC
  split_ifs at hC with h
  rw [← Option.some.inj hC]
  calc _ ≤ Real.exp (∑ _j : Fin d, Real.log 2) := by
        refine Real.exp_le_exp.2 (Finset.sum_le_sum fun j _ => ?_)
        rw [opeLogBound, if_pos (by norm_num)]
        split_ifs
        · simpa using Real.log_nonneg (by norm_num)
        · simp
    _ = 2 ^ d := by
        rw [Finset.sum_const, Finset.card_univ, Fintype.card_fin, nsmul_eq_mul, mul_comm, ← Real.rpow_def_of_pos (by norm_num), Real.rpow_natCast]

/-- Two coordinates with the arcsine law and `N = 7`: the object exists, its coordinates are covered, and `q = 1 - (3/4)^10000` meets
the hypothesis on the bounds. -/
example : ∃ J, jacobiInit 7 [(-1 / 2, -1 / 2), (-1 / 2, -1 / 2)] = .ok J ∧
    (∀ p ∈ [((-1 / 2 : ℝ), (-1 / 2 : ℝ)), (-1 / 2, -1 / 2)], BoundedCoord p) ∧
    ∀ ind C, opeBound ([(-1 / 2, -1 / 2), (-1 / 2, -1 / 2)] : List (ℝ × ℝ)).get J.ordering ind = some C →
      1 - (3 / 4 : ℝ≥0∞) ^ 10000 ≤ 1 - (1 - ENNReal.ofReal (1 / C)) ^ 10000 := by
  have hl : LegalParams [((-1 / 2 : ℝ), (-1 / 2 : ℝ)), (-1 / 2, -1 / 2)] := by
    constructor
    · simp
    · intro _ p hp
      simp only [List.mem_cons, List.not_mem_nil, or_false, or_self] at hp
      subst hp
      constructor <;> rw [abs_le] <;> constructor <;> norm_num
  obtain ⟨J, h1, -⟩ := (C09_constructor_partial (N := 7) (params := [(-1 / 2, -1 / 2), (-1 / 2, -1 / 2)]) (by simp)
    (by norm_num)).1 ⟨by norm_num, hl⟩
  refine ⟨J, h1, ?_, fun ind C hC => ?_⟩
  · intro p hp
    simp only [List.mem_cons, List.not_mem_nil, or_false, or_self] at hp
    exact Or.inl hp
  · have hpar : ([(-1 / 2, -1 / 2), (-1 / 2, -1 / 2)] : List (ℝ × ℝ)).get = fun _ : Fin 2 => ((-1 / 2 : ℝ), (-1 / 2 : ℝ)) := by
      funext j; fin_cases j <;> rfl
    have h0 := opeBound_pos hC
    have h4 : C ≤ 2 ^ 2 := arcsine_bound_le J.ordering ind (hpar ▸ hC)
    refine tsub_le_tsub_left (pow_le_pow_left₀ (by simp) ?_ _) _
    have : ENNReal.ofReal (1 / 4) ≤ ENNReal.ofReal (1 / C) := ENNReal.ofReal_le_ofReal (one_div_le_one_div_of_le h0 (by linarith))
    refine (tsub_le_tsub_left this 1).trans (le_of_eq ?_)
    rw [← ENNReal.ofReal_one, ← ENNReal.ofReal_sub _ (by norm_num)]
    rw [show (3 / 4 : ℝ≥0∞) = ENNReal.ofReal (3 / 4) by
      rw [ENNReal.ofReal_div_of_pos (by norm_num)]; norm_num]
    norm_num

/-- Legendre and Chebyshev coordinates with `N = 7`: the object exists and the hypotheses of `C86_ultraspherical_limit` hold. -/
example : ∃ J, jacobiInit 7 [(0, 0), (1 / 2, 1 / 2)] = .ok J ∧
    (∀ p ∈ [((0 : ℝ), (0 : ℝ)), (1 / 2, 1 / 2)], p.1 = p.2 ∧ |p.1| ≤ 1 / 2) := by
  have hs : ∀ p ∈ [((0 : ℝ), (0 : ℝ)), (1 / 2, 1 / 2)], p.1 = p.2 ∧ |p.1| ≤ 1 / 2 := by
    intro p hp
    simp only [List.mem_cons, List.not_mem_nil, or_false] at hp
    rcases hp with rfl | rfl <;> refine ⟨rfl, ?_⟩ <;> rw [abs_le] <;> constructor <;> norm_num
  have hl : LegalParams [((0 : ℝ), (0 : ℝ)), (1 / 2, 1 / 2)] :=
    ⟨by simp, fun _ p hp => ⟨(hs p hp).2, (hs p hp).1 ▸ (hs p hp).2⟩⟩
  obtain ⟨J, h1, -⟩ := (C09_constructor_partial (N := 7) (params := [(0, 0), (1 / 2, 1 / 2)]) (by simp)
    (by norm_num)).1 ⟨by norm_num, hl⟩
  exact ⟨J, h1, hs⟩

/-! ## C87: the default sampler in one dimension -/

/-- C87: in one dimension, `sample()` with its default `tridiag_1D = True` draws exactly the determinantal process, for every pair of
legal parameters: every event that does not depend on the order of the points has the same probability. -/
theorem C87_default_one_dimension {la : LA} (hla : LAOK la) {N : ℤ} {a b : ℝ} (hN : N < 32768)
    {J : JacobiOPE} (hJ : jacobiInit N [(a, b)] = .ok J) (T0 T : ℕ)
    {A : Set (Fin J.ordering.length → Fin 1 → ℝ)} (hA : MeasurableSet A) (hs : ∀ (σ : Equiv.Perm (Fin J.ordering.length)) x, x ∘ σ ∈ A ↔ x ∈ A) :
    (opeSampleCall la [(a, b)] J T0 T true).law A = detProcess [(a, b)] J.ordering A := by
  have hp : [(a, b)] ≠ [] := by simp
  have hN' : N < 32768 ^ [(a, b)].length := by simpa using hN
  obtain ⟨hd, hpar, hL, hnd, hlenN⟩ := object_facts hp hN' hJ
  have hab : -1 < a ∧ -1 < b := hpar 0
  have hget : ([(a, b)] : List (ℝ × ℝ)).get = fun _ : Fin 1 => (a, b) := by funext j; fin_cases j; rfl
  have hleg : 1 ≤ N ∧ LegalParams [(a, b)] := by
    by_contra hn
    rw [(C09_constructor_partial hp hN').2 hn] at hJ
    exact absurd hJ (by simp)
  obtain ⟨J', hJ', hJN, hdim, hord, -⟩ := (C09_constructor_partial hp hN').1 hleg
  rw [hJ] at hJ'
  obtain rfl : J = J' := by simpa using hJ'
  obtain ⟨-, -, hlen, -, hpw, hdown⟩ := C09_ordering_partial (N := J.N) (d := 1) le_rfl (by
    have : (J.N : ℤ) < 32768 := by rw [hJN]; exact hN
    have : J.N < 32768 := by exact_mod_cast this
    simpa using this)
  rw [show computeOrdering J.N 1 = J.ordering by rw [hord, hdim]; rfl] at hlen hpw hdown
  have hfun := ordering_one hlen hpw hdown
  have h1 : 1 ≤ J.ordering.length := by
    have : (1 : ℤ) ≤ J.ordering.length := by rw [hlenN]; exact hleg.1
    exact_mod_cast this
  have hprob : IsProbabilityMeasure (opeDPP (fun _ : Fin 1 => (a, b)) J.ordering) :=
    opeDPP_prob le_rfl (fun _ => hab) hlen hnd
  have hdp : detProcess [(a, b)] J.ordering = opeDPP (fun _ : Fin 1 => (a, b)) J.ordering := by
    rw [← hget]; rfl
  rw [hdp, ← one_dim_agree hab.1 hab.2 hfun hlen hprob (C81_jacobi_banded_law hla (by linarith : 0 < a + 1) (by linarith : 0 < b + 1)
    two_pos h1) hA hs]
  rw [opeSampleCall, if_pos ⟨rfl, rfl⟩]
  congr 1
  generalize J.ordering.length = M at h1
  obtain ⟨n, rfl⟩ : ∃ n, M = n + 1 := ⟨M - 1, by omega⟩
  have e1 := betaTridiag_law_map hla (by linarith [hab.1] : 0 < a + 1) (by linarith [hab.2] : 0 < b + 1) two_pos n (measurable_rowsOf (N := n + 1))
  have e2 := betaTridiag_law_map hla (by linarith [hab.1] : 0 < a + 1) (by linarith [hab.2] : 0 < b + 1) two_pos n
    (measurable_id (α := Fin (n + 1) → ℝ))
  have e3 : ((betaTridiag la (a + 1) (b + 1) 2 (n + 1)).map (toVec (n + 1))).law = _ := e2
  have hm : Measurable (fun p : (Fin (n + 1) → ℝ) × (Fin n → ℝ) => id fun j => specMap (jacQ (unitM p)) (Sum.inl j)) :=
    measurable_pi_lambda _ fun j => (measurable_pi_apply _).comp
      (measurable_specMap.comp (diff_jacQ.continuous.measurable.comp measurable_unitM))
  rw [e3, Measure.map_map measurable_rowsOf hm]
  exact e1

/-- Legendre weight, 5 points: the object exists, a solver exists, and the event `some point is larger than 1/2` does not depend on the
order. -/
example : (∃ la, LAOK la) ∧ ∃ J, jacobiInit 5 [(0, 0)] = .ok J ∧ J.ordering.length = 5 ∧
    ∀ (σ : Equiv.Perm (Fin J.ordering.length)) (x : Fin J.ordering.length → Fin 1 → ℝ),
      x ∘ σ ∈ {x : Fin J.ordering.length → Fin 1 → ℝ | ∃ i, 1 / 2 < x i 0} ↔ x ∈ {x : Fin J.ordering.length → Fin 1 → ℝ | ∃ i, 1 / 2 < x i 0} := by
  have hl : LegalParams [((0 : ℝ), (0 : ℝ))] := by
    constructor
    · intro _ p hp
      simp only [List.mem_cons, List.not_mem_nil, or_false] at hp
      subst hp
      norm_num
    · simp
  obtain ⟨J, h1, h2, h3, h4, h5, h6⟩ := (C09_constructor_partial (N := 5) (params := [(0, 0)]) (by simp) (by norm_num)).1 ⟨by norm_num, hl⟩
  refine ⟨exists_LAOK, J, h1, by rw [h5]; exact_mod_cast h2, fun σ x => ⟨?_, ?_⟩⟩
  · rintro ⟨i, hi⟩; exact ⟨σ i, hi⟩
  · rintro ⟨i, hi⟩; exact ⟨σ.symm i, by simpa using hi⟩

end Verif.Props
