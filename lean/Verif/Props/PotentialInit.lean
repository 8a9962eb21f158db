import Verif.Props.GibbsLaw

/-!
# C111: `BetaEnsemblePolynomialPotential` accepts the potentials that define an ensemble
-/

namespace Verif.Lemmas.PIn
open Finset MeasureTheory Verif.Spec Verif.Lemmas Polynomial

/-- boxes of increasing intervals of length one -/
def box (N : ℕ) (t : ℝ) : Set (Fin N → ℝ) := Set.univ.pi fun i => Set.Ioo (t + 2 * (i : ℕ)) (t + 2 * (i : ℕ) + 1)

theorem measurableSet_box (N : ℕ) (t : ℝ) : MeasurableSet (box N t) := MeasurableSet.univ_pi fun _ => measurableSet_Ioo

theorem volume_box (N : ℕ) (t : ℝ) : volume (box N t) = 1 := by
  rw [box, volume_pi_pi]
  refine prod_eq_one fun i _ => ?_
  rw [Real.volume_Ioo]
  simp

theorem box_gap {N : ℕ} {t : ℝ} {x : Fin N → ℝ} (hx : x ∈ box N t) {i j : Fin N} (h : i < j) : 1 ≤ x j - x i := by
  have hi := (Set.mem_univ_pi.1 hx i).2
  have hj := (Set.mem_univ_pi.1 hx j).1
  have : ((i : ℕ) : ℝ) + 1 ≤ (j : ℕ) := by exact_mod_cast h
  linarith

/-- the density of an ensemble whose weight is bounded below on infinitely many boxes is not integrable -/
theorem infinite {N : ℕ} {beta w0 : ℝ} (hb : 0 < beta) (hw0 : 0 < w0) {w : ℝ → ℝ} {t : ℕ → ℝ}
    (hsep : ∀ k j, k < j → t k + 1 ≤ t j ∨ t j + 1 ≤ t k) (hN : 0 < N) (hw : ∀ (k : ℕ) (x : ℝ), t k < x → x < t k + 2 * N → w0 ≤ w x) :
    ∫⁻ x in {x : Fin N → ℝ | StrictMono x}, ENNReal.ofReal (ensembleDensity beta w x) = ⊤ := by
  have hsub : (⋃ k, box N (t k)) ⊆ {x : Fin N → ℝ | StrictMono x} := by
    intro x hx
    obtain ⟨k, hk⟩ := Set.mem_iUnion.1 hx
    intro i j h
    linarith [box_gap hk h]
  have hdisj : Pairwise (Function.onFun Disjoint fun k => box N (t k)) := by
    have aux : ∀ k j, k < j → Disjoint (box N (t k)) (box N (t j)) := by
      intro k j h
      rw [Set.disjoint_left]
      intro x hk hj
      have h1 := Set.mem_univ_pi.1 hk ⟨0, hN⟩
      have h2 := Set.mem_univ_pi.1 hj ⟨0, hN⟩
      simp only [Set.mem_Ioo, Nat.cast_zero, mul_zero, add_zero] at h1 h2
      rcases hsep k j h with h3 | h3 <;> linarith [h1.1, h1.2, h2.1, h2.2]
    intro k j h
    rcases lt_or_gt_of_ne h with h | h
    · exact aux k j h
    · exact (aux j k h).symm
  have hlow : ∀ k, ∀ x ∈ box N (t k), ENNReal.ofReal (w0 ^ N) ≤ ENNReal.ofReal (ensembleDensity beta w x) := by
    intro k x hx
    refine ENNReal.ofReal_le_ofReal ?_
    have hwi : ∀ i, w0 ≤ w (x i) := by
      intro i
      have hi := Set.mem_univ_pi.1 hx i
      have : ((i : ℕ) : ℝ) + 1 ≤ N := by exact_mod_cast i.2
      have : (0 : ℝ) ≤ (i : ℕ) := by positivity
      exact hw k _ (by linarith [hi.1]) (by linarith [hi.2])
    have h1 : w0 ^ N ≤ ∏ i, w (x i) := by
      have := prod_le_prod (s := univ) (f := fun _ : Fin N => w0) (g := fun i => w (x i)) (fun _ _ => hw0.le) fun i _ => hwi i
      simpa using this
    have h2 : 1 ≤ ∏ i, ∏ j ∈ Ioi i, |x i - x j| ^ beta := by
      have aux : ∀ (s : Finset (Fin N)) (g : Fin N → ℝ), (∀ i ∈ s, 1 ≤ g i) → 1 ≤ ∏ i ∈ s, g i := fun s g h => by
        have := prod_le_prod (s := s) (f := fun _ => (1 : ℝ)) (g := g) (fun _ _ => zero_le_one) h
        rwa [prod_const_one] at this
      refine aux _ _ fun i _ => aux _ _ fun j hj => ?_
      refine Real.one_le_rpow ?_ hb.le
      rw [abs_sub_comm]
      exact (box_gap hx (mem_Ioi.1 hj)).trans (le_abs_self _)
    have h3 : 0 ≤ ∏ i, w (x i) := prod_nonneg fun i _ => hw0.le.trans (hwi i)
    unfold ensembleDensity
    nlinarith
  refine top_le_iff.1 ?_
  refine le_trans ?_ (lintegral_mono_set hsub)
  rw [lintegral_iUnion (fun k => measurableSet_box N (t k)) hdisj]
  have h4 : ∀ k, ENNReal.ofReal (w0 ^ N) ≤ ∫⁻ x in box N (t k), ENNReal.ofReal (ensembleDensity beta w x) := by
    intro k
    have := setLIntegral_mono' (measurableSet_box N (t k)) (hlow k) (μ := volume)
    rwa [setLIntegral_const, volume_box, mul_one] at this
  refine le_trans ?_ (ENNReal.tsum_le_tsum h4)
  rw [ENNReal.tsum_const_eq_top_of_ne_zero]
  exact (ENNReal.ofReal_pos.2 (by positivity)).ne'

theorem not_ensemble {N : ℕ} {beta w0 : ℝ} (hb : 0 < beta) (hw0 : 0 < w0) {w : ℝ → ℝ} {t : ℕ → ℝ}
    (hsep : ∀ k j, k < j → t k + 1 ≤ t j ∨ t j + 1 ≤ t k) (hN : 0 < N) (hw : ∀ (k : ℕ) (x : ℝ), t k < x → x < t k + 2 * N → w0 ≤ w x)
    (μ : Measure (Fin N → ℝ)) : ¬ IsBetaEnsemble μ beta w := by
  rintro ⟨hp, K, hK, hμ⟩
  have h1 : μ Set.univ = ⊤ := by
    rw [hμ, withDensity_apply _ MeasurableSet.univ, Measure.restrict_univ]
    rw [lintegral_congr fun x => ENNReal.ofReal_mul hK.le, lintegral_const_mul' _ _ ENNReal.ofReal_ne_top,
      infinite hb hw0 hsep hN hw, ENNReal.mul_top (ENNReal.ofReal_pos.2 hK).ne']
  rw [hp.measure_univ] at h1
  exact ENNReal.one_ne_top h1

/-- a potential bounded above near one end of the line does not define an ensemble -/
theorem not_ensemble_right {N : ℕ} {beta c M : ℝ} (hb : 0 < beta) {f : ℝ → ℝ} (hf : ∀ x, M ≤ x → f x ≤ c) (hN : 0 < N)
    (μ : Measure (Fin N → ℝ)) : ¬ IsBetaEnsemble μ beta fun x => Real.exp (-(f x)) := by
  refine not_ensemble (w0 := Real.exp (-c)) (t := fun k => M + 2 * N * k) hb (Real.exp_pos _) (fun k j h => Or.inl ?_) hN (fun k x h1 _ => ?_) μ
  · have h1 : (k : ℝ) + 1 ≤ j := by exact_mod_cast h
    have h2 : (1 : ℝ) ≤ N := by exact_mod_cast hN
    nlinarith
  · have : (0 : ℝ) ≤ 2 * N * k := by positivity
    exact Real.exp_le_exp.2 (neg_le_neg (hf x (by linarith)))

theorem not_ensemble_left {N : ℕ} {beta c M : ℝ} (hb : 0 < beta) {f : ℝ → ℝ} (hf : ∀ x, x ≤ M → f x ≤ c) (hN : 0 < N)
    (μ : Measure (Fin N → ℝ)) : ¬ IsBetaEnsemble μ beta fun x => Real.exp (-(f x)) := by
  refine not_ensemble (w0 := Real.exp (-c)) (t := fun k => M - 2 * N * (k + 1)) hb (Real.exp_pos _) (fun k j h => Or.inr ?_) hN
    (fun k x _ h1 => ?_) μ
  · have h1 : (k : ℝ) + 1 ≤ j := by exact_mod_cast h
    have h2 : (1 : ℝ) ≤ N := by exact_mod_cast hN
    nlinarith
  · have : (0 : ℝ) ≤ 2 * N * k := by positivity
    exact Real.exp_le_exp.2 (neg_le_neg (hf x (by linarith)))

theorem neg_right {P : ℝ[X]} (hd : 1 ≤ P.natDegree) (hl : P.leadingCoeff < 0) : ∃ M : ℝ, ∀ x, M ≤ x → P.eval x ≤ 0 := by
  have := tendsto_atBot_of_leadingCoeff_nonpos P (natDegree_pos_iff_degree_pos.1 hd) hl.le
  exact Filter.eventually_atTop.1 (this.eventually_le_atBot 0)

theorem neg_left {P : ℝ[X]} (ho : Odd P.natDegree) (hl : 0 < P.leadingCoeff) : ∃ M : ℝ, ∀ x, x ≤ M → P.eval x ≤ 0 := by
  obtain ⟨M, hM⟩ := neg_right (P := P.comp (-X)) (by
    rw [natDegree_comp]
    have := ho.pos
    simpa using Nat.one_le_iff_ne_zero.2 this.ne')
    (by rw [leadingCoeff_comp (by simp)]; simpa [ho.neg_one_pow] using hl)
  refine ⟨-M, fun x hx => ?_⟩
  have := hM (-x) (by linarith)
  rw [eval_comp] at this
  simpa using this

end Verif.Lemmas.PIn

namespace Verif.Props
open Finset MeasureTheory Verif.Model Verif.Spec Verif.Lemmas Verif.Lemmas.PIn Polynomial

/-- **C111** What the constructor accepts, and what it keeps: `beta > 0`, degree 0, 2, 4 or 6, no term of degree 5, leading
coefficient not negative; the object keeps the potential without its constant term. -/
theorem C111_accepts_iff (beta : ℝ) (V W : ℝ[X]) :
    potentialInit beta V = .ok W ↔ 0 < beta ∧ V.natDegree ∈ ({0, 2, 4, 6} : Set ℕ) ∧ V.coeff 5 = 0
      ∧ 0 ≤ V.coeff V.natDegree ∧ ∀ x, W.eval x = V.eval x - V.eval 0 := by
  have hW : (∀ x, W.eval x = V.eval x - V.eval 0) ↔ V - C (V.coeff 0) = W := by
    constructor
    · intro h
      refine Polynomial.funext fun x => ?_
      rw [h, eval_sub, eval_C, coeff_zero_eq_eval_zero]
    · rintro rfl x
      rw [eval_sub, eval_C, coeff_zero_eq_eval_zero]
  rw [hW]
  have hd : V.natDegree ∈ ({0, 2, 4, 6} : Set ℕ) ↔ V.natDegree ≤ 7 ∧ V.natDegree % 2 = 0 := by
    simp only [Set.mem_insert_iff, Set.mem_singleton_iff]
    omega
  rw [hd]
  constructor
  · intro h
    unfold potentialInit at h
    split_ifs at h with h1 h2 h3 h4 h5
    exact ⟨h1, ⟨by omega, by omega⟩, not_not.1 h3, not_lt.1 h5, Outcome.ok.inj h⟩
  · rintro ⟨h1, ⟨h2, h4⟩, h3, h5, h6⟩
    unfold potentialInit
    rw [if_neg (not_not.2 h1), if_neg (by omega), if_neg (not_not.2 h3), if_neg (by omega), if_neg (not_lt.2 h5), h6]

/-- the ensemble that the object announces: `N` points with density proportional to
`prod_{i<j} |x_i - x_j|^beta exp(-beta N / 2 sum_i V(x_i))` -/
def DefinesEnsemble (beta : ℝ) (V : ℝ[X]) (N : ℕ) : Prop :=
  ∃ μ : Measure (Fin N → ℝ), IsBetaEnsemble μ beta fun x => Real.exp (-(beta * N / 2 * V.eval x))

/-- **C111** (valid part) Among the potentials that are not constant, of degree at most six and without term of degree five, the
constructor accepts exactly those for which the density of the ensemble can be normalised, whatever the number of points. -/
theorem C111_accepts_normalisable_partial {beta : ℝ} (hb : 0 < beta) (V : ℝ[X]) (h1 : 1 ≤ V.natDegree) (h6 : V.natDegree ≤ 6)
    (h5 : V.coeff 5 = 0) (N : ℕ) (hN : 1 ≤ N) : (∃ W, potentialInit beta V = .ok W) ↔ DefinesEnsemble beta V N := by
  obtain ⟨n, rfl⟩ : ∃ n, N = n + 1 := ⟨N - 1, by omega⟩
  have hne : V.leadingCoeff ≠ 0 := by
    rw [Ne, leadingCoeff_eq_zero]
    rintro rfl
    simp at h1
  constructor
  · rintro ⟨W, hW⟩
    obtain ⟨la, hla⟩ := exists_LAOK
    obtain ⟨π, μ, -, hμ, -⟩ := C106_eigenvalues_law hla hW h1 n
    obtain ⟨hp, K, hK, hμ⟩ := hμ
    have hWV := ((C111_accepts_iff beta V W).1 hW).2.2.2.2
    refine ⟨μ, hp, K * Real.exp (beta * (n + 1 : ℕ) / 2 * V.eval 0) ^ (n + 1), by positivity, ?_⟩
    rw [hμ]
    congr 1
    funext x
    congr 1
    unfold ensembleDensity
    have : ∏ i, Real.exp (-(beta * (n + 1 : ℕ) / 2 * W.eval (x i)))
        = Real.exp (beta * (n + 1 : ℕ) / 2 * V.eval 0) ^ (n + 1) * ∏ i, Real.exp (-(beta * (n + 1 : ℕ) / 2 * V.eval (x i))) := by
      rw [← Real.exp_sum, ← Real.exp_sum, ← Real.exp_nat_mul, ← Real.exp_add]
      congr 1
      simp only [hWV, mul_sub, sum_neg_distrib, sum_sub_distrib, sum_const, card_univ, Fintype.card_fin, nsmul_eq_mul]
      ring
    rw [this]
    ring
  · rintro ⟨μ, hμ⟩
    have hg : 0 < beta * (n + 1 : ℕ) / 2 := by positivity
    have hup : ∀ {x : ℝ}, V.eval x ≤ 0 → beta * (n + 1 : ℕ) / 2 * V.eval x ≤ 0 := fun h => mul_nonpos_of_nonneg_of_nonpos hg.le h
    have hl : 0 < V.leadingCoeff := by
      by_contra h
      obtain ⟨M, hM⟩ := neg_right h1 (lt_of_le_of_ne (not_lt.1 h) hne)
      exact not_ensemble_right hb (fun x hx => hup (hM x hx)) hN μ hμ
    have he : Even V.natDegree := by
      rw [← Nat.not_odd_iff_even]
      intro ho
      obtain ⟨M, hM⟩ := neg_left ho hl
      exact not_ensemble_left hb (fun x hx => hup (hM x hx)) hN μ hμ
    rw [Nat.even_iff] at he
    refine ⟨V - C (V.coeff 0), (C111_accepts_iff beta V _).2 ⟨hb, ?_, h5, hl.le, fun x => ?_⟩⟩
    · simp only [Set.mem_insert_iff, Set.mem_singleton_iff]
      omega
    · rw [eval_sub, eval_C, coeff_zero_eq_eval_zero]

/-- **C111** The potential kept by the object defines the same ensemble as the one it is given. -/
theorem C111_same_ensemble {beta : ℝ} {V W : ℝ[X]} (hW : potentialInit beta V = .ok W) (N : ℕ) (μ : Measure (Fin N → ℝ)) :
    IsBetaEnsemble μ beta (fun x => Real.exp (-(beta * N / 2 * V.eval x)))
      ↔ IsBetaEnsemble μ beta (fun x => Real.exp (-(beta * N / 2 * W.eval x))) := by
  have hWV := ((C111_accepts_iff beta V W).1 hW).2.2.2.2
  have aux : ∀ (P Q : ℝ[X]) (c : ℝ), (∀ x, Q.eval x = P.eval x - c) →
      IsBetaEnsemble μ beta (fun x => Real.exp (-(beta * N / 2 * P.eval x)))
        → IsBetaEnsemble μ beta (fun x => Real.exp (-(beta * N / 2 * Q.eval x))) := by
    rintro P Q c h ⟨hp, K, hK, hμ⟩
    refine ⟨hp, K * Real.exp (-(beta * N / 2 * c)) ^ N, by positivity, ?_⟩
    rw [hμ]
    congr 1
    funext x
    congr 1
    unfold ensembleDensity
    have : ∏ i, Real.exp (-(beta * N / 2 * P.eval (x i)))
        = Real.exp (-(beta * N / 2 * c)) ^ N * ∏ i, Real.exp (-(beta * N / 2 * Q.eval (x i))) := by
      rw [← Real.exp_sum, ← Real.exp_sum, ← Real.exp_nat_mul, ← Real.exp_add]
      congr 1
      simp only [h, mul_sub, sum_neg_distrib, sum_sub_distrib, sum_const, card_univ, Fintype.card_fin, nsmul_eq_mul]
      ring
    rw [this]
    ring
  exact ⟨aux V W _ hWV, aux W V (-(V.eval 0)) fun x => by rw [hWV]; ring⟩

/-- **C111** (the full claim is false) Every non-negative constant is accepted as potential, and every potential so accepted
defines no ensemble, whatever the number of points: the density is not integrable. -/
theorem C111_constant_accepted_refuted {beta c : ℝ} (hb : 0 < beta) (hc : 0 ≤ c) :
    potentialInit beta (C c) = .ok 0 ∧ ∀ N, 1 ≤ N → ¬ DefinesEnsemble beta (C c) N ∧ ¬ DefinesEnsemble beta 0 N := by
  refine ⟨(C111_accepts_iff beta (C c) 0).2 ⟨hb, by simp, by simp [coeff_C], by simpa using hc, fun x => by simp⟩, fun N hN => ⟨?_, ?_⟩⟩
  · rintro ⟨μ, hμ⟩
    exact not_ensemble_right (M := 0) (c := beta * N / 2 * c) hb (fun x _ => by simp) hN μ hμ
  · rintro ⟨μ, hμ⟩
    exact not_ensemble_right (M := 0) (c := 0) hb (fun x _ => by simp) hN μ hμ

/-- The hypotheses are met: `V = x^4 - x^3 + 2` is accepted, `V = x^3` is not. -/
example : (∃ W, potentialInit 2 (X ^ 4 - X ^ 3 + C 2 : ℝ[X]) = .ok W) ∧ DefinesEnsemble 2 (X ^ 4 - X ^ 3 + C 2) 7
    ∧ ¬ DefinesEnsemble 2 (X ^ 3 : ℝ[X]) 7 := by
  have hd : (X ^ 4 - X ^ 3 + C 2 : ℝ[X]).natDegree = 4 := by compute_degree!
  have h : ∃ W, potentialInit 2 (X ^ 4 - X ^ 3 + C 2 : ℝ[X]) = .ok W := by
    refine ⟨_, (C111_accepts_iff _ _ (X ^ 4 - X ^ 3)).2 ⟨by norm_num, by rw [hd]; simp, by simp [coeff_X_pow, coeff_C], ?_, fun x => by simp⟩⟩
    rw [hd]
    simp [coeff_X_pow, coeff_C]
  refine ⟨h, (C111_accepts_normalisable_partial (by norm_num) _ (by rw [hd]; norm_num) (by rw [hd]; norm_num)
    (by simp [coeff_X_pow, coeff_C]) 7 (by norm_num)).1 h, fun h3 => ?_⟩
  obtain ⟨W, hW⟩ := (C111_accepts_normalisable_partial (by norm_num) (X ^ 3 : ℝ[X]) (by simp) (by simp)
    (by simp [coeff_X_pow]) 7 (by norm_num)).2 h3
  have := ((C111_accepts_iff _ _ _).1 hW).2.1
  simp at this

end Verif.Props
