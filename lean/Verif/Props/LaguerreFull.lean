import Verif.Lemmas.GaussLaguerre
import Verif.Props.HermiteFull

/-!
# C83: the full Laguerre model has the law of the Laguerre ensemble (beta = 1, 2)
-/

namespace Verif.Lemmas
open Finset Matrix MeasureTheory ProbabilityTheory Verif.Model Verif.Spec

/-- the points returned for the matrix `A` -/
noncomputable def gramPts (la : LA) {N M : ℕ} (A : Matrix (Fin N) (Fin M) ℂ) : Fin N → ℝ := toVec N (la.eigvalsh (A * Aᴴ))

theorem gram_isHermitian {N M : ℕ} (A : Matrix (Fin N) (Fin M) ℂ) : (A * Aᴴ).IsHermitian := Matrix.isHermitian_mul_conjTranspose_self A

theorem gramPts_mono {la : LA} (hla : LAOK la) {N M : ℕ} (A : Matrix (Fin N) (Fin M) ℂ) : Monotone (gramPts la A) :=
  toVec_mono (eig_length hla (gram_isHermitian A)) (hla.eigvalsh_sorted _ (gram_isHermitian A))

theorem gramPts_prod {la : LA} (hla : LAOK la) {n M : ℕ} (A : Matrix (Fin (n + 1)) (Fin M) ℂ) :
    prodT (gramPts la A) = fun t => (cpp (gram A) t).1 := by
  funext t
  have := eig_prod hla (gram_isHermitian A) t
  rw [Complex.ofReal_natCast] at this
  exact this

/-- points of the banded model -/
noncomputable def bandPtsL (la : LA) (n : ℕ) (xo : Fin (n + 1) → ℝ) (xe : Fin n → ℝ) : Fin (n + 1) → ℝ :=
  toVec (n + 1) (eigTridiag la (n + 1) (xiAlpha (vget xo) (shiftZero xe)) (fun i => √(xiBeta (vget xo) (shiftZero xe) i)))

/-- the points of the full and of the banded models have the same law -/
theorem laguerre_pts_law {la : LA} (hla : LAOK la) {γ : Measure ℂ} {beta : ℝ} (hγ : GaussOK γ beta) (hb : 0 ≤ beta) {n m : ℕ} (hnm : n ≤ m) :
    Measurable (fun x : Fin (n + 1) × Fin (m + 1) → ℂ => gramPts la (mat x)) ∧
    Measurable (fun p : (Fin (n + 1) → ℝ) × (Fin n → ℝ) => bandPtsL la n p.1 p.2) ∧
    (Measure.pi fun _ : Fin (n + 1) × Fin (m + 1) => γ).map (fun x => gramPts la (mat x))
      = ((Measure.pi fun i : Fin (n + 1) => RP.gammaLaw (beta / 2 * (((m + 1 : ℕ) : ℝ) - (i : ℕ))) 2).prod
      (Measure.pi fun i : Fin n => RP.gammaLaw (beta / 2 * ((n : ℝ) - (i : ℕ))) 2)).map (fun p => bandPtsL la n p.1 p.2) := by
  have hm1 := measurable_cpp_gram n (m + 1)
  have hm2 := measurable_cpp_triL n
  have e1 : (fun x : Fin (n + 1) × Fin (m + 1) → ℂ => prodT (gramPts la (mat x)))
      = (fun (F : ℕ → ℝ × ℝ) t => (F t).1) ∘ fun x => cpp (gram (mat x)) := funext fun x => gramPts_prod hla _
  have e2 : (fun p : (Fin (n + 1) → ℝ) × (Fin n → ℝ) => prodT (bandPtsL la n p.1 p.2))
      = (fun (F : ℕ → ℝ × ℝ) t => (F t).1) ∘ fun p => cpp (triL n p.1 p.2) := funext fun x => eigTri_prod hla _ _ _
  have h1 : Measurable fun x : Fin (n + 1) × Fin (m + 1) → ℂ => prodT (gramPts la (mat x)) := by
    rw [e1]; exact measurable_fst_proc.comp hm1
  have h2 : Measurable fun p : (Fin (n + 1) → ℝ) × (Fin n → ℝ) => prodT (bandPtsL la n p.1 p.2) := by
    rw [e2]; exact measurable_fst_proc.comp hm2
  have hmo1 : ∀ x : Fin (n + 1) × Fin (m + 1) → ℂ, Monotone (gramPts la (mat x)) := fun x => gramPts_mono hla _
  have hmo2 : ∀ p : (Fin (n + 1) → ℝ) × (Fin n → ℝ), Monotone (bandPtsL la n p.1 p.2) := fun p => eigTri_mono hla _ _ _
  refine ⟨measurable_sorted hmo1 h1, measurable_sorted hmo2 h2, sorted_law hmo1 hmo2 h1 h2 ?_⟩
  rw [e1, e2, ← Measure.map_map measurable_fst_proc hm1, ← Measure.map_map measurable_fst_proc hm2, full_lawL hγ n m hnm, band_lawL hb n m hnm]

theorem gammaTridiag_law {la : LA} {beta : ℝ} (hb : 0 < beta) {n m : ℕ} (hnm : n ≤ m)
    (hm : Measurable (fun p : (Fin (n + 1) → ℝ) × (Fin n → ℝ) => bandPtsL la n p.1 p.2)) :
    ((gammaTridiag la (beta / 2 * (((m + 1 : ℕ) : ℝ) - ((n + 1 : ℕ) : ℝ) + 1)) 2 beta (n + 1)).map (toVec (n + 1))).law
      = ((Measure.pi fun i : Fin (n + 1) => RP.gammaLaw (beta / 2 * (((m + 1 : ℕ) : ℝ) - (i : ℕ))) 2).prod
      (Measure.pi fun i : Fin n => RP.gammaLaw (beta / 2 * ((n : ℝ) - (i : ℕ))) 2)).map (fun p => bandPtsL la n p.1 p.2) := by
  have hsh : ∀ i : Fin n, 0.5 * beta * (((n + 1 : ℕ) : ℝ) - 1 - (i : ℕ)) = beta / 2 * ((n : ℝ) - (i : ℕ)) := fun i => by
    push_cast; ring
  have hsh' : ∀ i : Fin (n + 1), 0.5 * beta * (((n + 1 : ℕ) : ℝ) - 1 - (i : ℕ)) + beta / 2 * (((m + 1 : ℕ) : ℝ) - ((n + 1 : ℕ) : ℝ) + 1)
      = beta / 2 * (((m + 1 : ℕ) : ℝ) - (i : ℕ)) := fun i => by
    push_cast; ring
  have hpos : ∀ i : Fin n, 0 ≤ beta / 2 * ((n : ℝ) - (i : ℕ)) := fun i => by
    have : ((i : ℕ) : ℝ) ≤ n := by exact_mod_cast i.2.le
    have : 0 ≤ (n : ℝ) - (i : ℕ) := by linarith
    positivity
  have hpos' : ∀ i : Fin (n + 1), 0 ≤ beta / 2 * (((m + 1 : ℕ) : ℝ) - (i : ℕ)) := fun i => by
    have : ((i : ℕ) : ℝ) ≤ ((m + 1 : ℕ) : ℝ) := by exact_mod_cast (i.2.le.trans (by omega))
    have : 0 ≤ ((m + 1 : ℕ) : ℝ) - (i : ℕ) := by linarith
    positivity
  have : ∀ i : Fin n, IsProbabilityMeasure (RP.gammaLaw (beta / 2 * ((n : ℝ) - (i : ℕ))) 2) := fun i => prob_gammaLaw (hpos i) two_pos
  have : ∀ i : Fin (n + 1), IsProbabilityMeasure (RP.gammaLaw (beta / 2 * (((m + 1 : ℕ) : ℝ) - (i : ℕ))) 2) :=
    fun i => prob_gammaLaw (hpos' i) two_pos
  rw [gammaTridiag, if_neg (by simpa using hb)]
  have hcond : ¬ ((∃ i : Fin (n + 1 - 1), 0.5 * beta * (((n + 1 : ℕ) : ℝ) - 1 - (i : ℕ)) < 0) ∨ (2 : ℝ) < 0) := by
    rintro (⟨i, h⟩ | h)
    · rw [hsh i] at h
      exact absurd h (not_lt.2 (hpos i))
    · norm_num at h
  have hcond' : ¬ ((∃ i : Fin (n + 1), 0.5 * beta * (((n + 1 : ℕ) : ℝ) - 1 - (i : ℕ))
      + beta / 2 * (((m + 1 : ℕ) : ℝ) - ((n + 1 : ℕ) : ℝ) + 1) < 0) ∨ (2 : ℝ) < 0) := by
    rintro (⟨i, h⟩ | h)
    · rw [hsh' i] at h
      exact absurd h (not_lt.2 (hpos' i))
    · norm_num at h
  simp only [RP.map, RP.law, if_neg hcond, if_neg hcond']
  rw [← bind_two _ _ (F := fun a b => bandPtsL la n a b) hm (fun a => Filter.Eventually.of_forall fun b => rfl)]
  refine congrArg₂ _ (congrArg _ (funext fun i => by rw [hsh' i])) (funext fun a => ?_)
  refine congrArg₂ _ ?_ rfl
  exact congrArg _ (funext fun i => by rw [hsh i])

theorem laguerreFull_law_one {la : LA} {n m : ℕ} (hm : Measurable (fun x : Fin (n + 1) × Fin (m + 1) → ℂ => gramPts la (mat x))) :
    ((laguerreSamplerFull la (m + 1) (n + 1) 1).map (toVec (n + 1))).law
      = (Measure.pi fun _ : Fin (n + 1) × Fin (m + 1) => gam1).map (fun x => gramPts la (mat x)) := by
  rw [laguerreSamplerFull, ginDraw, if_pos rfl]
  simp only [RP.map, RP.law]
  rw [if_neg (not_lt.2 zero_le_one), one_pow, Real.toNNReal_one, ← law_asMat,
    Measure.map_map hm (measurable_asMat _ _), ← Measure.bind_dirac_eq_map _ (hm.comp (measurable_asMat _ _))]
  rfl

theorem laguerreFull_law_two {la : LA} {n m : ℕ} (hm : Measurable (fun x : Fin (n + 1) × Fin (m + 1) → ℂ => gramPts la (mat x))) :
    ((laguerreSamplerFull la (m + 1) (n + 1) 2).map (toVec (n + 1))).law
      = (Measure.pi fun _ : Fin (n + 1) × Fin (m + 1) => gam2).map (fun x => gramPts la (mat x)) := by
  rw [laguerreSamplerFull, ginDraw, if_neg (by norm_num), if_pos rfl]
  simp only [RP.map, RP.law, if_neg (show ¬ (1 : ℝ) < 0 by norm_num)]
  rw [one_pow, Real.toNNReal_one, ← law_cplxMat,
    Measure.map_map hm (measurable_cplxMat _ _), ← bind_two _ _
      (F := fun x y => gramPts la (mat (unmat (cplxMat (n + 1) (m + 1) x y)))) (hm.comp (measurable_cplxMat _ _))
      (fun a => Filter.Eventually.of_forall fun b => rfl)]
  rfl

end Verif.Lemmas

namespace Verif.Props
open Finset MeasureTheory ProbabilityTheory Verif.Model Verif.Spec Verif.Lemmas

/-- **C83**. For `beta = 1`, `beta = 2` and `1 <= N <= M` the eigenvalues returned by the full matrix model have the same law as the
points of the banded model with `shape = beta/2 (M - N + 1)` and `scale = 2`. -/
theorem C83_laguerre_full_eq_banded {la : LA} (hla : LAOK la) {beta : ℝ} (hb : beta = 1 ∨ beta = 2) {N M : ℕ} (hN : 1 ≤ N) (hM : N ≤ M) :
    ((laguerreSamplerFull la M N beta).map (toVec N)).law
      = ((gammaTridiag la (beta / 2 * ((M : ℝ) - N + 1)) 2 beta N).map (toVec N)).law := by
  obtain ⟨n, rfl⟩ : ∃ n, N = n + 1 := ⟨N - 1, by omega⟩
  obtain ⟨m, rfl⟩ : ∃ m, M = m + 1 := ⟨M - 1, by omega⟩
  have hnm : n ≤ m := by omega
  rcases hb with rfl | rfl
  · obtain ⟨h1, h2, h3⟩ := laguerre_pts_law hla gaussOK_one zero_le_one hnm
    rw [laguerreFull_law_one h1, gammaTridiag_law one_pos hnm h2, h3]
  · obtain ⟨h1, h2, h3⟩ := laguerre_pts_law hla gaussOK_two zero_le_two hnm
    rw [laguerreFull_law_two h1, gammaTridiag_law two_pos hnm h2, h3]

/-- **C83**. For `beta = 1`, `beta = 2` and `1 <= N <= M` the eigenvalues returned by the full matrix model follow the beta ensemble
with reference measure `Gamma(beta/2 (M - N + 1), 2)`. -/
theorem C83_laguerre_full_law {la : LA} (hla : LAOK la) {beta : ℝ} (hb : beta = 1 ∨ beta = 2) {N M : ℕ} (hN : 1 ≤ N) (hM : N ≤ M) :
    IsBetaEnsemble ((laguerreSamplerFull la M N beta).map (toVec N)).law beta
      (fun x => if 0 < x then x ^ (beta / 2 * ((M : ℝ) - N + 1) - 1) * Real.exp (-x / 2) else 0) := by
  have hb0 : 0 < beta := by rcases hb with rfl | rfl <;> norm_num
  have hsh : 0 < beta / 2 * ((M : ℝ) - N + 1) := by
    have : (N : ℝ) ≤ M := by exact_mod_cast hM
    have : 0 < (M : ℝ) - N + 1 := by linarith
    positivity
  rw [C83_laguerre_full_eq_banded hla hb hN hM]
  exact C80_laguerre_banded_law hla hsh two_pos hb0 hN

/-- **C83** for `LaguerreEnsemble.sample_full_model(size_N, size_M)`: whatever calls were made before on the object. -/
theorem C83_laguerre_full_method {la : LA} (hla : LAOK la) {st : EnsSt} (hk : st.kind = .laguerre) (hb : st.b = 1 ∨ st.b = 2) {N M : ℕ}
    (hN : 1 ≤ N) (hM : N ≤ M) (M2 : ℕ) (h : Haar) :
    ∃ st' p, ensPrep la st (.full N M M2 h) = some (st', p) ∧
      IsBetaEnsemble (p.map (toVecC N)).law st.b
        (fun x => if 0 < x then x ^ (st.b / 2 * ((M : ℝ) - N + 1) - 1) * Real.exp (-x / 2) else 0) := by
  have h0 : st.b ≠ 0 := by rcases hb with h | h <;> rw [h] <;> norm_num
  refine ⟨_, _, by simp only [ensPrep, hk, laguerreFullPrep, if_pos hM, if_neg h0]; rfl, ?_⟩
  rw [map_toC]
  exact C83_laguerre_full_law hla hb hN hM

/-- the hypotheses can be met: an exact solver exists; two eigenvalues of a real Wishart matrix -/
example : ∃ la : LA, LAOK la ∧ IsBetaEnsemble ((laguerreSamplerFull la 4 2 1).map (toVec 2)).law 1
    (fun x => if 0 < x then x ^ ((1 : ℝ) / 2 * (((4 : ℕ) : ℝ) - ((2 : ℕ) : ℝ) + 1) - 1) * Real.exp (-x / 2) else 0) := by
  obtain ⟨la, hla⟩ := exists_LAOK
  exact ⟨la, hla, C83_laguerre_full_law hla (.inl rfl) (by norm_num) (by norm_num)⟩

end Verif.Props
