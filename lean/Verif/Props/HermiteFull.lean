import Verif.Lemmas.GaussHermite
import Verif.Props.BandedClass

/-!
# C82: the full Hermite model has the law of the Hermite ensemble (beta = 1, 2)
-/

namespace Verif.Lemmas
open Finset Matrix MeasureTheory ProbabilityTheory Verif.Model Verif.Spec

theorem toVec_map {N : ℕ} {l : List ℝ} (hl : l.length = N) (f : ℝ → ℝ) (i : Fin N) : toVec N (l.map f) i = f (toVec N l i) := by
  rw [toVec, toVec, List.getD_eq_getElem _ _ (by simp [hl]), List.getD_eq_getElem _ _ (by simp [hl]), List.getElem_map]

/-- the points returned for the matrix `A` -/
noncomputable def hermPts (la : LA) {N : ℕ} (A : Matrix (Fin N) (Fin N) ℂ) : Fin N → ℝ :=
  toVec N ((la.eigvalsh (A + Aᴴ)).map (· / √2))

theorem add_ct_isHermitian {N : ℕ} (A : Matrix (Fin N) (Fin N) ℂ) : (A + Aᴴ).IsHermitian := by
  rw [Matrix.IsHermitian, Matrix.conjTranspose_add, Matrix.conjTranspose_conjTranspose, add_comm]

theorem hermPts_mono {la : LA} (hla : LAOK la) {N : ℕ} (A : Matrix (Fin N) (Fin N) ℂ) : Monotone (hermPts la A) := by
  have hA := add_ct_isHermitian A
  intro i j hij
  rw [hermPts, toVec_map (eig_length hla hA), toVec_map (eig_length hla hA)]
  exact div_le_div_of_nonneg_right (toVec_mono (eig_length hla hA) (hla.eigvalsh_sorted _ hA) hij) (Real.sqrt_nonneg 2)

theorem hermPts_prod {la : LA} (hla : LAOK la) {n : ℕ} (A : Matrix (Fin (n + 1)) (Fin (n + 1)) ℂ) :
    prodT (hermPts la A) = fun t => (cpp (herm A) t).1 := by
  have hA := add_ct_isHermitian A
  have hs : (√2 : ℝ) ≠ 0 := by positivity
  funext t
  have h1 := eig_prod hla hA (√2 * t)
  have h2 : ∀ i, (t : ℝ) - hermPts la A i = (√2)⁻¹ * (√2 * t - toVec (n + 1) (la.eigvalsh (A + Aᴴ)) i) := fun i => by
    rw [hermPts, toVec_map (eig_length hla hA)]
    field_simp
  rw [prodT, prod_congr rfl fun i _ => h2 i, prod_mul_distrib, h1, prod_const, card_univ, Fintype.card_fin, cpp]
  simp only
  have h3 : (t : ℂ) • (1 : Matrix (Fin (n + 1)) (Fin (n + 1)) ℂ) - herm A
      = (((√2)⁻¹ : ℝ) : ℂ) • (((√2 * t : ℝ) : ℂ) • (1 : Matrix (Fin (n + 1)) (Fin (n + 1)) ℂ) - (A + Aᴴ)) := by
    rw [smul_sub, smul_smul, herm]
    have e : (((√2)⁻¹ : ℝ) : ℂ) * ((√2 * t : ℝ) : ℂ) = t := by
      rw [← Complex.ofReal_mul, ← mul_assoc, inv_mul_cancel₀ hs, one_mul, Complex.ofReal_natCast]
    rw [e, Complex.ofReal_inv]
  rw [h3, Matrix.det_smul, Fintype.card_fin, ← Complex.ofReal_pow, Complex.re_ofReal_mul]

/-- points of the banded model -/
noncomputable def bandPts (la : LA) (n : ℕ) (a : Fin (n + 1) → ℝ) (b : Fin n → ℝ) : Fin (n + 1) → ℝ :=
  toVec (n + 1) (eigTridiag la (n + 1) (vget a) (fun i => √(vget b i)))

theorem eigTri_mono {la : LA} (hla : LAOK la) (N : ℕ) (d e : ℕ → ℝ) : Monotone (toVec N (eigTridiag la N d e)) :=
  toVec_mono (eig_length hla (tridiag_isHermitian N d e)) (hla.eigvalsh_sorted _ (tridiag_isHermitian N d e))

theorem eigTri_prod {la : LA} (hla : LAOK la) (n : ℕ) (d e : ℕ → ℝ) :
    prodT (toVec (n + 1) (eigTridiag la (n + 1) d e)) = fun t => (cpp ((tridiag (n + 1) d e).map (fun x : ℝ => (x : ℂ))) t).1 := by
  funext t
  have := eig_prod hla (tridiag_isHermitian (n + 1) d e) t
  rw [Complex.ofReal_natCast] at this
  exact this

theorem measurable_fst_proc : Measurable fun (F : ℕ → ℝ × ℝ) t => (F t).1 := by fun_prop

/-- the points of the full and of the banded models have the same law -/
theorem hermite_pts_law {la : LA} (hla : LAOK la) {γ : Measure ℂ} {beta : ℝ} (hγ : GaussOK γ beta) (hb : 0 ≤ beta) (n : ℕ) :
    Measurable (fun x : Fin (n + 1) × Fin (n + 1) → ℂ => hermPts la (mat x)) ∧
    Measurable (fun p : (Fin (n + 1) → ℝ) × (Fin n → ℝ) => bandPts la n p.1 p.2) ∧
    (Measure.pi fun _ : Fin (n + 1) × Fin (n + 1) => γ).map (fun x => hermPts la (mat x))
      = ((Measure.pi fun _ : Fin (n + 1) => gaussianReal 0 (Real.toNNReal 2)).prod
      (Measure.pi fun i : Fin n => RP.gammaLaw (beta / 2 * ((n : ℝ) - (i : ℕ))) 2)).map (fun p => bandPts la n p.1 p.2) := by
  have hm1 : Measurable fun x : Fin (n + 1) × Fin (n + 1) → ℂ => cpp (herm (mat x)) := by
    refine measurable_cpp fun i j => ?_
    simp only [herm_apply, mat, Matrix.of_apply]
    fun_prop
  have hm2 := measurable_cpp_triC n
  have e1 : (fun x : Fin (n + 1) × Fin (n + 1) → ℂ => prodT (hermPts la (mat x)))
      = (fun (F : ℕ → ℝ × ℝ) t => (F t).1) ∘ fun x => cpp (herm (mat x)) := funext fun x => hermPts_prod hla _
  have e2 : (fun p : (Fin (n + 1) → ℝ) × (Fin n → ℝ) => prodT (bandPts la n p.1 p.2))
      = (fun (F : ℕ → ℝ × ℝ) t => (F t).1) ∘ fun p => cpp (triC n p.1 p.2) := funext fun x => eigTri_prod hla _ _ _
  have h1 : Measurable fun x : Fin (n + 1) × Fin (n + 1) → ℂ => prodT (hermPts la (mat x)) := by
    rw [e1]; exact measurable_fst_proc.comp hm1
  have h2 : Measurable fun p : (Fin (n + 1) → ℝ) × (Fin n → ℝ) => prodT (bandPts la n p.1 p.2) := by
    rw [e2]; exact measurable_fst_proc.comp hm2
  have hmo1 : ∀ x : Fin (n + 1) × Fin (n + 1) → ℂ, Monotone (hermPts la (mat x)) := fun x => hermPts_mono hla _
  have hmo2 : ∀ p : (Fin (n + 1) → ℝ) × (Fin n → ℝ), Monotone (bandPts la n p.1 p.2) := fun p => eigTri_mono hla _ _ _
  refine ⟨measurable_sorted hmo1 h1, measurable_sorted hmo2 h2, sorted_law hmo1 hmo2 h1 h2 ?_⟩
  rw [e1, e2, ← Measure.map_map measurable_fst_proc hm1, ← Measure.map_map measurable_fst_proc hm2, full_lawH hγ, band_lawH hb]

theorem normalTridiag_law {la : LA} {beta : ℝ} (hb : 0 < beta) {n : ℕ}
    (hm : Measurable (fun p : (Fin (n + 1) → ℝ) × (Fin n → ℝ) => bandPts la n p.1 p.2)) :
    ((normalTridiag la 0 √2 beta (n + 1)).map (toVec (n + 1))).law
      = ((Measure.pi fun _ : Fin (n + 1) => gaussianReal 0 (Real.toNNReal 2)).prod
      (Measure.pi fun i : Fin n => RP.gammaLaw (beta / 2 * ((n : ℝ) - (i : ℕ))) 2)).map (fun p => bandPts la n p.1 p.2) := by
  have h2 : (√2 : ℝ) ^ 2 = 2 := Real.sq_sqrt (by norm_num)
  have hsh : ∀ i : Fin n, 0.5 * beta * (((n + 1 : ℕ) : ℝ) - 1 - (i : ℕ)) = beta / 2 * ((n : ℝ) - (i : ℕ)) := fun i => by
    push_cast; ring
  have hpos : ∀ i : Fin n, 0 ≤ beta / 2 * ((n : ℝ) - (i : ℕ)) := fun i => by
    have : ((i : ℕ) : ℝ) ≤ n := by exact_mod_cast i.2.le
    have : 0 ≤ (n : ℝ) - (i : ℕ) := by linarith
    positivity
  have : ∀ i : Fin n, IsProbabilityMeasure (RP.gammaLaw (beta / 2 * ((n : ℝ) - (i : ℕ))) 2) := fun i => prob_gammaLaw (hpos i) two_pos
  rw [normalTridiag, if_neg (by simpa using hb)]
  have hcond : ¬ ((∃ i : Fin (n + 1 - 1), 0.5 * beta * (((n + 1 : ℕ) : ℝ) - 1 - (i : ℕ)) < 0) ∨ (2 : ℝ) < 0) := by
    rintro (⟨i, h⟩ | h)
    · rw [hsh i] at h
      exact absurd h (not_lt.2 (hpos i))
    · norm_num at h
  simp only [RP.map, RP.law, h2, if_neg hcond]
  rw [if_neg (not_lt.2 (Real.sqrt_nonneg 2))]
  rw [← bind_two _ _ (F := fun a b => bandPts la n a b) hm (fun a => Filter.Eventually.of_forall fun b => rfl)]
  refine congrArg₂ _ rfl (funext fun a => ?_)
  refine congrArg₂ _ ?_ rfl
  exact congrArg _ (funext fun i => by rw [hsh i])

theorem hermiteFull_law_one {la : LA} {n : ℕ} (hm : Measurable (fun x : Fin (n + 1) × Fin (n + 1) → ℂ => hermPts la (mat x))) :
    ((hermiteSamplerFull la (n + 1) 1).map (toVec (n + 1))).law
      = (Measure.pi fun _ : Fin (n + 1) × Fin (n + 1) => gam1).map (fun x => hermPts la (mat x)) := by
  rw [hermiteSamplerFull, ginDraw, if_pos rfl]
  simp only [RP.map, RP.law]
  rw [if_neg (not_lt.2 zero_le_one), one_pow, Real.toNNReal_one, ← law_asMat,
    Measure.map_map hm (measurable_asMat _ _), ← Measure.bind_dirac_eq_map _ (hm.comp (measurable_asMat _ _))]
  rfl

theorem hermiteFull_law_two {la : LA} {n : ℕ} (hm : Measurable (fun x : Fin (n + 1) × Fin (n + 1) → ℂ => hermPts la (mat x))) :
    ((hermiteSamplerFull la (n + 1) 2).map (toVec (n + 1))).law
      = (Measure.pi fun _ : Fin (n + 1) × Fin (n + 1) => gam2).map (fun x => hermPts la (mat x)) := by
  rw [hermiteSamplerFull, ginDraw, if_neg (by norm_num), if_pos rfl]
  simp only [RP.map, RP.law, if_neg (show ¬ (1 : ℝ) < 0 by norm_num)]
  rw [one_pow, Real.toNNReal_one, ← law_cplxMat,
    Measure.map_map hm (measurable_cplxMat _ _), ← bind_two _ _
      (F := fun x y => hermPts la (mat (unmat (cplxMat (n + 1) (n + 1) x y)))) (hm.comp (measurable_cplxMat _ _))
      (fun a => Filter.Eventually.of_forall fun b => rfl)]
  rfl

end Verif.Lemmas

namespace Verif.Props
open Finset MeasureTheory ProbabilityTheory Verif.Model Verif.Spec Verif.Lemmas

/-- **C82**. For `beta = 1` and `beta = 2` the eigenvalues returned by the full matrix model have the same law as the points of the
banded model with its default parameters `loc = 0`, `scale = sqrt(2)`. -/
theorem C82_hermite_full_eq_banded {la : LA} (hla : LAOK la) {beta : ℝ} (hb : beta = 1 ∨ beta = 2) {N : ℕ} (hN : 1 ≤ N) :
    ((hermiteSamplerFull la N beta).map (toVec N)).law = ((normalTridiag la 0 √2 beta N).map (toVec N)).law := by
  obtain ⟨n, rfl⟩ : ∃ n, N = n + 1 := ⟨N - 1, by omega⟩
  rcases hb with rfl | rfl
  · obtain ⟨h1, h2, h3⟩ := hermite_pts_law hla gaussOK_one zero_le_one n
    rw [hermiteFull_law_one h1, normalTridiag_law one_pos h2, h3]
  · obtain ⟨h1, h2, h3⟩ := hermite_pts_law hla gaussOK_two zero_le_two n
    rw [hermiteFull_law_two h1, normalTridiag_law two_pos h2, h3]

/-- **C82**. For `beta = 1` and `beta = 2` the eigenvalues returned by the full matrix model follow the beta ensemble with reference
measure `N(0, 2)`. -/
theorem C82_hermite_full_law {la : LA} (hla : LAOK la) {beta : ℝ} (hb : beta = 1 ∨ beta = 2) {N : ℕ} (hN : 1 ≤ N) :
    IsBetaEnsemble ((hermiteSamplerFull la N beta).map (toVec N)).law beta (fun x => Real.exp (-x ^ 2 / 4)) := by
  have h := C79_hermite_banded_law hla 0 (scale := √2) (beta := beta) (by positivity) (by rcases hb with rfl | rfl <;> norm_num) hN
  rw [C82_hermite_full_eq_banded hla hb hN]
  have e : (fun x : ℝ => Real.exp (-(x - 0) ^ 2 / (2 * (√2) ^ 2))) = fun x => Real.exp (-x ^ 2 / 4) := by
    funext x
    rw [Real.sq_sqrt (by norm_num), sub_zero]
    norm_num
  rw [e] at h
  exact h

/-- **C82** for `HermiteEnsemble.sample_full_model(size_N)`: whatever calls were made before on the object; for `beta = 0` the points
are independent with law `N(0, 2)`. -/
theorem C82_hermite_full_method {la : LA} (hla : LAOK la) {st : EnsSt} (hk : st.kind = .hermite) {N : ℕ} (hN : 1 ≤ N) (M1 M2 : ℕ)
    (h : Haar) :
    ∃ st' p, ensPrep la st (.full N M1 M2 h) = some (st', p) ∧
      (st.b = 1 ∨ st.b = 2 → IsBetaEnsemble (p.map (toVecC N)).law st.b (fun x => Real.exp (-x ^ 2 / 4))) ∧
      (st.b = 0 → (p.map (toVecC N)).law = Measure.pi fun _ => gaussianReal 0 (Real.toNNReal 2)) := by
  refine ⟨_, _, by simp only [ensPrep, hk, hermiteFullPrep]; rfl, fun hb => ?_, fun hb => ?_⟩
  · have h0 : st.b ≠ 0 := by rcases hb with h | h <;> rw [h] <;> norm_num
    rw [if_neg h0, map_toC]
    exact C82_hermite_full_law hla hb hN
  · rw [if_pos hb]
    simp only [RP.map, RP.law, toVecC_vecC, if_neg (not_lt.2 (Real.sqrt_nonneg 2)), Real.sq_sqrt zero_le_two]
    exact pi_bind_self _

/-- the hypotheses can be met: an exact solver exists; three points of the Gaussian unitary ensemble -/
example : ∃ la : LA, LAOK la ∧ IsBetaEnsemble ((hermiteSamplerFull la 3 2).map (toVec 3)).law 2 (fun x => Real.exp (-x ^ 2 / 4)) := by
  obtain ⟨la, hla⟩ := exists_LAOK
  exact ⟨la, hla, C82_hermite_full_law hla (.inr rfl) (by norm_num)⟩

end Verif.Props
