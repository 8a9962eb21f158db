import Verif.Lemmas.Boo2
import Mathlib.Analysis.InnerProductSpace.l2Space
import Mathlib.Analysis.InnerProductSpace.Adjoint
import Mathlib.Analysis.InnerProductSpace.GramMatrix
import Mathlib.Analysis.Normed.Algebra.Exponential
import Mathlib.Analysis.SpecialFunctions.Exponential
import Mathlib.Analysis.CStarAlgebra.ContinuousLinearMap

/-!
The exponentials of the two shifts of `ℓ²(ℤ)`.
-/

set_option linter.unusedVariables false

namespace Verif.Lemmas
open scoped InnerProductSpace

variable {H : Type*} [NormedAddCommGroup H] [InnerProductSpace ℝ H] [CompleteSpace H]

/-- the Hilbert basis translated by one -/
noncomputable def shiftBasis (b : HilbertBasis ℤ ℝ H) : HilbertBasis ℤ ℝ H :=
  HilbertBasis.mk (v := fun k => b (k - 1)) (b.orthonormal.comp (fun k : ℤ => k - 1) fun x y h => by simpa using h) (by
    have : Set.range (fun k : ℤ => b (k - 1)) = Set.range b := (Equiv.subRight (1 : ℤ)).surjective.range_comp b
    rw [this, b.dense_span])

theorem shiftBasis_apply (b : HilbertBasis ℤ ℝ H) (k : ℤ) : shiftBasis b k = b (k - 1) := by
  unfold shiftBasis; rw [HilbertBasis.coe_mk]

/-- the shift `e_k ↦ e_{k-1}` -/
noncomputable def shiftE (b : HilbertBasis ℤ ℝ H) : H ≃ₗᵢ[ℝ] H := b.repr.trans (shiftBasis b).repr.symm

theorem shiftE_apply (b : HilbertBasis ℤ ℝ H) (k : ℤ) : shiftE b (b k) = b (k - 1) := by
  classical
  unfold shiftE
  rw [LinearIsometryEquiv.trans_apply, b.repr_self, (shiftBasis b).repr_symm_single, shiftBasis_apply]

/-- as an element of the algebra of operators -/
noncomputable def Sc (b : HilbertBasis ℤ ℝ H) : H →L[ℝ] H := ((shiftE b).toContinuousLinearEquiv : H →L[ℝ] H)

noncomputable def Sd (b : HilbertBasis ℤ ℝ H) : H →L[ℝ] H := ((shiftE b).symm.toContinuousLinearEquiv : H →L[ℝ] H)

theorem Sc_apply (b : HilbertBasis ℤ ℝ H) (k : ℤ) : Sc b (b k) = b (k - 1) := shiftE_apply b k

theorem Sd_apply (b : HilbertBasis ℤ ℝ H) (k : ℤ) : Sd b (b k) = b (k + 1) := by
  have : (shiftE b).symm (b k) = b (k + 1) := by
    rw [LinearIsometryEquiv.symm_apply_eq, shiftE_apply]; congr 1; ring
  exact this

theorem Sc_mul_Sd (b : HilbertBasis ℤ ℝ H) : Sc b * Sd b = 1 := by
  ext x; exact (shiftE b).apply_symm_apply x

theorem Sd_mul_Sc (b : HilbertBasis ℤ ℝ H) : Sd b * Sc b = 1 := by
  ext x; exact (shiftE b).symm_apply_apply x

theorem commute_S (b : HilbertBasis ℤ ℝ H) : Commute (Sc b) (Sd b) := by
  rw [Commute, SemiconjBy, Sc_mul_Sd, Sd_mul_Sc]

theorem star_Sc (b : HilbertBasis ℤ ℝ H) : star (Sc b) = Sd b := by
  rw [ContinuousLinearMap.star_eq_adjoint]
  symm
  rw [ContinuousLinearMap.eq_adjoint_iff]
  intro x y
  have h1 : Sd b x = (shiftE b).symm x := rfl
  have h2 : Sc b y = (shiftE b) y := rfl
  rw [h1, h2, ← (shiftE b).inner_map_map, (shiftE b).apply_symm_apply]

theorem star_Sd (b : HilbertBasis ℤ ℝ H) : star (Sd b) = Sc b := by rw [← star_Sc, star_star]

theorem Sc_pow_apply (b : HilbertBasis ℤ ℝ H) (m : ℕ) (k : ℤ) : (Sc b ^ m) (b k) = b (k - m) := by
  induction m with
  | zero => simp
  | succ m ih => rw [pow_succ', mul_apply_eq_comp, ih, Sc_apply]; congr 1; push_cast; ring

theorem Sd_pow_apply (b : HilbertBasis ℤ ℝ H) (m : ℕ) (k : ℤ) : (Sd b ^ m) (b k) = b (k + m) := by
  induction m with
  | zero => simp
  | succ m ih => rw [pow_succ', mul_apply_eq_comp, ih, Sd_apply]; congr 1; push_cast; ring

/-- the exponential series applied to a vector -/
theorem hasSum_exp_apply (r : ℝ) (A : H →L[ℝ] H) (x : H) :
    HasSum (fun m : ℕ => (r ^ m / (m.factorial : ℝ)) • (A ^ m) x) (NormedSpace.exp (r • A) x) := by
  have h := NormedSpace.exp_series_hasSum_exp' (𝕂 := ℝ) (r • A)
  have h2 := (ContinuousLinearMap.apply ℝ H x).hasSum h
  refine h2.congr_fun ?_ |> fun x => x
  intro m
  rw [ContinuousLinearMap.apply_apply, ContinuousLinearMap.smul_apply, smul_pow, ContinuousLinearMap.smul_apply, smul_smul]
  congr 1
  field_simp

noncomputable local instance : NormedAlgebra ℚ (H →L[ℝ] H) := NormedAlgebra.restrictScalars ℚ ℝ _

/-- `exp(r (S* - S))` -/
noncomputable def opU (b : HilbertBasis ℤ ℝ H) (r : ℝ) : H →L[ℝ] H := NormedSpace.exp (r • Sd b + (-r) • Sc b)

theorem opU_eq (b : HilbertBasis ℤ ℝ H) (r : ℝ) : opU b r = NormedSpace.exp ((-r) • Sc b) * NormedSpace.exp (r • Sd b) := by
  unfold opU
  rw [add_comm]
  exact NormedSpace.exp_add_of_commute (((commute_S b).smul_left _).smul_right _)

theorem exp_mul_opU (b : HilbertBasis ℤ ℝ H) (r : ℝ) : NormedSpace.exp (r • Sc b) * opU b r = NormedSpace.exp (r • Sd b) := by
  rw [opU_eq, ← mul_assoc, ← NormedSpace.exp_add_of_commute (((Commute.refl _).smul_left _).smul_right _), neg_smul, add_neg_cancel,
    NormedSpace.exp_zero, one_mul]

theorem star_opU_mul (b : HilbertBasis ℤ ℝ H) (r : ℝ) : star (opU b r) * opU b r = 1 := by
  unfold opU
  rw [NormedSpace.star_exp]
  have h : star (r • Sd b + (-r) • Sc b) = -(r • Sd b + (-r) • Sc b) := by
    rw [star_add, star_smul, star_smul, star_Sd, star_Sc]
    simp only [star_trivial, neg_smul, neg_add, neg_neg]
    abel
  have key : ∀ X : H →L[ℝ] H, NormedSpace.exp (-X) * NormedSpace.exp X = 1 := fun X => by
    rw [← NormedSpace.exp_add_of_commute (Commute.refl X).neg_left, neg_add_cancel, NormedSpace.exp_zero]
  rw [h, key]

/-- the vectors -/
noncomputable def vv (b : HilbertBasis ℤ ℝ H) (r : ℝ) (j : ℕ) : H := (Sc b ^ j) (NormedSpace.exp (r • Sd b) (b 0))

noncomputable def uu (b : HilbertBasis ℤ ℝ H) (r : ℝ) (j : ℕ) : H := (Sc b ^ j) (opU b r (b 0))

theorem opU_commute (b : HilbertBasis ℤ ℝ H) (r : ℝ) : Commute (Sc b) (opU b r) := by
  unfold opU
  exact Commute.exp_right (Commute.add_right ((commute_S b).smul_right _) ((Commute.refl _).smul_right _))

theorem uu_eq (b : HilbertBasis ℤ ℝ H) (r : ℝ) (j : ℕ) : uu b r j = opU b r (b (-j)) := by
  unfold uu
  rw [← mul_apply_eq_comp, ((opU_commute b r).pow_left j).eq, mul_apply_eq_comp, Sc_pow_apply, zero_sub]

theorem vv_eq (b : HilbertBasis ℤ ℝ H) (r : ℝ) (j : ℕ) : vv b r j = NormedSpace.exp (r • Sd b) (b (-j)) := by
  unfold vv
  rw [← mul_apply_eq_comp, ((Commute.exp_right ((commute_S b).smul_right r)).pow_left j).eq, mul_apply_eq_comp, Sc_pow_apply, zero_sub]

theorem orthonormal_uu (b : HilbertBasis ℤ ℝ H) (r : ℝ) : Orthonormal ℝ (uu b r) := by
  classical
  rw [orthonormal_iff_ite]
  intro i j
  rw [uu_eq, uu_eq, ← ContinuousLinearMap.adjoint_inner_left, ← ContinuousLinearMap.star_eq_adjoint, ← mul_apply_eq_comp, star_opU_mul,
    ContinuousLinearMap.one_apply, orthonormal_iff_ite.1 b.orthonormal]
  exact if_congr (by omega) rfl rfl

theorem linearIndependent_vv (b : HilbertBasis ℤ ℝ H) (r : ℝ) : LinearIndependent ℝ (vv b r) := by
  have h1 : LinearIndependent ℝ (fun j : ℕ => b (-(j : ℤ))) :=
    (b.orthonormal.comp (fun j : ℕ => -(j : ℤ)) fun x y h => by simpa using h).linearIndependent
  have h2 : vv b r = (NormedSpace.exp (r • Sd b) : H →L[ℝ] H).toLinearMap ∘ fun j : ℕ => b (-(j : ℤ)) := funext fun j => vv_eq b r j
  rw [h2]
  refine h1.map' _ (LinearMap.ker_eq_bot.2 ?_)
  intro x y h
  have h3 : NormedSpace.exp ((-r) • Sd b) * NormedSpace.exp (r • Sd b) = 1 := by
    rw [← NormedSpace.exp_add_of_commute (((Commute.refl _).smul_left _).smul_right _), neg_smul, neg_add_cancel, NormedSpace.exp_zero]
  have h4 := congrArg (NormedSpace.exp ((-r) • Sd b) : H →L[ℝ] H) h
  change (NormedSpace.exp ((-r) • Sd b) * NormedSpace.exp (r • Sd b)) x = (NormedSpace.exp ((-r) • Sd b) * NormedSpace.exp (r • Sd b)) y at h4
  rwa [h3] at h4

/-- `r^k / k!`, zero for negative `k` -/
noncomputable def pw (r : ℝ) (k : ℤ) : ℝ := r ^ k.toNat * ifac k

theorem inner_vv (b : HilbertBasis ℤ ℝ H) (r : ℝ) (x : ℤ) (j : ℕ) : ⟪b x, vv b r j⟫_ℝ = pw r (x + j) := by
  classical
  rw [vv_eq]
  have h := (hasSum_exp_apply r (Sd b) (b (-(j : ℤ)))).mapL (innerSL ℝ (b x))
  have h2 : ∀ m : ℕ, innerSL ℝ (b x) ((r ^ m / (m.factorial : ℝ)) • (Sd b ^ m) (b (-(j : ℤ)))) = if (m : ℤ) = x + j then pw r (x + j) else 0 := fun m => by
    rw [Sd_pow_apply, innerSL_apply_apply, inner_smul_right, orthonormal_iff_ite.1 b.orthonormal]
    by_cases hm : (m : ℤ) = x + j
    · rw [if_pos (by omega), if_pos hm, mul_one, ← hm]
      simp [pw, ifac, div_eq_mul_inv]
    · rw [if_neg (by omega), if_neg hm, mul_zero]
  simp_rw [h2] at h
  rw [innerSL_apply_apply] at h
  refine h.unique ?_
  by_cases hx : 0 ≤ x + j
  · obtain ⟨n, hn⟩ : ∃ n : ℕ, (n : ℤ) = x + j := ⟨(x + j).toNat, by omega⟩
    have := hasSum_ite_eq n (pw r (x + j))
    refine this.congr_fun ?_ |> fun x => x
    intro m
    exact if_congr (by omega) rfl rfl
  · have h0 : pw r (x + j) = 0 := by unfold pw; rw [ifac_neg (by omega), mul_zero]
    rw [h0]
    simpa using hasSum_zero

theorem Sc_pow_vv (b : HilbertBasis ℤ ℝ H) (r : ℝ) (m j : ℕ) : (Sc b ^ m) (vv b r j) = vv b r (j + m) := by
  unfold vv
  rw [← mul_apply_eq_comp, ← pow_add, add_comm]

theorem Sc_pow_uu (b : HilbertBasis ℤ ℝ H) (r : ℝ) (m j : ℕ) : (Sc b ^ m) (uu b r j) = uu b r (j + m) := by
  unfold uu
  rw [← mul_apply_eq_comp, ← pow_add, add_comm]

theorem hasSum_uu (b : HilbertBasis ℤ ℝ H) (r : ℝ) (j : ℕ) :
    HasSum (fun m : ℕ => ((-r) ^ m / (m.factorial : ℝ)) • vv b r (j + m)) (uu b r j) := by
  have h := hasSum_exp_apply (-r) (Sc b) (vv b r j)
  simp_rw [Sc_pow_vv] at h
  have e : NormedSpace.exp ((-r) • Sc b) (vv b r j) = uu b r j := by
    rw [vv_eq, ← mul_apply_eq_comp, ← opU_eq, uu_eq]
  rwa [e] at h

theorem hasSum_vv (b : HilbertBasis ℤ ℝ H) (r : ℝ) (j : ℕ) :
    HasSum (fun m : ℕ => (r ^ m / (m.factorial : ℝ)) • uu b r (j + m)) (vv b r j) := by
  have h := hasSum_exp_apply r (Sc b) (uu b r j)
  simp_rw [Sc_pow_uu] at h
  have e : NormedSpace.exp (r • Sc b) (uu b r j) = vv b r j := by
    rw [uu_eq, ← mul_apply_eq_comp, exp_mul_opU, vv_eq]
  rwa [e] at h

theorem hasSum_inner_uu (b : HilbertBasis ℤ ℝ H) (r : ℝ) (x : ℤ) (j : ℕ) :
    HasSum (fun m : ℕ => (-r) ^ m / (m.factorial : ℝ) * pw r (x + j + m)) ⟪b x, uu b r j⟫_ℝ := by
  have h := (hasSum_uu b r j).mapL (innerSL ℝ (b x))
  simp only [innerSL_apply_apply, inner_smul_right, inner_vv] at h
  refine h.congr_fun ?_ |> fun x => x
  intro m
  push_cast
  rw [add_assoc]

end Verif.Lemmas
