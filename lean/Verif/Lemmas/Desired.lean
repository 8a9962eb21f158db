import Verif.Lemmas.MeanSize
import Verif.Lemmas.Sampler

/-!
The quantity `s` computed by the vfx pre-computation is an upper bound of the expected size of `DPP(α L)`.
-/

namespace Verif.Lemmas.Desired
open Verif Verif.Spec Verif.Model Verif.Lemmas.MeanSize Matrix
open scoped ENNReal

variable {n : ℕ} {L H : Matrix (Fin n) (Fin n) ℝ} {num : Numerics}

theorem psd_of_t {m : ℕ} {A : Matrix (Fin n) (Fin n) ℝ} (hA : A.PosSemidef) (F : Matrix (Fin n) (Fin m) ℝ) :
    (Fᵀ * A * F).PosSemidef := by
  have := hA.conjTranspose_mul_mul_same F
  simpa using this

/-- the gap between the estimate and the expected size -/
theorem trace_gap {a : ℝ} (ha : 0 < a) (hH : H.PosSemidef) (hP : (L - H).PosSemidef) :
    meanSize (lDppProb (a • L)) ≤ a * (L.trace - H.trace) + (n - ((1 + a • H)⁻¹).trace) ∧
      (L ≠ H → meanSize (lDppProb (a • L)) < a * (L.trace - H.trace) + (n - ((1 + a • H)⁻¹).trace)) := by
  have hL : L.PosSemidef := by
    have := hH.add hP
    rwa [add_sub_cancel] at this
  rw [meanSize_lDpp (hL.smul ha.le)]
  obtain ⟨A, hA⟩ : ∃ A, A = 1 + a • H := ⟨_, rfl⟩
  obtain ⟨Z, hZ⟩ : ∃ Z, Z = 1 + a • L := ⟨_, rfl⟩
  obtain ⟨P, hPd⟩ : ∃ P, P = a • (L - H) := ⟨_, rfl⟩
  have hAP : Z = A + P := by
    rw [hA, hZ, hPd, smul_sub]
    abel
  have hAdet : A.det ≠ 0 := by rw [hA]; exact (det_one_add_pos (hH.smul ha.le)).ne'
  have hZdet : Z.det ≠ 0 := by rw [hZ]; exact (det_one_add_pos (hL.smul ha.le)).ne'
  have hApsd : A.PosSemidef := by rw [hA]; exact PosSemidef.one.add (hH.smul ha.le)
  have hZpsd : Z.PosSemidef := by rw [hZ]; exact PosSemidef.one.add (hL.smul ha.le)
  have hPpsd : P.PosSemidef := by rw [hPd]; exact hP.smul ha.le
  rw [← hA, ← hZ]
  have hXA : A⁻¹ * A = 1 := nonsing_inv_mul A (isUnit_iff_ne_zero.2 hAdet)
  have hAX : A * A⁻¹ = 1 := mul_nonsing_inv A (isUnit_iff_ne_zero.2 hAdet)
  have hZY : Z * Z⁻¹ = 1 := mul_nonsing_inv Z (isUnit_iff_ne_zero.2 hZdet)
  have hYZ : Z⁻¹ * Z = 1 := nonsing_inv_mul Z (isUnit_iff_ne_zero.2 hZdet)
  have hXpsd : A⁻¹.PosSemidef := hApsd.inv
  have hYpsd : Z⁻¹.PosSemidef := hZpsd.inv
  have hXt : (A⁻¹)ᵀ = A⁻¹ := by simpa [IsHermitian] using hXpsd.1
  have hPt : Pᵀ = P := by simpa [IsHermitian] using hPpsd.1
  obtain ⟨X, hX⟩ : ∃ X, X = A⁻¹ := ⟨_, rfl⟩
  obtain ⟨Y, hY⟩ : ∃ Y, Y = Z⁻¹ := ⟨_, rfl⟩
  rw [← hX] at hXA hAX hXpsd hXt ⊢
  rw [← hY] at hZY hYZ hYpsd ⊢
  -- X - Y = X P X - (P X)ᵀ Y (P X)
  have h1 : X - Y = X * P * X - (P * X)ᵀ * Y * (P * X) := by
    have e1 : X - Y = X * P * Y := by
      have : P = Z - A := by rw [hAP]; abel
      rw [this, Matrix.mul_sub, Matrix.sub_mul, hXA, Matrix.one_mul, Matrix.mul_assoc, hZY, Matrix.mul_one]
    have e2 : Y = X - Y * P * X := by
      have : P = Z - A := by rw [hAP]; abel
      rw [this, Matrix.mul_sub, Matrix.sub_mul, hYZ, Matrix.one_mul, Matrix.mul_assoc, hAX, Matrix.mul_one]
      abel
    rw [transpose_mul, hPt, hXt]
    conv_lhs => rw [e1, e2]
    rw [Matrix.mul_sub]
    simp only [Matrix.mul_assoc]
  -- tr (X P X) ≤ tr P
  have h2 : (X * P * X).trace ≤ P.trace := by
    obtain ⟨F, hF⟩ := psd_factor hPpsd
    have e1 : (X * P * X).trace = (F * (X * X) * Fᵀ).trace := by
      rw [hF, trace_mul_comm, show X * (X * (Fᵀ * F)) = (X * X * Fᵀ) * F by simp only [Matrix.mul_assoc],
        trace_mul_comm, show F * (X * X * Fᵀ) = F * (X * X) * Fᵀ by simp only [Matrix.mul_assoc]]
    have e2 : P.trace = (F * 1 * Fᵀ).trace := by rw [hF, Matrix.mul_one, trace_mul_comm]
    have e3 : (1 - X * X).PosSemidef := by
      have e4 : 1 - X * X = Xᵀ * (A * A - 1) * X := by
        rw [hXt, Matrix.mul_sub, Matrix.sub_mul, Matrix.mul_one, ← Matrix.mul_assoc, hXA, Matrix.one_mul, hAX]
      have e5 : A * A - 1 = (2 * a) • H + (a * a) • (Hᵀ * H) := by
        have hHt : Hᵀ = H := by simpa [IsHermitian] using hH.1
        rw [hA, hHt, Matrix.add_mul, Matrix.one_mul, Matrix.mul_add, Matrix.mul_one, Matrix.smul_mul, Matrix.mul_smul, two_mul, add_smul,
          smul_smul]
        abel
      rw [e4]
      refine psd_of_t ?_ X
      rw [e5]
      refine (hH.smul (by positivity)).add (PosSemidef.smul ?_ (by positivity))
      have := posSemidef_conjTranspose_mul_self H
      simpa using this
    have e6 : 0 ≤ (F * (1 - X * X) * Fᵀ).trace := by
      have := (psd_of_t e3 Fᵀ).trace_nonneg
      rwa [transpose_transpose] at this
    rw [Matrix.mul_sub, Matrix.sub_mul, trace_sub] at e6
    rw [e1, e2]
    linarith
  have h3 := psd_of_t hYpsd (P * X)
  have h4 := h3.trace_nonneg
  have h5 : X.trace - Y.trace = (X * P * X).trace - ((P * X)ᵀ * Y * (P * X)).trace := by
    rw [← trace_sub, h1, trace_sub]
  have h6 : P.trace = a * (L.trace - H.trace) := by rw [hPd, trace_smul, trace_sub, smul_eq_mul]
  refine ⟨by linarith, fun hne => ?_⟩
  refine lt_of_le_of_ne (by linarith) fun heq => ?_
  have h7 : ((P * X)ᵀ * Y * (P * X)).trace = 0 := by linarith
  have h8 : (P * X)ᵀ * Y * (P * X) = 0 := h3.trace_eq_zero_iff.1 h7
  obtain ⟨F, hF⟩ := psd_factor hYpsd
  have h9 : F * (P * X) = 0 := by
    refine conjTranspose_mul_self_eq_zero.1 ?_
    rw [conjTranspose_eq_transpose_of_trivial, transpose_mul, ← h8, hF]
    simp only [Matrix.mul_assoc]
  have h10 : Y * (P * X) = 0 := by rw [hF, Matrix.mul_assoc, h9, Matrix.mul_zero]
  have h11 : P = 0 := by
    calc P = (Z * Y) * P * (X * A) := by rw [hZY, hXA, Matrix.one_mul, Matrix.mul_one]
      _ = Z * (Y * (P * X)) * A := by simp only [Matrix.mul_assoc]
      _ = 0 := by rw [h10]; simp
  apply hne
  rw [hPd] at h11
  have := (smul_eq_zero.1 h11).resolve_left ha.ne'
  exact sub_eq_zero.1 this

section Embed
variable {m : ℕ} {B : Fin m → Fin n → ℝ} {Q : Matrix (Fin n) (Fin m) ℝ} {R : Matrix (Fin n) (Fin n) ℝ}

/-- the Nyström approximation `L_hat`, from the rotated embedded points -/
noncomputable def nysHat (num : Numerics) (B : Fin m → Fin n → ℝ) : Matrix (Fin m) (Fin n) ℝ :=
  Matrix.of fun j i => ∑ a, (num.eigh m (iAmm B)).2 a j * B a i

theorem nysHat_gram (hn : NumericsSpec num) (B : Fin m → Fin n → ℝ) :
    nysHat num B * (nysHat num B)ᵀ = diagonal fun j => (num.eigh m (iAmm B)).1 j - 1 := by
  ext j k
  rw [mul_apply, diagonal_apply]
  exact eig_quad hn B j k

theorem nysHat_trace (hn : NumericsSpec num) (B : Fin m → Fin n → ℝ) :
    ((nysHat num B)ᵀ * nysHat num B).trace = ∑ i, ∑ a, B a i ^ 2 := by
  rw [Matrix.trace]
  refine Finset.sum_congr rfl fun i _ => ?_
  rw [sum_sq_rot hn B i, diag_apply, mul_apply]
  exact Finset.sum_congr rfl fun j _ => (sq _).symm

/-- the estimate in terms of the Nyström approximation -/
theorem rootFun_hat (hn : NumericsSpec num) (B : Fin m → Fin n → ℝ) {a : ℝ} (ha : 0 < a) :
    vfxRootFun L B (num.eigh m (iAmm B)).1 0 a
      = a * (L.trace - ((nysHat num B)ᵀ * nysHat num B).trace)
        + (n - ((1 + a • ((nysHat num B)ᵀ * nysHat num B))⁻¹).trace) := by
  have hG : ((nysHat num B)ᵀ)ᵀ * (nysHat num B)ᵀ = diagonal fun j => (num.eigh m (iAmm B)).1 j - 1 := by
    rw [transpose_transpose, nysHat_gram hn]
  have hμ : ∀ j, 0 ≤ (num.eigh m (iAmm B)).1 j - 1 := fun j => sub_nonneg.2 (eig_ge hn B j)
  have h1 := nysInv_mul hG ha.le hμ
  rw [transpose_transpose] at h1
  rw [Matrix.inv_eq_left_inv h1, trace_nysInv hG, nysHat_trace hn]
  unfold vfxRootFun
  have h2 : L.trace = ∑ i, L i i := rfl
  have h3 : ∀ j, ((num.eigh m (iAmm B)).1 j - 1) / ((num.eigh m (iAmm B)).1 j - 1 + 1 / a)
      = a * ((num.eigh m (iAmm B)).1 j - 1) / (a * ((num.eigh m (iAmm B)).1 j - 1) + 1) := by
    intro j
    have h5 : 0 < a * ((num.eigh m (iAmm B)).1 j - 1) + 1 := by
      have := mul_nonneg ha.le (hμ j)
      linarith
    have h6 : (num.eigh m (iAmm B)).1 j - 1 + 1 / a = (a * ((num.eigh m (iAmm B)).1 j - 1) + 1) / a := by
      field_simp
    rw [h6]
    field_simp
  rw [Finset.sum_congr rfl fun j _ => h3 j, h2]
  ring

/-- the Nyström approximation is below `L` -/
theorem nysHat_le (hn : NumericsSpec num) (hR : L = Rᵀ * R) (hB : (B : Matrix _ _ ℝ) = Qᵀ * R) (hQ : Qᵀ * Q = 1) :
    (L - (nysHat num B)ᵀ * nysHat num B).PosSemidef := by
  have hV := (hn.eigh m (iAmm B) (iAmm_symm B)).1
  obtain ⟨V, hVd⟩ : ∃ V : Matrix (Fin m) (Fin m) ℝ, V = Matrix.of (num.eigh m (iAmm B)).2 := ⟨_, rfl⟩
  have h2 : Vᵀ * V = 1 := by
    ext a b
    rw [mul_apply, one_apply, hVd]
    exact hV a b
  have h3 : V * Vᵀ = 1 := mul_eq_one_comm.1 h2
  have h1 : nysHat num B = Vᵀ * (Qᵀ * R) := by
    rw [← hB, hVd]
    ext j i
    exact (mul_apply (M := (Matrix.of (num.eigh m (iAmm B)).2)ᵀ) (N := (B : Matrix (Fin m) (Fin n) ℝ))).symm
  have h4 : (nysHat num B)ᵀ * nysHat num B = Rᵀ * (Q * Qᵀ) * R := by
    rw [h1, transpose_mul, transpose_transpose, transpose_mul, transpose_transpose,
      show Rᵀ * Q * V * (Vᵀ * (Qᵀ * R)) = Rᵀ * Q * (V * Vᵀ) * (Qᵀ * R) by simp only [Matrix.mul_assoc], h3, Matrix.mul_one]
    simp only [Matrix.mul_assoc]
  have h5 : L - (nysHat num B)ᵀ * nysHat num B = Rᵀ * (1 - Q * Qᵀ) * R := by
    rw [h4, Matrix.mul_sub, Matrix.sub_mul, Matrix.mul_one, ← hR]
  rw [h5]
  refine psd_of_t ?_ R
  have h6 : 1 - Q * Qᵀ = (1 - Q * Qᵀ)ᵀ * (1 - Q * Qᵀ) := by
    rw [transpose_sub, transpose_one, transpose_mul, transpose_transpose, Matrix.sub_mul, Matrix.one_mul, Matrix.mul_sub,
      Matrix.mul_one, show Q * Qᵀ * (Q * Qᵀ) = Q * (Qᵀ * Q) * Qᵀ by simp only [Matrix.mul_assoc], hQ, Matrix.mul_one]
    abel
  rw [h6]
  have := posSemidef_conjTranspose_mul_self (1 - Q * Qᵀ)
  simpa using this

end Embed

/-- The estimate for a dictionary, an upper bound, strict when the dictionary has less items than the rank of `L`. -/
theorem rootFun_bound (hn : NumericsSpec num) (hL : L.PosSemidef) {D : Centers n} {keep : List (Fin D.items.length)} (hk : keep.Nodup)
    (hpos : ∀ j ∈ keep, 0 < (num.svd _ (dictMat L D)).2 j) {a : ℝ} (ha : 0 < a) :
    meanSize (lDppProb (a • L)) ≤ vfxRootFun L (bBar num L D keep) (num.eigh _ (iAmm (bBar num L D keep))).1 0 a ∧
      (keep.length < L.rank →
        meanSize (lDppProb (a • L)) < vfxRootFun L (bBar num L D keep) (num.eigh _ (iAmm (bBar num L D keep))).1 0 a) := by
  obtain ⟨R, hR⟩ := psd_factor hL
  have hQ := bQ_gram hn hL hR hk hpos
  have hB := bBar_eq (num := num) hR D keep
  have h1 := nysHat_le hn hR hB hQ
  have h2 : ((nysHat num (bBar num L D keep))ᵀ * nysHat num (bBar num L D keep)).PosSemidef := by
    have := posSemidef_conjTranspose_mul_self (nysHat num (bBar num L D keep))
    simpa using this
  obtain ⟨h3, h4⟩ := trace_gap ha h2 h1
  rw [rootFun_hat hn _ ha]
  refine ⟨h3, fun hr => h4 fun he => ?_⟩
  have h5 := Matrix.rank_mul_le_right (nysHat num (bBar num L D keep))ᵀ (nysHat num (bBar num L D keep))
  have h6 := Matrix.rank_le_card_height (nysHat num (bBar num L D keep))
  rw [Fintype.card_fin] at h6
  rw [he] at hr
  omega

end Verif.Lemmas.Desired
