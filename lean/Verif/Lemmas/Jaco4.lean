import Verif.Lemmas.Jaco3

/-!
# One step of the recursion for the compression of a projection
-/

namespace Verif.Lemmas
open Finset Matrix MeasureTheory ProbabilityTheory Verif.Model
open scoped ComplexConjugate

variable {n m : ℕ} {γ : Measure ℂ} {K : StarSubalgebra ℝ ℂ} {beta : ℝ}

/-- compression of the rotated projection on the coordinates selected by `p` -/
noncomputable def Hm {M : ℕ} (p q : Fin M → Bool) (U : Matrix (Fin M) (Fin M) ℂ) : Matrix (Fin M) (Fin M) ℂ := dg p * (Uᴴ * dg q * U) * dg p

/-- the same matrix after the first column has been rotated -/
noncomputable def HA {k : ℕ} (c : ℝ) (pb : Fin k → Bool) (x : Fin k → ℂ) (B0 W : Matrix (Fin k) (Fin k) ℂ) : Matrix (Fin (k + 1)) (Fin (k + 1)) ℂ :=
  bord (c : ℂ) (x ᵥ* (Wᴴ * dg pb)) ((dg pb * W) *ᵥ x) (dg pb * W * B0 * (Wᴴ * dg pb))

theorem dg_sandwich {M : ℕ} (p : Fin M → Bool) (Y : Matrix (Fin M) (Fin M) ℂ) (i j : Fin M) :
    (dg p * Y * dg p) i j = (if p i then 1 else 0) * Y i j * (if p j then 1 else 0) := by
  rw [dg, mul_diagonal, diagonal_mul]

/-- first column -/
theorem Hm_col {c : ℝ} (h0 : 0 ≤ c) (h1 : c ≤ 1) (pb : Fin (n + 1) → Bool) (q : Fin n → Bool) {R : Matrix (Fin (n + 2)) (Fin (n + 2)) ℂ}
    (hR : InG K R) (hc : R * dg (Fin.cons true (Fin.cons false q : Fin (n + 1) → Bool) : Fin (n + 2) → Bool)
      = dg (Fin.cons true (Fin.cons false q : Fin (n + 1) → Bool) : Fin (n + 2) → Bool) * R) (W : Matrix (Fin (n + 1)) (Fin (n + 1)) ℂ) :
    Hm (Fin.cons true pb : Fin (n + 2) → Bool) (Fin.cons true (Fin.cons false q : Fin (n + 1) → Bool) : Fin (n + 2) → Bool)
        (R * thetaM n ((√c : ℝ) : ℂ) * oneAdd W)
      = HA c pb (Pi.single 0 ((√c * √(1 - c) : ℝ) : ℂ)) (bord ((1 - c : ℝ) : ℂ) 0 0 (dg q)) Wᴴ := by
  have hp : dg (Fin.cons true pb : Fin (n + 2) → Bool) = oneAdd (dg pb) := by rw [dg_cons]; rfl
  have hU : (R * thetaM n ((√c : ℝ) : ℂ) * oneAdd W)ᴴ * dg (Fin.cons true (Fin.cons false q : Fin (n + 1) → Bool) : Fin (n + 2) → Bool)
      * (R * thetaM n ((√c : ℝ) : ℂ) * oneAdd W)
      = oneAdd Wᴴ * ((thetaM n ((√c : ℝ) : ℂ))ᴴ * dg (Fin.cons true (Fin.cons false q : Fin (n + 1) → Bool) : Fin (n + 2) → Bool) * thetaM n ((√c : ℝ) : ℂ))
        * oneAdd W := by
    rw [conjTranspose_mul, conjTranspose_mul, oneAdd_conj]
    generalize dg (Fin.cons true (Fin.cons false q : Fin (n + 1) → Bool) : Fin (n + 2) → Bool) = D at hc ⊢
    have : Rᴴ * D * R = D := by rw [Matrix.mul_assoc, ← hc, ← Matrix.mul_assoc, hR.conj_mul, Matrix.one_mul]
    conv_rhs => rw [← this]
    simp only [Matrix.mul_assoc]
  rw [Hm, hp, hU, theta_proj h0 h1, HA, ← Matrix.mul_assoc, ← Matrix.mul_assoc, ← oneAdd_mul, Matrix.mul_assoc _ (oneAdd W), ← oneAdd_mul,
    oneAdd_sandwich, conjTranspose_conjTranspose]

theorem HA_left {k : ℕ} (c : ℝ) {pb : Fin k → Bool} (x : Fin k → ℂ) (B0 W : Matrix (Fin k) (Fin k) ℂ) {R : Matrix (Fin k) (Fin k) ℂ}
    (hR : R ∈ unitaryGroup (Fin k) ℂ) (hc : R * dg pb = dg pb * R) : cpp (HA c pb x B0 (R * W)) = cpp (HA c pb x B0 W) := by
  have h1 : dg pb * (R * W) = R * (dg pb * W) := by rw [← Matrix.mul_assoc, ← hc, Matrix.mul_assoc]
  have h2 : (R * W)ᴴ * dg pb = (Wᴴ * dg pb) * Rᴴ := by
    have := congrArg conjTranspose h1
    rw [conjTranspose_mul, conjTranspose_mul _ (dg pb * W), conjTranspose_mul (dg pb), dg_conj] at this
    exact this
  rw [← cpp_oneAdd hR (HA c pb x B0 W), HA, HA, oneAdd_conj, oneAdd_sandwich, h1, h2]
  congr 2
  · rw [vecMul_vecMul]
  · rw [mulVec_mulVec]
  · simp only [Matrix.mul_assoc]

/-- second column -/
theorem HA_theta {c1 c2 r : ℝ} (h0 : 0 ≤ c2) (h1 : c2 ≤ 1) (hr : r ^ 2 = c1 * (1 - c1)) (p : Fin m → Bool) (D W : Matrix (Fin (m + 1)) (Fin (m + 1)) ℂ) :
    cpp (HA c1 (Fin.cons true (Fin.cons false p : Fin (m + 1) → Bool) : Fin (m + 2) → Bool) (Pi.single 0 (r : ℂ)) (bord ((1 - c1 : ℝ) : ℂ) 0 0 D)
        (thetaM m ((√c2 : ℝ) : ℂ) * oneAdd W))
      = tm (stepJ c1 c2 (cpp (dg (Fin.cons true p : Fin (m + 1) → Bool) * (W * D * Wᴴ) * dg (Fin.cons true p : Fin (m + 1) → Bool)))) := by
  have hrho : rhoC ((√c2 : ℝ) : ℂ) = ((√(1 - c2) : ℝ) : ℂ) := by
    rw [rhoC, Complex.norm_real, Real.norm_eq_abs, sq_abs, Real.sq_sqrt h0]
  obtain ⟨C, hC⟩ : ∃ C : ℝ, C = √c2 := ⟨_, rfl⟩
  obtain ⟨S, hS⟩ : ∃ S : ℝ, S = √(1 - c2) := ⟨_, rfl⟩
  have hCC : C * C = c2 := by rw [hC, Real.mul_self_sqrt h0]
  have hSS : S * S = 1 - c2 := by rw [hS, Real.mul_self_sqrt (by linarith)]
  obtain ⟨Y, hY⟩ : ∃ Y, Y = W * D * Wᴴ := ⟨_, rfl⟩
  obtain ⟨L, hL⟩ : ∃ L, L = dg (Fin.cons false p : Fin (m + 1) → Bool) := ⟨_, rfl⟩
  have hLc : Lᴴ = L := by rw [hL, dg_conj]
  have hL' : L = bord 0 0 0 (dg p) := by rw [hL, dg_cons]; simp
  have hp : dg (Fin.cons true (Fin.cons false p : Fin (m + 1) → Bool) : Fin (m + 2) → Bool) = bord 1 0 0 L := by
    rw [dg_cons, hL]; simp
  rw [← hC] at hrho ⊢
  rw [← hS] at hrho
  obtain ⟨T, hT⟩ : ∃ T : Matrix (Fin (m + 2)) (Fin (m + 2)) ℂ, T = bord (C : ℂ) (Pi.single 0 (S : ℂ)) 0 L := ⟨_, rfl⟩
  have hTeq : dg (Fin.cons true (Fin.cons false p : Fin (m + 1) → Bool) : Fin (m + 2) → Bool) * thetaM m (C : ℂ) = T := by
    rw [hp, hT, thetaM, hrho, bord_mul, Complex.conj_ofReal]
    apply bord_ext
    · simp
    · intro j; simp
    · intro i
      simp only [bord_s0, hL']
      induction i using Fin.cases with
      | zero => simp [Matrix.mulVec, dotProduct, Fin.sum_univ_succ]
      | succ i => simp [Matrix.mulVec, dotProduct, Fin.sum_univ_succ]
    · intro i j
      simp only [bord_ss, hL', lowB, bord_mul]
      induction i using Fin.cases with
      | zero => induction j using Fin.cases with
        | zero => simp
        | succ j => simp
      | succ i => induction j using Fin.cases with
        | zero => simp
        | succ j => simp
  have hTc : Tᴴ = bord (C : ℂ) 0 (Pi.single 0 (S : ℂ)) L := by
    rw [hT, bord_conj, star_single, Complex.conj_ofReal, hLc]
    simp
  have hW1 : oneAdd W *ᵥ (Pi.single 0 (r : ℂ)) = Pi.single 0 (r : ℂ) := by
    rw [oneAdd_mulVec]
    funext i
    induction i using Fin.cases with
    | zero => simp
    | succ i => simp [Matrix.mulVec, dotProduct, Fin.succ_ne_zero]
  have hW2 : (Pi.single 0 (r : ℂ)) ᵥ* (oneAdd W)ᴴ = Pi.single 0 (r : ℂ) := by
    have := congrArg star hW1
    rw [star_mulVec, star_single, Complex.conj_ofReal] at this
    exact this
  have hT1 : T *ᵥ (Pi.single 0 (r : ℂ)) = Pi.single 0 (((C * r : ℝ)) : ℂ) := by
    funext i
    rw [Matrix.mulVec_single]
    simp only [MulOpposite.smul_eq_mul_unop, MulOpposite.unop_op, Pi.smul_apply, Matrix.col_apply]
    induction i using Fin.cases with
    | zero => rw [hT, bord_00, Pi.single_eq_same]; push_cast; rfl
    | succ i => rw [hT, bord_s0]; simp [Fin.succ_ne_zero]
  have hT2 : (Pi.single 0 (r : ℂ)) ᵥ* Tᴴ = Pi.single 0 (((C * r : ℝ)) : ℂ) := by
    have := congrArg star hT1
    rw [star_mulVec, star_single, star_single, Complex.conj_ofReal, Complex.conj_ofReal] at this
    exact this
  have e1 : dg (Fin.cons true (Fin.cons false p : Fin (m + 1) → Bool) : Fin (m + 2) → Bool) * (thetaM m (C : ℂ) * oneAdd W) = T * oneAdd W := by
    rw [← Matrix.mul_assoc, hTeq]
  have e2 : (thetaM m (C : ℂ) * oneAdd W)ᴴ * dg (Fin.cons true (Fin.cons false p : Fin (m + 1) → Bool) : Fin (m + 2) → Bool) = (oneAdd W)ᴴ * Tᴴ := by
    have := congrArg conjTranspose e1
    rw [conjTranspose_mul, conjTranspose_mul T, dg_conj] at this
    exact this
  have e3 : T * oneAdd W * bord ((1 - c1 : ℝ) : ℂ) 0 0 D * ((oneAdd W)ᴴ * Tᴴ) = T * bord ((1 - c1 : ℝ) : ℂ) 0 0 Y * Tᴴ := by
    have : oneAdd W * bord ((1 - c1 : ℝ) : ℂ) 0 0 D * (oneAdd W)ᴴ = bord ((1 - c1 : ℝ) : ℂ) 0 0 Y := by
      rw [oneAdd_conj, oneAdd_sandwich, hY]; simp
    rw [← this]
    simp only [Matrix.mul_assoc]
  obtain ⟨KB, hKB⟩ : ∃ KB, KB = T * bord ((1 - c1 : ℝ) : ℂ) 0 0 Y * Tᴴ := ⟨_, rfl⟩
  have hHA : HA c1 (Fin.cons true (Fin.cons false p : Fin (m + 1) → Bool) : Fin (m + 2) → Bool) (Pi.single 0 (r : ℂ)) (bord ((1 - c1 : ℝ) : ℂ) 0 0 D)
        (thetaM m (C : ℂ) * oneAdd W)
      = bord (c1 : ℂ) (Pi.single 0 (((C * r : ℝ)) : ℂ)) (Pi.single 0 (((C * r : ℝ)) : ℂ)) KB := by
    rw [HA, e1, e2, e3, ← vecMul_vecMul, hW2, hT2, ← mulVec_mulVec, hW1, hT1, hKB]
  have hKB2 : KB = bord ((C * (1 - c1) * C : ℝ) + S * Y 0 0 * S : ℂ) (fun j => S * (Y * L) 0 j) (fun i => (L * Y) i 0 * S) (L * Y * L) := by
    rw [hKB, hTc, hT, bord_mul, bord_mul]
    apply bord_ext
    · simp [Matrix.vecMul, dotProduct, Fin.sum_univ_succ, Fin.succ_ne_zero]
    · intro j
      rw [bord_0s, bord_0s, Matrix.mul_apply, Finset.mul_sum]
      simp [Matrix.vecMul, dotProduct, mul_assoc, Fin.sum_univ_succ, Fin.succ_ne_zero]
      done
    · intro i
      simp
    · intro i j
      simp [Matrix.mul_apply]
  obtain ⟨X, hX⟩ : ∃ X, X = dg (Fin.cons true p : Fin (m + 1) → Bool) * Y * dg (Fin.cons true p : Fin (m + 1) → Bool) := ⟨_, rfl⟩
  have hXe : ∀ i j, X i j = (if (Fin.cons true p : Fin (m + 1) → Bool) i then 1 else 0) * Y i j * (if (Fin.cons true p : Fin (m + 1) → Bool) j then 1 else 0) := fun i j => by
    rw [hX, dg_sandwich]
  have hLe : ∀ i j, (L * Y * L) i j = (if (Fin.cons false p : Fin (m + 1) → Bool) i then 1 else 0) * Y i j * (if (Fin.cons false p : Fin (m + 1) → Bool) j then 1 else 0) := fun i j => by
    rw [hL, dg_sandwich]
  have hYL : ∀ i j, (Y * L) i j = Y i j * (if (Fin.cons false p : Fin (m + 1) → Bool) j then 1 else 0) := fun i j => by
    rw [hL, dg, mul_diagonal]
  have hLY : ∀ i j, (L * Y) i j = (if (Fin.cons false p : Fin (m + 1) → Bool) i then 1 else 0) * Y i j := fun i j => by
    rw [hL, dg, diagonal_mul]
  have hcpp : cpp KB = tm (cpp (scal S X + e00 ((c2 * (1 - c1) : ℝ) : ℂ))) := by
    have s0 : Equiv.swap (0 : Fin (m + 2)) 1 0 = Fin.succ 0 := by simp
    have s1 : Equiv.swap (0 : Fin (m + 2)) 1 (Fin.succ 0) = 0 := by simp
    have s2 : ∀ i : Fin m, Equiv.swap (0 : Fin (m + 2)) 1 i.succ.succ = i.succ.succ := fun i =>
      Equiv.swap_apply_of_ne_of_ne (Fin.succ_ne_zero _) (fun h => by
        have := congrArg Fin.val h
        simp at this)
    refine cpp_zero_row ?_ ?_
    · rw [hKB2]
      apply bord_ext
      · rw [Matrix.submatrix_apply, s0, bord_ss, hLe, bord_00]; simp
      · intro j
        rw [Matrix.submatrix_apply, s0, bord_0s]
        induction j using Fin.cases with
        | zero => rw [s1, bord_s0, hLY]; simp
        | succ j => rw [s2, bord_ss, hLe]; simp
      · intro j
        rw [Matrix.submatrix_apply, s0, bord_s0]
        induction j using Fin.cases with
        | zero => rw [s1, bord_0s, hYL]; simp
        | succ j => rw [s2, bord_ss, hLe]; simp
      · intro i j
        rw [Matrix.submatrix_apply, bord_ss, Matrix.add_apply]
        induction i using Fin.cases with
        | zero => induction j using Fin.cases with
          | zero =>
            rw [s1, bord_00, scal_00, e00, bord_00, hXe]
            rw [add_comm]
            congr 1
            · simp
            · rw [← hCC]; push_cast; ring
          | succ j =>
            rw [s1, s2, bord_0s, scal_0s, e00, bord_0s, hYL, hXe]
            simp
        | succ i => induction j using Fin.cases with
          | zero =>
            rw [s1, s2, bord_s0, scal_s0, e00, bord_s0, hLY, hXe]
            simp
          | succ j =>
            rw [s2, s2, bord_ss, scal_ss, e00, bord_ss, hLe, hXe]
            simp
    · rw [hKB2]
      apply bord_ext
      · rw [Matrix.submatrix_apply, bord_ss, hLe]; simp
      · intro j
        rw [Matrix.submatrix_apply, bord_ss, hLe]; simp
      · intro j
        rw [Matrix.submatrix_apply, bord_ss, hLe]; simp
      · intro i j
        rw [Matrix.submatrix_apply, bord_ss, bord_ss, Matrix.submatrix_apply, Matrix.add_apply, scal_ss, e00, bord_ss, hLe, hXe]
        simp
  rw [hHA, cpp_bord, hcpp, cpp_e00, cpp_scal hSS, stepH_tm, stepJ, ← hY, ← hX]
  congr 2
  rw [mul_pow, hr, ← hCC]; ring

end Verif.Lemmas
