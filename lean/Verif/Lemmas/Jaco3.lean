import Verif.Lemmas.Jaco2

/-!
# Characteristic polynomials of the compressions of a projection: algebra of one step
-/

namespace Verif.Lemmas
open Finset Matrix MeasureTheory ProbabilityTheory Verif.Model
open scoped ComplexConjugate

variable {n m : ℕ} {K : StarSubalgebra ℝ ℂ}

/-! ### Characteristic polynomials -/

/-- multiplication of the first row and column by `S` -/
noncomputable def scal {n : ℕ} (S : ℝ) (X : Matrix (Fin (n + 1)) (Fin (n + 1)) ℂ) : Matrix (Fin (n + 1)) (Fin (n + 1)) ℂ :=
  bord (S : ℂ) 0 0 1 * X * bord (S : ℂ) 0 0 1

/-- the effect of `scal` on the polynomials -/
noncomputable def scalF (c : ℝ) (F : ℕ → ℝ × ℝ) (t : ℕ) : ℝ × ℝ := ((1 - c) * (F t).1 + c * t * (F t).2, (F t).2)

theorem scal_00 (S : ℝ) (X : Matrix (Fin (n + 1)) (Fin (n + 1)) ℂ) : scal S X 0 0 = S * X 0 0 * S := by
  simp [scal, Matrix.mul_apply, Fin.sum_univ_succ]
theorem scal_0s (S : ℝ) (X : Matrix (Fin (n + 1)) (Fin (n + 1)) ℂ) (j : Fin n) : scal S X 0 j.succ = S * X 0 j.succ := by
  simp [scal, Matrix.mul_apply, Fin.sum_univ_succ, Matrix.one_apply]
theorem scal_s0 (S : ℝ) (X : Matrix (Fin (n + 1)) (Fin (n + 1)) ℂ) (i : Fin n) : scal S X i.succ 0 = X i.succ 0 * S := by
  simp [scal, Matrix.mul_apply, Fin.sum_univ_succ, Matrix.one_apply]
theorem scal_ss (S : ℝ) (X : Matrix (Fin (n + 1)) (Fin (n + 1)) ℂ) (i j : Fin n) : scal S X i.succ j.succ = X i.succ j.succ := by
  simp [scal, Matrix.mul_apply, Fin.sum_univ_succ, Matrix.one_apply]

theorem scal_minor (S : ℝ) (X : Matrix (Fin (n + 1)) (Fin (n + 1)) ℂ) :
    (scal S X).submatrix Fin.succ Fin.succ = X.submatrix Fin.succ Fin.succ := by
  ext i j; simp [scal_ss]

theorem bord_diag_eq (S : ℝ) : bord (S : ℂ) (0 : Fin n → ℂ) 0 1 = 1 - e00 (1 - S : ℂ) := by
  apply bord_ext <;> intros <;> simp [e00, Matrix.one_apply, Fin.succ_ne_zero, (Fin.succ_ne_zero _).symm]

theorem det_bord_diag (S : ℝ) : (bord (S : ℂ) (0 : Fin n → ℂ) 0 1).det = S := by
  rw [bord_diag_eq, det_sub_e00]
  have : (1 : Matrix (Fin (n + 1)) (Fin (n + 1)) ℂ).submatrix Fin.succ Fin.succ = 1 := by
    ext i j; simp [Matrix.one_apply]
  rw [this, det_one, det_one]; ring

theorem minor_smul_one_sub (t : ℂ) (X : Matrix (Fin (n + 1)) (Fin (n + 1)) ℂ) :
    (t • (1 : Matrix (Fin (n + 1)) (Fin (n + 1)) ℂ) - X).submatrix Fin.succ Fin.succ = t • 1 - X.submatrix Fin.succ Fin.succ := by
  ext i j; simp [Matrix.one_apply]

theorem cpp_scal {S c : ℝ} (h : S * S = 1 - c) (X : Matrix (Fin (n + 1)) (Fin (n + 1)) ℂ) : cpp (scal S X) = scalF c (cpp X) := by
  funext t
  have e : (t : ℂ) • (1 : Matrix (Fin (n + 1)) (Fin (n + 1)) ℂ) - scal S X
      = scal S ((t : ℂ) • (1 : Matrix (Fin (n + 1)) (Fin (n + 1)) ℂ) - X) - e00 (-((t : ℂ) * c)) := by
    have hS : (S : ℂ) * S = 1 - c := by exact_mod_cast h
    apply bord_ext
    · rw [Matrix.sub_apply, Matrix.sub_apply, scal_00, scal_00, Matrix.sub_apply]
      simp [e00]
      linear_combination (-(t : ℂ)) * hS
    · intro j
      rw [Matrix.sub_apply, Matrix.sub_apply, scal_0s, scal_0s, Matrix.sub_apply]
      simp [e00, Matrix.one_apply, (Fin.succ_ne_zero _).symm]
    · intro j
      rw [Matrix.sub_apply, Matrix.sub_apply, scal_s0, scal_s0, Matrix.sub_apply]
      simp [e00, Matrix.one_apply, Fin.succ_ne_zero]
    · intro i j
      rw [Matrix.sub_apply, Matrix.sub_apply, scal_ss, scal_ss, Matrix.sub_apply]
      simp [e00]
  simp only [cpp, scalF, scal_minor]
  refine Prod.ext ?_ rfl
  simp only
  rw [e, det_sub_e00, scal_minor, minor_smul_one_sub, scal, det_mul, det_mul, det_bord_diag]
  have e2 : ∀ a b : ℂ, (S : ℂ) * a * S - -((t : ℂ) * c) * b = ((1 - c : ℝ) : ℂ) * a + ((c * t : ℝ) : ℂ) * b := fun a b => by
    have hS : (S : ℂ) * S = 1 - c := by exact_mod_cast h
    push_cast
    linear_combination a * hS
  rw [e2, Complex.add_re, Complex.re_ofReal_mul, Complex.re_ofReal_mul]

/-- multiplication by `t` -/
noncomputable def tm (F : ℕ → ℝ × ℝ) (t : ℕ) : ℝ × ℝ := (t * (F t).1, t * (F t).2)

/-- multiplication by a power of `t` -/
noncomputable def tmP (e : ℕ) (F : ℕ → ℝ × ℝ) (t : ℕ) : ℝ × ℝ := ((t : ℝ) ^ e * (F t).1, (t : ℝ) ^ e * (F t).2)

/-- one step of the Jacobi recursion -/
noncomputable def stepJ (c1 c2 : ℝ) (F : ℕ → ℝ × ℝ) : ℕ → ℝ × ℝ := stepH c1 (c1 * (1 - c1) * c2) (bump (c2 * (1 - c1)) (scalF c2 F))

theorem tm_stepJ (c1 c2 : ℝ) (e : ℕ) (F : ℕ → ℝ × ℝ) : tm (stepJ c1 c2 (tmP e F)) = tmP (e + 1) (stepJ c1 c2 F) := by
  funext t
  simp only [tm, stepJ, stepH, bump, scalF, tmP]
  refine Prod.ext ?_ ?_ <;> simp only <;> ring

theorem stepH_tm (a b : ℝ) (F : ℕ → ℝ × ℝ) : stepH a b (tm F) = tm (stepH a b F) := by
  funext t
  simp only [tm, stepH]
  refine Prod.ext ?_ ?_ <;> simp only
  ring

/-- a zero row and column -/
theorem cpp_zero_row {A : Matrix (Fin (n + 2)) (Fin (n + 2)) ℂ} {B : Matrix (Fin (n + 1)) (Fin (n + 1)) ℂ}
    (h : A.submatrix (Equiv.swap 0 1) (Equiv.swap 0 1) = bord 0 0 0 B)
    (h' : A.submatrix Fin.succ Fin.succ = bord 0 0 0 (B.submatrix Fin.succ Fin.succ)) : cpp A = tm (cpp B) := by
  have hd : ∀ (k : ℕ) (t : ℂ) (B : Matrix (Fin k) (Fin k) ℂ),
      (t • (1 : Matrix (Fin (k + 1)) (Fin (k + 1)) ℂ) - bord 0 0 0 B).det = t * (t • (1 : Matrix (Fin k) (Fin k) ℂ) - B).det := fun k t B => by
    have e : t • (1 : Matrix (Fin (k + 1)) (Fin (k + 1)) ℂ) - bord 0 0 0 B = bord t 0 0 (t • 1 - B) := by
      apply bord_ext <;> intros <;> simp [Matrix.one_apply, Fin.succ_ne_zero, (Fin.succ_ne_zero _).symm]
    rw [e, Matrix.det_succ_row_zero, Fin.sum_univ_succ]
    have : (bord t 0 0 (t • 1 - B)).submatrix Fin.succ (Fin.succAbove 0) = t • 1 - B := by
      ext i j; simp
    rw [this]
    simp
  funext t
  simp only [cpp, tm]
  refine Prod.ext ?_ ?_
  · simp only
    have e1 : ((t : ℂ) • (1 : Matrix (Fin (n + 2)) (Fin (n + 2)) ℂ) - A).det = ((t : ℂ) • (1 : Matrix (Fin (n + 2)) (Fin (n + 2)) ℂ) - bord 0 0 0 B).det := by
      rw [← h, ← Matrix.det_submatrix_equiv_self (Equiv.swap 0 1)]
      congr 1
      ext i j
      simp [Matrix.one_apply]
    rw [e1, hd]
    have : ((t : ℂ)) = ((t : ℝ) : ℂ) := by simp
    rw [this, Complex.re_ofReal_mul]
  · simp only
    rw [h', hd]
    have : ((t : ℂ)) = ((t : ℝ) : ℂ) := by simp
    rw [this, Complex.re_ofReal_mul]

/-- conjugation of the coordinates after the first one -/
theorem cpp_oneAdd {R : Matrix (Fin n) (Fin n) ℂ} (hR : R ∈ unitaryGroup (Fin n) ℂ) (X : Matrix (Fin (n + 1)) (Fin (n + 1)) ℂ) :
    cpp (oneAdd R * X * (oneAdd R)ᴴ) = cpp X := by
  have hR' : Rᴴ ∈ unitaryGroup (Fin n) ℂ := uni_of (by rw [conjTranspose_conjTranspose, uni_mul_conj hR])
  have h1 : (oneAdd R)ᴴ ∈ unitaryGroup (Fin (n + 1)) ℂ := uni_of (by
    rw [conjTranspose_conjTranspose, oneAdd_conj, ← oneAdd_mul, uni_mul_conj hR, oneAdd_one])
  funext t
  simp only [cpp]
  refine Prod.ext ?_ ?_
  · have := det_conj h1 X t
    rw [conjTranspose_conjTranspose] at this
    exact congrArg Complex.re this
  · have e : (oneAdd R * X * (oneAdd R)ᴴ).submatrix Fin.succ Fin.succ = (Rᴴ)ᴴ * X.submatrix Fin.succ Fin.succ * Rᴴ := by
      rw [conjTranspose_conjTranspose, oneAdd_conj]
      ext i j
      simp [oneAdd, Matrix.mul_apply, Fin.sum_univ_succ]
    simp only
    rw [e, det_conj hR']

/-! ### Blocks -/

theorem dg_cons (b : Bool) (q : Fin n → Bool) : dg (Fin.cons b q : Fin (n + 1) → Bool) = bord (if b then 1 else 0) 0 0 (dg q) := by
  apply bord_ext <;> intros <;> simp [dg_apply, Fin.succ_ne_zero, (Fin.succ_ne_zero _).symm]

theorem oneAdd_sandwich {k : ℕ} (A C B : Matrix (Fin k) (Fin k) ℂ) (a : ℂ) (w v : Fin k → ℂ) :
    oneAdd A * bord a w v B * oneAdd C = bord a (w ᵥ* C) (A *ᵥ v) (A * B * C) := by
  rw [oneAdd, oneAdd, bord_mul, bord_mul]
  apply bord_ext
  · simp
  · intro j; simp [Matrix.vecMul]
  · intro i; simp
  · intro i j
    simp [Matrix.mul_apply]

/-- the projection seen in the rotated coordinates -/
theorem theta_proj {c : ℝ} (h0 : 0 ≤ c) (h1 : c ≤ 1) (q : Fin n → Bool) :
    (thetaM n ((√c : ℝ) : ℂ))ᴴ * dg (Fin.cons true (Fin.cons false q : Fin (n + 1) → Bool) : Fin (n + 2) → Bool) * thetaM n ((√c : ℝ) : ℂ)
      = bord (c : ℂ) (Pi.single 0 ((√c * √(1 - c) : ℝ) : ℂ)) (Pi.single 0 ((√c * √(1 - c) : ℝ) : ℂ)) (bord ((1 - c : ℝ) : ℂ) 0 0 (dg q)) := by
  have hr : rhoC ((√c : ℝ) : ℂ) = ((√(1 - c) : ℝ) : ℂ) := by
    rw [rhoC, Complex.norm_real, Real.norm_eq_abs, sq_abs, Real.sq_sqrt h0]
  have e1 : ((√c : ℝ) : ℂ) * ((√c : ℝ) : ℂ) = (c : ℂ) := by rw [← Complex.ofReal_mul, Real.mul_self_sqrt h0]
  have e2 : ((√(1 - c) : ℝ) : ℂ) * ((√(1 - c) : ℝ) : ℂ) = ((1 - c : ℝ) : ℂ) := by
    rw [← Complex.ofReal_mul, Real.mul_self_sqrt (by linarith)]
  have hq : dg (Fin.cons true (Fin.cons false q : Fin (n + 1) → Bool) : Fin (n + 2) → Bool) = bord 1 0 0 (bord 0 0 0 (dg q)) := by
    rw [dg_cons, dg_cons]; simp
  rw [hq, thetaM_conj, thetaM, hr, Complex.conj_ofReal, lowB, bord_mul, bord_mul]
  apply bord_ext
  · simp only [bord_00]
    rw [← e1]
    simp [dotProduct, Fin.sum_univ_succ, Fin.succ_ne_zero, Matrix.vecMul]
  · intro j
    simp only [bord_0s, Complex.ofReal_mul]
    induction j using Fin.cases with
    | zero => simp [dotProduct, Fin.sum_univ_succ, Fin.succ_ne_zero, Matrix.vecMul]
    | succ j => simp [dotProduct, Fin.sum_univ_succ, Fin.succ_ne_zero, Matrix.vecMul]
  · intro j
    simp only [bord_s0, Complex.ofReal_mul]
    induction j using Fin.cases with
    | zero =>
      simp [dotProduct, Fin.sum_univ_succ, Fin.succ_ne_zero, Matrix.mulVec, mul_comm, Matrix.mul_apply]
    | succ j => simp [dotProduct, Fin.sum_univ_succ, Fin.succ_ne_zero, Matrix.mulVec, Matrix.mul_apply]
  · intro i j
    simp only [bord_ss]
    induction i using Fin.cases with
    | zero => induction j using Fin.cases with
      | zero =>
        rw [bord_00, ← e2]
        simp [Matrix.mul_apply, Fin.sum_univ_succ, Fin.succ_ne_zero]
      | succ j => simp [Matrix.mul_apply, Fin.sum_univ_succ, Fin.succ_ne_zero]
    | succ i => induction j using Fin.cases with
      | zero => simp [Matrix.mul_apply, Fin.sum_univ_succ, Fin.succ_ne_zero]
      | succ j => simp [Matrix.mul_apply, Fin.sum_univ_succ, Fin.succ_ne_zero, Matrix.one_apply]

end Verif.Lemmas
