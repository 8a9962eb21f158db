import Verif.Lemmas.Haar4
import Verif.Lemmas.Circ1

/-!
# Hessenberg form of a unitary matrix: characteristic polynomial
-/

namespace Verif.Lemmas
open Finset Matrix Verif.Model
open scoped ComplexConjugate

variable {n : ℕ}

/-- `sqrt(1 - |alpha|^2)` -/
noncomputable def rhoC (al : ℂ) : ℂ := ((√(1 - ‖al‖ ^ 2) : ℝ) : ℂ)

theorem rhoC_sq {al : ℂ} (h : ‖al‖ ≤ 1) : rhoC al * rhoC al = 1 - al * conj al := by
  have h1 : 0 ≤ 1 - ‖al‖ ^ 2 := by nlinarith [norm_nonneg al]
  rw [rhoC, ← Complex.ofReal_mul, Real.mul_self_sqrt h1, Complex.mul_conj, Complex.normSq_eq_norm_sq]
  push_cast; rfl

theorem conj_rhoC (al : ℂ) : conj (rhoC al) = rhoC al := Complex.conj_ofReal _

/-- the lower right block -/
noncomputable def lowB (n : ℕ) (al : ℂ) : Matrix (Fin (n + 1)) (Fin (n + 1)) ℂ := bord (-al) 0 0 1

/-- the rotation of the first two coordinates -/
noncomputable def thetaM (n : ℕ) (al : ℂ) : Matrix (Fin (n + 2)) (Fin (n + 2)) ℂ :=
  bord (conj al) (Pi.single 0 (rhoC al)) (Pi.single 0 (rhoC al)) (lowB n al)

theorem star_single (r : ℂ) : star (Pi.single 0 r : Fin (n + 1) → ℂ) = Pi.single 0 (conj r) := by
  funext i
  by_cases hi : i = 0
  · subst hi; simp
  · simp [hi]

theorem thetaM_conj (al : ℂ) : (thetaM n al)ᴴ = bord al (Pi.single 0 (rhoC al)) (Pi.single 0 (rhoC al)) (bord (-conj al) 0 0 1) := by
  rw [thetaM, bord_conj, star_single, conj_rhoC, lowB, bord_conj]
  simp

theorem lowB_mulVec (al x : ℂ) : lowB n al *ᵥ (Pi.single 0 x) = Pi.single 0 (-al * x) := by
  funext i
  induction i using Fin.cases with
  | zero => simp [lowB]
  | succ i => simp [lowB, Fin.succ_ne_zero]

theorem single_vecMul_lowB (al x : ℂ) : (Pi.single 0 x) ᵥ* lowB n al = Pi.single 0 (x * -al) := by
  funext i
  induction i using Fin.cases with
  | zero => simp [lowB]
  | succ i => simp [lowB, Fin.succ_ne_zero]

theorem thetaM_unitary {al : ℂ} (h : ‖al‖ ≤ 1) : (thetaM n al)ᴴ * thetaM n al = 1 := by
  have hr := rhoC_sq h
  rw [thetaM_conj, thetaM, bord_mul, ← bord_one]
  congr 1
  · rw [single_dotProduct, Pi.single_eq_same, hr]; ring
  · funext j
    rw [single_vecMul_lowB]
    induction j using Fin.cases with
    | zero => simp; ring
    | succ j => simp [Fin.succ_ne_zero]
  · have : bord (-conj al) 0 0 1 = lowB n (conj al) := rfl
    funext i
    rw [this, lowB_mulVec]
    induction i using Fin.cases with
    | zero => simp; ring
    | succ i => simp [Fin.succ_ne_zero]
  · rw [lowB, bord_mul]
    apply bord_ext
    · simp only [Matrix.of_apply, Pi.single_eq_same, bord_00, Matrix.one_apply_eq]
      rw [hr]; simp; ring
    · intro j
      simp [Matrix.one_apply, Fin.succ_ne_zero, (Fin.succ_ne_zero _).symm]
    · intro j
      simp [Matrix.one_apply, Fin.succ_ne_zero]
    · intro i j
      simp [Matrix.one_apply, Fin.succ_ne_zero]

/-- the minor without the first row and column -/
def minor0 (X : Matrix (Fin (n + 1)) (Fin (n + 1)) ℂ) : Matrix (Fin n) (Fin n) ℂ := X.submatrix Fin.succ Fin.succ

/-- `det (t - X)` -/
noncomputable def chd {n : ℕ} (t : ℂ) (X : Matrix (Fin n) (Fin n) ℂ) : ℂ := (t • (1 : Matrix (Fin n) (Fin n) ℂ) - X).det

theorem lowB_eq (al : ℂ) : lowB n al = 1 - e00 (1 + al) := by
  apply bord_ext <;> intros <;> simp [lowB, e00, Matrix.one_apply, Fin.succ_ne_zero, (Fin.succ_ne_zero _).symm]

theorem det_lowB (al : ℂ) : (lowB n al).det = -al := by
  rw [lowB_eq, det_sub_e00]
  have : (1 : Matrix (Fin (n + 1)) (Fin (n + 1)) ℂ).submatrix Fin.succ Fin.succ = 1 := by
    ext i j; simp [Matrix.one_apply]
  rw [this, det_one, det_one]; ring

theorem minor_lowB_mul (al : ℂ) (X : Matrix (Fin (n + 1)) (Fin (n + 1)) ℂ) : (lowB n al * X).submatrix Fin.succ Fin.succ = X.submatrix Fin.succ Fin.succ := by
  ext i j
  simp [Matrix.mul_apply, Fin.sum_univ_succ, lowB, Matrix.one_apply]

/-- the minor of the product -/
theorem chd_low (t al : ℂ) (X : Matrix (Fin (n + 1)) (Fin (n + 1)) ℂ) :
    chd t (lowB n al * X) = -al * chd t X + (1 + al) * t * chd t (minor0 X) := by
  have e : t • (1 : Matrix (Fin (n + 1)) (Fin (n + 1)) ℂ) - lowB n al * X = lowB n al * (t • 1 - X) - e00 (-((1 + al) * t)) := by
    have h1 : e00 (-((1 + al) * t)) = -(t • e00 (1 + al) : Matrix (Fin (n + 1)) (Fin (n + 1)) ℂ) := by
      apply bord_ext <;> intros <;> simp [e00, mul_comm] <;> ring
    rw [h1, Matrix.mul_sub, Matrix.mul_smul, Matrix.mul_one]
    have h2 : t • lowB n al = t • 1 - t • e00 (1 + al) := by rw [lowB_eq, smul_sub]
    rw [h2]; abel
  rw [chd, e, det_sub_e00, det_mul, det_lowB, minor_lowB_mul]
  have e2 : (t • (1 : Matrix (Fin (n + 1)) (Fin (n + 1)) ℂ) - X).submatrix Fin.succ Fin.succ = t • 1 - minor0 X := by
    ext i j; simp [minor0, Matrix.one_apply]
  rw [e2, chd, chd]; ring

theorem det_thetaM {al : ℂ} (h : ‖al‖ ≤ 1) : (thetaM n al).det = -1 := by
  have hr := rhoC_sq h
  rw [det_border]
  · have e1 : (thetaM n al).submatrix Fin.succ Fin.succ = lowB n al := by ext i j; simp [thetaM]
    have e2 : (thetaM n al).submatrix (fun i : Fin n => i.succ.succ) (fun i : Fin n => i.succ.succ) = 1 := by
      ext i j; simp [thetaM, lowB]
    have e3 : thetaM n al 0 1 = rhoC al := by
      rw [show (1 : Fin (n + 2)) = Fin.succ 0 from rfl, thetaM, bord_0s]; simp
    have e4 : thetaM n al 1 0 = rhoC al := by
      rw [show (1 : Fin (n + 2)) = Fin.succ 0 from rfl, thetaM, bord_s0]; simp
    have e5 : thetaM n al 0 0 = conj al := rfl
    rw [e1, e2, e3, e4, e5, det_one, det_lowB, hr]; ring
  · intro j; simp [thetaM, Fin.succ_ne_zero]
  · intro j; simp [thetaM, Fin.succ_ne_zero]

theorem minor_theta_mul (al : ℂ) (X : Matrix (Fin (n + 1)) (Fin (n + 1)) ℂ) : minor0 (thetaM n al * oneAdd X) = lowB n al * X := by
  ext i j
  rw [minor0, Matrix.submatrix_apply, thetaM, oneAdd, bord_mul, bord_ss]
  simp

/-- the characteristic polynomial of the product -/
theorem chd_theta {t al : ℂ} (h : ‖al‖ ≤ 1) (X : Matrix (Fin (n + 1)) (Fin (n + 1)) ℂ) :
    chd t (thetaM n al * oneAdd X) = (1 - t * al) * chd t X + t * (t - conj al + al * t - 1) * chd t (minor0 X) := by
  have hu := thetaM_unitary (n := n) h
  have hu' : thetaM n al * (thetaM n al)ᴴ = 1 := mul_eq_one_comm.1 hu
  have hr := rhoC_sq h
  set D : Matrix (Fin (n + 2)) (Fin (n + 2)) ℂ := t • (thetaM n al)ᴴ - oneAdd X with hD
  have e1 : t • (1 : Matrix (Fin (n + 2)) (Fin (n + 2)) ℂ) - thetaM n al * oneAdd X = thetaM n al * D := by
    rw [hD, Matrix.mul_sub, Matrix.mul_smul, hu']
  have d00 : D 0 0 = t * al - 1 := by rw [hD, thetaM_conj]; simp [oneAdd]
  have d01 : D 0 1 = t * rhoC al := by
    rw [hD, thetaM_conj, show (1 : Fin (n + 2)) = Fin.succ 0 from rfl, Matrix.sub_apply, Matrix.smul_apply, bord_0s, oneAdd, bord_0s]; simp
  have d10 : D 1 0 = t * rhoC al := by
    rw [hD, thetaM_conj, show (1 : Fin (n + 2)) = Fin.succ 0 from rfl, Matrix.sub_apply, Matrix.smul_apply, bord_s0, oneAdd, bord_s0]; simp
  have dss : D.submatrix Fin.succ Fin.succ = (t • 1 - X) - e00 (t * (1 + conj al)) := by
    have : D.submatrix Fin.succ Fin.succ = t • lowB n (conj al) - X := by
      rw [hD, thetaM_conj]; ext i j; simp [oneAdd, lowB]
    rw [this, lowB_eq, smul_sub]
    have h1 : t • e00 (1 + conj al) = (e00 (t * (1 + conj al)) : Matrix (Fin (n + 1)) (Fin (n + 1)) ℂ) := by
      apply bord_ext <;> intros <;> simp [e00]
    rw [h1]; abel
  have e2 : (t • (1 : Matrix (Fin (n + 1)) (Fin (n + 1)) ℂ) - X).submatrix Fin.succ Fin.succ = t • 1 - minor0 X := by
    ext i j; simp [minor0, Matrix.one_apply]
  have dss2 : D.submatrix (fun i : Fin n => i.succ.succ) (fun i : Fin n => i.succ.succ) = t • 1 - minor0 X := by
    rw [hD, thetaM_conj]; ext i j; simp [oneAdd, minor0]
  have hdet : D.det = (t * al - 1) * (chd t X - t * (1 + conj al) * chd t (minor0 X)) - t * rhoC al * (t * rhoC al) * chd t (minor0 X) := by
    rw [det_border, d00, d01, d10, dss, dss2, det_sub_e00, e2]
    · rfl
    · intro j
      rw [hD, thetaM_conj, Matrix.sub_apply, Matrix.smul_apply, bord_0s, oneAdd, bord_0s]; simp [Fin.succ_ne_zero]
    · intro j
      rw [hD, thetaM_conj, Matrix.sub_apply, Matrix.smul_apply, bord_s0, oneAdd, bord_s0]; simp [Fin.succ_ne_zero]
  rw [chd, e1, det_mul, det_thetaM h, hdet]
  linear_combination (t ^ 2 * chd t (minor0 X)) * hr

/-- the product of the rotations -/
noncomputable def hess : (n : ℕ) → (Fin (n + 1) → ℂ) → Matrix (Fin (n + 1)) (Fin (n + 1)) ℂ
  | 0, a => Matrix.of fun _ _ => conj (a 0)
  | n + 1, a => thetaM n (a 0) * oneAdd (hess n fun i => a i.succ)

/-- one step of the Szego recursion -/
noncomputable def szT (t al : ℂ) (v : ℂ × ℂ) : ℂ × ℂ := (t * v.1 - conj al * v.2, v.2 - al * (t * v.1))

/-- the Szego recursion from a vector -/
noncomputable def szEv (t : ℂ) : ℕ → (ℕ → ℂ) → ℂ × ℂ → ℂ × ℂ
  | 0, _, v => v
  | n + 1, al, v => szEv t n (fun i => al (i + 1)) (szT t (al 0) v)

theorem szEv_succ' (t : ℂ) : ∀ (n : ℕ) (al : ℕ → ℂ) (v : ℂ × ℂ), szEv t (n + 1) al v = szT t (al n) (szEv t n al v)
  | 0, al, v => rfl
  | n + 1, al, v => by
    rw [szEv, szEv_succ' t n]
    rfl

theorem szEv_szego (t : ℂ) (al : ℕ → ℂ) (n : ℕ) : szEv t n al (1, 1) = ((szP al n).eval t, (szQ al n).eval t) := by
  induction n with
  | zero => simp [szEv, szP, szQ, szego]
  | succ n ih =>
    rw [szEv_succ', ih, szP_succ, szQ_succ, szT]
    simp

theorem chd_hess (t : ℂ) : ∀ (n : ℕ) (a : Fin (n + 1) → ℂ) (al : ℕ → ℂ), (∀ i : Fin (n + 1), a i = al i) → (∀ i, ‖a i‖ ≤ 1) →
    ∀ p q : ℂ, t * chd t (minor0 (hess n a)) * p + (chd t (hess n a) - t * chd t (minor0 (hess n a))) * q = (szEv t (n + 1) al (p, q)).1
  | 0, a, al, h, h1, p, q => by
    have e1 : chd t (minor0 (hess 0 a)) = 1 := by simp [chd]
    have e2 : chd t (hess 0 a) = t - conj (a 0) := by simp [chd, hess]
    rw [e1, e2, szEv, szEv, szT, show al 0 = a 0 from (h 0).symm]
    ring
  | n + 1, a, al, h, h1, p, q => by
    have ih := chd_hess t n (fun i => a i.succ) (fun i => al (i + 1)) (fun i => by
      have := h i.succ
      simpa using this) (fun i => h1 i.succ) (t * p - conj (a 0) * q) (q - a 0 * (t * p))
    rw [szEv, szT, show al 0 = a 0 from (h 0).symm]
    simp only
    rw [← ih, hess, chd_theta (h1 0), minor_theta_mul, chd_low]
    ring

/-- the characteristic polynomial of the product is the last Szego polynomial -/
theorem chd_hess_szP (t : ℂ) {a : Fin (n + 1) → ℂ} {al : ℕ → ℂ} (h : ∀ i : Fin (n + 1), a i = al i) (h1 : ∀ i, ‖a i‖ ≤ 1) :
    chd t (hess n a) = (szP al (n + 1)).eval t := by
  have := chd_hess t n a al h h1 1 1
  rw [szEv_szego] at this
  simp only at this
  linear_combination this

end Verif.Lemmas
