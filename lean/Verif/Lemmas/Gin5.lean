import Verif.Lemmas.Gin4
import Mathlib.MeasureTheory.Measure.Haar.OfBasis

/-!
# Ginibre ensemble: integration over the eigenvector
-/

namespace Verif.Lemmas
open Finset Matrix MeasureTheory ProbabilityTheory Verif.Model Verif.Spec

variable {n : ℕ}

/-! ### Eigenvalues of the new matrix -/

theorem Tmat_mul (u w : Fin n → ℂ) (t : ℂ) (B : Matrix (Fin n) (Fin n) ℂ) :
    Tmat u w t B * bord 1 0 u 1 = bord 1 0 u 1 * bord t w 0 B := by
  rw [Tmat, Amat, bord_mul, bord_mul]
  congr 1
  · simp
  · funext j; simp
  · funext i
    rw [Matrix.sub_mulVec, Matrix.smul_mulVec, Matrix.one_mulVec]
    simp
    ring
  · ext i j; simp [Matrix.vecMulVec_apply, add_comm]

theorem Tmat_det (u w : Fin n → ℂ) (t : ℂ) (B : Matrix (Fin n) (Fin n) ℂ) (s : ℂ) :
    (s • (1 : Matrix (Fin (n + 1)) (Fin (n + 1)) ℂ) - Tmat u w t B).det = (s - t) * (s • 1 - B).det := by
  have hT : (bord 1 0 u 1 : Matrix (Fin (n + 1)) (Fin (n + 1)) ℂ).det = 1 := by rw [det_bord_row]; simp
  have e : (s • (1 : Matrix (Fin (n + 1)) (Fin (n + 1)) ℂ) - Tmat u w t B) * bord 1 0 u 1 = bord 1 0 u 1 * (s • 1 - bord t w 0 B) := by
    rw [Matrix.sub_mul, Matrix.mul_sub, Tmat_mul]; simp
  have := congrArg Matrix.det e
  rw [Matrix.det_mul, Matrix.det_mul, hT, mul_one, one_mul, smul_sub_bord, neg_zero, det_bord_col] at this
  exact this

theorem cons_lexMono {t : ℂ} {z : Fin n → ℂ} (hz : LexMono z) (h : ∀ i, lexKey t ≤ lexKey (z i)) : LexMono (Fin.cons t z : Fin (n + 1) → ℂ) := by
  intro i j hij
  induction i using Fin.cases with
  | zero => induction j using Fin.cases with
    | zero => exact le_rfl
    | succ j => exact h j
  | succ i => induction j using Fin.cases with
    | zero => exact absurd hij (by simp [Fin.le_def])
    | succ j => exact hz (Fin.succ_le_succ_iff.1 hij)

theorem evs_of_det {N : ℕ} {A : Matrix (Fin N) (Fin N) ℂ} {z : Fin N → ℂ} (hz : LexMono z)
    (h : ∀ s : ℂ, ∏ i, (s - z i) = (s • (1 : Matrix (Fin N) (Fin N) ℂ) - A).det) : evs A = z :=
  (evs_unique hz (poly_of_prodZ fun t => by rw [eval_charpolyZ]; exact h t)).symm

theorem evs_Tmat {u w : Fin n → ℂ} {t : ℂ} {B : Matrix (Fin n) (Fin n) ℂ} (h : ∀ i, lexKey t ≤ lexKey (evs B i)) :
    evs (Tmat u w t B) = (Fin.cons t (evs B) : Fin (n + 1) → ℂ) := by
  refine evs_of_det (cons_lexMono (evs_mono B) h) fun s => ?_
  rw [Tmat_det, ← evs_det, Fin.prod_univ_succ]
  simp

theorem evs_Tmat_zero {u w : Fin n → ℂ} {t : ℂ} {B : Matrix (Fin n) (Fin n) ℂ} :
    evs (Tmat u w t B) 0 = t ↔ ∀ i, lexKey t ≤ lexKey (evs B i) := by
  constructor
  · intro h i
    have h0 : ∏ j, (evs B i - evs (Tmat u w t B) j) = 0 := by
      rw [evs_det, Tmat_det, ← evs_det, prod_eq_zero (mem_univ i) (sub_self (evs B i)), mul_zero]
    obtain ⟨j, _, hj⟩ := prod_eq_zero_iff.1 h0
    have h1 : lexKey (evs (Tmat u w t B) 0) ≤ lexKey (evs (Tmat u w t B) j) := evs_mono (Tmat u w t B) (Fin.zero_le j)
    rw [sub_eq_zero.1 hj]
    rwa [h] at h1
  · intro h; rw [evs_Tmat h]; rfl

/-! ### Frobenius norm -/

/-- sum of the squared moduli of the entries -/
noncomputable def fro {m : ℕ} (A : Matrix (Fin n) (Fin m) ℂ) : ℝ := ∑ i, ∑ j, ‖A i j‖ ^ 2

/-- sum of the squared moduli of the entries of a vector -/
noncomputable def nsq (v : Fin n → ℂ) : ℝ := ∑ i, ‖v i‖ ^ 2

theorem fro_trace {m : ℕ} (A : Matrix (Fin n) (Fin m) ℂ) : ((fro A : ℝ) : ℂ) = (A * Aᴴ).trace := by
  simp only [fro, Matrix.trace, Matrix.diag_apply, Matrix.mul_apply, Matrix.conjTranspose_apply]
  push_cast
  refine sum_congr rfl fun i _ => sum_congr rfl fun j _ => ?_
  exact (Complex.mul_conj' _).symm

theorem fro_conj {U : Matrix (Fin n) (Fin n) ℂ} (hU : Uᴴ * U = 1) (A : Matrix (Fin n) (Fin n) ℂ) : fro (Uᴴ * A * U) = fro A := by
  have hU' : U * Uᴴ = 1 := mul_eq_one_comm.1 hU
  have : ((fro (Uᴴ * A * U) : ℝ) : ℂ) = ((fro A : ℝ) : ℂ) := by
    rw [fro_trace, fro_trace, Matrix.conjTranspose_mul, Matrix.conjTranspose_mul, Matrix.conjTranspose_conjTranspose]
    have e : Uᴴ * A * U * (Uᴴ * (Aᴴ * U)) = Uᴴ * (A * Aᴴ * U) := by
      rw [Matrix.mul_assoc (Uᴴ * A) U, ← Matrix.mul_assoc U, hU', Matrix.one_mul]
      simp only [Matrix.mul_assoc]
    rw [e, Matrix.trace_mul_comm, Matrix.mul_assoc, hU', Matrix.mul_one]
  exact_mod_cast this

theorem fro_bord (a : ℂ) (w c : Fin n → ℂ) (C : Matrix (Fin n) (Fin n) ℂ) : fro (bord a w c C) = ‖a‖ ^ 2 + nsq w + (nsq c + fro C) := by
  simp only [fro, nsq, Fin.sum_univ_succ, bord_00, bord_0s, bord_s0, bord_ss, sum_add_distrib]
  ring

/-- triangular form after a rotation -/
theorem exists_tri (u : Fin n → ℂ) : ∃ (s : ℂ) (r : Fin n → ℂ) (R : Matrix (Fin n) (Fin n) ℂ), s ≠ 0 ∧ R.det ≠ 0 ∧
    ∀ (w : Fin n → ℂ) (t : ℂ) (B : Matrix (Fin n) (Fin n) ℂ),
      fro (Tmat u w t B) = ‖t‖ ^ 2 + nsq (s • (w ᵥ* R⁻¹) + ((r ᵥ* B - t • r) ᵥ* R⁻¹)) + fro (R * B * R⁻¹) := by
  obtain ⟨U, hU, hv⟩ := exists_unitary (𝕜 := ℂ) (Fin.cons 1 u : Fin (n + 1) → ℂ)
  obtain ⟨s0, hs0⟩ : ∃ s0 : ℝ, s0 = √(∑ i, ‖(Fin.cons 1 u : Fin (n + 1) → ℂ) i‖ ^ 2) := ⟨_, rfl⟩
  rw [← hs0] at hv
  have hUd : (Uᴴ).det ≠ 0 := fun h0 => by
    have := congrArg Matrix.det hU
    rw [Matrix.det_mul, h0, zero_mul, Matrix.det_one] at this
    exact zero_ne_one this
  obtain ⟨R0, hR0⟩ : ∃ R0 : Matrix (Fin (n + 1)) (Fin (n + 1)) ℂ, R0 = Uᴴ * bord 1 0 u 1 := ⟨_, rfl⟩
  have hcol : ∀ i, R0 i 0 = (Pi.single 0 ((s0 : ℝ) : ℂ) : Fin (n + 1) → ℂ) i := fun i => by
    have e1 : Uᴴ *ᵥ (Fin.cons 1 u : Fin (n + 1) → ℂ) = Pi.single 0 ((s0 : ℝ) : ℂ) := by
      rw [← hv, Matrix.mulVec_mulVec, hU, Matrix.one_mulVec]; rfl
    rw [← e1, hR0, Matrix.mul_apply]
    simp only [Matrix.mulVec, dotProduct]
    refine sum_congr rfl fun k _ => ?_
    induction k using Fin.cases with
    | zero => rfl
    | succ k => rfl
  obtain ⟨r, hr⟩ : ∃ r : Fin n → ℂ, r = fun j => R0 0 j.succ := ⟨_, rfl⟩
  obtain ⟨R, hR⟩ : ∃ R : Matrix (Fin n) (Fin n) ℂ, R = R0.submatrix Fin.succ Fin.succ := ⟨_, rfl⟩
  have hform : R0 = bord ((s0 : ℝ) : ℂ) r 0 R := by
    apply bord_ext
    · rw [hcol]; simp
    · intro j; rw [hr]; rfl
    · intro i; rw [hcol]; simp
    · intro i j; rw [hR]; rfl
  have hdet : R0.det ≠ 0 := by
    rw [hR0, Matrix.det_mul, det_bord_row, Matrix.det_one, mul_one, mul_one]; exact hUd
  have hdet2 : ((s0 : ℝ) : ℂ) * R.det ≠ 0 := by rw [← det_bord_col _ r R, ← hform]; exact hdet
  have hs : ((s0 : ℝ) : ℂ) ≠ 0 := fun h => hdet2 (by rw [h, zero_mul])
  have hRd : R.det ≠ 0 := fun h => hdet2 (by rw [h, mul_zero])
  refine ⟨(s0 : ℝ), r, R, hs, hRd, fun w t B => ?_⟩
  have hRu : IsUnit R.det := isUnit_iff_ne_zero.2 hRd
  have hR0u : IsUnit R0.det := isUnit_iff_ne_zero.2 hdet
  obtain ⟨w', hw'⟩ : ∃ w' : Fin n → ℂ, w' = ((s0 : ℝ) : ℂ) • (w ᵥ* R⁻¹) + ((r ᵥ* B - t • r) ᵥ* R⁻¹) := ⟨_, rfl⟩
  have hw'R : w' ᵥ* R = ((s0 : ℝ) : ℂ) • w + (r ᵥ* B - t • r) := by
    rw [hw', Matrix.add_vecMul, Matrix.smul_vecMul, Matrix.vecMul_vecMul, Matrix.vecMul_vecMul, Matrix.nonsing_inv_mul _ hRu, Matrix.vecMul_one,
      Matrix.vecMul_one]
  have e1 : R0 * bord t w 0 B = bord t w' 0 (R * B * R⁻¹) * R0 := by
    rw [hform, bord_mul, bord_mul]
    congr 1
    · simp [mul_comm]
    · funext j
      rw [hw'R]
      simp
      try ring
    · funext i; simp
    · ext i j
      rw [Matrix.mul_assoc, Matrix.nonsing_inv_mul _ hRu]; simp
  have e2 : Uᴴ * Tmat u w t B * U = bord t w' 0 (R * B * R⁻¹) := by
    have hUU : U * Uᴴ = 1 := mul_eq_one_comm.1 hU
    have e3 : Uᴴ * Tmat u w t B * U * R0 = bord t w' 0 (R * B * R⁻¹) * R0 := by
      rw [← e1, hR0, Matrix.mul_assoc (Uᴴ * _) U, ← Matrix.mul_assoc U, hUU, Matrix.one_mul, Matrix.mul_assoc, Tmat_mul, Matrix.mul_assoc]
    have := congrArg (· * R0⁻¹) e3
    simpa only [Matrix.mul_assoc, Matrix.mul_nonsing_inv _ hR0u, Matrix.mul_one] using this
  have hz : nsq (0 : Fin n → ℂ) = 0 := by simp [nsq]
  rw [← fro_conj hU, e2, fro_bord, ← hw', hz, zero_add]

/-! ### The Gaussian integral -/

/-- `exp(-x)` -/
noncomputable def ee (x : ℝ) : ENNReal := ENNReal.ofReal (Real.exp (-x))

theorem ee_add (x y : ℝ) : ee (x + y) = ee x * ee y := by
  rw [ee, ee, ee, ← ENNReal.ofReal_mul (Real.exp_pos _).le, ← Real.exp_add]; congr 2; ring

theorem ee_ne (x : ℝ) : ee x ≠ 0 := (ENNReal.ofReal_pos.2 (Real.exp_pos _)).ne'

theorem measurable_ee : Measurable ee := by unfold ee; fun_prop

theorem measurable_nsq : Measurable (nsq (n := n)) := by unfold nsq; fun_prop

theorem measurable_fro {X : Type} [MeasurableSpace X] {m : ℕ} {A : X → Matrix (Fin n) (Fin m) ℂ} (hA : ∀ i j, Measurable fun x => A x i j) :
    Measurable fun x => fro (A x) := by
  simp only [fro]
  exact Finset.measurable_sum _ fun i _ => Finset.measurable_sum _ fun j _ => (hA i j).norm.pow_const 2

open Classical in
/-- the eigenvalue part of the integrand -/
noncomputable def gfun (F : (Fin (n + 1) → ℂ) → ENNReal) (t : ℂ) (B : Matrix (Fin n) (Fin n) ℂ) : ENNReal :=
  ENNReal.ofReal (‖(t • 1 - B).det‖ ^ 2) * if ∀ i, lexKey t ≤ lexKey (evs B i) then F (Fin.cons t (evs B)) else 0

theorem measurable_cons {X : Type} [MeasurableSpace X] {t : X → ℂ} {z : X → Fin n → ℂ} (ht : Measurable t) (hz : Measurable z) :
    Measurable fun x => (Fin.cons (t x) (z x) : Fin (n + 1) → ℂ) := by
  refine measurable_pi_lambda _ fun i => ?_
  induction i using Fin.cases with
  | zero => exact ht
  | succ i => exact (measurable_pi_apply i).comp hz

theorem measurable_gfun {F : (Fin (n + 1) → ℂ) → ENNReal} (hF : Measurable F) {X : Type} [MeasurableSpace X] {t : X → ℂ}
    {B : X → Matrix (Fin n) (Fin n) ℂ} (ht : Measurable t) (hB : ∀ i j, Measurable fun x => B x i j) : Measurable fun x => gfun F (t x) (B x) := by
  unfold gfun
  refine Measurable.mul ((measurable_det_shift ht hB).norm.pow_const 2).ennreal_ofReal (Measurable.ite ?_ (hF.comp (measurable_cons ht (measurable_evs hB)))
    measurable_const)
  have : {x | ∀ i, lexKey (t x) ≤ lexKey (evs (B x) i)} = ⋂ i, {x | lexKey (t x) ≤ lexKey (evs (B x) i)} := by ext x; simp
  rw [this]
  exact MeasurableSet.iInter fun i => measurableSet_lexle ht ((measurable_pi_apply i).comp (measurable_evs hB))

theorem det_sim {R : Matrix (Fin n) (Fin n) ℂ} (hR : R.det ≠ 0) (B : Matrix (Fin n) (Fin n) ℂ) (t : ℂ) :
    (t • 1 - R * B * R⁻¹).det = (t • 1 - B).det := by
  have hu : IsUnit R.det := isUnit_iff_ne_zero.2 hR
  have e : t • 1 - R * B * R⁻¹ = R * (t • 1 - B) * R⁻¹ := by
    rw [Matrix.mul_sub, Matrix.sub_mul, Matrix.mul_smul, Matrix.smul_mul, Matrix.mul_one, Matrix.mul_nonsing_inv _ hu]
  rw [e, Matrix.det_mul, Matrix.det_mul, mul_right_comm, ← Matrix.det_mul, Matrix.mul_nonsing_inv _ hu, Matrix.det_one, one_mul]

theorem evs_sim {R : Matrix (Fin n) (Fin n) ℂ} (hR : R.det ≠ 0) (B : Matrix (Fin n) (Fin n) ℂ) : evs (R * B * R⁻¹) = evs B :=
  evs_of_det (evs_mono B) fun s => by rw [evs_det, det_sim hR]

theorem gfun_sim {F : (Fin (n + 1) → ℂ) → ENNReal} {R : Matrix (Fin n) (Fin n) ℂ} (hR : R.det ≠ 0) (B : Matrix (Fin n) (Fin n) ℂ) (t : ℂ) :
    gfun F t (R * B * R⁻¹) = gfun F t B := by
  simp only [gfun, det_sim hR, evs_sim hR]

/-- the integral over the eigenvalues -/
noncomputable def II (F : (Fin (n + 1) → ℂ) → ENNReal) : ENNReal :=
  ∫⁻ t : ℂ, ∫⁻ b : Fin n × Fin n → ℂ, gfun F t (mat b) * (ee (‖t‖ ^ 2) * ee (fro (mat b)))

theorem Phi_Tmat (F : (Fin (n + 1) → ℂ) → ENNReal) (u w : Fin n → ℂ) (t : ℂ) (B : Matrix (Fin n) (Fin n) ℂ) :
    ENNReal.ofReal (‖(t • 1 - B).det‖ ^ 2) * Phi (fun A => F (evs A) * ee (fro A)) t (Tmat u w t B)
      = gfun F t B * ee (fro (Tmat u w t B)) := by
  unfold Phi gfun
  by_cases h : ∀ i, lexKey t ≤ lexKey (evs B i)
  · rw [if_pos (evs_Tmat_zero.2 h), if_pos h]
    show _ * (F (evs (Tmat u w t B)) * ee (fro (Tmat u w t B))) = _
    rw [evs_Tmat h, mul_assoc]
  · rw [if_neg (fun h' => h (evs_Tmat_zero.1 h')), if_neg h]; simp

theorem row_const {s : ℂ} (hs : s ≠ 0) {R : Matrix (Fin n) (Fin n) ℂ} (hR : R.det ≠ 0) : ∃ κ : ENNReal, κ ≠ 0 ∧
    ∀ f : (Fin n → ℂ) → ENNReal, Measurable f → ∫⁻ w : Fin n → ℂ, f (s • (w ᵥ* R⁻¹)) = κ * ∫⁻ w, f w := by
  have hRu : IsUnit R.det := isUnit_iff_ne_zero.2 hR
  let L1 : (Fin n → ℂ) →ₗ[ℝ] (Fin n → ℂ) :=
    { toFun := fun w => s • (w ᵥ* R⁻¹)
      map_add' := fun a b => by rw [Matrix.add_vecMul, smul_add]
      map_smul' := fun c a => by rw [RingHom.id_apply, Matrix.smul_vecMul, smul_comm] }
  have hL1 : Function.Injective L1 := fun a b h => by
    have h1 : s • (a ᵥ* R⁻¹) = s • (b ᵥ* R⁻¹) := h
    have h2 := congrArg (fun v => v ᵥ* R) (smul_right_injective _ hs h1)
    simpa only [Matrix.vecMul_vecMul, Matrix.nonsing_inv_mul _ hRu, Matrix.vecMul_one] using h2
  obtain ⟨κ1, h10, h1t, h1⟩ := lin_const volume L1 hL1
  exact ⟨κ1, h10, h1⟩

theorem conj_const {R : Matrix (Fin n) (Fin n) ℂ} (hR : R.det ≠ 0) : ∃ κ : ENNReal, κ ≠ 0 ∧
    ∀ f : Matrix (Fin n) (Fin n) ℂ → ENNReal, MeasM f →
      ∫⁻ b : Fin n × Fin n → ℂ, f (R * mat b * R⁻¹) = κ * ∫⁻ b : Fin n × Fin n → ℂ, f (mat b) := by
  have hRu : IsUnit R.det := isUnit_iff_ne_zero.2 hR
  let L2 : (Fin n × Fin n → ℂ) →ₗ[ℝ] (Fin n × Fin n → ℂ) :=
    { toFun := fun b => unmat (R * mat b * R⁻¹)
      map_add' := fun a b => by
        have : mat (a + b) = mat a + mat b := rfl
        rw [this, Matrix.mul_add, Matrix.add_mul]; rfl
      map_smul' := fun c a => by
        have : mat (c • a) = c • mat a := rfl
        rw [this, RingHom.id_apply, Matrix.mul_smul, Matrix.smul_mul]; rfl }
  have hL2 : Function.Injective L2 := fun a b h => by
    have h1 : R * mat a * R⁻¹ = R * mat b * R⁻¹ := congrArg mat h
    have h2 := congrArg (fun M => R⁻¹ * M * R) h1
    simp only [Matrix.mul_assoc, Matrix.nonsing_inv_mul _ hRu, Matrix.mul_one] at h2
    simp only [← Matrix.mul_assoc, Matrix.nonsing_inv_mul _ hRu, Matrix.one_mul] at h2
    exact congrArg unmat h2
  obtain ⟨κ2, h20, h2t, h2⟩ := lin_const volume L2 hL2
  exact ⟨κ2, h20, fun f hf => h2 (fun b => f (mat b)) hf⟩

/-- the integrand after the rotation -/
noncomputable def rotInt (F : (Fin (n + 1) → ℂ) → ENNReal) (s : ℂ) (r : Fin n → ℂ) (R : Matrix (Fin n) (Fin n) ℂ) (w : Fin n → ℂ) (t : ℂ)
    (b : Fin n × Fin n → ℂ) : ENNReal :=
  gfun F t (mat b) * (ee (‖t‖ ^ 2) * ee (nsq (s • (w ᵥ* R⁻¹) + ((r ᵥ* mat b - t • r) ᵥ* R⁻¹))) * ee (fro (R * mat b * R⁻¹)))

theorem measurable_rotInt {F : (Fin (n + 1) → ℂ) → ENNReal} (hF : Measurable F) (s : ℂ) (r : Fin n → ℂ) (R : Matrix (Fin n) (Fin n) ℂ)
    {X : Type} [MeasurableSpace X] {w : X → Fin n → ℂ} {t : X → ℂ} {b : X → Fin n × Fin n → ℂ} (hw : Measurable w) (ht : Measurable t)
    (hb : Measurable b) : Measurable fun x => rotInt F s r R (w x) (t x) (b x) := by
  have mx : ∀ i j, Measurable fun x => mat (b x) i j := fun i j => (measurable_mat i j).comp hb
  have hwi : ∀ i, Measurable fun x => w x i := fun i => (measurable_pi_apply i).comp hw
  have hbi : ∀ p, Measurable fun x => b x p := fun p => (measurable_pi_apply p).comp hb
  have mk : Measurable fun x => s • (w x ᵥ* R⁻¹) + ((r ᵥ* mat (b x) - t x • r) ᵥ* R⁻¹) := by
    refine measurable_pi_lambda _ fun i => ?_
    simp only [Pi.add_apply, Pi.smul_apply, Matrix.vecMul, dotProduct, Pi.sub_apply, smul_eq_mul, mat, Matrix.of_apply]
    fun_prop
  have mR : ∀ i j, Measurable fun x => (R * mat (b x) * R⁻¹) i j :=
    measurable_matmul (measurable_matmul (fun i j => measurable_const) mx) fun i j => measurable_const
  exact (measurable_gfun hF ht mx).mul (((measurable_ee.comp (ht.norm.pow_const 2)).mul (measurable_ee.comp (measurable_nsq.comp mk))).mul
      (measurable_ee.comp (measurable_fro mR)))

theorem row_integral {s : ℂ} (hs : s ≠ 0) {R : Matrix (Fin n) (Fin n) ℂ} (hR : R.det ≠ 0) : ∃ κ : ENNReal, κ ≠ 0 ∧
    ∀ (F : (Fin (n + 1) → ℂ) → ENNReal) (r : Fin n → ℂ) (t : ℂ) (b : Fin n × Fin n → ℂ),
      ∫⁻ w : Fin n → ℂ, rotInt F s r R w t b = κ * (gfun F t (mat b) * (ee (‖t‖ ^ 2) * ee (fro (R * mat b * R⁻¹)))) := by
  obtain ⟨κ1, h10, h1⟩ := row_const (n := n) hs hR
  obtain ⟨Gw, hGw⟩ : ∃ Gw : ENNReal, Gw = ∫⁻ w : Fin n → ℂ, ee (nsq w) := ⟨_, rfl⟩
  have hm0 : Measurable fun w : Fin n → ℂ => ee (nsq w) := measurable_ee.comp measurable_nsq
  have hGw0 : Gw ≠ 0 := fun h0 => by
    rw [hGw, lintegral_eq_zero_iff hm0] at h0
    have h3 : ∀ᵐ w : Fin n → ℂ, False := by
      filter_upwards [h0] with w hw
      exact ee_ne _ hw
    have h4 := ae_iff.1 h3
    simp only [not_false_eq_true] at h4
    exact (Measure.measure_univ_ne_zero.2 (NeZero.ne (volume : Measure (Fin n → ℂ)))) h4
  refine ⟨κ1 * Gw, mul_ne_zero h10 hGw0, fun F r t b => ?_⟩
  obtain ⟨k, hk⟩ : ∃ k : Fin n → ℂ, k = ((r ᵥ* mat b - t • r) ᵥ* R⁻¹) := ⟨_, rfl⟩
  have m : Measurable fun w : Fin n → ℂ => ee (nsq (w + k)) := measurable_ee.comp (measurable_nsq.comp (measurable_id.add_const k))
  have hw : ∫⁻ w : Fin n → ℂ, ee (nsq (s • (w ᵥ* R⁻¹) + k)) = κ1 * Gw := by
    have := h1 (fun w => ee (nsq (w + k))) m
    rw [hGw, ← lintegral_add_right_eq_self (fun w => ee (nsq w)) k]
    exact this
  have m5 : Measurable fun w : Fin n → ℂ => ee (nsq (s • (w ᵥ* R⁻¹) + k)) := by
    refine measurable_ee.comp (measurable_nsq.comp (Measurable.add_const ?_ k))
    refine measurable_pi_lambda _ fun i => ?_
    simp only [Pi.smul_apply, Matrix.vecMul, dotProduct, smul_eq_mul]
    fun_prop
  rw [← hw, ← lintegral_mul_const _ m5]
  refine lintegral_congr fun w => ?_
  rw [rotInt, ← hk]
  ring

theorem inner_integral (u : Fin n → ℂ) : ∃ κ : ENNReal, κ ≠ 0 ∧ ∀ F : (Fin (n + 1) → ℂ) → ENNReal, Measurable F →
    ∫⁻ w : Fin n → ℂ, ∫⁻ t : ℂ, ∫⁻ b : Fin n × Fin n → ℂ,
      ENNReal.ofReal (‖(t • 1 - mat b).det‖ ^ 2) * Phi (fun A => F (evs A) * ee (fro A)) t (Tmat u w t (mat b)) = κ * II F := by
  obtain ⟨s, r, R, hs, hR, hfro⟩ := exists_tri u
  obtain ⟨κ1, h10, h1⟩ := row_integral (n := n) hs hR
  obtain ⟨κ2, h20, h2⟩ := conj_const (n := n) hR
  refine ⟨κ1 * κ2, mul_ne_zero h10 h20, fun F hF => ?_⟩
  have e0 : ∀ (w : Fin n → ℂ) (t : ℂ) (b : Fin n × Fin n → ℂ),
      ENNReal.ofReal (‖(t • 1 - mat b).det‖ ^ 2) * Phi (fun A => F (evs A) * ee (fro A)) t (Tmat u w t (mat b)) = rotInt F s r R w t b :=
    fun w t b => by rw [Phi_Tmat, hfro, ee_add, ee_add, rotInt]
  simp only [e0]
  have m1 : Measurable fun q : (Fin n → ℂ) × ℂ => ∫⁻ b : Fin n × Fin n → ℂ, rotInt F s r R q.1 q.2 b := by
    have : Measurable fun q : ((Fin n → ℂ) × ℂ) × (Fin n × Fin n → ℂ) => rotInt F s r R q.1.1 q.1.2 q.2 :=
      measurable_rotInt hF s r R (by fun_prop) (by fun_prop) (by fun_prop)
    exact this.lintegral_prod_right'
  rw [lintegral_lintegral_swap m1.aemeasurable, II]
  have nt : Measurable fun q : ℂ × (Fin n × Fin n → ℂ) => q.1 := by fun_prop
  have nx : ∀ i j, Measurable fun q : ℂ × (Fin n × Fin n → ℂ) => mat q.2 i j := fun i j => (measurable_mat i j).comp (by fun_prop)
  have m2 : Measurable fun q : ℂ × (Fin n × Fin n → ℂ) => gfun F q.1 (mat q.2) * (ee (‖q.1‖ ^ 2) * ee (fro (mat q.2))) :=
    (measurable_gfun hF nt nx).mul ((measurable_ee.comp (nt.norm.pow_const 2)).mul (measurable_ee.comp (measurable_fro nx)))
  have m3 : Measurable fun t : ℂ => ∫⁻ b : Fin n × Fin n → ℂ, gfun F t (mat b) * (ee (‖t‖ ^ 2) * ee (fro (mat b))) := m2.lintegral_prod_right'
  rw [← lintegral_const_mul _ m3]
  refine lintegral_congr fun t => ?_
  have m8 : Measurable (Function.uncurry fun (w : Fin n → ℂ) (b : Fin n × Fin n → ℂ) => rotInt F s r R w t b) :=
    measurable_rotInt (X := (Fin n → ℂ) × (Fin n × Fin n → ℂ)) hF s r R measurable_fst measurable_const measurable_snd
  rw [lintegral_lintegral_swap m8.aemeasurable]
  have m4 : MeasM fun B : Matrix (Fin n) (Fin n) ℂ => gfun F t B * (ee (‖t‖ ^ 2) * ee (fro B)) := by
    unfold MeasM
    exact (measurable_gfun hF measurable_const measurable_mat).mul (measurable_const.mul (measurable_ee.comp (measurable_fro measurable_mat)))
  have e5 := h2 _ m4
  have m6 : Measurable fun b : Fin n × Fin n → ℂ => gfun F t (R * mat b * R⁻¹) * (ee (‖t‖ ^ 2) * ee (fro (R * mat b * R⁻¹))) :=
    m4.comp (measurable_matmul (measurable_matmul (fun i j => measurable_const) measurable_mat) fun i j => measurable_const)
  rw [mul_assoc, ← e5, ← lintegral_const_mul _ m6]
  refine lintegral_congr fun b => ?_
  rw [gfun_sim hR, h1]

end Verif.Lemmas
