import Verif.Lemmas.KerAlg
import Verif.Lemmas.KutaRefine
import Verif.Model.FiniteDPP

/-!
Linear algebra behind the attributes of `FiniteDPP`: eigenvalues of projections, dual kernels, row
spaces.
-/

set_option linter.unusedSectionVars false

namespace Verif.Model
open Verif Verif.Spec Matrix

variable {N M : ℕ} {Info : Type}

/-- eigenvalues of an idempotent kernel are 0 or 1 -/
theorem eigval_idem {U : Fin N → Fin M → ℝ} {v : Fin M → ℝ} (h : OrthOn U v)
    (hp : ker U v * ker U v = ker U v) (a : Fin M) : v a = 0 ∨ v a = 1 := by
  by_cases ha : v a = 0
  · exact Or.inl ha
  · right
    rw [h.mul _ _ (fun _ h => h) (fun _ h => h)] at hp
    have h2 : OrthOn U (fun a => v a * v a) := h.congr (fun a h0 => by simp [h0])
    have e1 := quad_ker_eigvec h2 a (by simpa using ha)
    rw [hp, quad_ker_eigvec h a ha] at e1
    have : v a * (v a - 1) = 0 := by linear_combination -e1
    rcases mul_eq_zero.1 this with h0 | h0
    · exact absurd h0 ha
    · linarith

theorem orth_orthOn {U : Fin N → Fin M → ℝ} (h : ∀ a b, ∑ i, U i a * U i b = if a = b then 1 else 0)
    (v : Fin M → ℝ) : OrthOn U v := fun a b _ _ => h a b

/-- inverse of `v ↦ v / (1 + v)` -/
theorem toK_toL {v : ℝ} (h : v ≠ 1) : v / (1 - v) / (1 + v / (1 - v)) = v := by
  have h1 : (1 - v) ≠ 0 := sub_ne_zero.2 (Ne.symm h)
  have h2 : 1 + v / (1 - v) = 1 / (1 - v) := by field_simp; ring
  rw [h2]; field_simp

theorem toL_toK {v : ℝ} (h : 0 ≤ v) : v / (1 + v) / (1 - v / (1 + v)) = v := by
  have h1 : (1 + v) ≠ 0 := by positivity
  have h2 : 1 - v / (1 + v) = 1 / (1 + v) := by field_simp; ring
  rw [h2]; field_simp

/-! ### dual kernels -/

section dual
variable {d : ℕ} {Phi : Fin d → Fin N → ℝ} {th : Fin d → ℝ} {W : Fin d → Fin d → ℝ}
  (hW : ∀ a b, ∑ l, W l a * W l b = if a = b then 1 else 0)
  (hG : ∀ k l, ∑ i, Phi k i * Phi l i = ∑ a, th a * W k a * W l a)
include hW hG

/-- `⟨Φᵀ w_a, Φᵀ w_b⟩ = θ_a δ_ab` -/
theorem dual_inner (a b : Fin d) :
    ∑ i, (∑ k, Phi k i * W k a) * (∑ l, Phi l i * W l b) = if a = b then th a else 0 := by
  have e1 : ∀ i, (∑ k, Phi k i * W k a) * (∑ l, Phi l i * W l b)
      = ∑ k, ∑ l, W k a * W l b * (Phi k i * Phi l i) := by
    intro i; rw [Finset.sum_mul_sum]
    exact Finset.sum_congr rfl (fun _ _ => Finset.sum_congr rfl (fun _ _ => by ring))
  simp only [e1]
  rw [Finset.sum_comm]
  have e2 : ∀ k, ∑ i, ∑ l, W k a * W l b * (Phi k i * Phi l i)
      = ∑ l, W k a * W l b * ∑ c, th c * W k c * W l c := by
    intro k; rw [Finset.sum_comm]
    apply Finset.sum_congr rfl; intro l _
    rw [← Finset.mul_sum, hG]
  simp only [e2]
  have e3 : ∑ k, ∑ l, W k a * W l b * ∑ c, th c * W k c * W l c
      = ∑ c, th c * (∑ k, W k a * W k c) * (∑ l, W l b * W l c) := by
    simp only [Finset.mul_sum, Finset.sum_mul]
    have : ∀ k, ∑ l, ∑ c, W k a * W l b * (th c * W k c * W l c)
        = ∑ c, ∑ l, W k a * W l b * (th c * W k c * W l c) := fun k => Finset.sum_comm
    simp only [this]
    rw [Finset.sum_comm]
    apply Finset.sum_congr rfl; intro c _
    rw [Finset.sum_comm]
    exact Finset.sum_congr rfl (fun _ _ => Finset.sum_congr rfl (fun _ _ => by ring))
  rw [e3]
  simp only [hW]
  rw [Finset.sum_eq_single a]
  · by_cases hab : a = b
    · subst hab; simp
    · simp [hab, Ne.symm hab]
  · intro c _ hc; rw [if_neg (fun h => hc h.symm)]; simp
  · simp

theorem dual_nonneg (a : Fin d) : 0 ≤ th a := by
  have := dual_inner hW hG a a
  rw [if_pos rfl] at this
  rw [← this]
  exact Finset.sum_nonneg (fun i _ => mul_self_nonneg _)

theorem dual_zero (a : Fin d) (ha : th a = 0) (i : Fin N) : ∑ k, Phi k i * W k a = 0 := by
  have := dual_inner hW hG a a
  rw [if_pos rfl, ha] at this
  have h1 := (Finset.sum_eq_zero_iff_of_nonneg (fun i _ => mul_self_nonneg _)).1 this i
    (Finset.mem_univ _)
  exact mul_self_eq_zero.1 h1

theorem dual_dep (a : Fin d) (ha : th a = 0) : ¬ LinearIndependent ℝ Phi := by
  intro hl
  rw [Fintype.linearIndependent_iff] at hl
  have h0 := hl (fun k => W k a) (by
    ext i
    have := dual_zero hW hG a ha i
    simp only [Finset.sum_apply, Pi.smul_apply, smul_eq_mul, Pi.zero_apply]
    rw [← this]; exact Finset.sum_congr rfl (fun _ _ => by ring))
  have h1 := hW a a
  simp [h0] at h1

theorem dual_orthOn : OrthOn (fun i a => ∑ l, Phi l i * (W l a / Real.sqrt (th a))) th := by
  intro a b ha hb
  have e : ∀ i, (∑ l, Phi l i * (W l a / Real.sqrt (th a))) * (∑ l, Phi l i * (W l b / Real.sqrt (th b)))
      = ((∑ k, Phi k i * W k a) * (∑ l, Phi l i * W l b)) * (1 / (Real.sqrt (th a) * Real.sqrt (th b))) := by
    intro i
    have e1 : ∀ c, ∑ l, Phi l i * (W l c / Real.sqrt (th c)) = (∑ l, Phi l i * W l c) * (1 / Real.sqrt (th c)) := by
      intro c; rw [Finset.sum_mul]; exact Finset.sum_congr rfl (fun _ _ => by ring)
    rw [e1, e1]; ring
  simp only [e]
  rw [← Finset.sum_mul, dual_inner hW hG]
  by_cases hab : a = b
  · subst hab
    have h0 := dual_nonneg hW hG a
    rw [if_pos rfl, if_pos rfl, Real.mul_self_sqrt h0]
    field_simp
  · rw [if_neg hab, if_neg hab, zero_mul]

theorem rows_complete (k l : Fin d) : ∑ a, W k a * W l a = if k = l then 1 else 0 := by
  have h1 : (Matrix.of W)ᵀ * Matrix.of W = 1 := by
    ext a b; rw [Matrix.mul_apply, Matrix.one_apply]; exact hW a b
  have h3 : Matrix.of W * (Matrix.of W)ᵀ = 1 := mul_eq_one_comm.1 h1
  have h2 := congrFun (congrFun h3 k) l
  rw [Matrix.mul_apply, Matrix.one_apply] at h2
  exact h2

theorem dual_ker : ker (fun i a => ∑ l, Phi l i * (W l a / Real.sqrt (th a))) th
    = gramMat (N := N) ⟨d, Phi⟩ := by
  ext i j
  have e0 : ∀ a, th a * (∑ l, Phi l i * (W l a / Real.sqrt (th a))) *
        (∑ l, Phi l j * (W l a / Real.sqrt (th a)))
      = (∑ k, Phi k i * W k a) * (∑ l, Phi l j * W l a) := by
    intro a
    have e1 : ∀ i, ∑ l, Phi l i * (W l a / Real.sqrt (th a)) = (∑ l, Phi l i * W l a) * (1 / Real.sqrt (th a)) := by
      intro c; rw [Finset.sum_mul]; exact Finset.sum_congr rfl (fun _ _ => by ring)
    rw [e1, e1]
    by_cases ha : th a = 0
    · rw [dual_zero hW hG a ha i]; simp [ha]
    · have h0 : 0 < th a := lt_of_le_of_ne (dual_nonneg hW hG a) (Ne.symm ha)
      have h1 : Real.sqrt (th a) ≠ 0 := (Real.sqrt_pos.2 h0).ne'
      have h2 : Real.sqrt (th a) * Real.sqrt (th a) = th a := Real.mul_self_sqrt h0.le
      field_simp
      rw [sq, h2]; ring
  simp only [ker, Matrix.of_apply, e0, gramMat]
  have e2 : ∀ a, (∑ k, Phi k i * W k a) * (∑ l, Phi l j * W l a)
      = ∑ k, ∑ l, Phi k i * Phi l j * (W k a * W l a) := by
    intro a; rw [Finset.sum_mul_sum]
    exact Finset.sum_congr rfl (fun _ _ => Finset.sum_congr rfl (fun _ _ => by ring))
  simp only [e2]
  rw [Finset.sum_comm]
  apply Finset.sum_congr rfl; intro k _
  rw [Finset.sum_comm]
  simp only [← Finset.mul_sum, rows_complete hW hG, mul_ite, mul_one, mul_zero]
  rw [Finset.sum_ite_eq]; simp

end dual

theorem gram_isLikelihood (Phi : Rect N) : IsLikelihood (gramMat Phi) := by
  have : gramMat Phi = ker (fun i l => Phi.a l i) (fun _ => 1) := by
    ext i j; simp [gramMat, ker]
  rw [this]
  exact isLikelihood_ker _ (fun _ => zero_le_one)

/-! ### kernel of a row space -/

/-- `Aᵀ (A Aᵀ)⁻¹ A` -/
noncomputable def rowProj {d : ℕ} (A : Fin d → Fin N → ℝ) : Matrix (Fin N) (Fin N) ℝ :=
  (Matrix.of A)ᵀ * (Matrix.of A * (Matrix.of A)ᵀ)⁻¹ * Matrix.of A

theorem qr_rowProj {qr : QR N} (hqr : QRSpec qr) {d : ℕ} (A : Fin d → Fin N → ℝ)
    (hA : LinearIndependent ℝ A) :
    (∀ k l, ∑ i, qr d (fun i k => A k i) i k * qr d (fun i k => A k i) i l = if k = l then 1 else 0) ∧
    ker (qr d (fun i k => A k i)) (fun _ => 1) = rowProj A := by
  have hi : ∀ x : Fin d → ℝ, (∀ i, ∑ l, A l i * x l = 0) → x = 0 := by
    intro x hx
    rw [Fintype.linearIndependent_iff] at hA
    funext k
    exact hA x (by
      ext i
      simp only [Finset.sum_apply, Pi.smul_apply, smul_eq_mul, Pi.zero_apply]
      rw [← hx i]; exact Finset.sum_congr rfl (fun _ _ => by ring)) k
  obtain ⟨h1, U, hU⟩ := hqr d (fun i k => A k i) hi
  refine ⟨h1, ?_⟩
  set Q : Matrix (Fin N) (Fin d) ℝ := Matrix.of (qr d (fun i k => A k i)) with hQ
  have hQQ : Qᵀ * Q = 1 := by
    ext a b; rw [Matrix.mul_apply, Matrix.one_apply]; exact h1 a b
  have hAU : (Matrix.of A)ᵀ = Q * Matrix.of U := by
    ext i l; rw [Matrix.mul_apply]; exact hU i l
  have hA2 : Matrix.of A = (Matrix.of U)ᵀ * Qᵀ := by
    rw [← Matrix.transpose_mul, ← hAU, Matrix.transpose_transpose]
  have hUdet : IsUnit (Matrix.of U).det := by
    rw [isUnit_iff_ne_zero]
    intro h0
    obtain ⟨x, hx0, hx⟩ := (Matrix.exists_mulVec_eq_zero_iff (M := Matrix.of U)).2 h0
    apply hx0
    apply hi x
    intro i
    have : ((Matrix.of A)ᵀ *ᵥ x) i = 0 := by
      rw [hAU, ← Matrix.mulVec_mulVec, hx]; simp
    rw [← this]
    rfl
  have hUT : IsUnit (Matrix.of U)ᵀ.det := by rw [Matrix.det_transpose]; exact hUdet
  have hk : ker (qr d (fun i k => A k i)) (fun _ => 1) = Q * Qᵀ := by
    ext i j; rw [Matrix.mul_apply]; simp [ker, hQ]
  rw [hk, rowProj, hAU, hA2]
  have e1 : (Matrix.of U)ᵀ * Qᵀ * (Q * Matrix.of U) = (Matrix.of U)ᵀ * Matrix.of U := by
    rw [Matrix.mul_assoc, ← Matrix.mul_assoc Qᵀ, hQQ, Matrix.one_mul]
  rw [e1, Matrix.mul_inv_rev]
  have e2 : Q * Matrix.of U * ((Matrix.of U)⁻¹ * (Matrix.of U)ᵀ⁻¹) * ((Matrix.of U)ᵀ * Qᵀ)
      = Q * (Matrix.of U * (Matrix.of U)⁻¹) * ((Matrix.of U)ᵀ⁻¹ * (Matrix.of U)ᵀ) * Qᵀ := by
    simp only [Matrix.mul_assoc]
  rw [e2, Matrix.mul_nonsing_inv _ hUdet, Matrix.nonsing_inv_mul _ hUT]
  simp

end Verif.Model
