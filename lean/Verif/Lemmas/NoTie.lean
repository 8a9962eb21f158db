import Verif.Lemmas.Precompute2
import Mathlib.LinearAlgebra.Matrix.Rank

/-!
When the acceptance probability of alpha-dpp is exactly one.
-/

namespace Verif
open Verif Verif.Spec Verif.Model Matrix

variable {n : ℕ}

theorem det_eq_exp {K : Matrix (Fin n) (Fin n) ℝ} (h : K.PosSemidef) (he : K.det = Real.exp (K.trace - n)) : K = 1 := by
  have h1 := h.1.det_eq_prod_eigenvalues
  have h2 := h.1.trace_eq_sum_eigenvalues
  simp only [RCLike.ofReal_real_eq_id, id_eq] at h1 h2
  have hpos : 0 < K.det := by rw [he]; exact Real.exp_pos _
  rw [h1, h2] at he
  have h3 : ∑ i, h.1.eigenvalues i - (n : ℝ) = ∑ i, (h.1.eigenvalues i - 1) := by
    rw [Finset.sum_sub_distrib]; simp
  rw [h3, Real.exp_sum] at he
  have hne : ∀ i, 0 < h.1.eigenvalues i := by
    intro i
    refine lt_of_le_of_ne (h.eigenvalues_nonneg i) fun h0 => ?_
    rw [h1, Finset.prod_eq_zero (Finset.mem_univ i) h0.symm] at hpos
    exact lt_irrefl _ hpos
  have hone : ∀ i, h.1.eigenvalues i = 1 := by
    by_contra hno
    push Not at hno
    obtain ⟨i, hi⟩ := hno
    have hlt : ∏ i, h.1.eigenvalues i < ∏ i, Real.exp (h.1.eigenvalues i - 1) := by
      refine Finset.prod_lt_prod (fun i _ => hne i) (fun i _ => ?_) ⟨i, Finset.mem_univ i, ?_⟩
      · have := Real.add_one_le_exp (h.1.eigenvalues i - 1)
        linarith
      · have := Real.add_one_lt_exp (sub_ne_zero.2 hi)
        linarith
    exact hlt.ne he
  have h4 := h.1.spectral_theorem
  rw [h4]
  have h5 : (RCLike.ofReal ∘ h.1.eigenvalues : Fin n → ℝ) = fun _ => 1 := by
    funext i
    simp [hone i]
  rw [h5]
  have : diagonal (fun _ : Fin n => (1:ℝ)) = 1 := diagonal_one
  rw [this, map_one]

theorem det_mul_eq_exp {A P : Matrix (Fin n) (Fin n) ℝ} (hA : A.PosSemidef) (hP : P.PosSemidef)
    (he : A.det * P.det = Real.exp ((A * P).trace - n)) : A * P = 1 := by
  obtain ⟨R, rfl⟩ := psd_factor hP
  have h1 : (R * A * Rᵀ).PosSemidef := by
    have := hA.mul_mul_conjTranspose_same R
    simpa using this
  have h2 : R * A * Rᵀ = 1 := by
    refine det_eq_exp h1 ?_
    rw [det_mul, det_mul, det_transpose]
    rw [det_mul, det_transpose, show (A * (Rᵀ * R)).trace = (R * A * Rᵀ).trace by
      rw [← Matrix.mul_assoc, trace_mul_comm, ← Matrix.mul_assoc]] at he
    rw [← he]; ring
  rw [Matrix.mul_assoc] at h2
  have h3 := mul_eq_one_comm.1 h2
  rw [Matrix.mul_assoc] at h3
  exact h3

variable {κ ι : Type*} [Fintype κ] [DecidableEq κ] [Fintype ι] [DecidableEq ι]
variable {G : Matrix (Fin n) κ ℝ} {α : ℝ} {μ : κ → ℝ}

theorem nys_acc_eq (hG : Gᵀ * G = diagonal μ) (hα : 0 ≤ α) (hμ : ∀ j, 0 ≤ μ j) (X : Matrix (Fin n) ι ℝ)
    (he : (∑ j, α * μ j / (α * μ j + 1)) + Real.log (1 + Xᵀ * X).det - ∑ j, Real.log (1 + α * μ j)
      - (Xᵀ * nysInv G α μ * X).trace = 0) : X * Xᵀ = α • (G * Gᵀ) := by
  have hX : (1 + X * Xᵀ).PosSemidef := by
    refine Matrix.PosSemidef.add .one ?_
    have := posSemidef_self_mul_conjTranspose X
    simpa using this
  have hXd : 0 < (1 + X * Xᵀ).det := by
    refine det_one_add_pos ?_
    have := posSemidef_self_mul_conjTranspose X
    simpa using this
  have hpos : ∀ j, 0 < 1 + α * μ j := fun j => by have := hμ j; positivity
  have h2 := det_nysInv hG hα hμ
  have hP : 0 < ∏ j, (1 + α * μ j) := Finset.prod_pos fun j _ => hpos j
  have h3 : ((1 + X * Xᵀ) * nysInv G α μ).trace = n - ∑ j, α * μ j / (α * μ j + 1) + (Xᵀ * nysInv G α μ * X).trace := by
    rw [Matrix.add_mul, Matrix.one_mul, trace_add, trace_nysInv hG, Matrix.mul_assoc, trace_mul_comm X]
  have h4 : (1 + X * Xᵀ) * nysInv G α μ = 1 := by
    refine det_mul_eq_exp hX (nysInv_psd hG hα hμ) ?_
    rw [h3]
    have h5 : Real.log (1 + X * Xᵀ).det = (Xᵀ * nysInv G α μ * X).trace - (∑ j, α * μ j / (α * μ j + 1))
        + ∑ j, Real.log (1 + α * μ j) := by
      rw [← det_one_add_mul_comm]; linarith
    have h6 : (nysInv G α μ).det = (∏ j, (1 + α * μ j))⁻¹ := eq_inv_of_mul_eq_one_left h2
    rw [h6, ← Real.exp_log hXd, h5, Real.exp_add, ← Real.log_prod (fun j _ => (hpos j).ne'), Real.exp_log hP, mul_assoc,
      mul_inv_cancel₀ hP.ne', mul_one]
    congr 1
    ring
  have h5 := nysInv_mul hG hα hμ
  have h6 : 1 + X * Xᵀ = 1 + α • (G * Gᵀ) := by
    calc 1 + X * Xᵀ = (1 + X * Xᵀ) * (nysInv G α μ * (1 + α • (G * Gᵀ))) := by rw [h5, Matrix.mul_one]
      _ = 1 + α • (G * Gᵀ) := by rw [← Matrix.mul_assoc, h4, Matrix.one_mul]
  exact add_left_cancel h6

variable {L : Matrix (Fin n) (Fin n) ℝ} {N : Nystrom n}

theorem rank_gram {κ : Type*} [Fintype κ] [DecidableEq κ] {G : Matrix (Fin n) κ ℝ} {μ : κ → ℝ} (hG : Gᵀ * G = diagonal μ)
    (hμ : ∀ j, μ j ≠ 0) : (G * Gᵀ).rank = Fintype.card κ := by
  rw [Matrix.rank_self_mul_transpose, ← Matrix.rank_transpose_mul_self, hG, rank_diagonal]
  simp [hμ]

/-- When the acceptance probability of an intermediate sample is one, the sample has `r` times the effective dimension
points. -/
theorem alphaAcc_tie (h : NysOK L N) (hL : L.PosSemidef) {a r : ℝ} (ha : 0 < a) (hr : 0 < r) {c : Fin n → ℕ}
    (hc : ∀ i, 0 < c i → 0 < nysRls L N a i) (h0 : alphaAcc L N a r (nysRls L N a) c = 0) :
    nysDeff N a = (∑ i, (c i : ℝ)) / r := by
  obtain ⟨R, hR⟩ := psd_factor hL
  have hw : ∀ i, 0 < c i → 0 ≤ alphaWt r (nysRls L N a) c i := fun i hi => by
    have h2 := hc i hi
    unfold alphaWt; positivity
  have hG := nysG_gram h hR
  have h1 := h0
  rw [alphaAcc_eq h hL hR ha hc, tilde_eq_nys hR hG ha.le h.nonneg _ c hw] at h1
  have h2 := nys_acc_eq hG ha.le h.nonneg _ h1
  have h6 : ((tildeX R a (alphaWt r (nysRls L N a) c) c)ᵀ * nysInv (nysG R N) a N.eigvals
      * tildeX R a (alphaWt r (nysRls L N a) c) c).trace = nysDeff N a := by
    rw [Matrix.mul_assoc, trace_mul_comm, Matrix.mul_assoc, h2]
    have h7 : a • (nysG R N * (nysG R N)ᵀ) = (1 + a • (nysG R N * (nysG R N)ᵀ)) - 1 := by simp
    rw [h7, Matrix.mul_sub, nysInv_mul hG ha.le h.nonneg, Matrix.mul_one, trace_sub, trace_nysInv hG, trace_one,
      Fintype.card_fin]
    unfold nysDeff
    rw [sub_sub_cancel]
    refine Finset.sum_congr rfl fun j _ => ?_
    have : 0 < a * N.eigvals j + 1 := by have := h.nonneg j; positivity
    field_simp
    ring
  have h8 := tilde_eq_nys hR hG ha.le h.nonneg _ c hw
  rw [h6, ← alphaAcc_eq h hL hR ha hc, h0] at h8
  have h9 : (tildeX R a (alphaWt r (nysRls L N a) c) c)ᵀ * tildeX R a (alphaWt r (nysRls L N a) c) c
      = tildeM L a (alphaWt r (nysRls L N a) c) c := by
    ext x y
    simp only [tildeX, mul_apply, transpose_apply, of_apply, tildeM, submatrix_apply, uniqEmb, Function.Embedding.coeFn_mk]
    have h10 : L ((uniq c).get x) ((uniq c).get y) = ∑ p, R p ((uniq c).get x) * R p ((uniq c).get y) := by
      conv_lhs => rw [hR, mul_apply]
      rfl
    rw [h10, Real.sqrt_mul ha.le, Real.sqrt_mul ha.le, Finset.mul_sum, Finset.sum_mul]
    refine Finset.sum_congr rfl fun p _ => ?_
    have := Real.mul_self_sqrt ha.le
    linear_combination (Real.sqrt (alphaWt r (nysRls L N a) c ((uniq c).get x)) * R p ((uniq c).get x) * Real.sqrt (alphaWt r (nysRls L N a) c ((uniq c).get y))
      * R p ((uniq c).get y)) * this
  unfold alphaAcc at h0
  rw [alphaTilde_eq (est := nysRls L N a) fun _ _ => rfl, add_comm (tildeM _ _ _ _) 1,
    abs_of_pos (det_one_add_pos (tildeM_psd hL ha.le))] at h0
  rw [h9] at h8
  have h11 : nysDeff N a = ∑ j, a * N.eigvals j / (a * N.eigvals j + 1) := by
    unfold nysDeff
    refine Finset.sum_congr rfl fun j _ => ?_
    have : 0 < a * N.eigvals j + 1 := by have := h.nonneg j; positivity
    field_simp
    ring
  unfold nysLogdet at h0
  rw [← h11] at h8
  linarith

/-- With `r ≤ 1`, or if `r` times the effective dimension is not a natural number, the acceptance probability of an
intermediate sample is never one. -/
theorem alphaAcc_neg (h : NysOK L N) (hL : L.PosSemidef) (hm : 0 < N.m') (hp : ∀ j, 0 < N.eigvals j) {a r : ℝ} (ha : 0 < a)
    (hr : 0 < r) (hr1 : r ≤ 1 ∨ ∀ k : ℕ, r * nysDeff N a ≠ k) {c : Fin n → ℕ} (hc : ∀ i, 0 < c i → 0 < nysRls L N a i) :
    alphaAcc L N a r (nysRls L N a) c < 0 := by
  refine lt_of_le_of_ne (alphaAcc_nonpos h hL ha hr hc) fun h0 => ?_
  obtain ⟨R, hR⟩ := psd_factor hL
  have hw : ∀ i, 0 < c i → 0 ≤ alphaWt r (nysRls L N a) c i := fun i hi => by
    have h2 := hc i hi
    unfold alphaWt; positivity
  have hG := nysG_gram h hR
  have h1 := h0
  rw [alphaAcc_eq h hL hR ha hc, tilde_eq_nys hR hG ha.le h.nonneg _ c hw] at h1
  have h2 := nys_acc_eq hG ha.le h.nonneg _ h1
  have h3 : (a • (nysG R N * (nysG R N)ᵀ)).rank = N.m' := by
    have h4 : a • (nysG R N * (nysG R N)ᵀ) = (Real.sqrt a • nysG R N) * (Real.sqrt a • nysG R N)ᵀ := by
      rw [transpose_smul, Matrix.smul_mul, Matrix.mul_smul, smul_smul, Real.mul_self_sqrt ha.le]
    rw [h4, rank_gram (μ := fun j => a * N.eigvals j) ?_ fun j => (mul_pos ha (hp j)).ne', Fintype.card_fin]
    rw [transpose_smul, Matrix.smul_mul, Matrix.mul_smul, smul_smul, Real.mul_self_sqrt ha.le, hG, ← diagonal_smul]
    rfl
  rw [← h2, Matrix.rank_self_mul_transpose] at h3
  have h4 : N.m' ≤ (uniq c).length := by
    rw [← h3]
    have := Matrix.rank_le_card_width (tildeX R a (alphaWt r (nysRls L N a) c) c)
    rwa [Fintype.card_fin] at this
  have h5 : (uniq c).length ≤ ∑ i, c i := by
    have h6 := sum_uniq c fun _ => 1
    simp only [Finset.sum_const, Finset.card_univ, Fintype.card_fin, nsmul_eq_mul, mul_one] at h6
    have h7 : ((uniq c).length : ℝ) ≤ ((∑ i, c i : ℕ) : ℝ) := by
      rw [h6]
      push_cast
      refine Finset.sum_le_sum fun i _ => ?_
      split
      · rename_i hi; exact_mod_cast hi
      · positivity
    exact_mod_cast h7
  have hdeff : nysDeff N a = (∑ i, (c i : ℝ)) / r := alphaAcc_tie h hL ha hr hc h0
  have h12 : nysDeff N a < N.m' := by
    unfold nysDeff
    haveI : Nonempty (Fin N.m') := ⟨⟨0, hm⟩⟩
    calc _ < ∑ j : Fin N.m', (1:ℝ) := Finset.sum_lt_sum_of_nonempty Finset.univ_nonempty fun j _ => by
          have : 0 < a * N.eigvals j + 1 := by have := h.nonneg j; positivity
          have := one_div_pos.2 this
          linarith
      _ = N.m' := by simp
  rcases hr1 with hr1 | hr1
  swap
  · refine hr1 (∑ i, c i) ?_
    rw [hdeff, mul_div_cancel₀ _ hr.ne']
    push_cast
    rfl
  rw [hdeff, div_lt_iff₀ hr] at h12
  have h13 : (N.m' : ℝ) ≤ ∑ i, (c i : ℝ) := by exact_mod_cast h4.trans h5
  have : (N.m' : ℝ) * r ≤ N.m' := mul_le_of_le_one_right (by positivity) hr1
  linarith

end Verif
