import Verif.Lemmas.Nystrom
import Verif.Lemmas.Vfx
import Verif.Lemmas.AlphaK
import Verif.Model.Precompute
import Verif.Spec.Numerics

/-!
The constants computed before the rejection loops satisfy the hypotheses of the laws of the samplers.
-/

namespace Verif
open Verif Verif.Spec Verif.Model Matrix

variable {n : ℕ} {L : Matrix (Fin n) (Fin n) ℝ}

/-! ### contracts -/

/-- The contracts can be met, with a root finder that always finds a root when there is one, and any positive machine
epsilon. -/
theorem exists_numericsSpec_eps {eps : ℝ} (heps : 0 < eps) : ∃ num, NumericsSpec num ∧ num.eps = eps ∧
    ∀ f a b, (∃ x, a ≤ x ∧ x ≤ b ∧ f x = 0) → ∃ x, num.brentq f a b = some x := by
  classical
  obtain ⟨eigh, he⟩ := exists_EighSpec
  refine ⟨⟨eigh, fun m A => ((eigh m A).2, (eigh m A).1),
    fun f a b => if h : ∃ x, a ≤ x ∧ x ≤ b ∧ f x = 0 then some h.choose else none, eps⟩, ⟨he, ?_, ?_, heps⟩, rfl, ?_⟩
  · intro m A hA
    obtain ⟨-, h2, h3⟩ := psd_eig hA he
    obtain ⟨h4, h5⟩ := he m A hA.symm'
    exact ⟨h2, h4, (eigh m A).2, h4, h5⟩
  · intro f a b x h
    simp only at h
    split at h
    · rename_i hx
      simp only [Option.some.injEq] at h
      rw [← h]; exact hx.choose_spec
    · exact absurd h (by simp)
  · intro f a b h
    exact ⟨h.choose, by simp only; rw [dif_pos h]⟩

/-- the left singular vectors of a positive semi-definite matrix are eigenvectors -/
theorem svd_eig {svd : (m : ℕ) → (Fin m → Fin m → ℝ) → (Fin m → Fin m → ℝ) × (Fin m → ℝ)} (h : SvdSpec svd) {m : ℕ}
    {A : Fin m → Fin m → ℝ} (hA : Matrix.PosSemidef (A : Matrix (Fin m) (Fin m) ℝ)) (e j : Fin m) :
    ∑ f, A e f * (svd m A).1 f j = (svd m A).2 j * (svd m A).1 e j := by
  obtain ⟨h0, hU, V, hV, hA'⟩ := h m A hA
  set U := (svd m A).1
  set S := (svd m A).2
  have h1 : ∀ e, ∑ f, A e f * V f j = S j * U e j := by
    intro e
    simp_rw [hA', Finset.sum_mul]
    rw [Finset.sum_comm]
    have : ∀ a, ∑ f, S a * U e a * V f a * V f j = S a * U e a * if a = j then 1 else 0 := by
      intro a
      rw [← hV, Finset.mul_sum]
      exact Finset.sum_congr rfl fun f _ => by ring
    simp_rw [this]
    simp
  have h2 : ∀ e, ∑ f, A e f * U f j = S j * V e j := by
    intro e
    have hs : ∀ f, A e f = A f e := fun f => hA.symm' e f
    simp_rw [hs, hA', Finset.sum_mul]
    rw [Finset.sum_comm]
    have : ∀ a, ∑ f, S a * U f a * V e a * U f j = S a * V e a * if a = j then 1 else 0 := by
      intro a
      rw [← hU, Finset.mul_sum]
      exact Finset.sum_congr rfl fun f _ => by ring
    simp_rw [this]
    simp
  have h3 : ∑ e, ∑ f, (U e j - V e j) * A e f * (U f j - V f j) = -(S j * ∑ e, (U e j - V e j) ^ 2) := by
    have : ∀ e, ∑ f, (U e j - V e j) * A e f * (U f j - V f j) = (U e j - V e j) * (S j * V e j - S j * U e j) := by
      intro e
      rw [← h1, ← h2, ← Finset.sum_sub_distrib, Finset.mul_sum]
      exact Finset.sum_congr rfl fun f _ => by ring
    simp_rw [this]
    rw [Finset.mul_sum, ← Finset.sum_neg_distrib]
    exact Finset.sum_congr rfl fun f _ => by ring
  have h4 : 0 ≤ ∑ e, ∑ f, (U e j - V e j) * A e f * (U f j - V f j) := by
    have := hA.dotProduct_mulVec_nonneg (fun e => U e j - V e j)
    rw [star_trivial] at this
    exact le_of_le_of_eq this (quad_eq A _)
  rw [h2]
  have h5 : S j * ∑ e, (U e j - V e j) ^ 2 = 0 := by
    refine le_antisymm (by linarith) (mul_nonneg (h0 j) (Finset.sum_nonneg fun e _ => sq_nonneg _))
  rcases mul_eq_zero.1 h5 with h6 | h6
  · rw [h6, zero_mul, zero_mul]
  · have := (Finset.sum_eq_zero_iff_of_nonneg fun e _ => sq_nonneg _).1 h6 e (Finset.mem_univ e)
    have : U e j - V e j = 0 := by simpa using this
    rw [show V e j = U e j by linarith]

/-! ### quadratic forms of the Nyström inverse -/

variable {κ : Type*} [Fintype κ] [DecidableEq κ] {G : Matrix (Fin n) κ ℝ} {α : ℝ} {μ : κ → ℝ}

theorem nysInv_quad (x : Fin n → ℝ) : x ⬝ᵥ (nysInv G α μ *ᵥ x)
    = x ⬝ᵥ x - α * ∑ j, (∑ p, G p j * x p) ^ 2 / (α * μ j + 1) := by
  unfold nysInv
  rw [sub_mulVec, one_mulVec, dotProduct_sub, smul_mulVec, dotProduct_smul, smul_eq_mul]
  congr 2
  rw [← mulVec_mulVec, ← mulVec_mulVec, dotProduct_mulVec, dotProduct]
  refine Finset.sum_congr rfl fun j _ => ?_
  rw [mulVec_diagonal]
  simp only [vecMul, dotProduct, mulVec, transpose_apply]
  rw [show ∑ p, x p * G p j = ∑ p, G p j * x p from Finset.sum_congr rfl fun p _ => mul_comm _ _]
  ring

theorem nysInv_quad_nonneg (hG : Gᵀ * G = diagonal μ) (hα : 0 ≤ α) (hμ : ∀ j, 0 ≤ μ j) (x : Fin n → ℝ) :
    0 ≤ x ⬝ᵥ (nysInv G α μ *ᵥ x) := by
  have := (nysInv_psd hG hα hμ).dotProduct_mulVec_nonneg x
  rwa [star_trivial] at this

theorem nysInv_quad_zero (hG : Gᵀ * G = diagonal μ) (hα : 0 ≤ α) (hμ : ∀ j, 0 ≤ μ j) {x : Fin n → ℝ}
    (h : x ⬝ᵥ (nysInv G α μ *ᵥ x) = 0) : x = 0 := by
  have hpsd := nysInv_psd hG hα hμ
  have h1 : nysInv G α μ *ᵥ x = 0 := by
    obtain ⟨S, hS⟩ := psd_factor hpsd
    rw [hS, ← mulVec_mulVec, dotProduct_mulVec, vecMul_transpose] at h
    rw [hS, ← mulVec_mulVec, dotProduct_self_eq_zero.1 h, mulVec_zero]
  have h2 : (1 + α • (G * Gᵀ)) * nysInv G α μ = 1 := mul_eq_one_comm.1 (nysInv_mul hG hα hμ)
  calc x = (1 : Matrix (Fin n) (Fin n) ℝ) *ᵥ x := (one_mulVec x).symm
    _ = (1 + α • (G * Gᵀ)) *ᵥ (nysInv G α μ *ᵥ x) := by rw [mulVec_mulVec, h2]
    _ = 0 := by rw [h1, mulVec_zero]

/-- the columns of the intermediate sample -/
noncomputable def tildeX (R : Matrix (Fin n) (Fin n) ℝ) (α : ℝ) (w : Fin n → ℝ) (c : Fin n → ℕ) :
    Matrix (Fin n) (Fin (uniq c).length) ℝ :=
  Matrix.of fun p a => Real.sqrt (α * w ((uniq c).get a)) * R p ((uniq c).get a)

theorem tilde_eq_nys {R : Matrix (Fin n) (Fin n) ℝ} (hR : L = Rᵀ * R) (hG : Gᵀ * G = diagonal μ) (hα : 0 ≤ α)
    (hμ : ∀ j, 0 ≤ μ j) (w : Fin n → ℝ) (c : Fin n → ℕ) (hw : ∀ i, 0 < c i → 0 ≤ w i) :
    (∑ j, α * μ j / (α * μ j + 1)) + Real.log (1 + tildeM L α w c).det - ∑ j, Real.log (1 + α * μ j)
      - ∑ a, w ((uniq c).get a) * (α * ((fun p => R p ((uniq c).get a)) ⬝ᵥ
          (nysInv G α μ *ᵥ fun p => R p ((uniq c).get a))))
      = (∑ j, α * μ j / (α * μ j + 1)) + Real.log (1 + (tildeX R α w c)ᵀ * tildeX R α w c).det
        - ∑ j, Real.log (1 + α * μ j) - ((tildeX R α w c)ᵀ * nysInv G α μ * tildeX R α w c).trace := by
  have h1 : (tildeX R α w c)ᵀ * tildeX R α w c = tildeM L α w c := by
    ext a b
    simp only [tildeX, mul_apply, transpose_apply, of_apply, tildeM, submatrix_apply, uniqEmb, Function.Embedding.coeFn_mk]
    rw [hR, mul_apply, Real.sqrt_mul hα, Real.sqrt_mul hα, Finset.mul_sum, Finset.sum_mul]
    refine Finset.sum_congr rfl fun p _ => ?_
    have := Real.mul_self_sqrt hα
    simp only [transpose_apply]
    linear_combination (Real.sqrt (w ((uniq c).get a)) * R p ((uniq c).get a) * Real.sqrt (w ((uniq c).get b))
      * R p ((uniq c).get b)) * this
  rw [h1]
  congr 1
  rw [trace]
  refine Finset.sum_congr rfl fun a _ => ?_
  have hwa : 0 ≤ α * w ((uniq c).get a) := mul_nonneg hα (hw _ (mem_uniq.1 (List.get_mem _ a)))
  rw [diag_apply, mul_apply]
  simp only [tildeX, mul_apply, transpose_apply, of_apply, dotProduct, mulVec, Finset.mul_sum, Finset.sum_mul]
  rw [Finset.sum_comm]
  refine Finset.sum_congr rfl fun p _ => Finset.sum_congr rfl fun p' _ => ?_
  have := Real.mul_self_sqrt hwa
  rw [(nysInv_psd hG hα hμ).symm' p' p]
  linear_combination (-(R p ((uniq c).get a)) * nysInv G α μ p p' * R p' ((uniq c).get a)) * this

/-- the acceptance bound, in terms of the intermediate sample -/
theorem tilde_acc {R : Matrix (Fin n) (Fin n) ℝ} (hR : L = Rᵀ * R) (hG : Gᵀ * G = diagonal μ) (hα : 0 ≤ α)
    (hμ : ∀ j, 0 ≤ μ j) (w : Fin n → ℝ) (c : Fin n → ℕ) (hw : ∀ i, 0 < c i → 0 ≤ w i) :
    (∑ j, α * μ j / (α * μ j + 1)) + Real.log (1 + tildeM L α w c).det - ∑ j, Real.log (1 + α * μ j)
      - ∑ a, w ((uniq c).get a) * (α * ((fun p => R p ((uniq c).get a)) ⬝ᵥ
          (nysInv G α μ *ᵥ fun p => R p ((uniq c).get a)))) ≤ 0 := by
  rw [tilde_eq_nys hR hG hα hμ w c hw]
  exact nys_acc hG hα hμ _

theorem sum_uniq (c : Fin n → ℕ) (f : Fin n → ℝ) : ∑ a, f ((uniq c).get a) = ∑ i, if 0 < c i then f i else 0 := by
  rw [← Finset.sum_filter]
  have : Finset.univ.filter (fun i => 0 < c i) = Finset.univ.map (uniqEmb c) := by
    ext i
    simp only [Finset.mem_filter, Finset.mem_univ, true_and, Finset.mem_map]
    rw [← mem_uniq, List.mem_iff_get]
    rfl
  rw [this, Finset.sum_map]
  rfl

/-! ### alpha -/

/-- the Gram matrix of the embedding is diagonal: `eigvals` are eigenvalues of the weighted dictionary matrix, with
orthonormal eigenvectors -/
structure NysOK (L : Matrix (Fin n) (Fin n) ℝ) (N : Nystrom n) : Prop where
  nonneg : ∀ j, 0 ≤ N.eigvals j
  gram : ∀ j k, ∑ e, ∑ f, N.eigvecs e j * (1 / Real.sqrt (N.probs f) * L (N.idx e) (N.idx f) * (1 / Real.sqrt (N.probs e)))
    * N.eigvecs f k = if j = k then N.eigvals j else 0

/-- embedded eigenvectors -/
noncomputable def nysG (R : Matrix (Fin n) (Fin n) ℝ) (N : Nystrom n) : Matrix (Fin n) (Fin N.m') ℝ :=
  Matrix.of fun p j => ∑ e, N.eigvecs e j * (R p (N.idx e) * (1 / Real.sqrt (N.probs e)))

variable {N : Nystrom n} {R : Matrix (Fin n) (Fin n) ℝ}

theorem nysG_gram (h : NysOK L N) (hR : L = Rᵀ * R) : (nysG R N)ᵀ * nysG R N = diagonal N.eigvals := by
  ext j k
  rw [diagonal_apply, ← h.gram j k, mul_apply]
  simp only [transpose_apply, nysG, of_apply, hR, mul_apply, Finset.mul_sum, Finset.sum_mul]
  rw [Finset.sum_comm]
  conv_rhs => rw [Finset.sum_comm]
  refine Finset.sum_congr rfl fun e _ => ?_
  rw [Finset.sum_comm]
  refine Finset.sum_congr rfl fun f _ => Finset.sum_congr rfl fun p _ => ?_
  ring

theorem nysRls_eq (h : NysOK L N) (hR : L = Rᵀ * R) {a : ℝ} (ha : 0 ≤ a) (i : Fin n) :
    nysRls L N a i = a * ((fun p => R p i) ⬝ᵥ (nysInv (nysG R N) a N.eigvals *ᵥ fun p => R p i)) := by
  rw [nysInv_quad]
  unfold nysRls nysE
  congr 2
  · rw [hR, mul_apply]; rfl
  · congr 1
    refine Finset.sum_congr rfl fun j _ => ?_
    have h1 : 0 ≤ 1 / (a * N.eigvals j + 1) := by have := h.nonneg j; positivity
    rw [mul_pow, Real.sq_sqrt h1, mul_one_div]
    congr 2
    simp only [nysG, of_apply, hR, mul_apply, transpose_apply, Finset.sum_mul, Finset.mul_sum]
    rw [Finset.sum_comm]
    refine Finset.sum_congr rfl fun p _ => Finset.sum_congr rfl fun e _ => ?_
    ring

theorem col_zero (hR : L = Rᵀ * R) {i : Fin n} (h : (fun p => R p i) = 0) : L i i = 0 := by
  rw [hR, mul_apply]
  refine Finset.sum_eq_zero fun p _ => ?_
  have := congrFun h p
  simp only [Pi.zero_apply] at this
  rw [this, mul_zero]

theorem nysRls_nonneg (h : NysOK L N) (hL : L.PosSemidef) {a : ℝ} (ha : 0 ≤ a) (i : Fin n) : 0 ≤ nysRls L N a i := by
  obtain ⟨R, hR⟩ := psd_factor hL
  rw [nysRls_eq h hR ha]
  exact mul_nonneg ha (nysInv_quad_nonneg (nysG_gram h hR) ha h.nonneg _)

theorem nysRls_zero (h : NysOK L N) (hL : L.PosSemidef) {a : ℝ} (ha : 0 < a) {i : Fin n} (h0 : nysRls L N a i = 0) :
    L i i = 0 := by
  obtain ⟨R, hR⟩ := psd_factor hL
  rw [nysRls_eq h hR ha.le] at h0
  rcases mul_eq_zero.1 h0 with h1 | h1
  · exact absurd h1 ha.ne'
  · exact col_zero hR (nysInv_quad_zero (nysG_gram h hR) ha.le h.nonneg h1)

/-- the acceptance threshold of alpha-dpp -/
theorem alphaAcc_eq (h : NysOK L N) (hL : L.PosSemidef) (hR : L = Rᵀ * R) {a r : ℝ} (ha : 0 < a) {c : Fin n → ℕ}
    (hc : ∀ i, 0 < c i → 0 < nysRls L N a i) : alphaAcc L N a r (nysRls L N a) c
      = (∑ j, a * N.eigvals j / (a * N.eigvals j + 1)) + Real.log (1 + tildeM L a (alphaWt r (nysRls L N a) c) c).det
        - ∑ j, Real.log (1 + a * N.eigvals j)
        - ∑ x, alphaWt r (nysRls L N a) c ((uniq c).get x) * (a * ((fun p => R p ((uniq c).get x)) ⬝ᵥ
          (nysInv (nysG R N) a N.eigvals *ᵥ fun p => R p ((uniq c).get x)))) := by
  simp_rw [← nysRls_eq h hR ha.le]
  rw [sum_uniq c (fun i => alphaWt r (nysRls L N a) c i * nysRls L N a i)]
  have h3 : ∑ i, (if 0 < c i then alphaWt r (nysRls L N a) c i * nysRls L N a i else 0) = (∑ i, (c i : ℝ)) / r := by
    rw [Finset.sum_div]
    refine Finset.sum_congr rfl fun i _ => ?_
    split
    · rename_i hi
      have := (hc i hi).ne'
      unfold alphaWt; field_simp
    · rename_i hi
      rw [show c i = 0 by omega]; simp
  rw [h3]
  unfold alphaAcc
  rw [alphaTilde_eq (est := nysRls L N a) fun _ _ => rfl, add_comm (tildeM _ _ _ _) 1,
    abs_of_pos (det_one_add_pos (tildeM_psd hL ha.le))]
  have h4 : nysDeff N a = ∑ j, a * N.eigvals j / (a * N.eigvals j + 1) := by
    unfold nysDeff
    refine Finset.sum_congr rfl fun j _ => ?_
    have : 0 < a * N.eigvals j + 1 := by have := h.nonneg j; positivity
    field_simp
    ring
  rw [h4]
  rfl

theorem alphaAcc_nonpos (h : NysOK L N) (hL : L.PosSemidef) {a r : ℝ} (ha : 0 < a) (hr : 0 < r) {c : Fin n → ℕ}
    (hc : ∀ i, 0 < c i → 0 < nysRls L N a i) : alphaAcc L N a r (nysRls L N a) c ≤ 0 := by
  obtain ⟨R, hR⟩ := psd_factor hL
  rw [alphaAcc_eq h hL hR ha hc]
  exact tilde_acc hR (nysG_gram h hR) ha.le h.nonneg (alphaWt r (nysRls L N a) c) c (fun i hi => by
    have h2 := hc i hi
    unfold alphaWt; positivity)

end Verif
