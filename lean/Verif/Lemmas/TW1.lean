import Mathlib.LinearAlgebra.Matrix.Charpoly.Coeff
import Mathlib.Analysis.InnerProductSpace.Orientation
import Mathlib.Analysis.InnerProductSpace.PiL2
import Mathlib.Analysis.SpecialFunctions.Exp
import Mathlib.Analysis.SpecificLimits.Normed
import Mathlib.Analysis.SpecialFunctions.Pow.Real

/-!
Determinants: expansion along principal minors, Hadamard bound, summability of the Fredholm series.
-/

set_option linter.unusedVariables false

namespace Verif.Lemmas.TW
open Matrix Finset

variable {n : Type*} [Fintype n] [DecidableEq n]

theorem det_add_diagonal (A : Matrix n n ℝ) (v : n → ℝ) :
    (A + diagonal v).det = ∑ s : Finset n, (∏ a ∈ sᶜ, v a) * (A.submatrix (Subtype.val : s → n) (Subtype.val : s → n)).det := by
  have h := (detRowAlternating : (n → ℝ) [⋀^n]→ₗ[ℝ] ℝ).map_add_univ A (diagonal v)
  change (A + diagonal v).det = ∑ s : Finset n, Matrix.det (s.piecewise A (diagonal v)) at h
  rw [h]
  refine Finset.sum_congr rfl fun s _ => ?_
  rw [← det_piecewise_one_eq_submatrix_det]
  have e : (s.piecewise A (diagonal v) : Matrix n n ℝ) = diagonal (fun a => if a ∈ s then 1 else v a)
      * (Matrix.of (s.piecewise A.row (1 : Matrix n n ℝ).row)) := by
    ext i j
    rw [diagonal_mul]
    by_cases hi : i ∈ s
    · simp [Finset.piecewise, hi, Matrix.row]
    · simp [Finset.piecewise, hi, Matrix.row, diagonal_apply, one_apply]
  rw [e, det_mul, det_diagonal]
  congr 1
  rw [Finset.prod_ite, Finset.prod_const_one, one_mul]
  refine Finset.prod_congr ?_ fun _ _ => rfl
  ext; simp

theorem det_one_sub (M : Matrix n n ℝ) :
    (1 - M).det = ∑ s : Finset n, (-1) ^ s.card * (M.submatrix (Subtype.val : s → n) (Subtype.val : s → n)).det := by
  have h := det_add_diagonal (-M) (fun _ => 1)
  rw [diagonal_one] at h
  rw [show (1 - M) = -M + 1 by abel, h]
  refine Finset.sum_congr rfl fun s _ => ?_
  rw [show (-M).submatrix (Subtype.val : s → n) (Subtype.val : s → n) = -(M.submatrix (Subtype.val : s → n) (Subtype.val : s → n)) from rfl,
    det_neg]
  simp

/-- Hadamard. -/
theorem abs_det_le {N : ℕ} (A : Matrix (Fin N) (Fin N) ℝ) {B : ℝ} (hB : 0 ≤ B) (h : ∀ i j, |A i j| ≤ B) : |A.det| ≤ (B * √N) ^ N := by
  have : Fact (Module.finrank ℝ (EuclideanSpace ℝ (Fin N)) = N) := ⟨by simp⟩
  let b := EuclideanSpace.basisFun (Fin N) ℝ
  let v : Fin N → EuclideanSpace ℝ (Fin N) := fun i => WithLp.toLp 2 (A i)
  have h1 := (b.toBasis.orientation).abs_volumeForm_apply_le v
  rw [(b.toBasis.orientation).volumeForm_robust' b v, Module.Basis.det_apply] at h1
  have e : b.toBasis.toMatrix v = Aᵀ := by
    ext i j
    simp [b, v, Module.Basis.toMatrix_apply]
  rw [e, det_transpose] at h1
  refine h1.trans ?_
  have h2 : ∀ i, ‖v i‖ ≤ B * √N := fun i => by
    rw [EuclideanSpace.norm_eq]
    have : ∑ j, ‖(v i) j‖ ^ 2 ≤ B ^ 2 * N := by
      calc ∑ j, ‖(v i) j‖ ^ 2 ≤ ∑ j : Fin N, B ^ 2 := by
            refine Finset.sum_le_sum fun j _ => ?_
            exact pow_le_pow_left₀ (norm_nonneg _) (h i j) 2
        _ = B ^ 2 * N := by simp [mul_comm]
    calc √(∑ j, ‖(v i) j‖ ^ 2) ≤ √(B ^ 2 * N) := Real.sqrt_le_sqrt this
      _ = B * √N := by rw [Real.sqrt_mul (by positivity), Real.sqrt_sq hB]
  calc ∏ i, ‖v i‖ ≤ ∏ i : Fin N, B * √N := Finset.prod_le_prod (fun _ _ => norm_nonneg _) fun i _ => h2 i
    _ = (B * √N) ^ N := by simp

theorem hadamard_summable (B : ℝ) (hB : 0 ≤ B) : Summable fun N : ℕ => (B * √(N : ℝ)) ^ N / (N.factorial : ℝ) := by
  have hg : Summable fun N : ℕ => ((1 : ℝ) / 2) ^ N := summable_geometric_two
  refine Summable.of_norm_bounded_eventually_nat hg ?_
  obtain ⟨N0, hN0⟩ := exists_nat_ge ((2 * B * Real.exp 1) ^ 2)
  refine Filter.eventually_atTop.2 ⟨max N0 1, fun N hN => ?_⟩
  have h1 : 1 ≤ N := (le_max_right _ _).trans hN
  have hN1 : (0 : ℝ) < N := by exact_mod_cast h1
  have hs : 0 < √(N : ℝ) := Real.sqrt_pos.2 hN1
  have hb : 2 * B * Real.exp 1 ≤ √(N : ℝ) := by
    refine Real.le_sqrt_of_sq_le (hN0.trans ?_)
    exact_mod_cast (le_max_left _ _).trans hN
  rw [Real.norm_of_nonneg (by positivity)]
  have h2 := Real.pow_div_factorial_le_exp (N : ℝ) hN1.le N
  have h3 : (B * √(N : ℝ)) ^ N / (N.factorial : ℝ) = (B / √(N : ℝ)) ^ N * ((N : ℝ) ^ N / N.factorial) := by
    rw [← mul_div_assoc, ← mul_pow]
    congr 2
    rw [div_mul_eq_mul_div, eq_div_iff hs.ne', mul_assoc, Real.mul_self_sqrt hN1.le]
  rw [h3]
  calc (B / √(N : ℝ)) ^ N * ((N : ℝ) ^ N / N.factorial) ≤ (B / √(N : ℝ)) ^ N * Real.exp N := by gcongr
    _ = (B * Real.exp 1 / √(N : ℝ)) ^ N := by
        rw [← Real.exp_one_pow, ← mul_pow]; ring
    _ ≤ (1 / 2) ^ N := by
        refine pow_le_pow_left₀ (by positivity) ?_ _
        rw [div_le_div_iff₀ hs two_pos]
        linarith

/-- Sum over the subsets of size `k` as a sum over injections. -/
theorem sum_subsets {m : ℕ} (k : ℕ) (F : Finset (Fin m) → ℝ) :
    ∑ s ∈ (Finset.univ : Finset (Finset (Fin m))) with s.card = k, F s
      = 1 / (k.factorial : ℝ) * ∑ f : Fin k → Fin m, if Function.Injective f then F (Finset.univ.image f) else 0 := by
  classical
  rw [← Finset.sum_filter]
  have h1 : ∑ f ∈ (Finset.univ : Finset (Fin k → Fin m)) with Function.Injective f, F (Finset.univ.image f)
      = ∑ s ∈ (Finset.univ : Finset (Finset (Fin m))) with s.card = k,
          ∑ f ∈ ((Finset.univ : Finset (Fin k → Fin m)).filter Function.Injective) with Finset.univ.image f = s, F (Finset.univ.image f) := by
    refine (Finset.sum_fiberwise_of_maps_to ?_ _).symm
    intro f hf
    simp only [Finset.mem_filter, Finset.mem_univ, true_and] at hf ⊢
    rw [Finset.card_image_of_injective _ hf]
    simp
  rw [h1, Finset.mul_sum]
  refine Finset.sum_congr rfl fun s hs => ?_
  simp only [Finset.mem_filter, Finset.mem_univ, true_and] at hs
  have h2 : ∑ f ∈ ((Finset.univ : Finset (Fin k → Fin m)).filter Function.Injective) with Finset.univ.image f = s, F (Finset.univ.image f)
      = (((Finset.univ : Finset (Fin k → Fin m)).filter Function.Injective).filter fun f => Finset.univ.image f = s).card * F s := by
    rw [← nsmul_eq_mul]
    refine Finset.sum_eq_card_nsmul fun f hf => ?_
    rw [(Finset.mem_filter.1 hf).2]
  have h3 : (((Finset.univ : Finset (Fin k → Fin m)).filter Function.Injective).filter fun f => Finset.univ.image f = s).card = k.factorial := by
    have e : Fintype.card (Fin k ≃ s) = k.factorial := by
      rw [Fintype.card_equiv (Finset.equivFinOfCardEq hs).symm, Fintype.card_fin]
    rw [← e, ← Finset.card_univ]
    refine (Finset.card_bij (fun (g : Fin k ≃ s) _ => fun a => (g a : Fin m)) ?_ ?_ ?_).symm
    · intro g _
      simp only [Finset.mem_filter, Finset.mem_univ, true_and]
      refine ⟨fun a b hab => g.injective (Subtype.ext hab), ?_⟩
      ext x
      simp only [Finset.mem_image, Finset.mem_univ, true_and]
      constructor
      · rintro ⟨a, rfl⟩; exact (g a).2
      · intro hx; exact ⟨g.symm ⟨x, hx⟩, by simp⟩
    · intro g _ g' _ hgg
      ext a
      exact congrArg Fin.val (congrFun hgg a)
    · intro f hf
      simp only [Finset.mem_filter, Finset.mem_univ, true_and] at hf
      obtain ⟨hi, him⟩ := hf
      refine ⟨Equiv.ofBijective (fun a => ⟨f a, by rw [← him]; simp⟩) ⟨fun a b hab => hi (Subtype.ext_iff.1 hab), ?_⟩, Finset.mem_univ _, rfl⟩
      rintro ⟨x, hx⟩
      rw [← him, Finset.mem_image] at hx
      obtain ⟨a, -, ha⟩ := hx
      exact ⟨a, Subtype.ext ha⟩
  rw [h2, h3]
  field_simp

end Verif.Lemmas.TW
