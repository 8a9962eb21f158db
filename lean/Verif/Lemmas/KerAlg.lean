import Verif.Lemmas.Spectral
import Verif.Spec.Kernel
import Mathlib.Analysis.Matrix.Spectrum

/-!
Algebra of kernels `Σ_a g_a u_a u_aᵀ`, relation between correlation and likelihood kernels.
-/

set_option linter.unusedSectionVars false

namespace Verif.Model
open Verif Verif.Spec Matrix

variable {N M : ℕ}

theorem exists_EighSpec : ∃ eigh, EighSpec eigh := by
  classical
  have key : ∀ (n : ℕ) (A : Fin n → Fin n → ℝ), ∃ e : (Fin n → ℝ) × (Fin n → Fin n → ℝ),
      (∀ i j, A i j = A j i) →
      (∀ a b, ∑ i, e.2 i a * e.2 i b = if a = b then 1 else 0) ∧
      ∀ i j, A i j = ∑ a, e.1 a * e.2 i a * e.2 j a := by
    intro n A
    by_cases hA : ∀ i j, A i j = A j i
    · have hH : (Matrix.of A).IsHermitian := by
        ext i j; simp [hA j i]
      refine ⟨(hH.eigenvalues, fun i a => (hH.eigenvectorUnitary : Matrix (Fin n) (Fin n) ℝ) i a),
        fun _ => ⟨?_, ?_⟩⟩
      · intro a b
        have h := congrFun (congrFun (Unitary.coe_star_mul_self hH.eigenvectorUnitary) a) b
        rw [Matrix.mul_apply, Matrix.one_apply] at h
        rw [← h]
        exact Finset.sum_congr rfl (fun i _ => by simp [Matrix.star_apply])
      · intro i j
        have h := congrFun (congrFun hH.spectral_theorem i) j
        rw [Matrix.of_apply] at h
        rw [h, Unitary.conjStarAlgAut_apply, Matrix.mul_apply]
        apply Finset.sum_congr rfl
        intro a _
        rw [Matrix.mul_diagonal]
        exact congrArg (· * _) (mul_comm _ _)
    · exact ⟨(fun _ => 0, fun _ _ => 0), fun h => absurd h hA⟩
  choose e he using key
  exact ⟨e, he⟩

/-- quadratic form of a kernel -/
theorem quad_ker (U : Fin N → Fin M → ℝ) (g : Fin M → ℝ) (x : Fin N → ℝ) :
    ∑ i, ∑ j, x i * ker U g i j * x j = ∑ a, g a * (∑ i, U i a * x i) ^ 2 := by
  have h1 : ∀ i j, x i * ker U g i j * x j = ∑ a, g a * (U i a * x i) * (U j a * x j) := by
    intro i j
    simp only [ker, Matrix.of_apply, Finset.mul_sum, Finset.sum_mul]
    exact Finset.sum_congr rfl (fun a _ => by ring)
  simp only [h1]
  have h2 : ∀ a, g a * (∑ i, U i a * x i) ^ 2
      = ∑ i, ∑ j, g a * (U i a * x i) * (U j a * x j) := by
    intro a
    rw [sq, Finset.sum_mul_sum, Finset.mul_sum]
    apply Finset.sum_congr rfl; intro i _
    rw [Finset.mul_sum]
    exact Finset.sum_congr rfl (fun j _ => by ring)
  simp only [h2]
  have h3 : ∀ i, ∑ j, ∑ a, g a * (U i a * x i) * (U j a * x j)
      = ∑ a, ∑ j, g a * (U i a * x i) * (U j a * x j) := fun i => Finset.sum_comm
  simp only [h3]
  exact Finset.sum_comm

theorem ker_symm (U : Fin N → Fin M → ℝ) (g : Fin M → ℝ) (i j : Fin N) :
    ker U g i j = ker U g j i := by
  simp only [ker, Matrix.of_apply]
  exact Finset.sum_congr rfl (fun a _ => by ring)

theorem ker_add (U : Fin N → Fin M → ℝ) (f g : Fin M → ℝ) :
    ker U f + ker U g = ker U (fun a => f a + g a) := by
  ext i j
  simp only [ker, Matrix.add_apply, Matrix.of_apply, ← Finset.sum_add_distrib]
  exact Finset.sum_congr rfl (fun a _ => by ring)

theorem ker_congr (U : Fin N → Fin M → ℝ) {f g : Fin M → ℝ} (h : ∀ a, f a = g a) :
    ker U f = ker U g := by rw [funext h]

/-- product of two kernels with the same orthonormal vectors -/
theorem ker_mul {U : Fin N → Fin M → ℝ} (f g : Fin M → ℝ)
    (h : ∀ a b, f a ≠ 0 → g b ≠ 0 → ∑ i, U i a * U i b = if a = b then 1 else 0) :
    ker U f * ker U g = ker U (fun a => f a * g a) := by
  ext i j
  rw [Matrix.mul_apply]
  simp only [ker, Matrix.of_apply]
  have h1 : ∀ k, (∑ a, f a * U i a * U k a) * (∑ b, g b * U k b * U j b)
      = ∑ a, ∑ b, f a * g b * U i a * U j b * (U k a * U k b) := by
    intro k
    rw [Finset.sum_mul_sum]
    exact Finset.sum_congr rfl (fun a _ => Finset.sum_congr rfl (fun b _ => by ring))
  simp only [h1]
  rw [Finset.sum_comm]
  apply Finset.sum_congr rfl; intro a _
  rw [Finset.sum_comm]
  have h2 : ∀ b, ∑ k, f a * g b * U i a * U j b * (U k a * U k b)
      = if a = b then f a * g b * U i a * U j b else 0 := by
    intro b
    rw [← Finset.mul_sum]
    by_cases ha : f a = 0
    · simp [ha]
    · by_cases hb : g b = 0
      · simp [hb]
      · rw [h a b ha hb]; split <;> simp
  simp only [h2]
  rw [Finset.sum_ite_eq]
  simp

theorem _root_.Verif.Spec.OrthOn.mul {U : Fin N → Fin M → ℝ} {v : Fin M → ℝ} (h : OrthOn U v) (f g : Fin M → ℝ)
    (hf : ∀ a, v a = 0 → f a = 0) (hg : ∀ a, v a = 0 → g a = 0) :
    ker U f * ker U g = ker U (fun a => f a * g a) :=
  ker_mul f g (fun a b ha hb => h a b (fun h0 => ha (hf a h0)) (fun h0 => hb (hg b h0)))

theorem _root_.Verif.Spec.OrthOn.congr {U : Fin N → Fin M → ℝ} {v w : Fin M → ℝ} (h : OrthOn U v)
    (hw : ∀ a, v a = 0 → w a = 0) : OrthOn U w :=
  fun a b ha hb => h a b (fun h0 => ha (hw a h0)) (fun h0 => hb (hw b h0))

/-- an eigenvalue as the value of the quadratic form at the eigenvector -/
theorem quad_ker_eigvec {U : Fin N → Fin M → ℝ} {v : Fin M → ℝ} (h : OrthOn U v) (a : Fin M)
    (ha : v a ≠ 0) : ∑ i, ∑ j, U i a * ker U v i j * U j a = v a := by
  rw [quad_ker, Finset.sum_eq_single a]
  · rw [h a a ha ha]; simp
  · intro b _ hb
    by_cases h0 : v b = 0
    · rw [h0, zero_mul]
    · rw [h b a h0 ha, if_neg hb]; simp
  · simp

theorem eigval_nonneg {U : Fin N → Fin M → ℝ} {v : Fin M → ℝ} (h : OrthOn U v)
    (hp : ∀ x : Fin N → ℝ, 0 ≤ ∑ i, ∑ j, x i * ker U v i j * x j) (a : Fin M) : 0 ≤ v a := by
  by_cases ha : v a = 0
  · rw [ha]
  · rw [← quad_ker_eigvec h a ha]; exact hp _

theorem eigval_le_one {U : Fin N → Fin M → ℝ} {v : Fin M → ℝ} (h : OrthOn U v)
    (hp : ∀ x : Fin N → ℝ, ∑ i, ∑ j, x i * ker U v i j * x j ≤ ∑ i, x i * x i) (a : Fin M) :
    v a ≤ 1 := by
  by_cases ha : v a = 0
  · rw [ha]; exact zero_le_one
  · rw [← quad_ker_eigvec h a ha]
    refine (hp _).trans ?_
    rw [h a a ha ha]; simp

theorem isLikelihood_ker (U : Fin N → Fin M → ℝ) {v : Fin M → ℝ} (hv : ∀ a, 0 ≤ v a) :
    IsLikelihood (ker U v) :=
  ⟨fun i j => ker_symm U v i j, fun x => by
    rw [quad_ker]; exact Finset.sum_nonneg (fun a _ => mul_nonneg (hv a) (sq_nonneg _))⟩

/-- Bessel's inequality -/
theorem bessel {U : Fin N → Fin M → ℝ} {v : Fin M → ℝ} (h : OrthOn U v) (x : Fin N → ℝ) :
    ∑ a ∈ Finset.univ.filter (fun a => v a ≠ 0), (∑ i, U i a * x i) ^ 2 ≤ ∑ i, x i * x i := by
  set s := Finset.univ.filter (fun a => v a ≠ 0)
  set c : Fin M → ℝ := fun a => if v a ≠ 0 then ∑ i, U i a * x i else 0
  set y : Fin N → ℝ := fun i => ∑ a, c a * U i a
  have h1 : ∑ i, x i * y i = ∑ a ∈ s, (∑ i, U i a * x i) ^ 2 := by
    simp only [y, Finset.mul_sum]
    rw [Finset.sum_comm, Finset.sum_filter]
    apply Finset.sum_congr rfl; intro a _
    by_cases ha : v a = 0
    · simp [c, ha]
    · simp only [c, ne_eq, ha, not_false_eq_true, if_true]
      have e : ∀ i, x i * ((∑ i, U i a * x i) * U i a) = (∑ i, U i a * x i) * (U i a * x i) :=
        fun i => by ring
      simp only [e]
      rw [← Finset.mul_sum, sq]
  have h2 : ∑ i, y i * y i = ∑ a ∈ s, (∑ i, U i a * x i) ^ 2 := by
    have e : ∀ i, y i * y i = ∑ a, ∑ b, c a * c b * (U i a * U i b) := by
      intro i
      simp only [y]
      rw [Finset.sum_mul_sum]
      exact Finset.sum_congr rfl (fun a _ => Finset.sum_congr rfl (fun b _ => by ring))
    simp only [e]
    rw [Finset.sum_comm, Finset.sum_filter]
    apply Finset.sum_congr rfl; intro a _
    rw [Finset.sum_comm]
    have e2 : ∀ b, ∑ i, c a * c b * (U i a * U i b) = if a = b then c a * c b else 0 := by
      intro b
      rw [← Finset.mul_sum]
      by_cases ha : v a = 0
      · simp [c, ha]
      · by_cases hb : v b = 0
        · simp [c, hb]
        · rw [h a b ha hb]; split <;> simp
    simp only [e2]
    rw [Finset.sum_ite_eq]
    by_cases ha : v a = 0
    · simp [c, ha]
    · simp [c, ha, sq]
  have h3 : 0 ≤ ∑ i, (x i - y i) * (x i - y i) := Finset.sum_nonneg (fun i _ => mul_self_nonneg _)
  have h4 : ∑ i, (x i - y i) * (x i - y i)
      = ∑ i, x i * x i - 2 * ∑ i, x i * y i + ∑ i, y i * y i := by
    rw [Finset.mul_sum, ← Finset.sum_sub_distrib, ← Finset.sum_add_distrib]
    exact Finset.sum_congr rfl (fun i _ => by ring)
  rw [h4, h1, h2] at h3
  linarith

theorem isCorrelation_ker {U : Fin N → Fin M → ℝ} {v : Fin M → ℝ} (h : OrthOn U v)
    (hv : ∀ a, 0 ≤ v a ∧ v a ≤ 1) : IsCorrelation (ker U v) := by
  refine ⟨fun i j => ker_symm U v i j, (isLikelihood_ker U (fun a => (hv a).1)).nonneg, fun x => ?_⟩
  rw [quad_ker]
  refine le_trans ?_ (bessel h x)
  rw [Finset.sum_filter]
  apply Finset.sum_le_sum; intro a _
  by_cases ha : v a = 0
  · simp [ha]
  · simp only [ne_eq, ha, not_false_eq_true, if_true]
    have := (hv a).2
    nlinarith [sq_nonneg (∑ i, U i a * x i)]

/-- `ker U v` is the likelihood kernel of `ker U (v/(1+v))` -/
theorem likelihoodOf_ker {U : Fin N → Fin M → ℝ} {v : Fin M → ℝ} (h : OrthOn U v)
    (hv : ∀ a, 0 ≤ v a) : LikelihoodOf (ker U v) (ker U (fun a => v a / (1 + v a))) := by
  refine ⟨isLikelihood_ker U hv, ?_⟩
  rw [mul_add, mul_one, OrthOn.mul h _ _ (fun a ha => by rw [ha]; simp) (fun a ha => ha), ker_add]
  apply ker_congr
  intro a
  have : (1 + v a) ≠ 0 := by have := hv a; positivity
  field_simp

/-- `(I - K)(I + L) = I` -/
theorem _root_.Verif.Spec.LikelihoodOf.inv {L K : Matrix (Fin N) (Fin N) ℝ} (h : LikelihoodOf L K) :
    (1 - K) * (1 + L) = 1 := by
  rw [sub_mul, one_mul, h.rel]; abel

theorem _root_.Verif.Spec.LikelihoodOf.inv' {L K : Matrix (Fin N) (Fin N) ℝ} (h : LikelihoodOf L K) :
    (1 + L) * (1 - K) = 1 := mul_eq_one_comm.1 h.inv

/-- `L (I - K) = K` -/
theorem _root_.Verif.Spec.LikelihoodOf.rel' {L K : Matrix (Fin N) (Fin N) ℝ} (h : LikelihoodOf L K) :
    L * (1 - K) = K := by
  have := h.inv'
  rw [add_mul, one_mul] at this
  have e : L * (1 - K) = 1 - (1 - K) := eq_sub_of_add_eq' this
  rw [e]; abel

/-- the likelihood kernel is unique -/
theorem _root_.Verif.Spec.LikelihoodOf.unique {L L' K : Matrix (Fin N) (Fin N) ℝ} (h : LikelihoodOf L K)
    (h' : LikelihoodOf L' K) : L = L' := by
  have h1 : (1 + L) * ((1 - K) * (1 + L')) = 1 + L := by rw [h'.inv, mul_one]
  rw [← mul_assoc, h.inv', one_mul] at h1
  exact (add_left_cancel h1).symm

/-- the correlation kernel is unique -/
theorem _root_.Verif.Spec.LikelihoodOf.unique_K {L K K' : Matrix (Fin N) (Fin N) ℝ} (h : LikelihoodOf L K)
    (h' : LikelihoodOf L K') : K = K' := by
  have h1 : (1 - K') * ((1 + L) * (1 - K)) = 1 - K' := by rw [h.inv', mul_one]
  rw [← mul_assoc, h'.inv, one_mul] at h1
  exact sub_right_injective h1

theorem _root_.Verif.Spec.LikelihoodOf.det_ne {L K : Matrix (Fin N) (Fin N) ℝ} (h : LikelihoodOf L K) :
    (1 - K).det ≠ 0 := by
  have := congrArg Matrix.det h.inv
  rw [Matrix.det_mul, Matrix.det_one] at this
  exact left_ne_zero_of_mul_eq_one this

end Verif.Model
