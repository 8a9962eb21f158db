import Verif.Model.Utils
import Verif.Spec.Det
import Verif.Spec.Projection
import Mathlib.Tactic.Linarith
import Mathlib.Tactic.FinCases
import Mathlib.Tactic.IntervalCases
import Mathlib.LinearAlgebra.Matrix.Notation
import Mathlib.Algebra.Order.Chebyshev
import Mathlib.Analysis.Real.Sqrt
import Mathlib.LinearAlgebra.Dimension.Finite
import Mathlib.LinearAlgebra.Dimension.Constructions

/-!
# Property theorems: helpers of `dppy/utils.py`
-/

namespace Verif.Props
open Verif Verif.Model Verif.Spec

variable {N : ℕ}

/-! ## C46: kernel validators -/

/-- C46: a validator never modifies the array: what it returns is what it was given, and the only
other outcome is `ValueError`. -/
theorem C46_validators_return_input (A : Fin N → Fin N → ℝ) :
    (isSymmetric A = .ok A ∨ isSymmetric A = .valueError) ∧
    (isProjectionCheck A = .ok A ∨ isProjectionCheck A = .valueError) ∧
    (isOrthonormalColumns A = .ok A ∨ isOrthonormalColumns A = .valueError) := by
  unfold isSymmetric isProjectionCheck isOrthonormalColumns
  refine ⟨?_, ?_, ?_⟩ <;> split <;> simp

/-- C46: `is_square` accepts exactly the square arrays. -/
theorem C46_square {r c : ℕ} (A : Fin r → Fin c → ℝ) : isSquare A = .ok A ↔ r = c := by
  unfold isSquare; split <;> simp_all

theorem isClose_self (x : ℝ) : isClose x x := by
  unfold isClose; simp; positivity

/-- C46 (soundness, at most 20 items): a matrix accepted by `is_symmetric` is symmetric up to the
tolerance of `allclose`. -/
theorem C46_symmetric_sound (hN : N ≤ 20) (A : Fin N → Fin N → ℝ) (h : isSymmetric A = .ok A)
    (i j : Fin N) : |A j i - A i j| ≤ 1 / 10 ^ 8 + 1 / 10 ^ 5 * |A i j| := by
  unfold isSymmetric at h
  split at h
  · rename_i hc; exact hc i j (by omega) (by omega)
  · cases h

/-- C46 (completeness): symmetric matrices are accepted, of any size. -/
theorem C46_symmetric_complete (A : Fin N → Fin N → ℝ) (h : ∀ i j, A i j = A j i) :
    isSymmetric A = .ok A := by
  unfold isSymmetric
  rw [if_pos]
  intro i j _ _
  rw [h i j]; exact isClose_self _

/-- C46 (finding): with more than 20 items the test is not sound, for every `N > 20` there is a matrix
accepted by `is_symmetric` with `A[N-1, 0] = 1` and `A[0, N-1] = 0`. -/
theorem C46_symmetric_unsound (hN : 20 < N) : ∃ A : Fin N → Fin N → ℝ, isSymmetric A = .ok A ∧
    A ⟨N - 1, by omega⟩ ⟨0, by omega⟩ = 1 ∧ A ⟨0, by omega⟩ ⟨N - 1, by omega⟩ = 0 := by
  refine ⟨fun i j => if i.val = N - 1 ∧ j.val = 0 then 1 else 0, ?_, by simp, ?_⟩
  · unfold isSymmetric
    rw [if_pos]
    intro i j hi hj
    simp only
    rw [if_neg (by omega), if_neg (by omega)]
    exact isClose_self 0
  · simp only; rw [if_neg (by omega)]

/-- C46 (completeness): orthogonal projections are accepted by `is_symmetric` and `is_projection`. -/
theorem C46_projection_complete (K : Matrix (Fin N) (Fin N) ℝ) (h : IsProjection K) :
    isSymmetric K = .ok K ∧ isProjectionCheck K = .ok K := by
  have hs : ∀ i j, K i j = K j i := fun i j => by
    have := congrFun (congrFun h.1 i) j
    simpa [Matrix.conjTranspose_apply] using this.symm
  refine ⟨C46_symmetric_complete K hs, ?_⟩
  unfold isProjectionCheck
  rw [if_pos]
  intro j _
  have h2 := congrFun (congrFun h.2 j) j
  rw [Matrix.mul_apply] at h2
  have : ∑ i, K i j * K i j = K j j := by
    rw [← h2]; exact Finset.sum_congr rfl (fun i _ => by rw [hs j i])
  rw [this]; exact isClose_self _

/-- a symmetric matrix that is not a projection but has `diag(K²) = diag(K)` -/
noncomputable def K84 : Matrix (Fin 2) (Fin 2) ℝ := !![4/5, 2/5; 2/5, 4/5]

/-- C46 (finding): `is_projection` only looks at the diagonal of `K²`: the symmetric matrix
`[[0.8, 0.4], [0.4, 0.8]]`, with eigenvalues 0.4 and 1.2, is accepted although it is not a
projection. -/
theorem C46_projection_unsound :
    isSymmetric K84 = .ok K84 ∧ isProjectionCheck K84 = .ok K84 ∧ ¬ IsProjection K84 := by
  refine ⟨C46_symmetric_complete _ ?_, ?_, ?_⟩
  · intro i j; fin_cases i <;> fin_cases j <;> simp [K84]
  · unfold isProjectionCheck
    rw [if_pos]
    intro j _
    have : ∑ i, K84 i j * K84 i j = K84 j j := by
      fin_cases j <;> simp [K84, Fin.sum_univ_two] <;> norm_num
    rw [this]; exact isClose_self _
  · intro h
    have := congrFun (congrFun h.2 0) 1
    simp [K84, Matrix.mul_apply, Fin.sum_univ_two] at this
    norm_num at this

theorem psd_entry_sq {M : Fin N → Fin N → ℝ} (hs : ∀ i j, M i j = M j i)
    (hp : ∀ x : Fin N → ℝ, 0 ≤ ∑ i, ∑ j, x i * M i j * x j) (i j : Fin N) :
    |M i j| ≤ Real.sqrt (M i i) * Real.sqrt (M j j) := by
  classical
  have key : ∀ a b : ℝ, 0 ≤ a ^ 2 * M i i + 2 * a * b * M i j + b ^ 2 * M j j := by
    intro a b
    have h := hp (fun k => (if k = i then a else 0) + (if k = j then b else 0))
    have e : ∑ k, ∑ l, ((if k = i then a else 0) + (if k = j then b else 0)) * M k l *
        ((if l = i then a else 0) + (if l = j then b else 0))
        = a ^ 2 * M i i + 2 * a * b * M i j + b ^ 2 * M j j := by
      have e1 : ∀ k l, ((if k = i then a else 0) + (if k = j then b else 0)) * M k l *
        ((if l = i then a else 0) + (if l = j then b else 0))
        = (if k = i then (if l = i then a * M k l * a else 0) else 0)
        + (if k = i then (if l = j then a * M k l * b else 0) else 0)
        + (if k = j then (if l = i then b * M k l * a else 0) else 0)
        + (if k = j then (if l = j then b * M k l * b else 0) else 0) := by
        intro k l
        by_cases h1 : k = i <;> by_cases h2 : k = j <;> by_cases h3 : l = i <;> by_cases h4 : l = j <;>
          simp [h1, h2, h3, h4] <;> (try ring) <;> (split_ifs <;> ring)
      simp only [e1, Finset.sum_add_distrib]
      simp only [Finset.sum_ite_irrel, Finset.sum_const_zero, Finset.sum_ite_eq', Finset.mem_univ,
        if_true]
      rw [hs j i]; ring
    rw [e] at h; exact h
  have hi : 0 ≤ M i i := by have := key 1 0; linarith
  have hj : 0 ≤ M j j := by have := key 0 1; linarith
  rw [← Real.sqrt_mul hi]
  apply Real.le_sqrt_of_sq_le
  rw [sq_abs]
  by_cases h0 : M j j = 0
  · by_cases hij : M i j = 0
    · rw [hij, h0]; simp
    · exfalso
      have := key 1 (-(M i i + 1) / (2 * M i j))
      rw [h0] at this
      have e : 2 * (1:ℝ) * (-(M i i + 1) / (2 * M i j)) * M i j = -(M i i + 1) := by field_simp
      rw [e] at this; linarith
  · have hj' : 0 < M j j := lt_of_le_of_ne hj (Ne.symm h0)
    have := key (M j j) (-(M i j))
    nlinarith [this]

/-- a positive semi-definite form is at most its trace times the squared norm -/
theorem psd_le_trace {M : Fin N → Fin N → ℝ} (hs : ∀ i j, M i j = M j i)
    (hp : ∀ x : Fin N → ℝ, 0 ≤ ∑ i, ∑ j, x i * M i j * x j) (x : Fin N → ℝ) :
    ∑ i, ∑ j, x i * M i j * x j ≤ (∑ i, M i i) * ∑ i, x i ^ 2 := by
  classical
  have hd : ∀ i, 0 ≤ M i i := by
    intro i
    have h := hp (fun k => if k = i then 1 else 0)
    simpa using h
  have h1 : ∑ i, ∑ j, x i * M i j * x j
      ≤ ∑ i, ∑ j, (|x i| * Real.sqrt (M i i)) * (|x j| * Real.sqrt (M j j)) := by
    apply Finset.sum_le_sum; intro i _
    apply Finset.sum_le_sum; intro j _
    calc x i * M i j * x j ≤ |x i * M i j * x j| := le_abs_self _
      _ = |x i| * |M i j| * |x j| := by rw [abs_mul, abs_mul]
      _ ≤ |x i| * (Real.sqrt (M i i) * Real.sqrt (M j j)) * |x j| := by
          gcongr; exact psd_entry_sq hs hp i j
      _ = _ := by ring
  refine h1.trans ?_
  rw [← Finset.sum_mul_sum, ← sq, mul_comm (∑ i, M i i)]
  refine (Finset.sum_mul_sq_le_sq_mul_sq Finset.univ (fun i => |x i|) (fun i => Real.sqrt (M i i))).trans ?_
  apply le_of_eq
  congr 1
  · exact Finset.sum_congr rfl (fun i _ => sq_abs _)
  · exact Finset.sum_congr rfl (fun i _ => Real.sq_sqrt (hd i))

/-- C46 (soundness on contractions): for at most 20 items, if a symmetric matrix with `0 ≤ K ≤ I`
(a valid correlation kernel) is accepted by `is_projection`, then `K` is a projection up to the
tolerance: the quadratic form of `K - K²` lies between `0` and `N (1e-8 + 1e-5)`. -/
theorem C46_projection_sound_on_kernels (hN : N ≤ 20) (K : Matrix (Fin N) (Fin N) ℝ)
    (hs : ∀ i j, K i j = K j i)
    (h0 : ∀ x : Fin N → ℝ, 0 ≤ x ⬝ᵥ K.mulVec x) (h1 : ∀ x : Fin N → ℝ, x ⬝ᵥ K.mulVec x ≤ x ⬝ᵥ x)
    (h : isProjectionCheck K = .ok K) (x : Fin N → ℝ) :
    0 ≤ x ⬝ᵥ (K - K * K).mulVec x ∧
      x ⬝ᵥ (K - K * K).mulVec x ≤ N * (1 / 10 ^ 8 + 1 / 10 ^ 5) * (x ⬝ᵥ x) := by
  have hst : K.transpose = K := by ext i j; exact hs j i
  have hadj : ∀ u v : Fin N → ℝ, K.mulVec u ⬝ᵥ v = u ⬝ᵥ K.mulVec v := by
    intro u v
    rw [Matrix.dotProduct_mulVec, ← Matrix.mulVec_transpose, hst]
  -- K - K² = K(1-K)K + (1-K)K(1-K)
  have hpsd : ∀ x : Fin N → ℝ, 0 ≤ x ⬝ᵥ (K - K * K).mulVec x := by
    intro x
    have e : x ⬝ᵥ (K - K * K).mulVec x
        = (K.mulVec x ⬝ᵥ K.mulVec x - K.mulVec x ⬝ᵥ K.mulVec (K.mulVec x))
          + (x - K.mulVec x) ⬝ᵥ K.mulVec (x - K.mulVec x) := by
      rw [Matrix.sub_mulVec, ← Matrix.mulVec_mulVec, Matrix.mulVec_sub]
      simp only [dotProduct_sub, sub_dotProduct, hadj]
      ring
    rw [e]
    have a := h1 (K.mulVec x)
    have b := h0 (x - K.mulVec x)
    linarith
  refine ⟨hpsd x, ?_⟩
  have hq : ∀ x : Fin N → ℝ, x ⬝ᵥ (K - K * K).mulVec x
      = ∑ i, ∑ j, x i * (K - K * K) i j * x j := by
    intro x
    simp only [dotProduct, Matrix.mulVec, Finset.mul_sum, mul_assoc]
  have hsM : ∀ i j, (K - K * K) i j = (K - K * K) j i := by
    intro i j
    have : (K - K * K).transpose = K - K * K := by
      rw [Matrix.transpose_sub, Matrix.transpose_mul, hst]
    exact congrFun (congrFun this j) i
  rw [hq]
  refine (psd_le_trace hsM (fun x => by rw [← hq]; exact hpsd x) x).trans ?_
  have hxx : ∑ i, x i ^ 2 = x ⬝ᵥ x := Finset.sum_congr rfl (fun i _ => sq _)
  rw [hxx]
  have hnn : 0 ≤ x ⬝ᵥ x := by rw [← hxx]; positivity
  apply mul_le_mul_of_nonneg_right _ hnn
  have hdiag1 : ∀ i, K i i ≤ 1 ∧ 0 ≤ K i i := by
    intro i
    have a := h1 (Pi.single i 1)
    have b := h0 (Pi.single i 1)
    simp at a b
    exact ⟨a, b⟩
  have hb : ∀ i : Fin N, (K - K * K) i i ≤ 1 / 10 ^ 8 + 1 / 10 ^ 5 := by
    intro i
    unfold isProjectionCheck at h
    split at h
    · rename_i hc
      have := hc i (by omega)
      unfold isClose at this
      have e : (K * K) i i = ∑ k, K k i * K k i := by
        rw [Matrix.mul_apply]; exact Finset.sum_congr rfl (fun k _ => by rw [hs i k])
      rw [Matrix.sub_apply, e]
      have := (abs_le.1 this).1
      rw [abs_of_nonneg (hdiag1 i).2] at this
      have := (hdiag1 i).1
      nlinarith
    · cases h
  calc ∑ i, (K - K * K) i i ≤ ∑ _i : Fin N, (1 / 10 ^ 8 + 1 / 10 ^ 5 : ℝ) :=
        Finset.sum_le_sum (fun i _ => hb i)
    _ = _ := by rw [Finset.sum_const, Finset.card_univ, Fintype.card_fin, nsmul_eq_mul]

example : (0:ℝ) ≤ ![1, 2] ⬝ᵥ ((!![1/2, 1/2; 1/2, 1/2] : Matrix (Fin 2) (Fin 2) ℝ)
    - !![1/2, 1/2; 1/2, 1/2] * !![1/2, 1/2; 1/2, 1/2]).mulVec ![1, 2] := by
  refine (C46_projection_sound_on_kernels (N := 2) (by norm_num) !![1/2, 1/2; 1/2, 1/2] ?_ ?_ ?_ ?_ _).1
  · intro i j; fin_cases i <;> fin_cases j <;> simp
  · intro x; simp [dotProduct, Matrix.mulVec, Fin.sum_univ_two]; nlinarith [sq_nonneg (x 0 + x 1)]
  · intro x; simp [dotProduct, Matrix.mulVec, Fin.sum_univ_two]; nlinarith [sq_nonneg (x 0 - x 1)]
  · refine (C46_projection_complete _ ⟨?_, ?_⟩).2
    · ext i j; fin_cases i <;> fin_cases j <;> simp
    · ext i j; fin_cases i <;> fin_cases j <;>
        simp [Matrix.mul_apply, Fin.sum_univ_two] <;> norm_num

/-- C46 (soundness, at most 5 columns): columns accepted by `is_orthonormal_columns` are orthonormal
up to the tolerance. -/
theorem C46_orthonormal_sound {r c : ℕ} (hc : c ≤ 5) (U : Fin r → Fin c → ℝ)
    (h : isOrthonormalColumns U = .ok U) (a b : Fin c) :
    |∑ i, U i a * U i b - (if a = b then 1 else 0)| ≤ 1 / 10 ^ 8 + 1 / 10 ^ 5 := by
  unfold isOrthonormalColumns at h
  split at h
  · rename_i hh
    refine (hh a b (by omega) (by omega)).trans ?_
    split <;> norm_num
  · cases h

/-- C46 (finding): with more than 5 columns the others are not looked at: for every `c > 5` there are
`c` columns accepted by `is_orthonormal_columns` of which the last is zero. -/
theorem C46_orthonormal_unsound {c : ℕ} (hc : 5 < c) : ∃ U : Fin c → Fin c → ℝ,
    isOrthonormalColumns U = .ok U ∧ ∀ i, U i ⟨c - 1, by omega⟩ = 0 := by
  refine ⟨fun i a => if i = a ∧ a.val < c - 1 then 1 else 0, ?_, fun i => by simp⟩
  unfold isOrthonormalColumns
  rw [if_pos]
  intro a b ha hb
  have : ∑ i : Fin c, ((if i = a ∧ a.val < c - 1 then 1 else 0 : ℝ) *
      (if i = b ∧ b.val < c - 1 then 1 else 0)) = if a = b then 1 else 0 := by
    have ha' : a.val < c - 1 := by omega
    have hb' : b.val < c - 1 := by omega
    simp only [ha', hb', and_true]
    simp [eq_comm]
  rw [this]; exact isClose_self _

/-! ## C47: eigenvalue validators -/

/-- C47: `is_in_01` accepts exactly the vectors with entries in `[-tol, 1+tol]`. -/
theorem C47_in_01 {c : ℕ} (tol : ℝ) (v : Fin c → ℝ) :
    (isIn01 tol v = .ok v ↔ ∀ a, -tol ≤ v a ∧ v a ≤ 1 + tol) ∧
    (isIn01 tol v = .valueError ↔ ∃ a, v a < -tol ∨ 1 + tol < v a) := by
  unfold isIn01
  constructor
  · split <;> simp_all
  · split
    · rename_i h
      simp only [reduceCtorEq, false_iff, not_exists, not_or, not_lt]; exact h
    · rename_i h
      simp only [true_iff]
      by_contra hc
      push Not at hc
      exact h hc

/-- C47: `is_geq_0` accepts exactly the vectors with entries `≥ -tol`. -/
theorem C47_geq_0 {c : ℕ} (tol : ℝ) (v : Fin c → ℝ) :
    (isGeq0 tol v = .ok v ↔ ∀ a, -tol ≤ v a) ∧ (isGeq0 tol v = .valueError ↔ ∃ a, v a < -tol) := by
  unfold isGeq0
  constructor
  · split <;> simp_all
  · split
    · rename_i h; simp only [reduceCtorEq, false_iff, not_exists, not_lt]; exact h
    · rename_i h; push Not at h; simpa using h

/-- C47: with the default tolerance the exclusive or of `is_equal_to_O_or_1` is an ordinary or: it
accepts exactly the vectors all of whose entries are within `1e-8` of 0 or of 1. -/
theorem C47_equal_0_or_1 {c : ℕ} (v : Fin c → ℝ) :
    (isEqualTo01 tol8 v = .ok v ↔ ∀ a, |v a| ≤ tol8 ∨ |v a - 1| ≤ tol8) ∧
    (isEqualTo01 tol8 v = .valueError ↔ ∃ a, tol8 < |v a| ∧ tol8 < |v a - 1|) := by
  have key : ∀ x : ℝ, Xor (|x| ≤ tol8) (|1 - x| ≤ tol8) ↔ (|x| ≤ tol8 ∨ |x - 1| ≤ tol8) := by
    intro x
    rw [abs_sub_comm 1 x]
    unfold Xor
    constructor
    · rintro (⟨h, _⟩ | ⟨h, _⟩)
      · exact Or.inl h
      · exact Or.inr h
    · intro h
      have hexcl : ¬ (|x| ≤ tol8 ∧ |x - 1| ≤ tol8) := by
        rintro ⟨h1, h2⟩
        have h3 := (abs_le.1 h1).2
        have h4 := (abs_le.1 h2).1
        unfold tol8 at h3 h4
        norm_num at h3 h4
        linarith
      rcases h with h | h
      · exact Or.inl ⟨h, fun h' => hexcl ⟨h, h'⟩⟩
      · exact Or.inr ⟨h, fun h' => hexcl ⟨h', h⟩⟩
  unfold isEqualTo01
  simp only [key]
  constructor
  · split <;> simp_all
  · split
    · rename_i h
      simp only [reduceCtorEq, false_iff, not_exists, not_and, not_lt]
      intro a ha
      rcases h a with h | h
      · exact absurd h (not_le.2 ha)
      · exact h
    · rename_i h
      push Not at h
      simpa using h

/-- C47 (finding): the exclusive or matters for tolerances of at least one half: the vector `[1/2]` is
refused although its entry is within `tol` of both 0 and 1. -/
theorem C47_xor_with_large_tolerance (tol : ℝ) (h : 1 / 2 ≤ tol) :
    isEqualTo01 tol (fun _ : Fin 1 => 1 / 2) = .valueError := by
  unfold isEqualTo01
  rw [if_neg]
  intro hc
  rcases hc 0 with ⟨_, h2⟩ | ⟨_, h2⟩
  · exact h2 (by rw [abs_le]; constructor <;> linarith)
  · exact h2 (by rw [abs_le]; constructor <;> linarith)

/-- C47: `is_full_row_rank` accepts exactly the arrays with linearly independent rows; the test
`d > N` is implied. -/
theorem C47_full_row_rank {d : ℕ} (A : Fin d → Fin N → ℝ) :
    (isFullRowRank A = .ok A ↔ LinearIndependent ℝ A) ∧
    (isFullRowRank A = .valueError ↔ ¬ LinearIndependent ℝ A) := by
  have hd : LinearIndependent ℝ A → ¬ d > N := by
    intro h hc
    have := LinearIndependent.fintype_card_le_finrank h
    simp at this
    omega
  unfold isFullRowRank
  by_cases h : LinearIndependent ℝ A
  · simp [hd h, h]
  · simp only [h]; split <;> simp

example : isEqualTo01 tol8 ![0, 1, 1 / 10 ^ 9] = .ok ![0, 1, 1 / 10 ^ 9] := by
  rw [(C47_equal_0_or_1 _).1]
  intro a
  fin_cases a
  · left; simp [tol8]
  · right; simp [tol8]
  · left
    show |(1 : ℝ) / 10 ^ 9| ≤ tol8
    rw [abs_of_pos (by positivity)]; unfold tol8; norm_num

/-! ## C48: `det_ST` -/

/-- C48: `det_ST(K, S)` for a duplicate-free list `S` is the principal minor of `K` on the set `S`,
whatever the order of the list. -/
theorem C48_det_S {R : Type*} [CommRing R] (K : Matrix (Fin N) (Fin N) R) (S : List (Fin N))
    (hS : S.Nodup) : detST K S none = .ok (minor K S.toFinset) := by
  unfold detST
  simp only [Option.getD_none, dif_pos]
  congr 1
  unfold minor
  let e : Fin S.length ≃ S.toFinset :=
    (List.Nodup.getEquiv S hS).trans (Equiv.subtypeEquivRight (by simp))
  rw [← Matrix.det_submatrix_equiv_self e]
  rfl

/-- C48: on a list with a repeated index the value is `0`. -/
theorem C48_det_repeated {R : Type*} [CommRing R] (K : Matrix (Fin N) (Fin N) R) (S : List (Fin N))
    (hS : ¬ S.Nodup) : detST K S none = .ok 0 := by
  unfold detST
  simp only [Option.getD_none, dif_pos]
  congr 1
  have : ∃ a b : Fin S.length, a ≠ b ∧ S.get a = S.get b := by
    by_contra hc
    apply hS
    rw [List.nodup_iff_injective_get]
    intro a b hab
    by_contra hne
    exact hc ⟨a, b, hne, hab⟩
  obtain ⟨a, b, hne, hab⟩ := this
  apply Matrix.det_zero_of_row_eq hne
  funext c
  simp only [Matrix.of_apply, hab]

/-- C48: `det_ST(K, [])` and `det_ST(K, [], [])` are 1. -/
theorem C48_det_empty {R : Type*} [CommRing R] (K : Matrix (Fin N) (Fin N) R) :
    detST K [] none = .ok 1 ∧ detST K [] (some []) = .ok 1 := by
  simp [detST]

/-- C48: `det_ST(K, S, T)` takes rows in `S` and columns in `T`: it is the determinant of the matrix
with entries `K[S[a], T[b]]`; it raises exactly when the two lists have different lengths. -/
theorem C48_det_ST {R : Type*} [CommRing R] (K : Matrix (Fin N) (Fin N) R) (S T : List (Fin N)) :
    (∀ k (hS : S.length = k) (hT : T.length = k), detST K S (some T)
      = .ok (Matrix.det (Matrix.of fun (a b : Fin k) => K (S.get (a.cast hS.symm)) (T.get (b.cast hT.symm))))) ∧
    (detST K S (some T) = .valueError ↔ S.length ≠ T.length) := by
  constructor
  · rintro k rfl hT
    unfold detST
    simp only [Option.getD_some, hT, dite_true]
    rfl
  · unfold detST
    simp only [Option.getD_some]
    split
    · rename_i h; simp [h]
    · rename_i h; simp [Ne.symm h]

/-- C48: row/column roles: swapping the roles transposes the matrix. -/
theorem C48_det_transpose {R : Type*} [CommRing R] (K : Matrix (Fin N) (Fin N) R) (S T : List (Fin N))
    (h : S.length = T.length) : detST K S (some T) = detST K.transpose T (some S) := by
  rw [(C48_det_ST K S T).1 T.length h rfl, (C48_det_ST K.transpose T S).1 T.length rfl h]
  congr 1
  rw [← Matrix.det_transpose]
  rfl

example : detST (!![1, 2; 3, 4] : Matrix (Fin 2) (Fin 2) ℤ) [0] (some [1]) = .ok 2 := by
  rw [(C48_det_ST _ _ _).1 1 rfl rfl]; simp

/-! ## C58: random states -/

/-- C58: an existing generator is returned as such (same object). -/
theorem C58_existing (id : ℕ) : checkRandomState (.state id) = .ok (.existing id) := rfl

/-- C58: `None` and the module `np.random` give the global generator of numpy. -/
theorem C58_global (s : Seed) : checkRandomState s = .ok .global ↔ s = .none ∨ s = .npRandom := by
  cases s <;> simp [checkRandomState]
  split <;> simp

/-- C58: an integer seed gives a fresh generator which is a function of the seed only, exactly when it
fits in 32 bits; distinct seeds give distinctly seeded generators. -/
theorem C58_int (n : ℤ) (g : Gen) : checkRandomState (.int n) = .ok g ↔
    (0 ≤ n ∧ n < 2 ^ 32 ∧ g = .fresh n.toNat) := by
  simp only [checkRandomState]
  split
  · rename_i h; simp only [Outcome.ok.injEq, h, true_and]; exact eq_comm
  · rename_i h; simp only [reduceCtorEq, false_iff]; tauto

/-- C58: everything else raises `ValueError`, and nothing else than `ValueError` is ever raised. -/
theorem C58_errors (s : Seed) (e : PyErr) : checkRandomState s = .raise e ↔
    e = .valueError ∧ (s = .other ∨ ∃ n, s = .int n ∧ (n < 0 ∨ 2 ^ 32 ≤ n)) := by
  cases s <;> simp [checkRandomState, eq_comm]
  split
  · rename_i h; simp only [reduceCtorEq, false_iff]; omega
  · rename_i h; simp only [Outcome.raise.injEq, eq_comm]; constructor
    · intro h'; exact ⟨h', by omega⟩
    · intro h'; exact h'.1

example : checkRandomState (.int 413121) = .ok (.fresh 413121) := by decide

end Verif.Props
