import Verif.Lemmas.Jacobi
import Mathlib.LinearAlgebra.Matrix.Block
import Mathlib.Algebra.BigOperators.Fin

/-!
Lemmas on the Gram-Schmidt chain of `MultivariateJacobiOPE.sample`.
-/

namespace Verif.Lemmas
open Verif Verif.Model Matrix

variable {m : ℕ}

/-- rows that are pairwise orthogonal, unit vectors or zero -/
def OrthoRows (rows : List (Fin m → ℝ)) : Prop :=
  rows.Pairwise (fun p q => p ⬝ᵥ q = 0) ∧ ∀ p ∈ rows, p ⬝ᵥ p = 1 ∨ p = 0

theorem dot_listSum (q : Fin m → ℝ) (l : List (Fin m → ℝ)) : q ⬝ᵥ l.sum = (l.map fun p => q ⬝ᵥ p).sum := by
  induction l with
  | nil => simp
  | cons p l ih => simp [dotProduct_add, ih]

theorem orthoRows_expand {rows : List (Fin m → ℝ)} (h : OrthoRows rows) {q : Fin m → ℝ} (hq : q ∈ rows)
    (v : Fin m → ℝ) : q ⬝ᵥ (rows.map fun p => (p ⬝ᵥ v) • p).sum = q ⬝ᵥ v := by
  rw [dot_listSum, List.map_map]
  induction rows with
  | nil => simp at hq
  | cons p rows ih =>
    have h' : OrthoRows rows := ⟨h.1.tail, fun r hr => h.2 r (by simp [hr])⟩
    have hp : ∀ r ∈ rows, p ⬝ᵥ r = 0 := fun r hr => List.rel_of_pairwise_cons h.1 hr
    simp only [List.map_cons, List.sum_cons, Function.comp_apply, dotProduct_smul, smul_eq_mul]
    rcases List.mem_cons.1 hq with rfl | hq
    · have hqq : q ⬝ᵥ v * (q ⬝ᵥ q) = q ⬝ᵥ v := by
        rcases h.2 q (by simp) with h1 | h1
        · rw [h1, mul_one]
        · simp [h1]
      rw [hqq]
      have : (List.map ((fun p => q ⬝ᵥ p) ∘ fun p => (p ⬝ᵥ v) • p) rows).sum = 0 := by
        apply List.sum_eq_zero
        intro x hx
        obtain ⟨r, hr, rfl⟩ := List.mem_map.1 hx
        simp [hp r hr]
      rw [this, add_zero]
    · rw [ih h' hq, dotProduct_comm q p, hp q hq, mul_zero, zero_add]

theorem dot_resid {rows : List (Fin m → ℝ)} (h : OrthoRows rows) {q : Fin m → ℝ} (hq : q ∈ rows)
    (v : Fin m → ℝ) : q ⬝ᵥ jacResid rows v = 0 := by
  rw [jacResid, dotProduct_sub, orthoRows_expand h hq, sub_self]

theorem listSum_dot (q : Fin m → ℝ) (l : List (Fin m → ℝ)) : l.sum ⬝ᵥ q = (l.map fun p => p ⬝ᵥ q).sum := by
  induction l with
  | nil => simp
  | cons p l ih => simp [add_dotProduct, ih]

/-- `schur = K(x,x) - sum_p (p . phi(x))^2` -/
theorem schur_eq {rows : List (Fin m → ℝ)} (h : OrthoRows rows) (v : Fin m → ℝ) :
    jacResid rows v ⬝ᵥ jacResid rows v = v ⬝ᵥ v - (rows.map fun p => (p ⬝ᵥ v) ^ 2).sum := by
  have h1 : (rows.map fun p => (p ⬝ᵥ v) • p).sum ⬝ᵥ jacResid rows v = 0 := by
    rw [listSum_dot, List.map_map]
    apply List.sum_eq_zero
    intro x hx
    obtain ⟨r, hr, rfl⟩ := List.mem_map.1 hx
    simp [dot_resid h hr]
  have h2 : jacResid rows v ⬝ᵥ jacResid rows v = v ⬝ᵥ jacResid rows v := by
    conv_lhs => rw [show jacResid rows v ⬝ᵥ jacResid rows v
      = (v - (rows.map fun p => (p ⬝ᵥ v) • p).sum) ⬝ᵥ jacResid rows v from rfl]
    rw [sub_dotProduct, h1, sub_zero]
  rw [h2, jacResid, dotProduct_sub, dot_listSum, List.map_map]
  congr 2
  refine List.map_congr_left fun p _ => ?_
  simp [dotProduct_comm v p, sq]

theorem dot_self_nonneg (v : Fin m → ℝ) : 0 ≤ v ⬝ᵥ v :=
  Finset.sum_nonneg fun i _ => mul_self_nonneg (v i)

theorem schur_le {rows : List (Fin m → ℝ)} (h : OrthoRows rows) (v : Fin m → ℝ) :
    jacResid rows v ⬝ᵥ jacResid rows v ≤ v ⬝ᵥ v := by
  rw [schur_eq h]
  have : 0 ≤ (rows.map fun p => (p ⬝ᵥ v) ^ 2).sum := by
    apply List.sum_nonneg
    intro x hx
    obtain ⟨r, -, rfl⟩ := List.mem_map.1 hx
    positivity
  linarith

theorem jacRatio_mem {rows : List (Fin m → ℝ)} (h : OrthoRows rows) (v : Fin m → ℝ) :
    0 ≤ jacRatio rows v ∧ jacRatio rows v ≤ 1 :=
  ⟨div_nonneg (dot_self_nonneg _) (dot_self_nonneg _), div_le_one_of_le₀ (schur_le h v) (dot_self_nonneg v)⟩

/-- the row appended after an acceptance -/
noncomputable def jacRow (rows : List (Fin m → ℝ)) (v : Fin m → ℝ) : Fin m → ℝ :=
  (Real.sqrt (jacResid rows v ⬝ᵥ jacResid rows v))⁻¹ • jacResid rows v

theorem eq_zero_of_dot_self {v : Fin m → ℝ} (h : v ⬝ᵥ v = 0) : v = 0 := dotProduct_self_eq_zero.1 h

theorem jacRow_dot (rows : List (Fin m → ℝ)) (v : Fin m → ℝ) :
    jacRow rows v ⬝ᵥ jacRow rows v = if jacResid rows v ⬝ᵥ jacResid rows v = 0 then 0 else 1 := by
  split_ifs with hs
  · rw [jacRow, eq_zero_of_dot_self hs]; simp
  · rw [jacRow, dotProduct_smul, smul_dotProduct, smul_eq_mul, smul_eq_mul, ← mul_assoc,
      ← mul_inv, Real.mul_self_sqrt (dot_self_nonneg _), inv_mul_cancel₀ hs]

theorem orthoRows_snoc {rows : List (Fin m → ℝ)} (h : OrthoRows rows) (v : Fin m → ℝ) :
    OrthoRows (rows ++ [jacRow rows v]) := by
  refine ⟨?_, ?_⟩
  · rw [List.pairwise_append]
    refine ⟨h.1, List.pairwise_singleton _ _, fun p hp q hq => ?_⟩
    rw [List.mem_singleton.1 hq, jacRow, dotProduct_smul, dot_resid h hp, smul_zero]
  · intro p hp
    rcases List.mem_append.1 hp with hp | hp
    · exact h.2 p hp
    · rw [List.mem_singleton.1 hp]
      by_cases hs : jacResid rows v ⬝ᵥ jacResid rows v = 0
      · right; rw [jacRow, eq_zero_of_dot_self hs]; simp
      · left; rw [jacRow_dot, if_neg hs]

/-! ### The Gram determinant -/

theorem take_sum {V : Type*} [AddCommMonoid V] (l : List (Fin m → ℝ)) (f : (Fin m → ℝ) → V) {i : ℕ} (hi : i ≤ l.length) :
    ((l.take i).map f).sum = ∑ j ∈ Finset.range i, f (l.getD j 0) := by
  induction i with
  | zero => simp
  | succ i ih =>
    have hi' : i < l.length := hi
    rw [List.take_succ_eq_append_getElem hi', List.map_append, List.sum_append, ih hi'.le, Finset.sum_range_succ,
      List.getD_eq_getElem _ _ hi']
    simp

/-- Gram-Schmidt families: `det (v_i . v_j)` is the product of the squared residual norms. -/
theorem gram_det {n : ℕ} {v p : Fin n → Fin m → ℝ} {s : Fin n → ℝ}
    (hs : ∀ i, 0 ≤ s i) {e : Fin n → ℝ} (he : ∀ i, s i * e i = s i)
    (ho : ∀ i j, p i ⬝ᵥ p j = if i = j then e i else 0)
    (hv : ∀ i, v i = (∑ j, if j < i then (p j ⬝ᵥ v i) • p j else 0) + Real.sqrt (s i) • p i) :
    (Matrix.of fun i j => v i ⬝ᵥ v j).det = ∏ i, s i := by
  let L : Matrix (Fin n) (Fin n) ℝ := Matrix.of fun i j =>
    if j < i then p j ⬝ᵥ v i else if j = i then Real.sqrt (s i) else 0
  have hv' : ∀ i, v i = ∑ j, L i j • p j := by
    intro i
    rw [show (∑ j, L i j • p j) = ∑ j, ((if j < i then (p j ⬝ᵥ v i) • p j else 0)
        + if j = i then Real.sqrt (s i) • p i else 0) from Finset.sum_congr rfl fun j _ => ?_]
    · rw [Finset.sum_add_distrib, Finset.sum_ite_eq' Finset.univ i, if_pos (Finset.mem_univ _)]
      exact hv i
    · simp only [L, Matrix.of_apply]
      rcases lt_trichotomy j i with h | h | h
      · rw [if_pos h, if_pos h, if_neg h.ne, add_zero]
      · subst h; simp
      · rw [if_neg h.not_gt, if_neg h.ne', if_neg h.not_gt, if_neg h.ne']; simp
  have hG : (Matrix.of fun i j => v i ⬝ᵥ v j) = L * diagonal e * Lᵀ := by
    ext i j
    rw [Matrix.of_apply, hv' i, hv' j, Matrix.mul_apply]
    simp only [Matrix.mul_diagonal, sum_dotProduct, dotProduct_sum, smul_dotProduct, dotProduct_smul, smul_eq_mul, ho, Matrix.transpose_apply]
    refine Finset.sum_congr rfl fun k _ => ?_
    simp
    ring
  have hL : L.det = ∏ i, Real.sqrt (s i) := by
    rw [Matrix.det_of_isLowerTriangular]
    · refine Finset.prod_congr rfl fun i _ => ?_
      simp [L]
    · intro i j hij
      have hij' : i < j := hij
      simp only [L, Matrix.of_apply]
      rw [if_neg hij'.not_gt, if_neg hij'.ne']
  rw [hG, Matrix.det_mul, Matrix.det_mul, Matrix.det_transpose, Matrix.det_diagonal, hL, ← Finset.prod_mul_distrib,
    ← Finset.prod_mul_distrib]
  refine Finset.prod_congr rfl fun i _ => ?_
  rw [mul_right_comm, Real.mul_self_sqrt (hs i), he]

/-- `rows` comes from `vs` by the updates of accepted trials -/
inductive GSChain : List (Fin m → ℝ) → List (Fin m → ℝ) → Prop
  | nil : GSChain [] []
  | snoc {vs rows : List (Fin m → ℝ)} (h : GSChain vs rows) (v : Fin m → ℝ) :
      GSChain (vs ++ [v]) (rows ++ [jacRow rows v])

theorem GSChain.ortho {vs rows : List (Fin m → ℝ)} (h : GSChain vs rows) : OrthoRows rows := by
  induction h with
  | nil => exact ⟨List.Pairwise.nil, by simp⟩
  | snoc _ v ih => exact orthoRows_snoc ih v

theorem GSChain.length {vs rows : List (Fin m → ℝ)} (h : GSChain vs rows) : rows.length = vs.length := by
  induction h with
  | nil => rfl
  | snoc _ v ih => simp [ih]

theorem GSChain.row {vs rows : List (Fin m → ℝ)} (h : GSChain vs rows) {i : ℕ} (hi : i < vs.length) :
    rows.getD i 0 = jacRow (rows.take i) (vs.getD i 0) := by
  induction h with
  | nil => simp at hi
  | @snoc vs rows h v ih =>
    have hl := h.length
    rw [List.length_append, List.length_singleton] at hi
    rcases Nat.lt_succ_iff_lt_or_eq.1 hi with h1 | h1
    · rw [List.getD_append _ _ _ _ (hl ▸ h1), List.getD_append _ _ _ _ h1, List.take_append_of_le_length (hl ▸ h1.le),
        ih h1]
    · subst h1
      rw [List.getD_append_right _ _ _ _ hl.le, List.getD_append_right _ _ _ _ le_rfl, ← hl,
        List.take_left]
      simp

theorem GSChain.take {vs rows : List (Fin m → ℝ)} (h : GSChain vs rows) (n : ℕ) :
    GSChain (vs.take n) (rows.take n) := by
  induction h with
  | nil => simpa using GSChain.nil
  | @snoc vs rows h v ih =>
    have hl := h.length
    rcases le_or_gt n vs.length with hn | hn
    · rw [List.take_append_of_le_length hn, List.take_append_of_le_length (hl ▸ hn)]; exact ih
    · rw [List.take_of_length_le (by simp; omega), List.take_of_length_le (by simp; omega)]
      exact h.snoc v

/-- squared residual norm of step `i` -/
def schurAt (vs rows : List (Fin m → ℝ)) (i : ℕ) : ℝ :=
  jacResid (rows.take i) (vs.getD i 0) ⬝ᵥ jacResid (rows.take i) (vs.getD i 0)

/-- the Gram determinant of a list of vectors -/
noncomputable def gramDet (vs : List (Fin m → ℝ)) : ℝ :=
  (Matrix.of fun i j : Fin vs.length => vs.getD i 0 ⬝ᵥ vs.getD j 0).det

theorem pairwise_getD {rows : List (Fin m → ℝ)} (h : OrthoRows rows) {i j : ℕ} (hi : i < rows.length)
    (hj : j < rows.length) (hij : i ≠ j) : rows.getD i 0 ⬝ᵥ rows.getD j 0 = 0 := by
  rw [List.getD_eq_getElem _ _ hi, List.getD_eq_getElem _ _ hj]
  rcases lt_or_gt_of_ne hij with h' | h'
  · exact List.pairwise_iff_getElem.1 h.1 i j hi hj h'
  · rw [dotProduct_comm]; exact List.pairwise_iff_getElem.1 h.1 j i hj hi h'

theorem gramDet_eq {vs rows : List (Fin m → ℝ)} (h : GSChain vs rows) :
    gramDet vs = ∏ i : Fin vs.length, schurAt vs rows i := by
  have hl := h.length
  refine gram_det (p := fun i => rows.getD i 0) (s := fun i => schurAt vs rows i)
    (e := fun i => rows.getD i 0 ⬝ᵥ rows.getD i 0) (fun i => dot_self_nonneg _) (fun i => ?_) (fun i j => ?_) fun i => ?_
  · rw [h.row i.2, jacRow_dot]
    split_ifs with h0
    · rw [mul_zero]; exact h0.symm
    · rw [mul_one]
  · split_ifs with hij
    · rw [hij]
    · exact pairwise_getD h.ortho (i.2.trans_eq hl.symm) (j.2.trans_eq hl.symm) fun he => hij (Fin.ext he)
  · have h1 : Real.sqrt (schurAt vs rows i) • rows.getD i 0 = jacResid (rows.take i) (vs.getD i 0) := by
      rw [h.row i.2, jacRow, smul_smul, schurAt]
      by_cases h0 : jacResid (rows.take i) (vs.getD i 0) ⬝ᵥ jacResid (rows.take i) (vs.getD i 0) = 0
      · rw [eq_zero_of_dot_self h0]; simp
      · rw [mul_inv_cancel₀ (by
          rw [Real.sqrt_ne_zero (dot_self_nonneg _)]; exact h0), one_smul]
    rw [h1, jacResid, take_sum _ _ (by rw [hl]; exact i.2.le)]
    have h2 : (∑ j ∈ Finset.range (i : ℕ), (rows.getD j 0 ⬝ᵥ vs.getD i 0) • rows.getD j 0)
        = ∑ j : Fin vs.length, if j < i then (rows.getD j 0 ⬝ᵥ vs.getD i 0) • rows.getD j 0 else 0 := by
      rw [← Finset.sum_filter]
      refine Finset.sum_bij' (i := fun j hj => ⟨j, (Finset.mem_range.1 hj).trans i.2⟩) (j := fun j _ => (j : ℕ)) ?_ ?_ ?_ ?_ ?_
      · intro j hj
        exact Finset.mem_filter.2 ⟨Finset.mem_univ _, Finset.mem_range.1 hj⟩
      · intro j hj
        exact Finset.mem_range.2 (Finset.mem_filter.1 hj).2
      · intro j hj; rfl
      · intro j hj; rfl
      · intro j hj; rfl
    rw [h2]
    abel

theorem gramDet_snoc {vs rows : List (Fin m → ℝ)} (h : GSChain vs rows) (v : Fin m → ℝ) :
    gramDet (vs ++ [v]) = gramDet vs * (jacResid rows v ⬝ᵥ jacResid rows v) := by
  have hl := h.length
  rw [gramDet_eq (h.snoc v), gramDet_eq h, ← Finset.prod_range (fun i => schurAt (vs ++ [v]) (rows ++ [jacRow rows v]) i),
    ← Finset.prod_range (fun i => schurAt vs rows i), List.length_append, List.length_singleton, Finset.prod_range_succ]
  congr 1
  · refine Finset.prod_congr rfl fun i hi => ?_
    have hi' := Finset.mem_range.1 hi
    rw [schurAt, schurAt, List.getD_append _ _ _ _ hi', List.take_append_of_le_length (hl ▸ hi'.le)]
  · rw [schurAt, ← hl, List.take_left, hl, List.getD_append_right _ _ _ _ le_rfl]
    simp

end Verif.Lemmas
