import Verif.Lemmas.JacMass

/-!
# From the draws of the banded Laguerre model to Jacobi coefficients
-/

namespace Verif.Lemmas
open Finset Matrix MeasureTheory Verif.Model ProbabilityTheory

variable {n : ℕ}

/-- `a_0 = x_0`, `a_{i+1} = e_{i+1} + x_{i+1}`, `B_{i+1} = x_i e_{i+1}`, and the mass is kept -/
def lagQ (y : Cd (n + 1)) : Cd (n + 1) := Sum.elim
  (Fin.cases (y (.inl 0)) fun i : Fin n => y (.inr i.succ) + y (.inl i.succ))
  (Fin.cases (y (.inr 0)) fun i : Fin n => y (.inl i.castSucc) * y (.inr i.succ))

theorem lagQ_l0 (y : Cd (n + 1)) : lagQ y (.inl 0) = y (.inl 0) := rfl
theorem lagQ_ls (y : Cd (n + 1)) (i : Fin n) : lagQ y (.inl i.succ) = y (.inr i.succ) + y (.inl i.succ) := rfl
theorem lagQ_r0 (y : Cd (n + 1)) : lagQ y (.inr 0) = y (.inr 0) := rfl
theorem lagQ_rs (y : Cd (n + 1)) (i : Fin n) : lagQ y (.inr i.succ) = y (.inl i.castSucc) * y (.inr i.succ) := rfl

theorem diff_lagQ : Differentiable ℝ (lagQ (n := n)) := by
  rw [differentiable_pi]
  rintro (k | k)
  · refine Fin.cases ?_ (fun i => ?_) k
    · simp only [lagQ_l0]; fun_prop
    · simp only [lagQ_ls]; fun_prop
  · refine Fin.cases ?_ (fun i => ?_) k
    · simp only [lagQ_r0]; fun_prop
    · simp only [lagQ_rs]; fun_prop

theorem line_ne (y : Cd (n + 1)) (t : ℝ) {c d : Fin (n + 1) ⊕ Fin (n + 1)} (h : d ≠ c) :
    (y + t • Pi.single c (1 : ℝ) : Cd (n + 1)) d = y d := by
  rw [add_smul_single, if_neg h, add_zero]

theorem line_eq (y : Cd (n + 1)) (t : ℝ) (c : Fin (n + 1) ⊕ Fin (n + 1)) :
    (y + t • Pi.single c (1 : ℝ) : Cd (n + 1)) c = y c + t := by
  rw [add_smul_single, if_pos rfl]

theorem rk_ne {r c d : Fin (n + 1) ⊕ Fin (n + 1)} (h : rk (n + 1) r < rk (n + 1) c) (hd : (rk (n + 1) d : ℕ) ≤ rk (n + 1) r) : d ≠ c := by
  rintro rfl
  have : (rk (n + 1) r : ℕ) < rk (n + 1) d := h
  omega

theorem jacM_lagQ_lt (y : Cd (n + 1)) (r c : Fin (n + 1) ⊕ Fin (n + 1)) (h : rk (n + 1) r < rk (n + 1) c) :
    jacM lagQ y r c = 0 := by
  refine jacM_eq diff_lagQ.differentiableAt (hasDerivAt_line fun t => ?_)
  rw [mul_zero, add_zero, zero_smul, add_zero]
  rcases r with k | k <;> revert h <;> refine Fin.cases ?_ (fun i => ?_) k <;> intro h
  · simp only [lagQ_l0, line_ne y t (rk_ne h (d := .inl 0) le_rfl)]
  · simp only [lagQ_ls, line_ne y t (rk_ne h (d := .inl i.succ) le_rfl),
      line_ne y t (rk_ne h (d := .inr i.succ) (by simp [rk]))]
  · simp only [lagQ_r0, line_ne y t (rk_ne h (d := .inr 0) le_rfl)]
  · simp only [lagQ_rs, line_ne y t (rk_ne h (d := .inr i.succ) le_rfl),
      line_ne y t (rk_ne h (d := .inl i.castSucc) (by simp [rk]))]

theorem det_lagQ (y : Cd (n + 1)) : (fderiv ℝ lagQ y).det = ∏ i : Fin n, y (.inl i.castSucc) := by
  rw [det_tri (jacM_lagQ_lt y)]
  have hl : ∀ k : Fin (n + 1), jacM lagQ y (.inl k) (.inl k) = 1 := by
    intro k
    refine jacM_eq diff_lagQ.differentiableAt (hasDerivAt_line fun t => ?_)
    rw [zero_smul, add_zero]
    refine Fin.cases ?_ (fun i => ?_) k
    · simp only [lagQ_l0, line_eq]; ring
    · simp only [lagQ_ls, line_eq]
      rw [line_ne y t (by simp)]; ring
  have hr0 : jacM lagQ y (.inr 0) (.inr 0) = 1 := by
    refine jacM_eq diff_lagQ.differentiableAt (hasDerivAt_line fun t => ?_)
    rw [zero_smul, add_zero]
    simp only [lagQ_r0, line_eq]; ring
  have hrs : ∀ i : Fin n, jacM lagQ y (.inr i.succ) (.inr i.succ) = y (.inl i.castSucc) := by
    intro i
    refine jacM_eq diff_lagQ.differentiableAt (hasDerivAt_line fun t => ?_)
    rw [zero_smul, add_zero]
    simp only [lagQ_rs, line_eq]
    rw [line_ne y t (by simp)]; ring
  rw [Fin.prod_univ_succ (fun k => jacM lagQ y (.inr k) (.inr k))]
  simp only [hl, hr0, hrs, prod_const_one, one_mul]

theorem lagQ_injOn : Set.InjOn (lagQ (n := n)) (posO (n + 1)) := by
  intro y hy y' hy' h
  have hx : ∀ k : Fin (n + 1), y (.inl k) = y' (.inl k) ∧ y (.inr k) = y' (.inr k) := by
    intro k
    induction k using Fin.induction with
    | zero => exact ⟨congrFun h (.inl 0), congrFun h (.inr 0)⟩
    | succ i ih =>
      have h1 := congrFun h (.inr i.succ)
      have h2 := congrFun h (.inl i.succ)
      rw [lagQ_rs, lagQ_rs, ih.1] at h1
      have h3 := mul_left_cancel₀ (hy' (.inl i.castSucc)).ne' h1
      rw [lagQ_ls, lagQ_ls, h3] at h2
      exact ⟨add_left_cancel h2, h3⟩
  funext c
  rcases c with k | k
  · exact (hx k).1
  · exact (hx k).2

theorem lagQ_mem {y : Cd (n + 1)} (hy : y ∈ posO (n + 1)) : lagQ y ∈ specR (n + 1) := by
  intro k
  refine Fin.cases ?_ (fun i => ?_) k
  · exact hy _
  · exact mul_pos (hy _) (hy _)

/-- `xi_even` as a sequence -/
def evenSeq (y : Cd (n + 1)) (i : ℕ) : ℝ := if i = 0 then 0 else pad (fun k => y (.inr k)) i

theorem pad_lagQ_l (y : Cd (n + 1)) {p : ℕ} (hp : p < n + 1) : pad (fun i => lagQ y (.inl i)) p
    = pad (fun k => y (.inl k)) p + evenSeq y p := by
  rcases p with _ | p
  · rw [evenSeq, if_pos rfl, add_zero, pad_lt hp, pad_lt hp]; rfl
  · rw [evenSeq, if_neg (by omega), pad_lt hp, pad_lt hp, pad_lt hp]; exact add_comm _ _

theorem pad_lagQ_r (y : Cd (n + 1)) {p : ℕ} (hp : p + 1 < n + 1) : pad (fun i => lagQ y (.inr i)) (p + 1)
    = pad (fun k => y (.inl k)) p * evenSeq y (p + 1) := by
  rw [evenSeq, if_neg (by omega), pad_lt hp, pad_lt hp, pad_lt (show p < n + 1 by omega)]; rfl

theorem pad_nonneg {N : ℕ} {f : Fin N → ℝ} (h : ∀ i, 0 ≤ f i) (p : ℕ) : 0 ≤ pad f p := by
  unfold pad; split_ifs
  · exact h _
  · exact le_rfl

/-- bidiagonal factorisation -/
theorem jacT_lagQ {y : Cd (n + 1)} (hy : y ∈ posO (n + 1)) : jacT (lagQ y)
    = bidiag (n + 1) (fun p => √(pad (fun k => y (.inl k)) p)) (fun p => √(evenSeq y p))
      * (bidiag (n + 1) (fun p => √(pad (fun k => y (.inl k)) p)) (fun p => √(evenSeq y p)))ᵀ := by
  have hx : ∀ p, 0 ≤ pad (fun k => y (.inl k)) p := pad_nonneg fun i => (hy _).le
  have he : ∀ p, 0 ≤ evenSeq y p := fun p => by
    rw [evenSeq]; split_ifs
    · exact le_rfl
    · exact pad_nonneg (fun i => (hy _).le) p
  rw [bidiag_mul_transpose (by simp [evenSeq]), jacT]
  refine tridiag_congr (fun i hi => ?_) (fun i hi => ?_)
  · rw [pad_lagQ_l y hi, Real.sq_sqrt (hx _), Real.sq_sqrt (he _)]
  · rw [pad_lagQ_r y hi, Real.sqrt_mul (hx _)]

theorem lag_det {y : Cd (n + 1)} (hy : y ∈ posO (n + 1)) : ∏ j, specMap (lagQ y) (.inl j) = ∏ k, y (.inl k) := by
  rw [← det_eq_prod_roots (specMap_char (lagQ_mem hy)), jacT_lagQ hy, Matrix.det_mul, Matrix.det_transpose, det_bidiag,
    ← prod_mul_distrib]
  refine prod_congr rfl fun k _ => ?_
  rw [pad_fin, Real.mul_self_sqrt (hy _).le]

theorem lag_pos {y : Cd (n + 1)} (hy : y ∈ posO (n + 1)) (j : Fin (n + 1)) : 0 < specMap (lagQ y) (.inl j) := by
  have hpsd : (jacT (lagQ y)).PosSemidef := by
    rw [jacT_lagQ hy, ← Matrix.conjTranspose_eq_transpose_of_trivial]
    exact Matrix.posSemidef_self_mul_conjTranspose _
  refine lt_of_le_of_ne (roots_nonneg hpsd (specMap_char (lagQ_mem hy)) j) fun h0 => ?_
  have h := lag_det hy
  rw [prod_eq_zero (mem_univ j) h0.symm] at h
  exact (prod_pos fun k _ => hy (.inl k)).ne h

theorem lag_trace {y : Cd (n + 1)} (hy : y ∈ posO (n + 1)) :
    ∑ j, specMap (lagQ y) (.inl j) = ∑ k, y (.inl k) + ∑ i : Fin n, y (.inr i.succ) := by
  have h := specMap_trace (lagQ_mem hy) 1
  simp only [pow_one] at h
  rw [← h, jacT, trace_tridiag]
  simp only [pad_fin]
  rw [Fin.sum_univ_succ, Fin.sum_univ_succ (fun k => y (.inl k))]
  simp only [lagQ_l0, lagQ_ls, sum_add_distrib]
  ring

/-- all positive definite Jacobi matrices are obtained -/
theorem lag_surj {y : Cd (n + 1)} (hy : y ∈ specR (n + 1)) (hpos : ∀ j, 0 < specMap y (.inl j)) :
    y ∈ lagQ '' posO (n + 1) := by
  have hpd : (jacT y).PosDef := posDef_of_char (tridiag_symm _ _) (specMap_char hy) hpos
  set x := piv (pad fun i => y (.inl i)) (fun i => √(pad (fun i => y (.inr i)) (i + 1))) with hx
  have hxp : ∀ k < n + 1, 0 < x k := piv_pos hpd
  refine ⟨Sum.elim (fun k => x k) (Fin.cases (y (.inr 0)) fun i : Fin n => y (.inr i.succ) / x i), ?_, ?_⟩
  · rintro (k | k)
    · exact hxp k k.2
    · refine Fin.cases ?_ (fun i => ?_) k
      · exact hy 0
      · exact div_pos (hy _) (hxp i (by omega))
  · funext c
    rcases c with k | k <;> refine Fin.cases ?_ (fun i => ?_) k
    · rw [lagQ_l0]
      change x 0 = _
      rw [hx, piv, pad_lt (Nat.succ_pos n)]; rfl
    · rw [lagQ_ls]
      change y (.inr i.succ) / x i + x (i.succ : Fin (n + 1)) = _
      have h1 : x (i.succ : Fin (n + 1)) = y (.inl i.succ) - y (.inr i.succ) / x i := by
        rw [Fin.val_succ, hx, piv, ← hx]
        have hr : pad (fun i => y (.inr i)) (i + 1) = y (.inr i.succ) := by rw [pad_lt (by omega)]; rfl
        have hl : pad (fun i => y (.inl i)) (i + 1) = y (.inl i.succ) := by rw [pad_lt (by omega)]; rfl
        rw [hr, hl, Real.sq_sqrt (hy _).le]
      rw [h1]; ring
    · rw [lagQ_r0]; rfl
    · rw [lagQ_rs]
      change x i * (y (.inr i.succ) / x i) = _
      rw [mul_div_cancel₀ _ (hxp i (by omega)).ne']

theorem coefD_split (beta : ℝ) (y : Cd (n + 1)) : coefD beta y
    = y (.inr 0) ^ (beta / 2 * (n + 1) - 1) * ∏ i : Fin n, y (.inr i.succ) ^ (beta / 2 * ((n : ℝ) - i) - 1) := by
  rw [coefD, Fin.prod_univ_succ]
  congr 1
  · congr 1; push_cast; simp
  · refine prod_congr rfl fun i _ => ?_
    congr 3
    rw [Fin.val_succ]; push_cast; ring

/-- the mass does not matter -/
theorem lag_mass (z : Cd (n + 1)) : jacT (lagQ (unitM (drawOf z))) = jacT (lagQ z) := by
  refine tridiag_congr (fun i hi => ?_) (fun i hi => ?_)
  · rw [pad_lt hi, pad_lt hi]
    rcases i with _ | i
    · rfl
    · rfl
  · rw [pad_lt hi, pad_lt hi]
    rfl

theorem unitM_pos {z : Cd (n + 1)} (hz : z ∈ posO (n + 1)) : unitM (drawOf z) ∈ posO (n + 1) := by
  rintro (k | k)
  · exact hz _
  · refine Fin.cases ?_ (fun i => ?_) k
    · exact one_pos
    · exact hz _

end Verif.Lemmas
