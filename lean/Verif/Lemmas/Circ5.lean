import Verif.Lemmas.Circ4

/-!
# The Jacobian determinants of the two charts
-/

namespace Verif.Lemmas
open Finset Polynomial
open scoped ComplexConjugate

variable {n : ℕ}

/-! ## Coefficients -/

theorem alC_line (y : Cd (n + 1)) (t : ℝ) (c : Fin (n + 1) ⊕ Fin (n + 1)) {i : ℕ} (hi : i < n)
    (h1 : (Sum.inl ⟨i, by omega⟩ : Fin (n + 1) ⊕ Fin (n + 1)) ≠ c)
    (h2 : (Sum.inr ⟨i + 1, by omega⟩ : Fin (n + 1) ⊕ Fin (n + 1)) ≠ c) : alC (y + t • Pi.single c (1 : ℝ)) i = alC y i := by
  rw [alC_lt _ hi, alC_lt _ hi, add_smul_single, add_smul_single, if_neg h1, if_neg h2, add_zero, add_zero]

theorem alC_line_inl (y : Cd (n + 1)) (t : ℝ) {i : ℕ} (hi : i < n) :
    alC (y + t • Pi.single (.inl ⟨i, by omega⟩) (1 : ℝ)) i = alC y i + t := by
  rw [alC_lt _ hi, alC_lt _ hi, add_smul_single, add_smul_single, if_pos rfl, if_neg (by simp), add_zero]
  push_cast; ring

theorem alC_line_inr (y : Cd (n + 1)) (t : ℝ) {i : ℕ} (hi : i < n) :
    alC (y + t • Pi.single (.inr ⟨i + 1, by omega⟩) (1 : ℝ)) i = alC y i + t * Complex.I := by
  rw [alC_lt _ hi, alC_lt _ hi, add_smul_single, add_smul_single, if_neg (by simp), if_pos rfl, add_zero]
  push_cast; ring

theorem massC_line (y : Cd (n + 1)) (t : ℝ) {c : Fin (n + 1) ⊕ Fin (n + 1)} (h : Sum.inr 0 ≠ c) :
    massC (y + t • Pi.single c (1 : ℝ)) = massC y := by
  rw [massC, massC, add_smul_single, if_neg h, add_zero]

theorem szMom_step {al al' : ℕ → ℂ} {m : ℝ} {k : ℕ} (h : ∀ i < k, al' i = al i) :
    szMom al' m (k + 1) = szMom al m (k + 1) + (conj (al' k) - conj (al k)) * ((m * szR al k : ℝ) : ℂ) := by
  rw [szMom_succ, szMom_succ]
  have e : szP al' k = szP al k := congrArg Prod.fst (szP_congr h)
  have e2 : szR al' k = szR al k := prod_congr rfl fun i hi => by rw [h i (mem_range.1 hi)]
  rw [e, e2, sum_congr rfl fun (i : Fin k) _ => by rw [szMom_congr (al := al') (al' := al) fun l hl => h l (by omega)]]
  ring

theorem jacH_lt (y : Cd (n + 1)) {r c : Fin (n + 1) ⊕ Fin (n + 1)} (h : rk (n + 1) r < rk (n + 1) c) : jacM momH y r c = 0 := by
  refine jacM_eq diff_momH.differentiableAt (hasDerivAt_line fun t => ?_)
  rw [mul_zero, add_zero, zero_smul, add_zero]
  have h' : (rk (n + 1) r : ℕ) < rk (n + 1) c := h
  have hm : Sum.inr 0 ≠ c := by rintro rfl; simp [rk] at h'
  rcases r with k | k
  · simp only [momH]
    split_ifs with hk
    · rw [massC_line y t hm]
      have hk1 : (k : ℕ) + 1 < n + 1 := by omega
      by_cases hc : (Sum.inr ⟨k + 1, hk1⟩ : Fin (n + 1) ⊕ Fin (n + 1)) = c
      · subst hc
        rw [szMom_step (al := alC y) fun i hi => alC_line y t _ (by omega) (by simp) (by simp; omega), alC_line_inr y t hk]
        simp
      · rw [szMom_congr (al' := alC y) fun i hi => ?_]
        have hin : i < n := by omega
        refine alC_line y t _ hin ?_ ?_
        · rintro rfl; simp [rk] at h'; omega
        · by_cases hik : i = k
          · subst hik; exact hc
          · rintro rfl; simp [rk] at h'; omega
    · exfalso
      have := (rk (n + 1) c).2
      simp only [rk] at h'
      omega
  · simp only [momH]
    split_ifs with hk
    · rw [massC_line y t hm]
    · rw [massC_line y t hm, szMom_congr (al' := alC y) fun i hi => ?_]
      have hin : i < n := by omega
      refine alC_line y t _ hin ?_ ?_
      · rintro rfl; simp [rk] at h'; omega
      · rintro rfl; simp [rk] at h'; omega

theorem jacH_inl (y : Cd (n + 1)) {k : ℕ} (hk : k < n) :
    jacM momH y (.inl ⟨k, by omega⟩) (.inl ⟨k, by omega⟩) = massC y * szR (alC y) k := by
  refine jacM_eq diff_momH.differentiableAt (hasDerivAt_line fun t => ?_)
  rw [zero_smul, add_zero]
  simp only [momH, if_pos hk]
  rw [massC_line y t (by simp), szMom_step (al := alC y) fun i hi => alC_line y t _ (by omega) (by simp; omega) (by simp),
    alC_line_inl y t hk]
  simp

theorem jacH_inr (y : Cd (n + 1)) {k : ℕ} (hk : k < n) :
    jacM momH y (.inr ⟨k + 1, by omega⟩) (.inr ⟨k + 1, by omega⟩) = -(massC y * szR (alC y) k) := by
  refine jacM_eq diff_momH.differentiableAt (hasDerivAt_line fun t => ?_)
  rw [zero_smul, add_zero]
  simp only [momH, if_neg (Nat.succ_ne_zero k)]
  rw [massC_line y t (by simp [Fin.ext_iff]), szMom_step (al := alC y) fun i hi => alC_line y t _ (by omega) (by simp)
    (by simp; omega), alC_line_inr y t hk]
  simp

theorem jacH_last (y : Cd (n + 1)) : jacM momH y (.inl (Fin.last n)) (.inl (Fin.last n)) = 1 := by
  refine jacM_eq diff_momH.differentiableAt (hasDerivAt_line fun t => ?_)
  rw [zero_smul, add_zero]
  simp only [momH, Fin.val_last, lt_irrefl, if_false]
  rw [add_smul_single, if_pos rfl, mul_one]

theorem jacH_zero (y : Cd (n + 1)) : jacM momH y (.inr 0) (.inr 0) = 1 := by
  refine jacM_eq diff_momH.differentiableAt (hasDerivAt_line fun t => ?_)
  rw [zero_smul, add_zero]
  simp only [momH, Fin.val_zero, if_true, massC]
  rw [add_smul_single, if_pos rfl, mul_one]

theorem det_momH (y : Cd (n + 1)) : |(fderiv ℝ momH y).det| = (∏ k ∈ range n, (massC y * szR (alC y) k)) ^ 2 := by
  rw [det_fderiv, ← Matrix.det_submatrix_equiv_self (rkE (n + 1)).symm, Matrix.det_of_isLowerTriangular]
  · have e0 : ∏ i, (jacM momH y).submatrix (rkE (n + 1)).symm (rkE (n + 1)).symm i i = ∏ c, jacM momH y c c :=
      Fintype.prod_equiv (rkE (n + 1)).symm _ (fun c => jacM momH y c c) (fun _ => rfl)
    rw [e0, Fintype.prod_sum_type, Fin.prod_univ_castSucc, Fin.prod_univ_succ, jacH_last, jacH_zero, mul_one, one_mul, abs_mul, abs_prod, abs_prod]
    have e1 : ∏ k : Fin n, |jacM momH y (.inl k.castSucc) (.inl k.castSucc)| = ∏ k ∈ range n, |massC y * szR (alC y) k| := by
      rw [← Fin.prod_univ_eq_prod_range (fun k => |massC y * szR (alC y) k|)]
      exact prod_congr rfl fun k _ => congrArg _ (jacH_inl y k.2)
    have e2 : ∏ k : Fin n, |jacM momH y (.inr k.succ) (.inr k.succ)| = ∏ k ∈ range n, |massC y * szR (alC y) k| := by
      rw [← Fin.prod_univ_eq_prod_range (fun k => |massC y * szR (alC y) k|)]
      exact prod_congr rfl fun k _ => (congrArg _ (jacH_inr y k.2)).trans (abs_neg _)
    rw [e1, e2, ← sq, ← prod_pow, ← prod_pow]
    exact prod_congr rfl fun k _ => sq_abs _
  · intro a b hab
    rw [Matrix.submatrix_apply]
    refine jacH_lt y ?_
    rw [← rkE_apply, ← rkE_apply, Equiv.apply_symm_apply, Equiv.apply_symm_apply]
    exact hab

/-! ## Measures -/

/-- the row of the sum of the angles -/
def sRow (n : ℕ) : Fin (n + 1) ⊕ Fin (n + 1) → ℝ := Sum.elim (fun _ => 1) (fun _ => 0)

theorem jacE_inl (x : Cd (n + 1)) (k : Fin (n + 1)) (c : Fin (n + 1) ⊕ Fin (n + 1)) :
    jacM momE x (.inl k) c = if (k : ℕ) < n then (dcm x (k + 1) c).re else sRow n c := by
  refine jacM_eq diff_momE.differentiableAt ?_
  simp only [momE]
  split_ifs with hk
  · exact (Complex.reCLM.hasFDerivAt.comp_hasDerivAt 0 (cmom_deriv x (k + 1) c))
  · refine hasDerivAt_line fun t => ?_
    rw [zero_smul, add_zero]
    simp only [add_smul_single, sum_add_distrib]
    congr 1
    rcases c with c | c <;> simp [sRow]

theorem jacE_inr (x : Cd (n + 1)) (k : Fin (n + 1)) (c : Fin (n + 1) ⊕ Fin (n + 1)) :
    jacM momE x (.inr k) c = if (k : ℕ) = 0 then Sum.elim (fun _ => 0) (fun _ => 1) c else (dcm x k c).im := by
  refine jacM_eq diff_momE.differentiableAt ?_
  simp only [momE]
  split_ifs with hk
  · refine hasDerivAt_line fun t => ?_
    rw [zero_smul, add_zero]
    simp only [add_smul_single, sum_add_distrib]
    congr 1
    rcases c with c | c <;> simp
  · exact (Complex.imCLM.hasFDerivAt.comp_hasDerivAt 0 (cmom_deriv x k c))

/-- real and imaginary parts to a moment and its conjugate -/
noncomputable def tau (n : ℕ) : Matrix (Fin (n + 1) ⊕ Fin (n + 1)) (Fin (n + 1) ⊕ Fin (n + 1)) ℂ
  | .inl k => if h : (k : ℕ) < n then Pi.single (.inl k) 1 + Complex.I • Pi.single (.inr ⟨k + 1, by omega⟩) 1 else Pi.single (.inl k) 1
  | .inr k => if (k : ℕ) = 0 then Pi.single (.inr k) 1 else
      Pi.single (.inl ⟨(k : ℕ) - 1, by omega⟩) 1 - Complex.I • Pi.single (.inr k) 1

theorem tau_inl {k : ℕ} (h : k < n) : tau n (.inl ⟨k, by omega⟩)
    = Pi.single (.inl ⟨k, by omega⟩) 1 + Complex.I • Pi.single (.inr ⟨k + 1, by omega⟩) 1 := by
  rw [tau, dif_pos h]
theorem tau_last : tau n (.inl (Fin.last n)) = Pi.single (.inl (Fin.last n)) 1 := by
  rw [tau, dif_neg (by simp)]
theorem tau_inr {k : ℕ} (h : k < n) : tau n (.inr ⟨k + 1, by omega⟩)
    = Pi.single (.inl ⟨k, by omega⟩) 1 - Complex.I • Pi.single (.inr ⟨k + 1, by omega⟩) 1 := by
  rw [tau, if_neg (by simp)]; rfl
theorem tau_zero : tau n (.inr 0) = Pi.single (.inr 0) 1 := by
  rw [tau, if_pos (by simp)]

theorem row_cases {P : Fin (n + 1) ⊕ Fin (n + 1) → Prop} (h1 : ∀ (k : ℕ) (h : k < n), P (.inl ⟨k, by omega⟩))
    (h2 : P (.inl (Fin.last n))) (h3 : ∀ (k : ℕ) (h : k < n), P (.inr ⟨k + 1, by omega⟩)) (h4 : P (.inr 0)) : ∀ r, P r := by
  rintro (k | k)
  · refine Fin.lastCases h2 (fun i => h1 i i.2) k
  · refine Fin.cases h4 (fun i => h3 i i.2) k

theorem tau_det : (tau n).det ≠ 0 := by
  intro h
  obtain ⟨v, hv, h0⟩ := Matrix.exists_mulVec_eq_zero_iff.2 h
  apply hv
  have hr : ∀ r, tau n r ⬝ᵥ v = 0 := fun r => congrFun h0 r
  have hp : ∀ (k : ℕ) (h : k < n), v (.inl ⟨k, by omega⟩) = 0 ∧ v (.inr ⟨k + 1, by omega⟩) = 0 := by
    intro k hk
    have a := hr (.inl ⟨k, by omega⟩)
    have b := hr (.inr ⟨k + 1, by omega⟩)
    rw [tau_inl hk, add_dotProduct, smul_dotProduct, single_one_dotProduct, single_one_dotProduct, smul_eq_mul] at a
    rw [tau_inr hk, sub_dotProduct, smul_dotProduct, single_one_dotProduct, single_one_dotProduct, smul_eq_mul] at b
    constructor
    · linear_combination (a + b) / 2
    · linear_combination (-(Complex.I) / 2) * (a - b) + (v (.inr ⟨k + 1, by omega⟩)) * Complex.I_sq
  funext r
  revert r
  refine row_cases (fun k h => (hp k h).1) ?_ (fun k h => (hp k h).2) ?_
  · have a := hr (.inl (Fin.last n))
    rwa [tau_last, single_one_dotProduct] at a
  · have a := hr (.inr 0)
    rwa [tau_zero, single_one_dotProduct] at a

/-- moments, conjugate moments, sum of the angles -/
noncomputable def W0 (x : Cd (n + 1)) : Matrix (Fin (n + 1) ⊕ Fin (n + 1)) (Fin (n + 1) ⊕ Fin (n + 1)) ℂ
  | .inl k, c => if (k : ℕ) < n then dcm x (k + 1) c else (sRow n c : ℂ)
  | .inr k, c => conj (dcm x k c)

/-- moments with exponents `-n, ..., n + 1` -/
noncomputable def Wf (x : Cd (n + 1)) : Matrix (Fin (n + 1) ⊕ Fin (n + 1)) (Fin (n + 1) ⊕ Fin (n + 1)) ℂ
  | .inl k, c => dcm x (k + 1) c
  | .inr k, c => conj (dcm x k c)

theorem W0_eq (x : Cd (n + 1)) : W0 x = tau n * (jacM momE x).map (fun a => (a : ℂ)) := by
  ext r c
  have e : (tau n * (jacM momE x).map (fun a => (a : ℂ))) r c
      = (Matrix.vecMul (tau n r) ((jacM momE x).map (fun a => (a : ℂ)))) c := by
    rw [Matrix.mul_apply_eq_vecMul]
  rw [e]
  revert r
  refine row_cases (fun k h => ?_) ?_ (fun k h => ?_) ?_
  · intro _
    rw [tau_inl h, Matrix.add_vecMul, Matrix.smul_vecMul, Matrix.single_one_vecMul, Matrix.single_one_vecMul, Pi.add_apply,
      Pi.smul_apply, smul_eq_mul]
    simp only [Matrix.row_apply, Matrix.map_apply, jacE_inl, jacE_inr, W0, if_pos h, if_neg (Nat.succ_ne_zero k)]
    rw [mul_comm, Complex.re_add_im]
  · intro _
    rw [tau_last, Matrix.single_one_vecMul]
    simp only [Matrix.row_apply, Matrix.map_apply, jacE_inl, W0, Fin.val_last, lt_irrefl, if_false]
  · intro _
    rw [tau_inr h, Matrix.sub_vecMul, Matrix.smul_vecMul, Matrix.single_one_vecMul, Matrix.single_one_vecMul, Pi.sub_apply,
      Pi.smul_apply, smul_eq_mul]
    simp only [Matrix.row_apply, Matrix.map_apply, jacE_inl, jacE_inr, W0, if_pos h, if_neg (Nat.succ_ne_zero k)]
    refine Complex.ext ?_ ?_ <;> simp
  · intro _
    rw [tau_zero, Matrix.single_one_vecMul]
    simp only [Matrix.row_apply, Matrix.map_apply, jacE_inr, W0, Fin.val_zero, if_true]
    rcases c with c | c <;> simp [dcm]

/-- exponents plus `n` -/
def qE (n : ℕ) : Fin (n + 1) ⊕ Fin (n + 1) → Fin (2 * (n + 1))
  | .inl k => ⟨n + 1 + k, by omega⟩
  | .inr k => ⟨n - k, by omega⟩

theorem qE_bij (n : ℕ) : Function.Bijective (qE n) := by
  rw [Fintype.bijective_iff_injective_and_card]
  refine ⟨?_, by simp; omega⟩
  rintro (i | i) (j | j) h <;> simp only [qE, Fin.mk.injEq] at h <;> congr 1 <;> first | omega | (apply Fin.ext; omega)

theorem dcm_zpow {z : ℂ} (hz : ‖z‖ = 1) {k n : ℕ} (hk : k ≤ n) : conj z ^ k = conj z ^ n * z ^ (n - k) := by
  have h := conj_mul_self_unit hz
  have e : conj z ^ n = conj z ^ k * conj z ^ (n - k) := by rw [← pow_add]; congr 1; omega
  rw [e, mul_assoc, ← mul_pow, h, one_pow, mul_one]

theorem Wf_inr (x : Cd (n + 1)) (r : Fin (n + 1) ⊕ Fin (n + 1)) (j : Fin (n + 1)) :
    Wf x r (.inr j) = conj (zC x j) ^ n * zC x j ^ (qE n r : ℕ) := by
  have h := conj_mul_self_unit (zC_norm x j)
  rcases r with k | k
  · simp only [Wf, dcm, Sum.elim_inr, qE]
    rw [show n + 1 + (k : ℕ) = n + (k + 1) by ring, pow_add (zC x j) n, ← mul_assoc, ← mul_pow, h, one_pow, one_mul]
  · simp only [Wf, dcm, Sum.elim_inr, qE, map_pow]
    exact dcm_zpow (zC_norm x j) (by omega)

theorem Wf_inl (x : Cd (n + 1)) (r : Fin (n + 1) ⊕ Fin (n + 1)) (j : Fin (n + 1)) :
    Wf x r (.inl j) = Complex.I * x (.inr j) * conj (zC x j) ^ n * ((((qE n r : ℕ) : ℂ) - n) * zC x j ^ (qE n r : ℕ)) := by
  have h := Wf_inr x r j
  rcases r with k | k
  · simp only [Wf, dcm, Sum.elim_inr, Sum.elim_inl] at h ⊢
    rw [h]
    simp only [qE]
    push_cast; ring
  · simp only [Wf, dcm, Sum.elim_inr, Sum.elim_inl, map_mul, Complex.conj_ofReal, Complex.conj_I, Complex.conj_natCast] at h ⊢
    rw [h]
    simp only [qE]
    rw [Nat.cast_sub (by omega)]; ring

theorem sum_qE (f : ℕ → ℂ) : ∑ r, f (qE n r) = ∑ q ∈ range (2 * (n + 1)), f q := by
  rw [← Fin.sum_univ_eq_sum_range f]
  exact Fintype.sum_bijective _ (qE_bij n) _ _ fun _ => rfl

theorem X_mul_derivative_eval (F : ℂ[X]) {M : ℕ} (h : F.natDegree < M) (z : ℂ) :
    z * (derivative F).eval z = ∑ q ∈ range M, F.coeff q * (q * z ^ q) := by
  have := Polynomial.derivative_eval F z
  rw [this, Polynomial.sum_over_range' _ (fun _ => by simp) M h, mul_sum]
  refine sum_congr rfl fun q _ => ?_
  rcases q with _ | q
  · simp
  · rw [Nat.add_sub_cancel]; ring

section
variable {x : Cd (n + 1)} {al : ℕ → ℂ} (hw : ∀ j, 0 < x (.inr j)) (h : SzM (zC x) (fun j => x (.inr j)) al (n + 1))
  (hR : ∀ k ≤ n, 0 < szR al k) (hl : ‖al n‖ = 1) (hv : ∀ j, (szP al (n + 1)).eval (zC x j) = 0)
include hw h hR hl hv

theorem Wf_rel (c : Fin (n + 1) ⊕ Fin (n + 1)) : ∑ r, (szP al n * szP al (n + 1)).coeff (qE n r) * Wf x r c
    = Complex.I * conj (al n) * (((∑ j, x (.inr j)) * szR al n : ℝ) : ℂ) * sRow n c := by
  set F := szP al n * szP al (n + 1) with hF
  have hm : 0 < ∑ j, x (.inr j) := sum_pos (fun j _ => hw j) ⟨0, mem_univ _⟩
  have hd : F.natDegree < 2 * (n + 1) := by
    rw [hF, (szP_monic al n).natDegree_mul (szP_monic al (n + 1)), szP_deg, szP_deg]; omega
  have hF0 : ∀ j, F.eval (zC x j) = 0 := fun j => by rw [hF, eval_mul, hv j, mul_zero]
  rcases c with j | j
  · have h1 := X_mul_derivative_eval F hd (zC x j)
    have h2 := hF0 j
    rw [eval_eq_sum_range' hd] at h2
    have e : ∑ r, F.coeff (qE n r) * Wf x r (.inl j)
        = Complex.I * x (.inr j) * conj (zC x j) ^ n * (zC x j * (derivative F).eval (zC x j)) := by
      rw [h1]
      have e1 : ∑ q ∈ range (2 * (n + 1)), F.coeff q * (q * zC x j ^ q)
          = ∑ q ∈ range (2 * (n + 1)), F.coeff q * (((q : ℂ) - n) * zC x j ^ q) := by
        rw [← sub_eq_zero, ← sum_sub_distrib, ← mul_zero (n : ℂ), ← h2, mul_sum]
        exact sum_congr rfl fun q _ => by ring
      rw [e1, ← sum_qE fun q => F.coeff q * (((q : ℂ) - n) * zC x j ^ q), mul_sum]
      refine sum_congr rfl fun r _ => ?_
      rw [Wf_inl]; ring
    rw [e, hF, derivative_mul, eval_add, eval_mul, eval_mul, hv j, mul_zero, zero_add]
    have hk := sz_deriv hR hl (hv j)
    have hwt := weight_eq (zC_norm x) h hR hm j
    have hq := szQ_unit (al := al) (zC_norm x j) n
    have hu := conj_mul_self_unit (zC_norm x j)
    have hul := conj_mul_self_unit hl
    rw [szK_self, ← szKr, hq, map_mul, map_pow, Complex.conj_conj] at hk
    have hR' : ((szR al n : ℝ) : ℂ) ≠ 0 := Complex.ofReal_ne_zero.2 (hR n le_rfl).ne'
    have hwt' : (x (.inr j) : ℂ) * (szKr al n (zC x j) : ℂ) = ((∑ j, x (.inr j) : ℝ) : ℂ) := by
      rw [← Complex.ofReal_mul]; exact congrArg _ hwt
    simp only [sRow, Sum.elim_inl, Complex.ofReal_one, mul_one]
    rw [Complex.ofReal_mul, ← hwt']
    field_simp at hk
    linear_combination (-(Complex.I * x (.inr j) * conj (al n) * zC x j)) * hk
      + (-(Complex.I * x (.inr j) * zC x j * (conj (zC x j) ^ n * (szP al n).eval (zC x j)
        * (derivative (szP al (n + 1))).eval (zC x j)))) * hul
      + (Complex.I * conj (al n) * x (.inr j) * szKr al n (zC x j) * szR al n) * hu
  · have h2 := hF0 j
    rw [eval_eq_sum_range' hd] at h2
    have e : ∑ r, F.coeff (qE n r) * Wf x r (.inr j) = conj (zC x j) ^ n * ∑ q ∈ range (2 * (n + 1)), F.coeff q * zC x j ^ q := by
      rw [← sum_qE fun q => F.coeff q * zC x j ^ q, mul_sum]
      exact sum_congr rfl fun r _ => by rw [Wf_inr]; ring
    rw [e, h2]
    simp [sRow]

theorem Wf_det : ‖(Wf x).det‖ = (∑ j, x (.inr j)) * szR al n * ‖(W0 x).det‖ := by
  have hm : 0 < ∑ j, x (.inr j) := sum_pos (fun j _ => hw j) ⟨0, mem_univ _⟩
  set κ : ℂ := Complex.I * conj (al n) * (((∑ j, x (.inr j)) * szR al n : ℝ) : ℂ) with hκ
  have hκn : ‖κ‖ = (∑ j, x (.inr j)) * szR al n := by
    rw [hκ, norm_mul, norm_mul, Complex.norm_I, RCLike.norm_conj, hl, Complex.norm_real, Real.norm_eq_abs,
      abs_of_pos (mul_pos hm (hR n le_rfl))]
    ring
  set L : Fin (n + 1) ⊕ Fin (n + 1) := .inl (Fin.last n) with hL
  set F := szP al n * szP al (n + 1) with hF
  have hlead : F.coeff (qE n L) = 1 := by
    have hmon := (szP_monic al n).mul (szP_monic al (n + 1))
    rw [Monic, leadingCoeff, (szP_monic al n).natDegree_mul (szP_monic al (n + 1)), szP_deg, szP_deg] at hmon
    rw [← hmon]
    congr 1
    simp only [hL, qE, Fin.val_last]; omega
  set cf : Fin (n + 1) ⊕ Fin (n + 1) → ℂ := fun r => if r = L then κ else -F.coeff (qE n r) with hcf
  have hup : Wf x = (W0 x).updateRow L (∑ r, cf r • W0 x r) := by
    ext r c
    by_cases hr : r = L
    · subst hr
      rw [Matrix.updateRow_self, Finset.sum_apply]
      simp only [Pi.smul_apply, smul_eq_mul]
      have h1 := Wf_rel hw h hR hl hv c
      rw [← hF, ← hκ, ← add_sum_erase _ _ (mem_univ L), hlead, one_mul] at h1
      rw [← add_sum_erase _ _ (mem_univ L)]
      have e1 : cf L * W0 x L c = κ * sRow n c := by
        simp only [hcf, if_true]
        congr 1
        simp [hL, W0]
      have e2 : ∑ r ∈ univ.erase L, cf r * W0 x r c = -∑ r ∈ univ.erase L, F.coeff (qE n r) * Wf x r c := by
        rw [← sum_neg_distrib]
        refine sum_congr rfl fun r hr => ?_
        have hrL := ne_of_mem_erase hr
        have : W0 x r c = Wf x r c := by
          rcases r with k | k
          · have hk : (k : ℕ) < n := by
              have hkne : k ≠ Fin.last n := fun hk => hrL (by rw [hk])
              exact Fin.val_lt_last hkne
            simp only [W0, Wf, if_pos hk]
          · rfl
        simp only [hcf, if_neg hrL, this]
        ring
      rw [e1, e2]
      linear_combination h1
    · rw [Matrix.updateRow_ne hr]
      rcases r with k | k
      · have hk : (k : ℕ) < n := by
          have hkne : k ≠ Fin.last n := fun hk => hr (by rw [hk])
          exact Fin.val_lt_last hkne
        simp only [W0, Wf, if_pos hk]
      · rfl
  rw [hup, Matrix.det_updateRow_sum]
  simp only [hcf, if_true, smul_eq_mul, norm_mul, hκn]

end

theorem Wf_vdm (x : Cd (n + 1)) : ‖(Wf x).det‖ = vdmC (zC x) ^ 4 * |∏ j, x (.inr j)| := by
  let e : Fin (n + 1) ⊕ Fin (n + 1) ≃ Fin (n + 1) ⊕ Fin (n + 1) :=
    (Equiv.ofBijective _ (qE_bij n)).trans (rkE (n + 1)).symm
  have he : ∀ r, rk (n + 1) (e r) = qE n r := by
    intro r
    rw [← rkE_apply]
    simp [e]
  have hW : Wf x = (conflC (zC x)).submatrix e id * Matrix.fromBlocks
      (Matrix.diagonal fun j => Complex.I * x (.inr j) * conj (zC x j) ^ n * zC x j) 0
      (Matrix.diagonal fun j => -(n : ℂ) * (Complex.I * x (.inr j) * conj (zC x j) ^ n))
      (Matrix.diagonal fun j => conj (zC x j) ^ n) := by
    ext r (j | j)
    · rw [Wf_inl, Matrix.mul_apply, Fintype.sum_sum_type]
      simp only [Matrix.fromBlocks_apply₁₁, Matrix.fromBlocks_apply₂₁, Matrix.diagonal_apply, mul_ite, mul_zero, sum_ite_eq',
        mem_univ, if_true, Matrix.submatrix_apply, conflC, Matrix.of_apply, Sum.elim_inl, Sum.elim_inr, he, id]
      have hp : ((qE n r : ℕ) : ℂ) * zC x j ^ ((qE n r : ℕ) - 1) * zC x j = ((qE n r : ℕ) : ℂ) * zC x j ^ (qE n r : ℕ) := by
        rcases Nat.eq_zero_or_pos (qE n r : ℕ) with h0 | h0
        · rw [h0]; simp
        · rw [mul_assoc, ← pow_succ, Nat.sub_add_cancel h0]
      linear_combination (-(Complex.I * x (.inr j) * conj (zC x j) ^ n)) * hp
    · rw [Wf_inr, Matrix.mul_apply, Fintype.sum_sum_type]
      simp only [Matrix.fromBlocks_apply₁₂, Matrix.fromBlocks_apply₂₂, Matrix.diagonal_apply, Matrix.zero_apply, mul_ite, mul_zero,
        sum_ite_eq', mem_univ, if_true, Matrix.submatrix_apply, conflC, Matrix.of_apply, Sum.elim_inl, Sum.elim_inr, he, id,
        sum_const_zero, zero_add]
      ring
  have hz : ∀ j, ‖conj (zC x j)‖ = 1 := fun j => by rw [RCLike.norm_conj, zC_norm]
  rw [hW, Matrix.det_mul, norm_mul, Matrix.det_permute, norm_mul, norm_det_conflC, Matrix.det_fromBlocks_zero₁₂,
    Matrix.det_diagonal, Matrix.det_diagonal, norm_mul, norm_prod, norm_prod]
  simp only [norm_mul, norm_pow, hz, zC_norm, Complex.norm_I, one_pow, mul_one, one_mul, prod_const_one, Complex.norm_real,
    Real.norm_eq_abs, ← abs_prod]
  rcases Int.units_eq_one_or (Equiv.Perm.sign e) with h | h <;> simp [h]

/-- constant of the change of variables -/
noncomputable def circK (n : ℕ) : ℝ := ‖(tau n).det‖

theorem circK_pos : 0 < circK n := norm_pos_iff.2 tau_det

/-- **Jacobian determinant of the moments** -/
theorem det_momE {x : Cd (n + 1)} {al : ℕ → ℂ} (hw : ∀ j, 0 < x (.inr j)) (h : SzM (zC x) (fun j => x (.inr j)) al (n + 1))
    (hR : ∀ k ≤ n, 0 < szR al k) (hl : ‖al n‖ = 1) (hv : ∀ j, (szP al (n + 1)).eval (zC x j) = 0) :
    (∑ j, x (.inr j)) * szR al n * (circK n * |(fderiv ℝ momE x).det|) = vdmC (zC x) ^ 4 * ∏ j, x (.inr j) := by
  have h1 := Wf_det hw h hR hl hv
  rw [Wf_vdm, W0_eq, Matrix.det_mul, norm_mul] at h1
  have e : ((jacM momE x).map (fun a => (a : ℂ))).det = (((jacM momE x).det : ℝ) : ℂ) := by
    have := RingHom.map_det Complex.ofRealHom (jacM momE x)
    exact this.symm
  rw [e, Complex.norm_real, Real.norm_eq_abs, ← det_fderiv, abs_of_pos (prod_pos fun j _ => hw j)] at h1
  exact h1.symm

end Verif.Lemmas
