import Mathlib.Algebra.Polynomial.Monic
import Mathlib.Algebra.Polynomial.BigOperators
import Mathlib.Algebra.Polynomial.Derivative
import Mathlib.Algebra.Polynomial.Roots
import Mathlib.LinearAlgebra.Vandermonde
import Mathlib.LinearAlgebra.Matrix.NonsingularInverse
import Mathlib.Analysis.Complex.Basic
import Mathlib.Analysis.SpecialFunctions.Complex.Arg
import Mathlib.Tactic.LinearCombination
import Mathlib.Tactic.FieldSimp

/-!
# Szego polynomials

`szP al k` is the monic polynomial `Phi_k` and `szQ al k` the reversed polynomial of the Szego recursion with coefficients `al`.
-/

namespace Verif.Lemmas
open Finset Polynomial
open scoped ComplexConjugate

/-- the two polynomials of the Szego recursion -/
noncomputable def szego (al : ℕ → ℂ) : ℕ → ℂ[X] × ℂ[X]
  | 0 => (1, 1)
  | k + 1 => (X * (szego al k).1 - C (conj (al k)) * (szego al k).2, (szego al k).2 - C (al k) * (X * (szego al k).1))

/-- `Phi_k` -/
noncomputable def szP (al : ℕ → ℂ) (k : ℕ) : ℂ[X] := (szego al k).1

/-- the reversed polynomial -/
noncomputable def szQ (al : ℕ → ℂ) (k : ℕ) : ℂ[X] := (szego al k).2

/-- `prod_{j<k} (1 - |al j|^2)` -/
noncomputable def szR (al : ℕ → ℂ) (k : ℕ) : ℝ := ∏ j ∈ range k, (1 - ‖al j‖ ^ 2)

variable {al : ℕ → ℂ}

theorem szP_zero : szP al 0 = 1 := rfl
theorem szQ_zero : szQ al 0 = 1 := rfl
theorem szP_succ (k : ℕ) : szP al (k + 1) = X * szP al k - C (conj (al k)) * szQ al k := rfl
theorem szQ_succ (k : ℕ) : szQ al (k + 1) = szQ al k - C (al k) * (X * szP al k) := rfl
theorem szR_zero : szR al 0 = 1 := by simp [szR]
theorem szR_succ (k : ℕ) : szR al (k + 1) = szR al k * (1 - ‖al k‖ ^ 2) := by simp [szR, prod_range_succ]

theorem sz_deg (al : ℕ → ℂ) (k : ℕ) : (szP al k).Monic ∧ (szP al k).natDegree = k ∧ (szQ al k).natDegree ≤ k := by
  induction k with
  | zero => simp [szP_zero, szQ_zero]
  | succ k ih =>
    obtain ⟨h1, h2, h3⟩ := ih
    have hm : (X * szP al k).Monic := monic_X.mul h1
    have hd : (X * szP al k).natDegree = k + 1 := by rw [monic_X.natDegree_mul h1, natDegree_X, h2]; ring
    have hq : (C (conj (al k)) * szQ al k).natDegree ≤ k := (natDegree_C_mul_le _ _).trans h3
    have hlt : (C (conj (al k)) * szQ al k).degree < (X * szP al k).degree := by
      refine lt_of_le_of_lt degree_le_natDegree ?_
      rw [degree_eq_natDegree hm.ne_zero, hd]
      exact_mod_cast Nat.lt_succ_of_le hq
    refine ⟨?_, ?_, ?_⟩
    · rw [szP_succ]; exact hm.sub_of_left hlt
    · rw [szP_succ, natDegree_sub_eq_left_of_natDegree_lt (by rw [hd]; omega), hd]
    · rw [szQ_succ]
      refine (natDegree_sub_le _ _).trans (max_le (by omega) ((natDegree_C_mul_le _ _).trans hd.le))

theorem szP_monic (al : ℕ → ℂ) (k : ℕ) : (szP al k).Monic := (sz_deg al k).1
theorem szP_deg (al : ℕ → ℂ) (k : ℕ) : (szP al k).natDegree = k := (sz_deg al k).2.1

theorem szP_congr {al al' : ℕ → ℂ} {k : ℕ} (h : ∀ i < k, al i = al' i) : szego al k = szego al' k := by
  induction k with
  | zero => rfl
  | succ k ih => rw [szego, szego, ih fun i hi => h i (by omega), h k (by omega)]

theorem szP_coeff_zero (al : ℕ → ℂ) (k : ℕ) : (szQ al k).coeff 0 = 1 ∧ (szP al (k + 1)).coeff 0 = -conj (al k) := by
  have hq : ∀ k, (szQ al k).coeff 0 = 1 := by
    intro k
    induction k with
    | zero => simp [szQ_zero]
    | succ k ih => rw [szQ_succ, coeff_sub, ih]; simp
  refine ⟨hq k, ?_⟩
  rw [szP_succ, coeff_sub, coeff_C_mul, hq]; simp

theorem conj_mul_self_unit {z : ℂ} (h : ‖z‖ = 1) : conj z * z = 1 := by
  rw [mul_comm, Complex.mul_conj, Complex.normSq_eq_norm_sq, h]; simp

/-- on the unit circle the reversed polynomial is `z^k conj(Phi_k(z))` -/
theorem szQ_unit {z : ℂ} (hz : ‖z‖ = 1) (k : ℕ) : (szQ al k).eval z = z ^ k * conj ((szP al k).eval z) := by
  have h := conj_mul_self_unit hz
  induction k with
  | zero => simp [szP_zero, szQ_zero]
  | succ k ih =>
    have ih' : conj ((szQ al k).eval z) * z ^ k = (szP al k).eval z := by
      rw [ih, map_mul, map_pow, Complex.conj_conj]
      calc conj z ^ k * eval z (szP al k) * z ^ k = (conj z * z) ^ k * eval z (szP al k) := by rw [mul_pow]; ring
        _ = _ := by rw [h, one_pow, one_mul]
    rw [szP_succ, szQ_succ]
    simp only [eval_sub, eval_mul, eval_X, eval_C, map_sub, map_mul, Complex.conj_conj]
    linear_combination ih + (-(z ^ k * conj (eval z (szP al k)))) * h + (al k * z) * ih'

/-- Christoffel-Darboux kernel -/
noncomputable def szK (al : ℕ → ℂ) (n : ℕ) (z x : ℂ) : ℂ :=
  ∑ k ∈ range (n + 1), (szP al k).eval x * conj ((szP al k).eval z) / szR al k

theorem conj_mul_eq (a : ℂ) : conj a * a = ((‖a‖ ^ 2 : ℝ) : ℂ) := by
  rw [mul_comm, Complex.mul_conj, Complex.normSq_eq_norm_sq]

/-- Christoffel-Darboux formula -/
theorem szK_eq {n : ℕ} (hR : ∀ k ≤ n, szR al k ≠ 0) (z x : ℂ) :
    (1 - conj z * x) * szK al n z x = ((szQ al n).eval x * conj ((szQ al n).eval z)
      - conj z * x * ((szP al n).eval x * conj ((szP al n).eval z))) / szR al n := by
  induction n with
  | zero => simp [szK, szP_zero, szQ_zero, szR_zero]
  | succ n ih =>
    rw [szK, sum_range_succ, mul_add]
    have := ih fun k hk => hR k (by omega)
    rw [szK] at this
    rw [this]
    have h1 : ((szR al n : ℝ) : ℂ) ≠ 0 := by exact_mod_cast hR n (by omega)
    have h2 : ((szR al (n + 1) : ℝ) : ℂ) ≠ 0 := by exact_mod_cast hR (n + 1) le_rfl
    have h3 : ((szR al (n + 1) : ℝ) : ℂ) = szR al n * (1 - conj (al n) * al n) := by
      rw [szR_succ, conj_mul_eq]; push_cast; ring
    have h4 : (1 - conj (al n) * al n : ℂ) ≠ 0 := by
      intro h0; rw [h0, mul_zero] at h3; exact h2 h3
    rw [h3, szP_succ, szQ_succ]
    simp only [eval_sub, eval_mul, eval_X, eval_C, map_sub, map_mul, Complex.conj_conj]
    generalize eval x (szP al n) = A at *
    generalize eval x (szQ al n) = B at *
    generalize conj (eval z (szP al n)) = A' at *
    generalize conj (eval z (szQ al n)) = B' at *
    field_simp
    ring

theorem szK_self (al : ℕ → ℂ) (n : ℕ) (z : ℂ) :
    szK al n z z = ((∑ k ∈ range (n + 1), ‖(szP al k).eval z‖ ^ 2 / szR al k : ℝ) : ℂ) := by
  rw [szK]
  push_cast
  refine sum_congr rfl fun k _ => ?_
  rw [Complex.mul_conj, Complex.normSq_eq_norm_sq]; push_cast; rfl

/-- `K(z, z)` as a real number -/
noncomputable def szKr (al : ℕ → ℂ) (n : ℕ) (z : ℂ) : ℝ := ∑ k ∈ range (n + 1), ‖(szP al k).eval z‖ ^ 2 / szR al k

theorem szKr_pos {n : ℕ} (hR : ∀ k ≤ n, 0 < szR al k) (z : ℂ) : 0 < szKr al n z := by
  rw [szKr, sum_range_succ']
  refine add_pos_of_nonneg_of_pos (sum_nonneg fun k hk => ?_) (by simp [szP_zero, szR_zero])
  have := hR (k + 1) (by have := mem_range.1 hk; omega)
  positivity

section last
variable {n : ℕ} (hR : ∀ k ≤ n, 0 < szR al k) (hl : ‖al n‖ = 1)
include hR hl

/-- with a last coefficient on the unit circle, the kernel at a zero of `Phi_{n+1}` is proportional to `Phi_{n+1}` -/
theorem szK_zero {z : ℂ} (hz : (szP al (n + 1)).eval z = 0) (x : ℂ) :
    (1 - conj z * x) * szK al n z x = -al n * conj ((szQ al n).eval z) * (szP al (n + 1)).eval x / szR al n := by
  rw [szK_eq (fun k hk => (hR k hk).ne') z x]
  have h := conj_mul_self_unit hl
  rw [szP_succ] at hz ⊢
  simp only [eval_sub, eval_mul, eval_X, eval_C] at hz ⊢
  have hz' : conj z * conj (eval z (szP al n)) = al n * conj (eval z (szQ al n)) := by
    have := congrArg conj (sub_eq_zero.1 hz)
    simpa using this
  congr 1
  linear_combination (-(x * eval x (szP al n))) * hz' + (-(conj (eval z (szQ al n)) * eval x (szQ al n))) * h

theorem sz_root_norm {z : ℂ} (hz : (szP al (n + 1)).eval z = 0) : ‖z‖ = 1 := by
  have h := szK_zero hR hl hz z
  rw [hz, mul_zero, zero_div, mul_eq_zero, szK_self, Complex.ofReal_eq_zero] at h
  have hk := (szKr_pos hR z).ne'
  rw [szKr] at hk
  have h1 := h.resolve_right hk
  rw [conj_mul_eq, sub_eq_zero] at h1
  have : (1 : ℝ) = ‖z‖ ^ 2 := by exact_mod_cast h1
  have h2 : ‖z‖ ^ 2 = 1 := this.symm
  exact (pow_eq_one_iff_of_nonneg (norm_nonneg z) two_ne_zero).1 h2

/-- derivative of `Phi_{n+1}` at a zero -/
theorem sz_deriv {z : ℂ} (hz : (szP al (n + 1)).eval z = 0) :
    conj z * szK al n z z = al n * conj ((szQ al n).eval z) / szR al n * (derivative (szP al (n + 1))).eval z := by
  have hn := sz_root_norm hR hl hz
  set Kp : ℂ[X] := ∑ k ∈ range (n + 1), szP al k * C (conj ((szP al k).eval z) / szR al k) with hKp
  have hKe : ∀ x, Kp.eval x = szK al n z x := by
    intro x
    rw [hKp, eval_finsetSum, szK]
    refine sum_congr rfl fun k _ => ?_
    simp only [eval_mul, eval_C]; ring
  have hpoly : (1 - C (conj z) * X) * Kp = C (-al n * conj ((szQ al n).eval z) / szR al n) * szP al (n + 1) := by
    refine Polynomial.funext fun x => ?_
    simp only [eval_mul, eval_sub, eval_one, eval_C, eval_X, hKe]
    rw [szK_zero hR hl hz x]; ring
  have hd := congrArg (fun p => (derivative p).eval z) hpoly
  simp only [derivative_mul, derivative_sub, derivative_one, derivative_C, derivative_X, eval_add, eval_mul, eval_sub, eval_one,
    eval_C, eval_X, eval_zero, eval_neg, hKe, conj_mul_self_unit hn, zero_mul, mul_one, sub_self, zero_sub, add_zero,
    zero_add] at hd
  linear_combination -hd

theorem sz_root_simple {z : ℂ} (hz : (szP al (n + 1)).eval z = 0) : (derivative (szP al (n + 1))).eval z ≠ 0 := by
  have hn := sz_root_norm hR hl hz
  intro h0
  have hd := sz_deriv hR hl hz
  rw [h0, mul_zero, szK_self, mul_eq_zero] at hd
  rcases hd with hd | hd
  · have : z = 0 := by simpa using hd
    rw [this] at hn; simp at hn
  · have hk := (szKr_pos hR z).ne'
    rw [szKr] at hk
    exact hk (by exact_mod_cast hd)

end last

end Verif.Lemmas
