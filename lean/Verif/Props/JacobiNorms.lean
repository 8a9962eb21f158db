import Verif.Model.Jacobi
import Mathlib.Analysis.SpecialFunctions.Gamma.Beta
import Mathlib.Analysis.SpecialFunctions.Integrals.Basic

/-!
# Norms of the univariate Jacobi polynomials (C73)
-/

namespace Verif.Props
open Verif Verif.Model

/-- The documented square norm
`2^(a+b+1) / (2n+a+b+1) * Gamma(n+a+1) Gamma(n+b+1) / (Gamma(n+a+b+1) n!)`. -/
noncomputable def docSquareNorm (a b : ℝ) (n : ℕ) : ℝ :=
  2 ^ (a + b + 1) / (2 * n + a + b + 1) *
    (Real.Gamma (n + a + 1) * Real.Gamma (n + b + 1) / (Real.Gamma (n + a + b + 1) * (Nat.factorial n : ℝ)))

theorem exp_gammaln {x : ℝ} (hx : 0 < x) : Real.exp (gammaln x) = Real.Gamma x :=
  Real.exp_log (Real.Gamma_pos_of_pos hx)

/-- C73: for every degree `n >= 1` and every legal pair of parameters, the entry of the table (computed through
logarithms, with a special case for the arcsine law) is the documented square norm, and it is positive. -/
theorem C73_square_norm {a b : ℝ} (ha : -1 < a) (hb : -1 < b) {n : ℕ} (hn : 1 ≤ n) :
    squareNorm1D a b n = docSquareNorm a b n ∧ 0 < squareNorm1D a b n := by
  have hn1 : (1 : ℝ) ≤ n := by exact_mod_cast hn
  have hn0 : n ≠ 0 := by omega
  rw [squareNorm1D]
  split_ifs with h
  · obtain ⟨rfl, rfl⟩ := h
    refine ⟨?_, by positivity⟩
    have hG : 0 < Real.Gamma ((n : ℝ) + 1 / 2) := Real.Gamma_pos_of_pos (by positivity)
    rw [docSquareNorm, mul_comm 2 (gammaln _ - _), mul_two, Real.exp_add, Real.exp_sub, exp_gammaln (by positivity),
      exp_gammaln (by positivity), Real.Gamma_nat_eq_factorial]
    have h1 : (n : ℝ) + -1 / 2 + -1 / 2 + 1 = n := by ring
    have h2 : (n : ℝ) + -1 / 2 + 1 = n + 1 / 2 := by ring
    have h3 : (2 : ℝ) * n + -1 / 2 + -1 / 2 + 1 = 2 * n := by ring
    have h4 : (-1 / 2 + -1 / 2 + 1 : ℝ) = 0 := by norm_num
    rw [h1, h2, h3, h4, Real.rpow_zero]
    have h5 : Real.Gamma n * n = (Nat.factorial n : ℝ) := by
      rw [mul_comm, ← Real.Gamma_add_one (by positivity), Real.Gamma_nat_eq_factorial]
    have h6 : (Nat.factorial n : ℝ) ≠ 0 := by positivity
    have h7 : Real.Gamma n ≠ 0 := (Real.Gamma_pos_of_pos (by positivity)).ne'
    field_simp
    rw [← h5]
    ring
  · refine ⟨?_, Real.exp_pos _⟩
    have p1 : 0 < (n : ℝ) + 1 + a := by linarith
    have p2 : 0 < (n : ℝ) + 1 + b := by linarith
    have p3 : 0 < (n : ℝ) + 1 + a + b := by linarith
    have p4 : 0 < 2 * (n : ℝ) + 1 + a + b := by linarith
    rw [docSquareNorm, Real.exp_sub, Real.exp_sub, Real.exp_sub, Real.exp_add, Real.exp_add, exp_gammaln p1, exp_gammaln p2,
      exp_gammaln p3, exp_gammaln (by positivity), Real.exp_log p4, Real.Gamma_nat_eq_factorial,
      mul_comm (a + b + 1), ← Real.rpow_def_of_pos (by norm_num)]
    rw [show (n : ℝ) + a + 1 = n + 1 + a by ring, show (n : ℝ) + b + 1 = n + 1 + b by ring,
      show (n : ℝ) + a + b + 1 = n + 1 + a + b by ring, show 2 * (n : ℝ) + a + b + 1 = 2 * n + 1 + a + b by ring]
    have h6 : (Nat.factorial n : ℝ) ≠ 0 := by positivity
    have h7 := (Real.Gamma_pos_of_pos p3).ne'
    have h8 := p4.ne'
    field_simp

/-- the Beta integral over the reals -/
theorem real_beta_integral {x y : ℝ} (hx : 0 < x) (hy : 0 < y) :
    ∫ t in (0 : ℝ)..1, t ^ (x - 1) * (1 - t) ^ (y - 1) = Real.Gamma x * Real.Gamma y / Real.Gamma (x + y) := by
  have h := Complex.betaIntegral_eq_Gamma_mul_div (x : ℂ) (y : ℂ) (by simpa) (by simpa)
  rw [Complex.betaIntegral] at h
  have h2 : (∫ t : ℝ in (0 : ℝ)..1, (t : ℂ) ^ ((x : ℂ) - 1) * (1 - (t : ℂ)) ^ ((y : ℂ) - 1))
      = ((∫ t in (0 : ℝ)..1, t ^ (x - 1) * (1 - t) ^ (y - 1) : ℝ) : ℂ) := by
    rw [← intervalIntegral.integral_ofReal]
    refine intervalIntegral.integral_congr fun t ht => ?_
    rw [Set.uIcc_of_le (by norm_num)] at ht
    rw [Complex.ofReal_mul, Complex.ofReal_cpow ht.1, Complex.ofReal_cpow (by linarith [ht.2])]
    push_cast
    rfl
  rw [h2, ← Complex.ofReal_add, Complex.Gamma_ofReal, Complex.Gamma_ofReal, Complex.Gamma_ofReal] at h
  exact_mod_cast h

/-- C73: the entry of degree zero is the mass of the base measure `(1-u)^a (1+u)^b du` on `[-1, 1]` for all legal
parameters, including the special case of the arcsine law, so that `mass_of_mu` is the mass of the base measure. -/
theorem C73_mass {a b : ℝ} (ha : -1 < a) (hb : -1 < b) :
    squareNorm1D a b 0 = ∫ u in (-1 : ℝ)..1, (1 - u) ^ a * (1 + u) ^ b := by
  have h1 : ∫ u in (-1 : ℝ)..1, (1 - u) ^ a * (1 + u) ^ b
      = 2 ^ (a + b + 1) * (Real.Gamma (a + 1) * Real.Gamma (b + 1) / Real.Gamma (a + 1 + (b + 1))) := by
    have hs := intervalIntegral.integral_comp_sub_mul (a := (0 : ℝ)) (b := 1) (fun u : ℝ => (1 - u) ^ a * (1 + u) ^ b)
      (c := 2) (by norm_num) 1
    norm_num at hs
    have hs2 : ∫ u in (-1 : ℝ)..1, (1 - u) ^ a * (1 + u) ^ b
        = 2 * ∫ t in (0 : ℝ)..1, (2 * t) ^ a * (1 + (1 - 2 * t)) ^ b := by
      rw [hs]; ring
    rw [hs2, ← real_beta_integral (by linarith) (by linarith), ← intervalIntegral.integral_const_mul,
      ← intervalIntegral.integral_const_mul]
    refine intervalIntegral.integral_congr fun t ht => ?_
    rw [Set.uIcc_of_le (by norm_num)] at ht
    rw [show 1 + (1 - 2 * t) = 2 * (1 - t) by ring, Real.mul_rpow (by norm_num) ht.1,
      Real.mul_rpow (by norm_num) (by linarith [ht.2]), Real.rpow_add (by norm_num), Real.rpow_add (by norm_num),
      Real.rpow_one, add_sub_cancel_right, add_sub_cancel_right]
    ring
  rw [h1, squareNorm1D, if_pos rfl, if_pos rfl]
  split_ifs with h
  · obtain ⟨rfl, rfl⟩ := h
    have e1 : (-1 / 2 : ℝ) + 1 = 1 / 2 := by norm_num
    have e2 : (1 / 2 : ℝ) + 1 / 2 = 1 := by norm_num
    have e3 : (-1 / 2 : ℝ) + -1 / 2 + 1 = 0 := by norm_num
    rw [e1, e2, e3, Real.Gamma_one, Real.rpow_zero, Real.Gamma_one_half_eq, Real.mul_self_sqrt Real.pi_pos.le]
    ring
  · rfl

/-- Legendre: `2 / (2n + 1)`. -/
example (n : ℕ) (hn : 1 ≤ n) : squareNorm1D 0 0 n = 2 / (2 * n + 1) := by
  rw [(C73_square_norm (by norm_num) (by norm_num) hn).1, docSquareNorm]
  have h6 : (Nat.factorial n : ℝ) ≠ 0 := by positivity
  simp only [add_zero, zero_add, Real.rpow_one, Real.Gamma_nat_eq_factorial]
  field_simp

end Verif.Props
