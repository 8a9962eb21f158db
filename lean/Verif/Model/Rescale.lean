import Verif.Model.Equilibrium
import Mathlib.Algebra.Polynomial.Derivative

/-!
Model of `BetaEnsemblePolynomialPotential.rescale_largest_eig_val` (`dppy/beta_ensemble_polynomial_potential.py`).  Floats are real
numbers.
-/

namespace Verif.Model
open Verif Polynomial

/-- `numpy.polynomial.chebyshev.chebmulx` (numpy, called by `poly2cheb`): coefficients of `x` times a Chebyshev series.  A series is
the sequence of its coefficients, zero after the last one.
(`/repo/dppy/beta_ensemble_polynomial_potential.py` line 301) -/
noncomputable def chebMulX (c : ℕ → ℝ) : ℕ → ℝ
  | 0 => c 1 / 2
  | 1 => c 0 + c 2 / 2
  | n + 2 => c (n + 1) / 2 + c (n + 3) / 2

/-- `numpy.polynomial.chebyshev.poly2cheb` (imported at `/repo/dppy/beta_ensemble_polynomial_potential.py` line 4, used at line 301),
coefficients from the lowest degree: `res = chebadd(chebmulx(res), pol[i])` for `i` from the degree down to zero. -/
noncomputable def poly2cheb : List ℝ → ℕ → ℝ
  | [] => fun _ => 0
  | p :: l => fun k => chebMulX (poly2cheb l) k + if k = 0 then p else 0

/-- `dV_shift = self.V.deriv(m=1)(shift)` (`/repo/dppy/beta_ensemble_polynomial_potential.py` lines 297-299). -/
noncomputable def dVShift (V : ℝ[X]) (a b : ℝ) : ℝ[X] := (derivative V).comp (C (1 / 2 * (b - a)) * X + C (1 / 2 * (b + a)))

/-- `dV_shift.coeffs[::-1]` (`/repo/dppy/beta_ensemble_polynomial_potential.py` line 301). -/
noncomputable def coeffsLow (p : ℝ[X]) : List ℝ := (List.range (p.natDegree + 1)).map p.coeff

/-- `sum_k_dV_k` (`/repo/dppy/beta_ensemble_polynomial_potential.py` lines 303-304) from the coefficients (lowest degree first). -/
noncomputable def sumK (l : List ℝ) : ℝ := ∑ k ∈ Finset.range l.length, (k : ℝ) * poly2cheb l k

/-- `c_v = np.cbrt(sum_k_dV_k**2 / (b_v - a_v))` (`/repo/dppy/beta_ensemble_polynomial_potential.py` line 306). -/
noncomputable def cV (V : ℝ[X]) (a b : ℝ) : ℝ := (sumK (coeffsLow (dVShift V a b)) ^ 2 / (b - a)) ^ (1 / 3 : ℝ)

/-- `rescale_largest_eig_val(lambda_max)` (`/repo/dppy/beta_ensemble_polynomial_potential.py` lines 270-308): `a_v, b_v = self.support`
raises a `TypeError` when `support` is `None`, and so does `self.N**(2 / 3)` before any call to `sample_mcmc`. -/
noncomputable def rescaleLargest (V : ℝ[X]) (support : Option (ℝ × ℝ)) (N : Option ℕ) (lam : ℝ) : Outcome ℝ :=
  match support, N with
  | some (a, b), some n => .ok ((n : ℝ) ^ (2 / 3 : ℝ) * cV V a b * (lam - b))
  | _, _ => .raise .typeError

end Verif.Model
