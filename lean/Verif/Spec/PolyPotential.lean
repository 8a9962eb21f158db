import Mathlib.Algebra.Polynomial.AlgebraMap
import Mathlib.Analysis.SpecialFunctions.Log.Basic
import Mathlib.Analysis.Real.Sqrt
import Mathlib.LinearAlgebra.Matrix.Trace
import Mathlib.MeasureTheory.Measure.Lebesgue.Basic

/-!
Specification for beta ensembles with a polynomial potential.
-/

namespace Verif.Spec
open Polynomial MeasureTheory Set

/-- The Jacobi (symmetric tridiagonal) matrix of size `N` with diagonal `a 1, ..., a N` and squared off-diagonal
`b 1, ..., b (N-1)`. -/
noncomputable def jacobiMat (N : ℕ) (a b : ℕ → ℝ) : Matrix (Fin N) (Fin N) ℝ := fun p q =>
  if p = q then a (p + 1)
  else if (q : ℕ) = p + 1 then √(b (p + 1))
  else if (p : ℕ) = q + 1 then √(b (q + 1))
  else 0

/-- Log-density, up to a constant, of the Jacobi coefficients `(a, b)` for which the eigenvalues of the Jacobi matrix form the
beta ensemble with potential `V` and `N` points:
`prod_j b_j ^ (beta / 2 * (N - j) - 1) * exp(- beta * N / 2 * Tr V(J))`. -/
noncomputable def jacobiLogDensity (beta : ℝ) (N : ℕ) (V : ℝ[X]) (a b : ℕ → ℝ) : ℝ :=
  (∑ j ∈ Finset.Ico 1 N, (beta / 2 * ((N : ℝ) - j) - 1) * Real.log (b j))
    - beta * N / 2 * (aeval (jacobiMat N a b) V).trace

/-- Log-density, up to a constant, of the beta ensemble itself:
`prod_{i<j} |x_i - x_j| ^ beta * exp(- beta * N / 2 * sum_i V(x_i))`. -/
noncomputable def betaLogDensity (beta : ℝ) (N : ℕ) (V : ℝ[X]) (x : Fin N → ℝ) : ℝ :=
  beta * (∑ i, ∑ j ∈ Finset.univ.filter (i < ·), Real.log |x i - x j|) - beta * N / 2 * ∑ i, V.eval (x i)

/-- iterated integral over a tape of `n` independent triples of uniform numbers on `(0, 1)` -/
noncomputable def tapeLInt : ℕ → (List (ℝ × ℝ × ℝ) → ENNReal) → ENNReal
  | 0, F => F []
  | n + 1, F => ∫⁻ u in Ioo (0 : ℝ) 1, ∫⁻ v in Ioo (0 : ℝ) 1, ∫⁻ w in Ioo (0 : ℝ) 1,
      tapeLInt n (fun ts => F ((u, v, w) :: ts))

open Classical in
/-- what is observed of the loop: a function of the value when it was accepted -/
noncomputable def accObs (φ : ℝ → ENNReal) (r : ℝ × Bool) : ENNReal := if r.2 then φ r.1 else 0

end Verif.Spec
