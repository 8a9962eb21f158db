import Mathlib.Analysis.SpecialFunctions.Pow.Real
import Mathlib.Algebra.Polynomial.Eval.Defs
import Mathlib.MeasureTheory.Measure.Lebesgue.Basic

/-!
Exact draws from the densities that appear in the Gibbs sampler, as expectation operators.
-/

namespace Verif.Spec
open Polynomial MeasureTheory Set

/-- expectation of `φ` under the density proportional to `exp(-P(x))` on the line (the previous value is not used) -/
noncomputable def exactA (P : ℝ[X]) (_ : ℝ) (φ : ℝ → ENNReal) : ENNReal :=
  (∫⁻ x, φ x * ENNReal.ofReal (Real.exp (-P.eval x))) / ∫⁻ x, ENNReal.ofReal (Real.exp (-P.eval x))

/-- expectation of `φ` under the density proportional to `x^(shape - 1) exp(-Q(x))` on the positive half line -/
noncomputable def exactB (Q : ℝ[X]) (shape : ℝ) (φ : ℝ → ENNReal) : ENNReal :=
  (∫⁻ x in Ioi (0 : ℝ), φ x * ENNReal.ofReal (x ^ (shape - 1) * Real.exp (-Q.eval x)))
    / ∫⁻ x in Ioi (0 : ℝ), ENNReal.ofReal (x ^ (shape - 1) * Real.exp (-Q.eval x))

end Verif.Spec
