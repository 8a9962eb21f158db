import Mathlib.MeasureTheory.Integral.Bochner.Basic
import Mathlib.MeasureTheory.Measure.Lebesgue.Basic
import Mathlib.Analysis.SpecialFunctions.Log.Basic
import Mathlib.Analysis.SpecialFunctions.Pow.Real
import Mathlib.Analysis.SpecialFunctions.Trigonometric.Basic

/-!
Independent specification: probability densities, equilibrium measures.
-/

namespace Verif.Spec
open MeasureTheory

/-- `f` is a probability density carried by `[a, b]` -/
structure IsDensityOn (f : ℝ → ℝ) (a b : ℝ) : Prop where
  nonneg : ∀ x, 0 ≤ f x
  support : ∀ x, x < a ∨ b < x → f x = 0
  integrable : Integrable f
  mass : ∫ x, f x = 1

/-- `f` satisfies the Euler-Lagrange conditions of the logarithmic energy `∬ log 1/|x-y| dμ dμ + ∫ V dμ`: the effective potential
`V x - 2 ∫ log |x - y| f y dy` is constant where `f` is positive and nowhere smaller.  These conditions characterise the
equilibrium measure of `V` (the limit of the empirical measure of the `beta`-ensemble with density proportional to
`∏ |x_i - x_j|^β exp (- β N / 2 ∑ V(x_i))`). -/
def IsEquilibrium (V f : ℝ → ℝ) : Prop :=
  ∃ l : ℝ, ∀ x, Integrable (fun y => Real.log |x - y| * f y) ∧ 2 * (∫ y, Real.log |x - y| * f y) ≤ V x + l
    ∧ (0 < f x → 2 * (∫ y, Real.log |x - y| * f y) = V x + l)

/-- The scale `N^(2/3) c` is the natural one at the right edge `b` of the density `f`: in the variable `ξ = N^(2/3) c (x - b)`, the
density `N f` of `N` points tends to `√(-ξ) / π`, whatever `f`.  This is the density to which the Airy process (whose largest point
has the Tracy-Widom law) is asymptotic at `-∞`, so that it is the normalisation under which the largest of `N` points can be
compared with that law. -/
def SoftEdge (f : ℝ → ℝ) (b c : ℝ) : Prop :=
  ∀ ξ < 0, Filter.Tendsto (fun N : ℕ => (N : ℝ) * f (b + ξ / ((N : ℝ) ^ (2 / 3 : ℝ) * c)) / ((N : ℝ) ^ (2 / 3 : ℝ) * c)) Filter.atTop
    (nhds (√(-ξ) / Real.pi))

end Verif.Spec
