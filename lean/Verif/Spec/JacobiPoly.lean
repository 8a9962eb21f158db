import Mathlib.Analysis.SpecialFunctions.Pow.Real
import Mathlib.MeasureTheory.Measure.Lebesgue.Basic
import Mathlib.MeasureTheory.Measure.WithDensity

/-!
# Jacobi polynomials and the Jacobi weight

The polynomial is the one documented for `scipy.special.eval_jacobi`:
`P_n^(a,b)(x) = (a+1)_n / n! * 2F1(-n, 1 + a + b + n; a + 1; (1 - x) / 2)`, where `(-n)_k = (-1)^k n! / (n-k)!` and
`(a+1)_n / (a+1)_k = (a+k+1)_(n-k)`.
-/

namespace Verif.Spec
open MeasureTheory

/-- rising factorial `(x)_k = x (x+1) ... (x+k-1)` -/
noncomputable def poch (x : ℝ) (k : ℕ) : ℝ := ∏ i ∈ Finset.range k, (x + i)

/-- coefficient of `((1 - x) / 2)^k` in `P_n^(a,b)` -/
noncomputable def jacobiCoeff (n : ℕ) (a b : ℝ) (k : ℕ) : ℝ :=
  (-1) ^ k * (n.choose k : ℝ) * poch (n + a + b + 1) k * poch (a + k + 1) (n - k) / (n.factorial : ℝ)

/-- the Jacobi polynomial `P_n^(a,b)(x)` -/
noncomputable def jacobiPoly (n : ℕ) (a b x : ℝ) : ℝ :=
  ∑ k ∈ Finset.range (n + 1), jacobiCoeff n a b k * ((1 - x) / 2) ^ k

/-- the base measure `(1-u)^a (1+u)^b du` on `[-1, 1]` -/
noncomputable def jacobiMeasure (a b : ℝ) : Measure ℝ :=
  (volume.restrict (Set.Ioo (-1 : ℝ) 1)).withDensity fun u => ENNReal.ofReal ((1 - u) ^ a * (1 + u) ^ b)

end Verif.Spec
