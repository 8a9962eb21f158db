import Mathlib.Analysis.SpecialFunctions.Sqrt
import Mathlib.Analysis.SpecialFunctions.Trigonometric.Inverse
import Mathlib.Analysis.SpecialFunctions.Pow.Real

/-!
Model of the density curves drawn by the beta ensembles (`dppy/random_matrices.py`).  Floats are real numbers and `x` is one
entry of the array (all operations are entrywise).  Division by zero is `0` in the model (numpy: `nan` or `inf` at the single
point `x = 0`, or `x = 1`).
-/

namespace Verif.Model

/-- `semi_circle_law(x, R)` (`/repo/dppy/random_matrices.py` lines 50-58). -/
noncomputable def semiCircleLaw (x R : ℝ) : ℝ := 2 / (Real.pi * R ^ 2) * Real.sqrt (max (R ^ 2 - x ^ 2) 0)

/-- `Lm` of `marcenko_pastur_law` (`/repo/dppy/random_matrices.py` lines 125-126), `c = N / M`. -/
noncomputable def mpLm (M N sigma : ℝ) : ℝ := (sigma * (1 - Real.sqrt (N / M))) ^ 2

/-- `Lp` of `marcenko_pastur_law` (`/repo/dppy/random_matrices.py` lines 125-126). -/
noncomputable def mpLp (M N sigma : ℝ) : ℝ := (sigma * (1 + Real.sqrt (N / M))) ^ 2

/-- `marcenko_pastur_law(x, M, N, sigma)` (`/repo/dppy/random_matrices.py` lines 116-128). -/
noncomputable def marcenkoPasturLaw (x M N sigma : ℝ) : ℝ :=
  Real.sqrt (max ((mpLp M N sigma - x) * (x - mpLm M N sigma)) 0) / (N / M * x) / (2 * Real.pi * sigma ^ 2)

/-- `Lm` of `wachter_law` (`/repo/dppy/random_matrices.py` lines 206-208), `a = M_1 / N`, `b = M_2 / N`. -/
noncomputable def waLm (M1 M2 N : ℝ) : ℝ :=
  ((Real.sqrt (M1 / N * (M1 / N + M2 / N - 1)) - Real.sqrt (M2 / N)) / (M1 / N + M2 / N)) ^ 2

/-- `Lp` of `wachter_law` (`/repo/dppy/random_matrices.py` lines 206-209). -/
noncomputable def waLp (M1 M2 N : ℝ) : ℝ :=
  ((Real.sqrt (M1 / N * (M1 / N + M2 / N - 1)) + Real.sqrt (M2 / N)) / (M1 / N + M2 / N)) ^ 2

/-- `wachter_law(x, M_1, M_2, N)` (`/repo/dppy/random_matrices.py` lines 199-211). -/
noncomputable def wachterLaw (x M1 M2 N : ℝ) : ℝ :=
  (M1 / N + M2 / N) / (2 * Real.pi) * 1 / (x * (1 - x)) * Real.sqrt (max ((waLp M1 M2 N - x) * (x - waLm M1 M2 N)) 0)

end Verif.Model
