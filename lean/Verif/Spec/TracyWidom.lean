import Mathlib.MeasureTheory.Integral.Bochner.Basic
import Mathlib.MeasureTheory.Integral.IntervalIntegral.Basic
import Mathlib.MeasureTheory.Constructions.Pi
import Mathlib.MeasureTheory.Measure.Lebesgue.Basic
import Mathlib.MeasureTheory.Integral.Bochner.Set
import Mathlib.Analysis.SpecialFunctions.Exp
import Mathlib.Analysis.Calculus.Deriv.Basic
import Mathlib.LinearAlgebra.Matrix.Determinant.Basic
import Mathlib.Algebra.Polynomial.Eval.Defs
import Mathlib.Algebra.Polynomial.Degree.Definitions

/-!
Independent specification: the Airy function, the Airy kernel, the Tracy-Widom distribution, Gauss-Legendre quadrature.
-/

namespace Verif.Spec
open MeasureTheory Polynomial

/-- The Airy function `Ai(x) = 1/(2π) ∫ exp(i (z³/3 + x z)) dz` along the line `Im z = 1` (any line in the upper half plane gives the
same value). -/
noncomputable def airyAi (x : ℝ) : ℝ :=
  1 / (2 * Real.pi) * ∫ t : ℝ, (Complex.exp (Complex.I * (((t : ℂ) + Complex.I) ^ 3 / 3 + (x : ℂ) * ((t : ℂ) + Complex.I)))).re

/-- The Airy kernel `(Ai(x) Ai'(y) - Ai'(x) Ai(y)) / (x - y)`, extended by continuity on the diagonal. -/
noncomputable def airyKernel (x y : ℝ) : ℝ :=
  if x = y then deriv airyAi x ^ 2 - x * airyAi x ^ 2 else (airyAi x * deriv airyAi y - deriv airyAi x * airyAi y) / (x - y)

/-- The term of order `n` of the Fredholm determinant of the Airy kernel on `(s, ∞)`. -/
noncomputable def twTerm (s : ℝ) (n : ℕ) : ℝ :=
  (-1) ^ n / (n.factorial : ℝ) * ∫ x in (Set.univ.pi fun _ : Fin n => Set.Ioi s), (Matrix.of fun i j => airyKernel (x i) (x j)).det

/-- The distribution function `F_2(s) = det(I - K_Ai)` on `L²(s, ∞)` of the Tracy-Widom law `TW_2`, by its Fredholm series. -/
noncomputable def tracyWidom (s : ℝ) : ℝ := ∑' n, twTerm s n

/-- `x`, `w` are the nodes and the weights of a Gauss-Legendre quadrature with `m` nodes: positive weights, exact on `[-1, 1]` for
the polynomials of degree less than `2 m`. -/
structure IsGaussLegendre (m : ℕ) (x w : Fin m → ℝ) : Prop where
  sorted : StrictMono x
  mem : ∀ i, x i ∈ Set.Ioo (-1 : ℝ) 1
  pos : ∀ i, 0 < w i
  exact' : ∀ p : ℝ[X], p.natDegree < 2 * m → ∑ i, w i * p.eval (x i) = ∫ t in (-1 : ℝ)..1, p.eval t

end Verif.Spec
