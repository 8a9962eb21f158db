import Mathlib.Data.List.Lex
import Mathlib.MeasureTheory.Integral.Bochner.Basic
import Mathlib.LinearAlgebra.Matrix.Determinant.Basic

/-!
Specification vocabulary for the multivariate Jacobi ensemble.
-/

namespace Verif.Spec
open MeasureTheory

/-- maximal degree of a multi-index -/
def maxDeg (k : List ℕ) : ℕ := k.foldr max 0

/-- The graded order on multi-indices: by maximal degree, then lexicographically. -/
def Before (k l : List ℕ) : Prop := maxDeg k < maxDeg l ∨ (maxDeg k = maxDeg l ∧ k < l)

variable {X : Type*} {m : ℕ}

/-- The kernel with features `phi`: `K(x, y) = sum_k phi_k(x) phi_k(y)`. -/
noncomputable def featKernel (phi : X → Fin m → ℝ) (x y : X) : ℝ := ∑ k, phi x k * phi y k

/-- `det [K(x_i, x_j)]` over the points of a list. -/
noncomputable def kernelDet (K : X → X → ℝ) (pts : List X) : ℝ :=
  (Matrix.of fun i j : Fin pts.length => K (pts.get i) (pts.get j)).det

/-- The features are orthonormal for the measure `mu`. -/
structure OrthonormalIn [MeasurableSpace X] (mu : Measure X) (phi : X → Fin m → ℝ) : Prop where
  integrable : ∀ k l, Integrable (fun x => phi x k * phi x l) mu
  integral : ∀ k l, ∫ x, phi x k * phi x l ∂mu = if k = l then 1 else 0

end Verif.Spec
