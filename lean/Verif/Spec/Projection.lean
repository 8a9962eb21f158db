import Mathlib.Analysis.RCLike.Basic
import Mathlib.LinearAlgebra.Matrix.ConjTranspose
import Mathlib.LinearAlgebra.Matrix.Trace

/-! Independent specification of orthogonal projection kernels. -/

namespace Verif.Spec

/-- `K` is an orthogonal projection: Hermitian and idempotent. -/
def IsProjection {ι 𝕜 : Type*} [Fintype ι] [RCLike 𝕜] (K : Matrix ι ι 𝕜) : Prop :=
  K.conjTranspose = K ∧ K * K = K

/-- `U` has orthonormal columns, as far as the columns with a non-zero coefficient `v` are concerned;
nothing is asked from the others. -/
def OrthOn {ι κ : Type*} [Fintype ι] [DecidableEq κ] (U : ι → κ → ℝ) (v : κ → ℝ) : Prop :=
  ∀ a b, v a ≠ 0 → v b ≠ 0 → ∑ i, U i a * U i b = if a = b then 1 else 0

end Verif.Spec
