import Mathlib.LinearAlgebra.Matrix.NonsingularInverse
import Mathlib.Data.Real.Basic

/-!
Independent specification of correlation and likelihood kernels (real symmetric).
-/

namespace Verif.Spec

variable {ι : Type*} [Fintype ι] [DecidableEq ι]

/-- A valid correlation kernel: real symmetric with `0 ≤ K ≤ I`. -/
structure IsCorrelation (K : Matrix ι ι ℝ) : Prop where
  symm : ∀ i j, K i j = K j i
  nonneg : ∀ x : ι → ℝ, 0 ≤ ∑ i, ∑ j, x i * K i j * x j
  le_one : ∀ x : ι → ℝ, ∑ i, ∑ j, x i * K i j * x j ≤ ∑ i, x i * x i

/-- A valid likelihood kernel: real symmetric with `L ≥ 0`. -/
structure IsLikelihood (L : Matrix ι ι ℝ) : Prop where
  symm : ∀ i j, L i j = L j i
  nonneg : ∀ x : ι → ℝ, 0 ≤ ∑ i, ∑ j, x i * L i j * x j

/-- `L` is the likelihood kernel of the DPP with correlation kernel `K`: `L ≥ 0` and
`K (I + L) = L`. -/
structure LikelihoodOf (L K : Matrix ι ι ℝ) : Prop extends IsLikelihood L where
  rel : K * (1 + L) = L

/-- Contract of a routine returning the eigendecomposition of symmetric matrices: eigenvalues and
orthonormal eigenvectors (columns) with `A = U diag(v) Uᵀ`. -/
def EighSpec (eigh : (n : ℕ) → (Fin n → Fin n → ℝ) → (Fin n → ℝ) × (Fin n → Fin n → ℝ)) : Prop :=
  ∀ (n : ℕ) (A : Fin n → Fin n → ℝ), (∀ i j, A i j = A j i) →
    (∀ a b, ∑ i, (eigh n A).2 i a * (eigh n A).2 i b = if a = b then 1 else 0) ∧
    ∀ i j, A i j = ∑ a, (eigh n A).1 a * (eigh n A).2 i a * (eigh n A).2 j a

end Verif.Spec
