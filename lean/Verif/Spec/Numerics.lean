import Verif.Model.Bless
import Verif.Spec.Kernel
import Mathlib.LinearAlgebra.Matrix.PosDef
import Mathlib.Data.Real.Star

/-!
Contracts of the numerical routines used by BLESS and by the intermediate samplers.
-/

namespace Verif.Spec
open Verif Verif.Model

/-- Contract of the singular value decomposition of positive semi-definite matrices: `A = U diag(S) Vᵀ` with `U`
and `V` orthogonal and `S ≥ 0`; only `U` and `S` are returned. -/
def SvdSpec (svd : (m : ℕ) → (Fin m → Fin m → ℝ) → (Fin m → Fin m → ℝ) × (Fin m → ℝ)) : Prop :=
  ∀ (m : ℕ) (A : Fin m → Fin m → ℝ), Matrix.PosSemidef (A : Matrix (Fin m) (Fin m) ℝ) →
    (∀ j, 0 ≤ (svd m A).2 j) ∧
    (∀ a b, ∑ i, (svd m A).1 i a * (svd m A).1 i b = if a = b then 1 else 0) ∧
    ∃ V : Fin m → Fin m → ℝ, (∀ a b, ∑ i, V i a * V i b = if a = b then 1 else 0) ∧
      ∀ i j, A i j = ∑ a, (svd m A).2 a * (svd m A).1 i a * V j a

/-- Contracts of `np.linalg.eigh`, `np.linalg.svd` and `brentq` (when it returns, an exact root in the bracket), and
positivity of the machine epsilon. -/
structure NumericsSpec (num : Numerics) : Prop where
  eigh : EighSpec num.eigh
  svd : SvdSpec num.svd
  brentq : ∀ f a b x, num.brentq f a b = some x → a ≤ x ∧ x ≤ b ∧ f x = 0
  eps : 0 < num.eps

end Verif.Spec
