import Verif.Model.FiniteDPP
import Verif.Spec.Kernel
import Verif.Spec.Projection

/-!
Independent specification of the parameters that describe a DPP: what `FiniteDPP(kernel_type,
projection, **params)` is documented to expect.
-/

namespace Verif.Spec
open Verif.Model Matrix

variable {N : ℕ}
set_option linter.dupNamespace false

/-- `(vals, vecs)` is an eigendecomposition (orthonormal vectors, possibly fewer than `N`) of `A`. -/
def EigDecOf (E : (M : ℕ) × (Fin M → ℝ) × (Fin N → Fin M → ℝ)) (A : Mat N) : Prop :=
  (∀ a b, ∑ i, E.2.2 i a * E.2.2 i b = if a = b then 1 else 0) ∧
  ∀ i j, A i j = ∑ a, E.2.1 a * E.2.2 i a * E.2.2 j a

/-- Parameters of a DPP given by its correlation kernel `K`: at least one of `K`, `K_eig_dec`,
`A_zono` is given, those given all describe `K`, and `K` is a projection when `projection` is set or
`A_zono` is used. -/
structure DescribesCorrelation (proj : Bool) (p : Params N) (K : Mat N) : Prop where
  valid : IsCorrelation K
  some_given : p.K.join ≠ none ∨ p.KEigDec.join ≠ none ∨ p.AZono.join ≠ none
  kernel : ∀ A, p.K.join = some A → A = K
  eig : ∀ E, p.KEigDec.join = some E → EigDecOf E K
  zono : ∀ A, p.AZono.join = some A → LinearIndependent ℝ A.a ∧
    K = (Matrix.of A.a)ᵀ * (Matrix.of A.a * (Matrix.of A.a)ᵀ)⁻¹ * Matrix.of A.a
  proj : proj = true ∨ p.AZono ≠ none → IsProjection K
  noL : p.L = none ∧ p.LEigDec = none ∧ p.LGramFactor = none ∧ p.LEvalXData = none

/-- Parameters of a DPP given by its likelihood kernel `L`: at least one of `L`, `L_eig_dec`,
`L_gram_factor`, `L_eval_X_data` is given, those given all describe `L`, and `L` is a projection when
`projection` is set. -/
structure DescribesLikelihood (proj : Bool) (p : Params N) (L : Mat N) : Prop where
  valid : IsLikelihood L
  some_given : p.L.join ≠ none ∨ p.LEigDec.join ≠ none ∨ p.LGramFactor.join ≠ none ∨
    p.LEvalXData.join ≠ none
  kernel : ∀ A, p.L.join = some A → A = L
  eig : ∀ E, p.LEigDec.join = some E → EigDecOf E L
  gram : ∀ Phi, p.LGramFactor.join = some Phi → ∀ i j, L i j = ∑ l, Phi.a l i * Phi.a l j
  eval : ∀ A, p.LEvalXData.join = some A → A = L
  proj : proj = true → IsProjection L
  noK : p.K = none ∧ p.KEigDec = none ∧ p.AZono = none

/-- `params` describe the DPP with correlation kernel `K`. -/
def Describes (kernelType : String) (proj : Bool) (p : Params N) (K : Mat N) : Prop :=
  (kernelType = "correlation" ∧ DescribesCorrelation proj p K) ∨
  (kernelType = "likelihood" ∧ ∃ L, DescribesLikelihood proj p L ∧ IsCorrelation K ∧ LikelihoodOf L K)

end Verif.Spec
