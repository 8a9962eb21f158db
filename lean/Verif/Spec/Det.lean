import Mathlib.LinearAlgebra.Matrix.Determinant.Basic
import Mathlib.Data.Finset.Powerset
import Mathlib.Algebra.Field.Defs

/-!
Independent specification of the determinants that define (k-)DPPs.
-/

namespace Verif.Spec

variable {ι R : Type*} [DecidableEq ι] [CommRing R]

/-- `det K_S`, the principal minor of `K` on the rows and columns of the finite set `S`. -/
def minor (K : Matrix ι ι R) (S : Finset ι) : R :=
  (K.submatrix (Subtype.val : S → ι) (Subtype.val : S → ι)).det

/-- `(-1)^{|S^c|} det (K - I_{S^c})`: the probability that a DPP with correlation kernel `K` is
exactly `S`. -/
def exactProb [Fintype ι] (K : Matrix ι ι R) (S : Finset ι) : R :=
  (-1) ^ (Sᶜ).card * (K - Matrix.diagonal (fun i => if i ∈ S then 0 else 1)).det

/-- Law of the DPP with likelihood kernel `L`: `det L_S / det (I + L)`. -/
def lDppProb {F : Type*} [Field F] [Fintype ι] (L : Matrix ι ι F) (S : Finset ι) : F :=
  minor L S / (1 + L).det

/-- Law of the k-DPP with likelihood kernel `L`: `det L_S / Σ_{|S'| = k} det L_{S'}` on sets of size
`k`, zero elsewhere. -/
noncomputable def kDppProb {F : Type*} [Field F] [Fintype ι] (L : Matrix ι ι F) (k : ℕ)
    (S : Finset ι) : F :=
  if S.card = k then minor L S / ∑ S' ∈ (Finset.univ : Finset ι).powersetCard k, minor L S' else 0

end Verif.Spec
