import Verif.Model.Descent
import Verif.Lemmas.Descent
import Verif.Lemmas.Inner

/-!
Model of the whole of `PoissonizedPlancherel.sample`.
-/

namespace Verif.Model
open Verif
open scoped NNReal

theorem fyLoop_nonneg : ∀ (i : ℕ) (s : List ℕ), Dist.Nonneg (fyLoop ℝ i s)
  | 0, s => Dist.Nonneg.ret _
  | i + 1, s => by
    rw [fyLoop]
    refine Dist.Nonneg.bind (Dist.Nonneg.choice _) fun j => ?_
    split <;> exact fyLoop_nonneg i _

theorem uniformPermutation_nonneg (N : ℕ) : Dist.Nonneg (uniformPermutation ℝ N) := fyLoop_nonneg _ _

/-- `PoissonizedPlancherel(theta).sample()` (`/repo/dppy/exotic_dpps.py` lines 316-334):
`N = rng.poisson(theta)`, `sigma = uniform_permutation(N)`, `P, _ = RSK(sigma)`, and the pair
(`young_diag`, `sampl`) appended to the object's two lists.  `none` is an exception of `RSK`.
`theta ≥ 0` (numpy raises otherwise). -/
noncomputable def plancherelSample (theta : ℝ≥0) : PMF (Option (List ℕ × List ℚ)) :=
  (poisson theta).bind fun N =>
    (Dist.toPMF (uniformPermutation ℝ N) (uniformPermutation_nonneg N) (uniformPermutation_mass N)).map plancherelOf

end Verif.Model
