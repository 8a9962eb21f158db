import Verif.Model.Precompute

/-!
Specification for the start of the search of alpha-dpp.
-/

namespace Verif.Spec
open Verif.Model

/-- The filter on the eigenvalues of the kernel of the weighted dictionary lost nothing: the eigenvalues that were kept add up to
its trace. -/
def NothingDiscarded {n : ℕ} (L : Matrix (Fin n) (Fin n) ℝ) (N : Nystrom n) : Prop :=
  ∑ j, N.eigvals j = ∑ e, L (N.idx e) (N.idx e) / N.probs e

end Verif.Spec
