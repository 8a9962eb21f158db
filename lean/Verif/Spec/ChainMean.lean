import Verif.Spec.Chain
import Verif.Spec.McmcSession

/-!
Means over a chain of samples.
-/

namespace Verif.Spec
open Verif Verif.Model

variable {N : ℕ} {Info : Type}

/-- mean of `f` over the sets of the chain -/
noncomputable def chainMean (f : Finset (Fin N) → ℝ) (chain : List (List (Fin N))) : ℝ :=
  (chain.map fun S => f S.toFinset).sum / chain.length

/-- the call succeeds and the mean of `f` over the chain it adds to `list_of_samples` is within `ε` of `a` -/
def MeanWithin (f : Finset (Fin N) → ℝ) (a ε : ℝ) (r : Obj N Info × Outcome (List (Fin N))) : Prop :=
  (∃ l, r.2 = .ok l) ∧ ∃ c, r.1.samples.getLast? = some (.chain c) ∧ |chainMean f c - a| < ε

end Verif.Spec
