import Verif.Spec.Inner

/-!
Expected size of a random set, independent specification.
-/

namespace Verif.Spec
open Verif
open scoped ENNReal

/-- the expected number of items of a random set with law `w` -/
def meanSize {m : ℕ} (w : Finset (Fin m) → ℝ) : ℝ := ∑ S, (S.card : ℝ) * w S

/-- the expected number of items returned by `p`, where a call that raises counts for zero -/
noncomputable def meanCard {m : ℕ} {β : Type*} (p : PMF (Outcome (List (Fin m) × β))) : ℝ≥0∞ :=
  ∑ S, (S.card : ℝ≥0∞) * PP p (Draws S)

end Verif.Spec
