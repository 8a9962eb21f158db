import Verif.Spec.Ensemble
import Mathlib.Data.List.Sort

/-!
# Specification: points in increasing order

Some samplers return the points of an ensemble in no particular order.  `IsBetaEnsemble` describes the law of the points in
increasing order, so the returned list is sorted first.
-/

namespace Verif.Spec

/-- the points of a list in increasing order, as a vector -/
noncomputable def sortedVec (N : ℕ) (l : List ℝ) : Fin N → ℝ := toVec N (l.insertionSort (· ≤ ·))

/-- real parts of the points of a list in increasing order, as a vector -/
noncomputable def sortedVecC (N : ℕ) (l : List ℂ) : Fin N → ℝ := sortedVec N (l.map Complex.re)

end Verif.Spec
