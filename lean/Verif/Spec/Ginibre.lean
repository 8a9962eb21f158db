import Mathlib.MeasureTheory.Measure.WithDensity
import Mathlib.MeasureTheory.Constructions.Pi
import Mathlib.MeasureTheory.Measure.Lebesgue.Complex
import Mathlib.Analysis.SpecialFunctions.Exp
import Mathlib.Data.Prod.Lex
import Mathlib.Data.List.Sort

/-!
# Specification: the Ginibre ensemble

The Ginibre ensemble is the law of `N` unordered points `z_1, ..., z_N` of the plane with joint density proportional to
`∏_{i<j} |z_i - z_j|^2 ∏_i exp(-|z_i|^2)`.  We describe it by the law of the points in lexicographic order (by increasing real part,
then by increasing imaginary part).
-/

namespace Verif.Spec
open MeasureTheory

/-- real part first, then imaginary part, for the lexicographic order of the plane -/
def lexKey (z : ℂ) : ℝ ×ₗ ℝ := toLex (z.re, z.im)

/-- the points of a list in lexicographic order, as a vector -/
noncomputable def lexSorted (N : ℕ) (l : List ℂ) : Fin N → ℂ :=
  fun i => (l.insertionSort fun z w => lexKey z ≤ lexKey w).getD i 0

/-- the unnormalised joint density -/
noncomputable def ginibreDensity {N : ℕ} (z : Fin N → ℂ) : ℝ :=
  (∏ i, ∏ j ∈ Finset.Ioi i, ‖z i - z j‖ ^ 2) * ∏ i, Real.exp (-‖z i‖ ^ 2)

/-- `μ` is the law of the sorted points of the Ginibre ensemble: a probability measure with a density proportional to
`ginibreDensity` on the vectors whose entries increase strictly for the lexicographic order -/
def IsGinibre {N : ℕ} (μ : Measure (Fin N → ℂ)) : Prop :=
  IsProbabilityMeasure μ ∧ ∃ K : ℝ, 0 < K ∧
    μ = (volume.restrict {z | StrictMono fun i => lexKey (z i)}).withDensity fun z => ENNReal.ofReal (K * ginibreDensity z)

end Verif.Spec
