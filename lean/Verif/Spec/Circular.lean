import Mathlib.MeasureTheory.Measure.WithDensity
import Mathlib.MeasureTheory.Constructions.Pi
import Mathlib.MeasureTheory.Measure.Lebesgue.Basic
import Mathlib.Analysis.SpecialFunctions.Pow.Real
import Mathlib.Analysis.SpecialFunctions.Complex.Arg
import Mathlib.Data.List.Sort

/-!
# Specification: circular beta ensembles

The circular beta ensemble is the law of `N` unordered points `e^{i t_1}, ..., e^{i t_N}` of the unit circle whose angles have a
joint density proportional to `∏_{j<k} |e^{i t_j} - e^{i t_k}|^β`.  We describe it by the law of the angles in `[0, 2 pi)`, in
increasing order.
-/

namespace Verif.Spec
open MeasureTheory

/-- the angle of a complex number, in `[0, 2 pi)` -/
noncomputable def angle (z : ℂ) : ℝ := if 0 ≤ z.arg then z.arg else z.arg + 2 * Real.pi

/-- the angles of a list of points, in increasing order -/
noncomputable def sortedAngles (N : ℕ) (l : List ℂ) : Fin N → ℝ :=
  fun i => ((l.map angle).insertionSort (· ≤ ·)).getD i 0

/-- the unnormalised joint density of the angles -/
noncomputable def circularDensity {N : ℕ} (beta : ℝ) (t : Fin N → ℝ) : ℝ :=
  ∏ i, ∏ j ∈ Finset.Ioi i, ‖Complex.exp (t i * Complex.I) - Complex.exp (t j * Complex.I)‖ ^ beta

/-- `μ` is the law of the sorted angles of the circular beta ensemble: a probability measure with a density proportional to
`circularDensity` on the strictly increasing vectors of angles of `[0, 2 pi)` -/
def IsCircularEnsemble {N : ℕ} (μ : Measure (Fin N → ℝ)) (beta : ℝ) : Prop :=
  IsProbabilityMeasure μ ∧ ∃ K : ℝ, 0 < K ∧
    μ = (volume.restrict {t | StrictMono t ∧ ∀ i, 0 ≤ t i ∧ t i < 2 * Real.pi}).withDensity
      fun t => ENNReal.ofReal (K * circularDensity beta t)

end Verif.Spec
