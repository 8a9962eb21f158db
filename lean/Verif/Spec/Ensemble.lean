import Mathlib.MeasureTheory.Measure.WithDensity
import Mathlib.MeasureTheory.Constructions.Pi
import Mathlib.MeasureTheory.Measure.Lebesgue.Basic
import Mathlib.Analysis.SpecialFunctions.Pow.Real
import Mathlib.Data.Complex.Basic

/-!
# Specification: beta ensembles on the line

A beta ensemble with reference density `weight` is the law of `N` unordered points with joint density proportional to
`∏_{i<j} |x_i - x_j|^β ∏_i weight (x_i)`.  We describe it by the law of the points in increasing order.
-/

namespace Verif.Spec
open MeasureTheory

/-- the unnormalised joint density -/
noncomputable def ensembleDensity {N : ℕ} (beta : ℝ) (weight : ℝ → ℝ) (x : Fin N → ℝ) : ℝ :=
  (∏ i, ∏ j ∈ Finset.Ioi i, |x i - x j| ^ beta) * ∏ i, weight (x i)

/-- `μ` is the law of the points of the ensemble, sorted increasingly: a probability measure with a density proportional to
`ensembleDensity` on the strictly increasing vectors -/
def IsBetaEnsemble {N : ℕ} (μ : Measure (Fin N → ℝ)) (beta : ℝ) (weight : ℝ → ℝ) : Prop :=
  IsProbabilityMeasure μ ∧ ∃ K : ℝ, 0 < K ∧
    μ = (volume.restrict {x | StrictMono x}).withDensity fun x => ENNReal.ofReal (K * ensembleDensity beta weight x)

/-- the sampled points as a vector -/
def toVec (N : ℕ) (l : List ℝ) : Fin N → ℝ := fun i => l.getD i 0

/-- real parts of the points held in an array of a beta ensemble object (the modelled arrays hold complex numbers) -/
def toVecC (N : ℕ) (l : List ℂ) : Fin N → ℝ := fun i => (l.getD i 0).re

end Verif.Spec
