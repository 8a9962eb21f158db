import Verif.Spec.ZonoLaw
import Mathlib.Probability.Distributions.Gaussian.Real

/-!
Vocabulary for the law of the tiles visited by the zonotope sampler: the random numbers of the iterations, and
the density of the starting point.
-/

namespace Verif.Spec
open Verif Verif.Model MeasureTheory
open scoped ENNReal

variable {N r : ℕ}

/-- Mean of `f` over the draws of `n` iterations: each iteration draws a direction of law `γ` and two numbers uniform on
`[0, 1]`, independently. -/
noncomputable def drawsMean (γ : Measure (Fin r → ℝ)) : ℕ → (List (ZDraw r) → ℝ≥0∞) → ℝ≥0∞
  | 0, f => f []
  | n + 1, f => ∫⁻ d, (∫⁻ u in Set.Icc (0 : ℝ) 1, ∫⁻ v in Set.Icc (0 : ℝ) 1, drawsMean γ n fun l => f (⟨d, u, v⟩ :: l)) ∂γ

/-- The tape on which iteration number `i ≥ 1` reads the `i`-th draw. -/
def tapeOf (l : List (ZDraw r)) : ℕ → ZDraw r := fun i => l.getD (i - 1) ⟨0, 0, 0⟩

/-- `rng.randn(r)` -/
noncomputable def gaussDir (r : ℕ) : Measure (Fin r → ℝ) := Measure.pi fun _ => ProbabilityTheory.gaussianReal 0 1

open Classical in
/-- The density of the starting point: at a point of the zonotope, the volume `|det A_B|` of the tile `B` of the point
(zero if fewer than `r` coordinates of the solution are away from the bounds). -/
noncomputable def startWeight (A : Matrix (Fin r) (Fin N) ℝ) (L : Lp N r) (x : Fin r → ℝ) : ℝ≥0∞ :=
  if (Feasible A x).Nonempty then ENNReal.ofReal |detCols A (extractBasis zEps (L.lp x))| else 0

/-- The sampler returns and the row number `n` of its chain is the set `T`. -/
def RowIs (res : Option (Outcome (List (List (Fin N))))) (n : ℕ) (T : Finset (Fin N)) : Prop :=
  ∃ chain B, res = some (.ok chain) ∧ chain[n]? = some B ∧ B.toFinset = T

open Classical in
/-- The probability that the row number `n` of the chain of `zonotope_sampler(A, c, x0, nb_iter)` is `T`. -/
noncomputable def rowProb (A : Matrix (Fin r) (Fin N) ℝ) (L : Lp N r) (o : McmcOpts) (fuel : ℕ) (γ : Measure (Fin r → ℝ))
    (n : ℕ) (T : Finset (Fin N)) (x0 : Fin r → ℝ) : ℝ≥0∞ :=
  drawsMean γ n fun l => if RowIs (zonoSampler A L o (tapeOf l) x0 fuel) n T then 1 else 0

end Verif.Spec
