import Verif.Props.Zonotope
import Mathlib.MeasureTheory.Constructions.Pi
import Mathlib.MeasureTheory.Measure.Lebesgue.Basic

/-!
Vocabulary for the law of the tiles visited by the zonotope sampler.
-/

namespace Verif.Spec
open Verif Verif.Model

variable {N r : ℕ}

/-- `y` is a solution of the linear program `min c.y s.t. A y = x, 0 <= y <= 1` -/
def Optimal (A : Matrix (Fin r) (Fin N) ℝ) (c : Fin N → ℝ) (x : Fin r → ℝ) (y : Fin N → ℝ) : Prop :=
  y ∈ Feasible A x ∧ ∀ z ∈ Feasible A x, ∑ i, c i * y i ≤ ∑ i, c i * z i

/-- The linear program has at most one solution at every point (as for almost every objective). -/
def UniqueOptimum (A : Matrix (Fin r) (Fin N) ℝ) (c : Fin N → ℝ) : Prop :=
  ∀ x y z, Optimal A c x y → Optimal A c x z → y = z

/-- Contract of the solver: `lp` returns a solution of the linear program, and `seg` the smallest and the largest `α`
such that `x + α d` is in the zonotope. -/
structure LpExact (A : Matrix (Fin r) (Fin N) ℝ) (c : Fin N → ℝ) (L : Lp N r) : Prop where
  opt : ∀ x, (Feasible A x).Nonempty → Optimal A c x (L.lp x)
  least : ∀ x d, d ≠ 0 → (Feasible A x).Nonempty → IsLeast {α : ℝ | (Feasible A fun a => x a + α * d a).Nonempty} (L.seg x d).1
  greatest : ∀ x d, d ≠ 0 → (Feasible A x).Nonempty →
    IsGreatest {α : ℝ | (Feasible A fun a => x a + α * d a).Nonempty} (L.seg x d).2

end Verif.Spec
