import Verif.Spec.Tableau
import Mathlib.SetTheory.Cardinal.Finite
import Mathlib.Analysis.SpecialFunctions.Sqrt
import Mathlib.Topology.Algebra.InfiniteSum.Basic

/-!
Independent specification of the Plancherel measure and of the discrete Bessel kernel.
-/

namespace Verif.Spec

/-- `f_lam`: the number of standard Young tableaux of shape `lam` -/
noncomputable def numSYT (lam : List ℕ) : ℕ := Nat.card {T : List (List ℕ) // Standard lam.sum T ∧ shape T = lam}

/-- The Bessel function of the first kind `J_k` of integer order `k`, by its power series
`J_k(x) = ∑_m (-1)^m / (m! (m + k)!) (x / 2)^(2 m + k)`, the terms with `m + k < 0` being absent. -/
noncomputable def besselJ (k : ℤ) (x : ℝ) : ℝ :=
  ∑' m : ℕ, if 0 ≤ k + m then (-1) ^ m * (x / 2) ^ (2 * m + k).toNat / ((m.factorial : ℝ) * ((k + m).toNat.factorial : ℝ)) else 0

/-- The discrete Bessel kernel between the sites `a + 1/2` and `b + 1/2` of `ℤ + 1/2`:
`∑_{j ≥ 1} J_{a + j}(2 √θ) J_{b + j}(2 √θ)`. -/
noncomputable def discreteBessel (θ : ℝ) (a b : ℤ) : ℝ :=
  ∑' j : ℕ, besselJ (a + (j + 1)) (2 * Real.sqrt θ) * besselJ (b + (j + 1)) (2 * Real.sqrt θ)

end Verif.Spec
