import Verif.Prob
import Mathlib.LinearAlgebra.Matrix.Determinant.Basic
import Mathlib.RingTheory.PowerSeries.Basic
import Mathlib.Order.Interval.Finset.Nat

/-!
# Specification: random sets of integers, determinantal processes with a translation invariant kernel
-/

namespace Verif.Spec
open Verif

variable {R : Type*}

/-- The random list `d` is a determinantal point process on the finite set `G` with kernel `K`: it is a probability distribution on
lists of distinct elements of `G`, and for each subset `A` of `G` the probability that all the elements of `A` are in the list is the
determinant of the block of `K` indexed by `A`. -/
def IsDPP [CommRing R] (d : Dist R (List ℕ)) (G : Finset ℕ) (K : ℕ → ℕ → R) : Prop :=
  d.mass = 1 ∧ (∀ l w, (l, w) ∈ d → l.Nodup ∧ ∀ i ∈ l, i ∈ G) ∧
    ∀ A : Finset ℕ, A ⊆ G → d.prob (fun l => ∀ a ∈ A, a ∈ l) = (Matrix.of fun i j : A => K i j).det

/-- the kernel `K(i, j) = k(j - i)` -/
def shiftKernel (k : ℤ → R) (i j : ℕ) : R := k ((j : ℤ) - (i : ℤ))

/-- the generating series `sum_m k(m) z^m` starts at `z^-1` and equals `1 / F(z)` -/
def HasInverseSeries [Semiring R] (k : ℤ → R) (F : PowerSeries R) : Prop :=
  (∀ m : ℤ, m < -1 → k m = 0) ∧ (PowerSeries.mk fun n : ℕ => k ((n : ℤ) - 1)) * F = PowerSeries.X

end Verif.Spec
