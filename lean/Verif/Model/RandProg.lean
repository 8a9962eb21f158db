import Verif.Outcome
import Mathlib.Probability.Distributions.Gamma
import Mathlib.Probability.Distributions.Beta
import Mathlib.Probability.Distributions.Gaussian.Real
import Mathlib.MeasureTheory.Constructions.Pi
import Mathlib.MeasureTheory.Measure.GiryMonad
import Mathlib.MeasureTheory.Measure.Lebesgue.Basic

/-!
# Programs that draw continuous random vectors from numpy

`RP α` is a program that calls `rng.normal`, `rng.gamma`, `rng.beta`, `rng.rand` or `rng.randint` finitely many times with parameters that may
depend on earlier draws, and returns an `α` or raises.  Two semantics are given:

* `RP.Runs p o`: the run can end with outcome `o`, for some values of the draws in the support of the requested laws;
* `RP.law p`: the law of the returned value (runs that raise carry no mass).

The laws of numpy's generators are contracts (independent vectors with the requested parameters); numpy's own validation of the
parameters (`ValueError`) is modelled.
-/

namespace Verif.Model
open MeasureTheory ProbabilityTheory

/-- a program drawing vectors; `k` is the rest of the program
(`/repo/dppy/random_matrices.py` lines 25-377, the samplers) -/
inductive RP (α : Type) : Type
  | ret (a : α) : RP α
  | fail (e : PyErr) : RP α
  /-- `rng.normal(loc, scale, size=n)`, and `rng.randn(n)` with `loc = 0`, `scale = 1` -/
  | normal (n : ℕ) (loc scale : ℝ) (k : (Fin n → ℝ) → RP α) : RP α
  /-- `rng.gamma(shape=array, scale=scale)` -/
  | gamma (n : ℕ) (shape : Fin n → ℝ) (scale : ℝ) (k : (Fin n → ℝ) → RP α) : RP α
  /-- `rng.beta(a, b)` with arrays -/
  | beta (n : ℕ) (a b : Fin n → ℝ) (k : (Fin n → ℝ) → RP α) : RP α
  /-- `rng.rand(n)` -/
  | unif (n : ℕ) (k : (Fin n → ℝ) → RP α) : RP α
  /-- `rng.randint(n)` -/
  | randint (n : ℕ) (k : Fin n → RP α) : RP α

namespace RP
variable {α β : Type}

/-- apply a function to the result (`/repo/dppy/random_matrices.py` lines 25-377) -/
def map (f : α → β) : RP α → RP β
  | ret a => ret (f a)
  | fail e => fail e
  | normal n l s k => normal n l s fun x => (k x).map f
  | gamma n sh sc k => gamma n sh sc fun x => (k x).map f
  | beta n a b k => beta n a b fun x => (k x).map f
  | unif n k => unif n fun x => (k x).map f
  | randint n k => randint n fun x => (k x).map f

/-- run `p`, then `f` on its result (`/repo/dppy/random_matrices.py` lines 25-377) -/
def bind : RP α → (α → RP β) → RP β
  | ret a, f => f a
  | fail e, _ => fail e
  | normal n l s k, f => normal n l s fun x => (k x).bind f
  | gamma n sh sc k, f => gamma n sh sc fun x => (k x).bind f
  | beta n a b k, f => beta n a b fun x => (k x).bind f
  | unif n k, f => unif n fun x => (k x).bind f
  | randint n k, f => randint n fun x => (k x).bind f

open Classical in
/-- the outcomes a run can have; numpy raises `ValueError` when `scale < 0`, when a gamma shape is negative, or when a beta
parameter is not positive, and `randint(0)` raises `ValueError` (`/repo/dppy/random_matrices.py` lines 25-377) -/
def Runs : RP α → Outcome α → Prop
  | ret a, o => o = .ok a
  | fail e, o => o = .raise e
  | normal _ _ scale k, o => if scale < 0 then o = .valueError else ∃ x, (k x).Runs o
  | gamma _ shape scale k, o =>
      if (∃ i, shape i < 0) ∨ scale < 0 then o = .valueError else ∃ x, (∀ i, 0 ≤ x i) ∧ (k x).Runs o
  | beta _ a b k, o =>
      if ∃ i, a i ≤ 0 ∨ b i ≤ 0 then o = .valueError else ∃ x, (∀ i, 0 ≤ x i ∧ x i ≤ 1) ∧ (k x).Runs o
  | unif _ k, o => ∃ x, (∀ i, 0 ≤ x i ∧ x i < 1) ∧ (k x).Runs o
  | randint n k, o => if n = 0 then o = .valueError else ∃ i, (k i).Runs o

open Classical in
/-- law of one component of `rng.gamma` (numpy returns `0` when the shape or the scale is `0`)
(`/repo/dppy/random_matrices.py` lines 84, 148, 152) -/
noncomputable def gammaLaw (shape scale : ℝ) : Measure ℝ :=
  if shape = 0 ∨ scale = 0 then Measure.dirac 0 else gammaMeasure shape (1 / scale)

open Classical in
/-- law of the returned value; the vectors drawn are independent with independent components
(`/repo/dppy/random_matrices.py` lines 25-377) -/
noncomputable def law [MeasurableSpace α] : RP α → Measure α
  | ret a => Measure.dirac a
  | fail _ => 0
  | normal _ loc scale k =>
      if scale < 0 then 0
      else (Measure.pi fun _ => gaussianReal loc (Real.toNNReal (scale ^ 2))).bind fun x => (k x).law
  | gamma _ shape scale k =>
      if (∃ i, shape i < 0) ∨ scale < 0 then 0
      else (Measure.pi fun i => gammaLaw (shape i) scale).bind fun x => (k x).law
  | beta _ a b k =>
      if ∃ i, a i ≤ 0 ∨ b i ≤ 0 then 0
      else (Measure.pi fun i => betaMeasure (a i) (b i)).bind fun x => (k x).law
  | unif _ k => (Measure.pi fun _ => volume.restrict (Set.Ico 0 1)).bind fun x => (k x).law
  | randint n k => ∑ i, (n : ENNReal)⁻¹ • (k i).law

end RP

/-- entry `i` of a numpy vector, as a total function (index out of range never happens in the modelled code)
(`/repo/dppy/random_matrices.py` lines 61-364) -/
def vget {n : ℕ} (x : Fin n → ℝ) (i : ℕ) : ℝ := if h : i < n then x ⟨i, h⟩ else 0

end Verif.Model
