import Verif.Model.ExampleKernels
import Verif.Spec.Kernel

/-!
Independent specification of a likelihood function: the contract stated in the documentation of the samplers that
take `eval_L` (`/repo/dppy/exact_sampling.py` lines 690-693): "Given two sets of n points X and m points Y,
`eval_L(X, Y)` should compute the n x m matrix containing the likelihood between points.  The function should also
accept a single argument X and return `eval_L(X) = eval_L(X, X)`."
-/

namespace Verif.Spec
open Verif.Model.ExKer

/-- `eval` is a likelihood function with values `k` for the points in `dom` (sets of points are not empty). -/
structure EvalContract (eval : Arr → Option Arr → Except KErr Tab) (dom : ∀ d, (Fin d → ℝ) → Prop)
    (k : ∀ d, (Fin d → ℝ) → (Fin d → ℝ) → ℝ) : Prop where
  /-- two sets of points -/
  pair : ∀ {n m d : ℕ} (X : Fin n → Fin d → ℝ) (Y : Fin m → Fin d → ℝ), 0 < n → 0 < m → (∀ i, dom d (X i)) → (∀ j, dom d (Y j)) →
    eval (.two n d X) (some (.two m d Y)) = .ok ⟨n, m, fun i j => k d (X i) (Y j)⟩
  /-- one set of points -/
  single : ∀ {n d : ℕ} (X : Fin n → Fin d → ℝ), 0 < n → (∀ i, dom d (X i)) →
    eval (.two n d X) none = .ok ⟨n, n, fun i j => k d (X i) (X j)⟩
  /-- the diagonal, used by the samplers -/
  diagonal : ∀ {n d : ℕ} (X : Fin n → Fin d → ℝ), 0 < n → (∀ i, dom d (X i)) →
    evalDiagonal eval none (.two n d X) = .ok (List.ofFn fun i => k d (X i) (X i))
  /-- the matrix of any points is a likelihood kernel -/
  likelihood : ∀ {n d : ℕ} (X : Fin n → Fin d → ℝ), (∀ i, dom d (X i)) →
    IsLikelihood (Matrix.of fun i j => k d (X i) (X j))

end Verif.Spec
