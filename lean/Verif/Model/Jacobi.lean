import Verif.Outcome
import Mathlib.Analysis.SpecialFunctions.Pow.Real
import Mathlib.Analysis.Real.Sqrt
import Mathlib.LinearAlgebra.Matrix.DotProduct
import Mathlib.Analysis.SpecialFunctions.Gamma.Basic
import Mathlib.Algebra.Order.Floor.Ring

/-!
Model of `/repo/dppy/multivariate_jacobi_ope.py`: `_check_params` and the constructor up to the degrees
(lines 82-124), `eval_multiD_polynomials` (143-185), `K` (187-268), the chain rule of `sample` (363-451, not
the branch `tridiag_1D`), `compute_ordering` (636-671), `compute_norms_1D_polynomials` (674-744) and
`compute_degrees_1D_polynomials` (935-943).

The values of the univariate polynomials (`scipy.special.eval_jacobi`) are a parameter.  Numbers are exact
reals.  `sample_chain_rule_proposal` (270-361) is read from a tape: the points it returns are parameters.
-/

namespace Verif.Model
open Verif Matrix

/-! ## Ordering of the multi-indices -/

/-- `itertools.product(r, repeat=d)`: the last coordinate varies fastest
(`/repo/dppy/multivariate_jacobi_ope.py` line 668). -/
def prodRep (r : List ℕ) : ℕ → List (List ℕ)
  | 0 => [[]]
  | d + 1 => r.flatMap fun a => (prodRep r d).map (a :: ·)

/-- `filter(lambda x: m in x, itt.product(range(m + 1), repeat=d))` (`/repo/dppy/multivariate_jacobi_ope.py` lines 667-668) -/
def jLayer (m d : ℕ) : List (List ℕ) :=
  (prodRep (List.range (m + 1)) d).filter fun x => decide (m ∈ x)

/-- `compute_ordering(N, d)` once `layer_max` is known (`/repo/dppy/multivariate_jacobi_ope.py` lines 666-671): chain the layers
`m in range(layer_max + 1)` and keep the first `N`.  `range` of a non-positive number is empty. -/
def orderingWith (layerMax : ℤ) (N d : ℕ) : List (List ℕ) :=
  ((List.range (layerMax + 1).toNat).flatMap fun m => jLayer m d).take N

/-- `.astype(np.int16)` of an integral value: reduction modulo `2^16` to `[-2^15, 2^15)`, which is what numpy
does on x86-64 (`/repo/dppy/multivariate_jacobi_ope.py` line 664). -/
def toInt16 (z : ℤ) : ℤ := Int.bmod z 65536

/-- `np.floor(N**(1.0 / d)).astype(np.int16)` (`/repo/dppy/multivariate_jacobi_ope.py` line 664).  Simplification: the root is exact; the theorems about
`orderingWith` cover a rounded root. -/
noncomputable def layerMaxOf (N d : ℕ) : ℤ := toInt16 ⌊(N : ℝ) ^ (1 / (d : ℝ))⌋

/-- `compute_ordering(N, d)` (`/repo/dppy/multivariate_jacobi_ope.py` lines 636-671), `d >= 1`.  `layer_max + 1` is computed without wrap-around, as
numpy 1.x does for an `int16` scalar plus a Python int. -/
noncomputable def computeOrdering (N d : ℕ) : List (List ℕ) := orderingWith (layerMaxOf N d) N d

/-! ## Degrees -/

/-- `np.max(ordering, axis=0)` (`/repo/dppy/multivariate_jacobi_ope.py` line 89) of a non-empty list of rows -/
def colMax : List (List ℕ) → List ℕ
  | [] => []
  | [k] => k
  | k :: k' :: ks => List.zipWith max k (colMax (k' :: ks))

/-- `compute_degrees_1D_polynomials(max_degrees)` (`/repo/dppy/multivariate_jacobi_ope.py` lines 935-943): `max(max_degrees)` and the array with rows
`i = 0..max_deg` and columns `j`, `i` replaced by `0` when `i > max_degrees[j]`. -/
def computeDegrees (maxDegrees : List ℕ) : ℕ × List (List ℕ) :=
  (maxDegrees.foldr max 0,
    (List.range (maxDegrees.foldr max 0 + 1)).map fun i =>
      maxDegrees.map fun b => if b < i then 0 else i)

/-- Attributes set by the constructor. (`/repo/dppy/multivariate_jacobi_ope.py` lines 81-104) -/
structure JacobiOPE where
  N : ℕ
  dim : ℕ
  ordering : List (List ℕ)
  degMax : ℕ
  degrees : List (List ℕ)

open Classical in
/-- `_check_params` (`/repo/dppy/multivariate_jacobi_ope.py` lines 106-124) and the constructor (lines 82-92): `N` is the Python integer, `params` the
rows `(a_i, b_i)`.  `np.max` of an empty array raises `ValueError`.  Not modelled: `type(N) is not int`, no
parameters at all (`d = 0`), and the arrays of norms and bounds. -/
noncomputable def jacobiInit (N : ℤ) (params : List (ℝ × ℝ)) : Outcome JacobiOPE :=
  if N < 1 then .valueError
  else if params.length = 1 ∧ ¬ (∀ p ∈ params, -1 < p.1 ∧ -1 < p.2) then .valueError
  else if 2 ≤ params.length ∧ ¬ (∀ p ∈ params, |p.1| ≤ 1 / 2 ∧ |p.2| ≤ 1 / 2) then .valueError
  else if computeOrdering N.toNat params.length = [] then .valueError
  else .ok
    { N := N.toNat
      dim := params.length
      ordering := computeOrdering N.toNat params.length
      degMax := (computeDegrees (colMax (computeOrdering N.toNat params.length))).1
      degrees := (computeDegrees (colMax (computeOrdering N.toNat params.length))).2 }

/-! ## Polynomials and kernel -/

/-- Entry `[i, j]` of a two dimensional integer array; the default is never used (theorem C10).
(`/repo/dppy/multivariate_jacobi_ope.py` lines 81-104, 182) -/
def entry2 (t : List (List ℕ)) (i j : ℕ) : ℕ := (t.getD i []).getD j 0

/-- `eval_multiD_polynomials(X)` at one point `x` (`/repo/dppy/multivariate_jacobi_ope.py` lines 176-183): entry `n` is the product over `j` of
`poly_1D_jacobi[ordering[n][j], j]` where `poly_1D_jacobi[i, j] = eval_jacobi(degrees[i, j], a_j, b_j, x_j) /
norms[i, j]`.  `P k j u` stands for `eval_jacobi(k, a_j, b_j, u)`. -/
noncomputable def evalMulti {d : ℕ} (P : ℕ → Fin d → ℝ → ℝ) (norms : ℕ → Fin d → ℝ)
    (ordering degrees : List (List ℕ)) (x : Fin d → ℝ) : Fin ordering.length → ℝ := fun n =>
  ∏ j : Fin d, P (entry2 degrees (entry2 ordering n j) j) j (x j) / norms (entry2 ordering n j) j

/-- What `K` returns: a matrix or a vector. (`/repo/dppy/multivariate_jacobi_ope.py` lines 185-268) -/
inductive KVal where
  | mat (rows : List (List ℝ))
  | vec (v : List ℝ)

/-- `inner1d(A, B, axis=1)` of two arrays with the same number of rows
(`/repo/dppy/utils.py`, used at lines 259 and 266 of `multivariate_jacobi_ope.py`). -/
def inner1dRows {m : ℕ} (A B : List (Fin m → ℝ)) : List ℝ := List.zipWith (fun a b => a ⬝ᵥ b) A B

/-- `A.dot(B.T)` (`/repo/dppy/multivariate_jacobi_ope.py` lines 261, 268) -/
def dotT {m : ℕ} (A B : List (Fin m → ℝ)) : List (List ℝ) := A.map fun a => B.map fun b => a ⬝ᵥ b

/-- `K(X, Y, eval_pointwise)` (`/repo/dppy/multivariate_jacobi_ope.py` lines 254-268): `Y = none` stands for `Y is None or Y is X`; otherwise the
polynomials are evaluated on `np.vstack((X, Y))` and split at `len_X`.  Pointwise evaluation of arrays of
different lengths (an error of numpy, unless one has length one) is not modelled. -/
noncomputable def jacobiK {X : Type*} {m : ℕ} (phi : X → Fin m → ℝ) (xs : List X) :
    Option (List X) → Bool → KVal
  | none, true => .vec (inner1dRows (xs.map phi) (xs.map phi))
  | none, false => .mat (dotT (xs.map phi) (xs.map phi))
  | some ys, true => .vec (inner1dRows (((xs ++ ys).map phi).take xs.length)
      (((xs ++ ys).map phi).drop xs.length))
  | some ys, false => .mat (dotT (((xs ++ ys).map phi).take xs.length)
      (((xs ++ ys).map phi).drop xs.length))

/-! ## Chain rule sampler -/

/-- `phi[n] -= phi[:n].dot(phi[n]).dot(phi[:n])` (`/repo/dppy/multivariate_jacobi_ope.py` line 440): every coefficient is computed from the vector
before the subtraction. -/
def jacResid {m : ℕ} (rows : List (Fin m → ℝ)) (v : Fin m → ℝ) : Fin m → ℝ :=
  v - (rows.map fun p => (p ⬝ᵥ v) • p).sum

/-- `schur / K_xx` (`/repo/dppy/multivariate_jacobi_ope.py` lines 439-444) -/
noncomputable def jacRatio {m : ℕ} (rows : List (Fin m → ℝ)) (v : Fin m → ℝ) : ℝ :=
  (jacResid rows v ⬝ᵥ jacResid rows v) / (v ⬝ᵥ v)

/-- State of the loop over `n`: the points `sample[:n]`, the rows `phi[:n]` and, for the proofs, whether each of the
points was accepted (`false`: the loop over the trials was exhausted, `/repo/dppy/multivariate_jacobi_ope.py` line 448). -/
structure JacSt (X : Type*) (m : ℕ) where
  pts : List X
  rows : List (Fin m → ℝ)
  flags : List Bool

open Classical in
/-- The loop over the trials for one `n` (`/repo/dppy/multivariate_jacobi_ope.py` lines 430-449).  Each element of the list is one trial: the proposed point
and `rng.rand()`.  `last` is the last rejected trial.  A list exhausted before any trial (`nb_trials_max = 0`):
`trial` is not defined in the message of line 449, hence `UnboundLocalError`. -/
noncomputable def jacTrials {X : Type*} {m : ℕ} (phi : X → Fin m → ℝ) (rows : List (Fin m → ℝ)) :
    Option X → List (X × ℝ) → Outcome (X × (Fin m → ℝ) × Bool)
  | none, [] => .raise .unboundLocalError
  | some x, [] => .ok (x, jacResid rows (phi x), false)
  | _, (x, u) :: ts =>
    if u < jacRatio rows (phi x) then
      .ok (x, (Real.sqrt (jacResid rows (phi x) ⬝ᵥ jacResid rows (phi x)))⁻¹ • jacResid rows (phi x), true)
    else jacTrials phi rows (some x) ts

/-- one step of the loop over `n`: append the outcome of the trials
(`/repo/dppy/multivariate_jacobi_ope.py` lines 428-449) -/
def jacPush {X : Type*} {m : ℕ} (st : JacSt X m) : Outcome (X × (Fin m → ℝ) × Bool) → Outcome (JacSt X m)
  | .raise e => .raise e
  | .ok (x, w, b) => .ok
    { pts := st.pts ++ [x]
      rows := st.rows ++ [w]
      flags := st.flags ++ [b] }

/-- continue after a step that did not raise (`/repo/dppy/multivariate_jacobi_ope.py` lines 428-449) -/
def jacThen {X : Type*} {m : ℕ} (f : JacSt X m → Outcome (JacSt X m)) : Outcome (JacSt X m) → Outcome (JacSt X m)
  | .raise e => .raise e
  | .ok st => f st

/-- The loop `for n in range(self.N)` of `sample` (`/repo/dppy/multivariate_jacobi_ope.py` lines 428-449): the `n`-th element of the tape lists the
`nb_trials_max` possible trials of step `n`. -/
noncomputable def jacLoop {X : Type*} {m : ℕ} (phi : X → Fin m → ℝ) :
    List (List (X × ℝ)) → JacSt X m → Outcome (JacSt X m)
  | [], st => .ok st
  | ts :: tape, st => jacThen (jacLoop phi tape) (jacPush st (jacTrials phi st.rows none ts))

/-- `sample(nb_trials_max, random_state, tridiag_1D)` outside the tridiagonal branch (`/repo/dppy/multivariate_jacobi_ope.py` lines 425-451): `sample` and
`phi` start as zeros and the rows `< n` are the only ones read. -/
noncomputable def jacSample {X : Type*} {m : ℕ} (phi : X → Fin m → ℝ) (tape : List (List (X × ℝ))) :
    Outcome (JacSt X m) :=
  jacLoop phi tape
    { pts := []
      rows := []
      flags := [] }

/-! ## Norms -/

/-- `scipy.special.gammaln(x)` for `x > 0` (`/repo/dppy/multivariate_jacobi_ope.py` lines 723-742) -/
noncomputable def gammaln (x : ℝ) : ℝ := Real.log (Real.Gamma x)

/-- Entry `[n, i]` of the square norms of `compute_norms_1D_polynomials` (`/repo/dppy/multivariate_jacobi_ope.py` lines 711-744), `a, b` the parameters of
coordinate `i`. `scipy.special.beta(x, y)` is `Gamma(x) Gamma(y) / Gamma(x + y)`. -/
noncomputable def squareNorm1D (a b : ℝ) (n : ℕ) : ℝ :=
  open Classical in
  if a = -1 / 2 ∧ b = -1 / 2 then
    if n = 0 then Real.pi
    else 1 / 2 * Real.exp (2 * (gammaln (n + 1 / 2) - gammaln (n + 1)))
  else
    if n = 0 then 2 ^ (a + b + 1) * (Real.Gamma (a + 1) * Real.Gamma (b + 1) / Real.Gamma (a + 1 + (b + 1)))
    else Real.exp ((a + b + 1) * Real.log 2 + gammaln (n + 1 + a) + gammaln (n + 1 + b) - gammaln (n + 1)
      - Real.log (2 * n + 1 + a + b) - gammaln (n + 1 + a + b))

end Verif.Model
