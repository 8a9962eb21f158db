import Verif.Outcome
import Mathlib.LinearAlgebra.Matrix.Determinant.Basic
import Mathlib.LinearAlgebra.LinearIndependent.Defs
import Mathlib.Data.List.FinRange

/-!
Model of `/repo/dppy/utils.py`.  Arrays `None` are not represented: every validator returns `None` on
`None` (lines 110, 123, 139, 159, 176, 192, 203, 214) and is only applied here to an actual array.
-/

namespace Verif.Model
open Verif

/-- `np.isclose(a, b)` with the default tolerances `rtol = 1e-5`, `atol = 1e-8`: the test is
`|a - b| ≤ atol + rtol * |b|`; `np.allclose` is this test on every entry.
(`/repo/dppy/utils.py` lines 130, 150, 167, 240) -/
def isClose (a b : ℝ) : Prop := |a - b| ≤ 1 / 10 ^ 8 + 1 / 10 ^ 5 * |b|

section validators
variable {r c N : ℕ}

open Classical in
/-- `is_square(array)` (`/repo/dppy/utils.py` lines 108-117) on a two dimensional array. -/
noncomputable def isSquare (A : Fin r → Fin c → ℝ) : Outcome (Fin r → Fin c → ℝ) :=
  if r = c then .ok A else .valueError

open Classical in
/-- `is_symmetric(array)` (`/repo/dppy/utils.py` lines 120-133) on a square array: only the block of
the first 20 rows and columns is compared with its transpose. -/
noncomputable def isSymmetric (A : Fin N → Fin N → ℝ) : Outcome (Fin N → Fin N → ℝ) :=
  if ∀ i j : Fin N, i.val < 20 → j.val < 20 → isClose (A j i) (A i j) then .ok A else .valueError

open Classical in
/-- `is_projection(array)` (`/repo/dppy/utils.py` lines 136-153) on a square array: the squared norms
of the first 20 columns are compared with the diagonal entries. -/
noncomputable def isProjectionCheck (A : Fin N → Fin N → ℝ) : Outcome (Fin N → Fin N → ℝ) :=
  if ∀ j : Fin N, j.val < 20 → isClose (∑ i, A i j * A i j) (A j j) then .ok A else .valueError

open Classical in
/-- `is_orthonormal_columns(array)` (`/repo/dppy/utils.py` lines 156-170): only the first 5 columns are
tested. -/
noncomputable def isOrthonormalColumns (U : Fin r → Fin c → ℝ) : Outcome (Fin r → Fin c → ℝ) :=
  if ∀ a b : Fin c, a.val < 5 → b.val < 5 →
      isClose (∑ i, U i a * U i b) (if a = b then 1 else 0) then .ok U else .valueError

/-- tolerance `1e-8` of the eigenvalue validators (`/repo/dppy/utils.py` lines 173, 189, 200) -/
noncomputable def tol8 : ℝ := 1 / 10 ^ 8

open Classical in
/-- `is_equal_to_O_or_1(array, tol)` (`/repo/dppy/utils.py` lines 173-186); the exclusive or is that of
the code. -/
noncomputable def isEqualTo01 (tol : ℝ) (v : Fin c → ℝ) : Outcome (Fin c → ℝ) :=
  if ∀ a, Xor (|v a| ≤ tol) (|1 - v a| ≤ tol) then .ok v else .valueError

open Classical in
/-- `is_in_01(array, tol)` (`/repo/dppy/utils.py` lines 189-197). -/
noncomputable def isIn01 (tol : ℝ) (v : Fin c → ℝ) : Outcome (Fin c → ℝ) :=
  if ∀ a, -tol ≤ v a ∧ v a ≤ 1 + tol then .ok v else .valueError

open Classical in
/-- `is_geq_0(array, tol)` (`/repo/dppy/utils.py` lines 200-208). -/
noncomputable def isGeq0 (tol : ℝ) (v : Fin c → ℝ) : Outcome (Fin c → ℝ) :=
  if ∀ a, v a ≥ -tol then .ok v else .valueError

open Classical in
/-- `is_full_row_rank(array)` (`/repo/dppy/utils.py` lines 211-227); `matrix_rank(array) == d` is the
linear independence of the rows (numerical rank modelled by the exact rank). -/
noncomputable def isFullRowRank {d : ℕ} (A : Fin d → Fin N → ℝ) : Outcome (Fin d → Fin N → ℝ) :=
  if d > N then .valueError
  else if LinearIndependent ℝ A then .ok A else .valueError

end validators

/-- `det_ST(array, S, T)` (`/repo/dppy/utils.py` lines 76-105): `S` and `T` are lists of indices,
`array[np.ix_(S, T)]` has `len(S)` rows and `len(T)` columns; `det` of a non-square array raises
(`LinAlgError`, a subclass of `ValueError`). -/
noncomputable def detST {R : Type*} [CommRing R] {N : ℕ} (A : Matrix (Fin N) (Fin N) R)
    (S : List (Fin N)) (T : Option (List (Fin N))) : Outcome R :=
  let T := T.getD S
  if h : T.length = S.length then
    .ok (Matrix.det (Matrix.of fun (a b : Fin S.length) => A (S.get a) (T.get (Fin.cast h.symm b))))
  else .valueError

/-! ### random states -/

/-- The kinds of values that can be passed as `seed` / `random_state`. (`/repo/dppy/utils.py` lines 6-31) -/
inductive Seed where
  | none                    -- `None`
  | npRandom                -- the module `np.random`
  | int (n : ℤ)             -- an `int`, a `bool` or a `np.integer`
  | state (id : ℕ)          -- an existing `RandomState` object (identified by its address)
  | other                   -- anything else
deriving DecidableEq

/-- The generator returned by `check_random_state`. (`/repo/dppy/utils.py` lines 6-31) -/
inductive Gen where
  | global                  -- `np.random.mtrand._rand`
  | fresh (seed : ℕ)        -- a new `RandomState(seed)`
  | existing (id : ℕ)
deriving DecidableEq

/-- `check_random_state(seed)` (`/repo/dppy/utils.py` lines 6-31).  `np.random.RandomState(seed)`
itself raises `ValueError` when `seed` is not in `[0, 2^32)`. -/
def checkRandomState : Seed → Outcome Gen
  | .none => .ok .global
  | .npRandom => .ok .global
  | .int n => if 0 ≤ n ∧ n < 2 ^ 32 then .ok (.fresh n.toNat) else .valueError
  | .state id => .ok (.existing id)
  | .other => .valueError

end Verif.Model
