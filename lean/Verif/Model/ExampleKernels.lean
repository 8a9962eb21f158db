import Mathlib.Data.Real.Basic
import Mathlib.Algebra.BigOperators.Fin

/-!
Model of the example likelihood functions and of `evaluate_L_diagonal` (`/repo/dppy/utils.py` lines 315-357).

Entries are real numbers (no rounding, no integer or object dtypes).  Arrays of dimension three or more are not
modelled.
-/

namespace Verif.Model.ExKer

/-- exception classes raised by this part of the code (`np.AxisError` is a subclass of `ValueError`)
(`/repo/dppy/utils.py` lines 315-357) -/
inductive KErr where
  | valueError
  | assertionError
deriving DecidableEq

/-- a numpy array of dimension at most two (`/repo/dppy/utils.py` lines 315-357) -/
inductive Arr where
  | zero (a : ℝ)
  | one (n : ℕ) (a : Fin n → ℝ)
  | two (n d : ℕ) (a : Fin n → Fin d → ℝ)

/-- a two-dimensional array (`/repo/dppy/utils.py` lines 315-357) -/
structure Tab where
  n : ℕ
  m : ℕ
  a : Fin n → Fin m → ℝ

/-- `np.atleast_2d` of numpy: a scalar is a `1 x 1` array, a vector is one row
(`/repo/dppy/utils.py` lines 326, 330, 347, 353) -/
def atleast2d : Arr → Tab
  | .zero a => ⟨1, 1, fun _ _ => a⟩
  | .one n a => ⟨1, n, fun _ j => a j⟩
  | .two n d a => ⟨n, d, a⟩

/-- `X.dot(Y.T)` of numpy: `ValueError` when the numbers of columns differ (`/repo/dppy/utils.py` lines 328, 331) -/
def dotT (X Y : Tab) : Except KErr Tab :=
  if h : X.m = Y.m then
    .ok ⟨X.n, Y.n, fun i j => ∑ k : Fin X.m, X.a i k * Y.a j (Fin.cast h k)⟩
  else .error .valueError

/-- `example_eval_L_linear` (`/repo/dppy/utils.py` lines 325-331) -/
def evalLinear (X : Arr) : Option Arr → Except KErr Tab
  | none => dotT (atleast2d X) (atleast2d X)
  | some Y => dotT (atleast2d X) (atleast2d Y)

/-- `np.power(ret, p, out=ret)` of numpy, for a natural number `p` (`/repo/dppy/utils.py` lines 337, 341) -/
def powTab (p : ℕ) (t : Tab) : Tab := ⟨t.n, t.m, fun i j => t.a i j ^ p⟩

/-- `example_eval_L_polynomial` (`/repo/dppy/utils.py` lines 334-342); the exponent `p` is a natural number -/
def evalPoly (p : ℕ) (X : Arr) : Option Arr → Except KErr Tab
  | none => (evalLinear X none).map (powTab p)
  | some Y => (evalLinear X (some Y)).map (powTab p)

/-- `X.shape[1] == 1 and np.all((0 <= X) & (X <= 1))` (`/repo/dppy/utils.py` lines 348 and 354) -/
def inUnit (X : Tab) : Prop := X.m = 1 ∧ ∀ i j, 0 ≤ X.a i j ∧ X.a i j ≤ 1

/-- `np.repeat(X, r, axis=1)` of numpy: every entry is repeated `r` times along the row
(`/repo/dppy/utils.py` line 356) -/
def repeatCols (X : Tab) (r : ℕ) : Tab :=
  ⟨X.n, X.m * r, fun i j => X.a i ⟨j.1 / r, Nat.div_lt_of_lt_mul (lt_of_lt_of_eq j.2 (Nat.mul_comm _ _))⟩⟩

/-- `np.repeat(Y.T, r, axis=0)` of numpy: every row of the transpose is repeated `r` times
(`/repo/dppy/utils.py` line 357) -/
def repeatTRows (Y : Tab) (r : ℕ) : Tab :=
  ⟨Y.m * r, Y.n, fun i j => Y.a j ⟨i.1 / r, Nat.div_lt_of_lt_mul (lt_of_lt_of_eq i.2 (Nat.mul_comm _ _))⟩⟩

/-- `X.size` (`/repo/dppy/utils.py` lines 356-357) -/
def size (X : Tab) : ℕ := X.n * X.m

open Classical in
/-- `np.minimum(s, t)` of numpy, for arrays of the same shape (broadcasting is not modelled: it does not occur
in the call of `evalMin`) (`/repo/dppy/utils.py` line 356) -/
noncomputable def minimum (s t : Tab) : Except KErr Tab :=
  if h : s.n = t.n ∧ s.m = t.m then
    .ok ⟨s.n, s.m, fun i j => min (s.a i j) (t.a (Fin.cast h.1 i) (Fin.cast h.2 j))⟩
  else .error .valueError

open Classical in
/-- `example_eval_L_min_kern` (`/repo/dppy/utils.py` lines 345-357) -/
noncomputable def evalMin (X : Arr) (Y : Option Arr) : Except KErr Tab :=
  if inUnit (atleast2d X) then
    if Y.all fun Y => decide (inUnit (atleast2d Y)) then
      let x := atleast2d X
      let y := match Y with
        | none => x
        | some Y => atleast2d Y
      minimum (repeatCols x (size y)) (repeatTRows y (size x))
    else .error .assertionError
  else .error .assertionError

/-- `np.apply_along_axis(eval_L, 1, X).ravel()` of numpy: `eval_L` is called on the rows of `X`, in order; an array
with no row, or of dimension less than two, raises `ValueError`; the values must have the shape of the first one
(broadcasting is not modelled).  The result is the list of the entries of the values.
(`/repo/dppy/utils.py` lines 315-322) -/
def applyRows (f : Arr → Option Arr → Except KErr Tab) : Arr → Except KErr (List ℝ)
  | .zero _ => .error .valueError
  | .one _ _ => .error .valueError
  | .two 0 _ _ => .error .valueError
  | .two (n + 1) d a => do
    let ts ← (List.ofFn a).mapM fun r => f (.one d r) none
    match ts with
    | [] => .ok []
    | t :: ts' =>
      if ts'.all fun s => s.n == t.n && s.m == t.m then
        .ok ((t :: ts').flatMap fun s => (List.ofFn fun i => List.ofFn fun j => s.a i j).flatten)
      else .error .valueError

/-- `evaluate_L_diagonal` (`/repo/dppy/utils.py` lines 315-322): `diag` is the attribute `diag` of `eval_L`, if it is
callable. -/
def evalDiagonal (f : Arr → Option Arr → Except KErr Tab) (diag : Option (Arr → Except KErr (List ℝ))) (X : Arr) :
    Except KErr (List ℝ) :=
  match diag with
  | some g => g X
  | none => applyRows f X

end Verif.Model.ExKer
