import Verif.Outcome
import Mathlib.Data.Matrix.Basic
import Mathlib.Data.List.FinRange

/-!
Model of `dppy/exact_sampling.py`: generic-kernel sampler, eigenvector selection, elementary
symmetric polynomials.  Arrays of length `N` are functions on `Fin N`.
-/

namespace Verif.Model
open Verif

section Generic
variable {R : Type*} [Field R] [LinearOrder R] {N : ℕ}

/-- One pass of the body of the loop of `dpp_sampler_generic_kernel` after the coin is known
(`/repo/dppy/exact_sampling.py` lines 347-354): when `b` is false `A[j, j] -= 1`; then
`A[j+1:, j] /= A[j, j]` and `A[j+1:, j+1:] -= np.outer(A[j+1:, j], A[j, j+1:])`.
Division by a zero pivot (`inf`/`nan` in numpy) is `0` here; such a pivot is only reached with
probability zero. -/
def luStep (A : Matrix (Fin N) (Fin N) R) (j : Fin N) (b : Bool) : Matrix (Fin N) (Fin N) R :=
  let A1 : Matrix (Fin N) (Fin N) R :=
    if b then A else fun a c => if a = j ∧ c = j then A j j - 1 else A a c
  let A2 : Matrix (Fin N) (Fin N) R :=
    fun a c => if j < a ∧ c = j then A1 a j / A1 j j else A1 a c
  fun a c => if j < a ∧ j < c then A2 a c - A2 a j * A2 j c else A2 a c

/-- The loop `for j in range(len(A))` of `dpp_sampler_generic_kernel`
(`/repo/dppy/exact_sampling.py` lines 345-357), over the list of remaining indices; returns the
sample and the overwritten matrix. -/
def luLoop : List (Fin N) → Matrix (Fin N) (Fin N) R →
    Dist R (List (Fin N) × Matrix (Fin N) (Fin N) R)
  | [], A => Dist.ret ([], A)
  | j :: js, A =>
    (Dist.bern (A j j)).bind fun b =>
      (luLoop js (luStep A j b)).bind fun out =>
        Dist.ret (if b then j :: out.1 else out.1, out.2)

/-- `dpp_sampler_generic_kernel(K)` (`/repo/dppy/exact_sampling.py` lines 322-357). Real kernels. -/
def dppSamplerGenericKernel (K : Matrix (Fin N) (Fin N) R) :
    Dist R (List (Fin N) × Matrix (Fin N) (Fin N) R) :=
  luLoop (List.finRange N) K

end Generic

section Selection
variable {R : Type*} [Field R] [LinearOrder R]

/-- A two dimensional numpy array: reading outside of it is an `IndexError` (`none`).
(`/repo/dppy/exact_sampling.py` line 1333) -/
abbrev Table (R : Type*) := ℕ → ℕ → Option R

/-- `E[k, n] = v` on an array given by its values. (`/repo/dppy/exact_sampling.py` line 1339) -/
def updCell (E : ℕ → ℕ → R) (k n : ℕ) (v : R) : ℕ → ℕ → R :=
  fun k' n' => if k' = k ∧ n' = n then v else E k' n'

/-- `elementary_symmetric_polynomials(eig_vals, size)` (`/repo/dppy/exact_sampling.py` lines
1330-1341): the array `np.zeros((size + 1, N + 1))`, first row set to one, filled by the two nested
loops (loop variables here are `k - 1` and `n - 1`).  The array `eig_vals` of length `N` is a
function on `ℕ` of which only indices `< N` are read. -/
def espFill (N : ℕ) (lam : ℕ → R) (size : ℕ) : ℕ → ℕ → R :=
  (List.range size).foldl (fun (E : ℕ → ℕ → R) (k : ℕ) =>
      (List.range N).foldl (fun (E : ℕ → ℕ → R) (n : ℕ) =>
        updCell E (k + 1) (n + 1) (E (k + 1) n + lam n * E k n)) E)
    (fun k _ => if k = 0 then 1 else 0)

/-- The returned array of shape `(size + 1) × (N + 1)`. (`/repo/dppy/exact_sampling.py` lines 1306-1341) -/
def elementarySymmetricPolynomials (N : ℕ) (lam : ℕ → R) (size : ℕ) : Table R :=
  fun k n => if k ≤ size ∧ n ≤ N then some (espFill N lam size k n) else none

/-- The loop `for n in range(eig_vals.size, 0, -1)` of `k_dpp_eig_vecs_selector`
(`/repo/dppy/exact_sampling.py` lines 1292-1300), entered with `n = eig_vals.size`; `k` is the number
of items still to select, `ind` the array `ind_selected`, `E` the array `E_poly`.  `none` models an
`IndexError`: reading `E_poly` outside of its bounds, or `ind_selected[-1]` on an empty array (only
for `size = 0`; then `E_poly[-1, n-1]` is the only row, which `k - 1 = 0` renders). -/
def kSelLoop (lam : ℕ → R) (E : Table R) : ℕ → ℕ → List ℕ → Dist R (Option (List ℕ))
  | 0, _, ind => Dist.ret (some ind)
  | n + 1, k, ind =>
    match E (k - 1) n, E k (n + 1) with
    | some e1, some e0 =>
      (Dist.bern (lam n * e1 / e0)).bind fun b =>
        if b then
          if k = 0 then Dist.ret none
          else if k - 1 = 0 then Dist.ret (some (ind.set (k - 1) n))      -- break
          else kSelLoop lam E n (k - 1) (ind.set (k - 1) n)
        else kSelLoop lam E n k ind
    | _, _ => Dist.ret none

/-- `k_dpp_eig_vecs_selector(eig_vals, eig_vecs, size, E_poly)`
(`/repo/dppy/exact_sampling.py` lines 1244-1302): the rank check with tolerance
`tol = max(eig_vals) * N * eps` (a parameter of the model), the computation of `E_poly` when it is
`None`, then the selection loop.  Returns the selected column indices (the code returns
`eig_vecs[:, ind_selected]`). -/
def kDppEigVecsSelector (N : ℕ) (lam : ℕ → R) (tol : R) (size : ℕ) (Epoly : Option (Table R)) :
    Dist R (Outcome (List ℕ)) :=
  if size > ((List.range N).filter fun i => decide (lam i > tol)).length then
    Dist.ret Outcome.valueError
  else
    (kSelLoop lam (Epoly.getD (elementarySymmetricPolynomials N lam size)) N size
        (List.replicate size 0)).map fun o =>
      match o with
      | some l => Outcome.ok l
      | none => Outcome.indexError

/-- `dpp_eig_vecs_selector(ber_params, eig_vecs)` (`/repo/dppy/exact_sampling.py` lines 364-394):
`ind_sel = rng.rand(n) < ber_params`, returned as the list of selected column indices. -/
def dppEigVecsSelector (lam : ℕ → R) : ℕ → Dist R (List ℕ)
  | 0 => Dist.ret []
  | n + 1 => (dppEigVecsSelector lam n).bind fun l =>
      (Dist.bern (lam n)).bind fun b => Dist.ret (if b then l ++ [n] else l)

end Selection

end Verif.Model
