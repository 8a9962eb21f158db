import Verif.Model.RandProg
import Mathlib.LinearAlgebra.Matrix.Charpoly.Basic
import Mathlib.LinearAlgebra.Matrix.ConjTranspose
import Mathlib.LinearAlgebra.Matrix.Block
import Mathlib.LinearAlgebra.Matrix.IsDiag
import Mathlib.LinearAlgebra.UnitaryGroup
import Mathlib.Analysis.Complex.Basic

/-!
# Full and banded matrix models (`dppy/random_matrices.py`)

The eigen solvers and the QR factorisation of scipy are parameters of the model (`LA`), with contracts `LAOK`.
-/

namespace Verif.Model
open Matrix Polynomial

/-- the routines of `scipy.linalg` used by `random_matrices.py`
(`/repo/dppy/random_matrices.py` lines 1-22, and their calls in the samplers) -/
structure LA where
  /-- `la.eigvalsh` (and `la.eigvalsh_tridiagonal` on the tridiagonal matrix) -/
  eigvalsh : {ι : Type} → [Fintype ι] → [DecidableEq ι] → Matrix ι ι ℂ → List ℝ
  /-- `la.eigvals` -/
  eigvals : {ι : Type} → [Fintype ι] → [DecidableEq ι] → Matrix ι ι ℂ → List ℂ
  /-- second component of `la.eigh` -/
  eighVec : {ι : Type} → [Fintype ι] → [DecidableEq ι] → Matrix ι ι ℂ → Matrix ι ι ℂ
  /-- `la.qr` -/
  qr : {N : ℕ} → Matrix (Fin N) (Fin N) ℂ → Matrix (Fin N) (Fin N) ℂ × Matrix (Fin N) (Fin N) ℂ

/-- contracts: eigenvalues with multiplicity (in increasing order for the Hermitian solver), unitary eigenvectors of a Hermitian
matrix, and `A = QR` with `Q` unitary and `R` upper triangular (`/repo/dppy/random_matrices.py` lines 25-377) -/
structure LAOK (la : LA) : Prop where
  eigvalsh_sorted : ∀ {ι : Type} [Fintype ι] [DecidableEq ι] (A : Matrix ι ι ℂ), A.IsHermitian →
    (la.eigvalsh A).Pairwise (· ≤ ·)
  eigvalsh_char : ∀ {ι : Type} [Fintype ι] [DecidableEq ι] (A : Matrix ι ι ℂ), A.IsHermitian →
    ((la.eigvalsh A).map fun x : ℝ => (X - C (x : ℂ) : ℂ[X])).prod = A.charpoly
  eigvals_char : ∀ {ι : Type} [Fintype ι] [DecidableEq ι] (A : Matrix ι ι ℂ),
    ((la.eigvals A).map fun z => (X - C z : ℂ[X])).prod = A.charpoly
  eigh_unitary : ∀ {ι : Type} [Fintype ι] [DecidableEq ι] (A : Matrix ι ι ℂ), A.IsHermitian →
    la.eighVec A ∈ unitaryGroup ι ℂ
  eigh_diag : ∀ {ι : Type} [Fintype ι] [DecidableEq ι] (A : Matrix ι ι ℂ), A.IsHermitian →
    ((la.eighVec A)ᴴ * A * la.eighVec A).IsDiag
  qr_mul : ∀ {N : ℕ} (A : Matrix (Fin N) (Fin N) ℂ), (la.qr A).1 * (la.qr A).2 = A
  qr_unitary : ∀ {N : ℕ} (A : Matrix (Fin N) (Fin N) ℂ), (la.qr A).1 ∈ unitaryGroup (Fin N) ℂ
  qr_upper : ∀ {N : ℕ} (A : Matrix (Fin N) (Fin N) ℂ), (la.qr A).2.BlockTriangular id

/-- `rng.randn(N, M)`: a vector of `N * M` draws read row by row
(`/repo/dppy/random_matrices.py` lines 31, 98, 171, 277, 298) -/
def asMat (N M : ℕ) (x : Fin (N * M) → ℝ) : Matrix (Fin N) (Fin M) ℂ :=
  Matrix.of fun i j => ((vget x (i * M + j) : ℝ) : ℂ)

/-- `rng.randn(N, M) + 1j * rng.randn(N, M)` (`/repo/dppy/random_matrices.py` lines 34, 101, 175, 280, 301) -/
noncomputable def cplxMat (N M : ℕ) (x y : Fin (N * M) → ℝ) : Matrix (Fin N) (Fin M) ℂ :=
  asMat N M x + Complex.I • asMat N M y

/-- `np.block([[X, Y], [-Y.conj(), X.conj()]])` (`/repo/dppy/random_matrices.py` lines 37-43, 104-110, 179-191) -/
noncomputable def quatBlock {N M : ℕ} (X Y : Matrix (Fin N) (Fin M) ℂ) : Matrix (Fin N ⊕ Fin N) (Fin M ⊕ Fin M) ℂ :=
  Matrix.fromBlocks X Y (-(Y.map (starRingEnd ℂ))) (X.map (starRingEnd ℂ))

open Classical in
/-- draw a Gaussian matrix of the ensemble: real (`beta = 1`), complex (`beta = 2`) or quaternionic (`beta = 4`, as a complex
matrix of twice the size), then go on; other values of `beta` raise `ValueError`
(the `if beta == 1 ... else raise` blocks of random_matrices.py:30-45, 97-111, 170-191). -/
noncomputable def ginDraw (beta : ℝ) (N M : ℕ) {α : Type} (k1 : Matrix (Fin N) (Fin M) ℂ → RP α)
    (k4 : Matrix (Fin N ⊕ Fin N) (Fin M ⊕ Fin M) ℂ → RP α) : RP α :=
  if beta = 1 then .normal (N * M) 0 1 fun x => k1 (asMat N M x)
  else if beta = 2 then .normal (N * M) 0 1 fun x => .normal (N * M) 0 1 fun y => k1 (cplxMat N M x y)
  else if beta = 4 then
    .normal (N * M) 0 1 fun x1 => .normal (N * M) 0 1 fun y1 =>
      .normal (N * M) 0 1 fun x2 => .normal (N * M) 0 1 fun y2 =>
        k4 (quatBlock (cplxMat N M x1 y1) (cplxMat N M x2 y2))
  else .fail .valueError

/-- `hermite_sampler_full` (random_matrices.py:25-47) -/
noncomputable def hermiteSamplerFull (la : LA) (N : ℕ) (beta : ℝ) : RP (List ℝ) :=
  ginDraw beta N N (fun A => .ret ((la.eigvalsh (A + Aᴴ)).map (· / √2)))
    (fun A => .ret ((la.eigvalsh (A + Aᴴ)).map (· / √2)))

/-- `laguerre_sampler_full` (random_matrices.py:92-113) -/
noncomputable def laguerreSamplerFull (la : LA) (M N : ℕ) (beta : ℝ) : RP (List ℝ) :=
  ginDraw beta N M (fun A => .ret (la.eigvalsh (A * Aᴴ))) (fun A => .ret (la.eigvalsh (A * Aᴴ)))

open Classical in
/-- the last lines of `jacobi_sampler_full` (random_matrices.py:193-196); `la.inv` raises `LinAlgError` on a singular matrix -/
noncomputable def jacobiFinish (la : LA) {ι : Type} [Fintype ι] [DecidableEq ι] {κ₁ κ₂ : Type} [Fintype κ₁] [Fintype κ₂]
    (X : Matrix ι κ₁ ℂ) (Y : Matrix ι κ₂ ℂ) : RP (List ℝ) :=
  if (X * Xᴴ + Y * Yᴴ).det = 0 then .fail .linAlgError
  else .ret ((la.eigvals (X * Xᴴ * (X * Xᴴ + Y * Yᴴ)⁻¹)).map Complex.re)

/-- `jacobi_sampler_full` (random_matrices.py:165-196).  The draws of the real and imaginary parts of `Y` are made after those of
`X`; for `beta = 4` in the order `X_1, X_2, Y_1, Y_2`.  The check of `beta` is repeated for `Y`, which changes nothing. -/
noncomputable def jacobiSamplerFull (la : LA) (M1 M2 N : ℕ) (beta : ℝ) : RP (List ℝ) :=
  ginDraw beta N M1
    (fun X => ginDraw beta N M2 (fun Y => jacobiFinish la X Y) (fun _ => .fail .valueError))
    (fun X => ginDraw beta N M2 (fun _ => .fail .valueError) (fun Y => jacobiFinish la X Y))

/-- symmetric tridiagonal matrix given to `la.eigvalsh_tridiagonal(d, e)`, with entries read from the vectors `d` and `e`
(`/repo/dppy/random_matrices.py` lines 86, 159, 257) -/
def tridiag (N : ℕ) (d e : ℕ → ℝ) : Matrix (Fin N) (Fin N) ℝ := Matrix.of fun p q =>
  if p = q then d p else if (q : ℕ) = p + 1 then e p else if (p : ℕ) = q + 1 then e q else 0

/-- `la.eigvalsh_tridiagonal(d, e)` (`/repo/dppy/random_matrices.py` lines 86, 159, 257) -/
def eigTridiag (la : LA) (N : ℕ) (d e : ℕ → ℝ) : List ℝ :=
  la.eigvalsh ((tridiag N d e).map (fun x : ℝ => (x : ℂ)))

open Classical in
/-- `mu_ref_normal_sampler_tridiag` (random_matrices.py:61-86); `b_2_Ni[i] = beta / 2 * (size - 1 - i)` -/
noncomputable def normalTridiag (la : LA) (loc scale beta : ℝ) (size : ℕ) : RP (List ℝ) :=
  if ¬ (beta > 0) then .fail .valueError
  else
    .normal size loc scale fun alpha =>
      .gamma (size - 1) (fun i => 0.5 * beta * ((size : ℝ) - 1 - (i : ℕ))) (scale ^ 2) fun bcoef =>
        .ret (eigTridiag la size (vget alpha) (fun i => √(vget bcoef i)))

/-- the vector `xi_even` of `mu_ref_gamma_sampler_tridiag`: `xi_even[0] = 0`, the others are drawn
(`/repo/dppy/random_matrices.py` lines 150-152) -/
def shiftZero {n : ℕ} (x : Fin n → ℝ) (i : ℕ) : ℝ := if i = 0 then 0 else vget x (i - 1)

/-- coefficients `alpha_coef`, `beta_coef` from `xi_odd`, `xi_even` (random_matrices.py:155-157, 253-255) -/
def xiAlpha (xio xie : ℕ → ℝ) (i : ℕ) : ℝ := xie i + xio i

/-- `beta_coef = xi_odd[:-1] * xi_even[1:]` (`/repo/dppy/random_matrices.py` lines 157, 255) -/
def xiBeta (xio xie : ℕ → ℝ) (i : ℕ) : ℝ := xio i * xie (i + 1)

open Classical in
/-- `mu_ref_gamma_sampler_tridiag` (random_matrices.py:131-159) -/
noncomputable def gammaTridiag (la : LA) (shape scale beta : ℝ) (size : ℕ) : RP (List ℝ) :=
  if ¬ (beta > 0) then .fail .valueError
  else
    .gamma size (fun i => 0.5 * beta * ((size : ℝ) - 1 - (i : ℕ)) + shape) scale fun xo =>
      .gamma (size - 1) (fun i => 0.5 * beta * ((size : ℝ) - 1 - (i : ℕ))) scale fun xe =>
        .ret (eigTridiag la size (xiAlpha (vget xo) (shiftZero xe)) (fun i => √(xiBeta (vget xo) (shiftZero xe) i)))

/-- `xi_odd = (1 - c_even) * c_odd` (random_matrices.py:244) -/
def betaXiOdd (co ce : ℕ → ℝ) (i : ℕ) : ℝ := (1 - ce i) * co i

/-- `xi_even[0] = 0`, `xi_even[1:] = (1 - c_odd[:-1]) * c_even[1:]` (random_matrices.py:248-249) -/
def betaXiEven (co ce : ℕ → ℝ) (i : ℕ) : ℝ := if i = 0 then 0 else (1 - co (i - 1)) * ce i

open Classical in
/-- `mu_ref_beta_sampler_tridiag` (random_matrices.py:214-257) -/
noncomputable def betaTridiag (la : LA) (a b beta : ℝ) (size : ℕ) : RP (List ℝ) :=
  if ¬ (beta > 0) then .fail .valueError
  else
    .beta size (fun i => 0.5 * beta * ((size : ℝ) - 1 - (i : ℕ)) + a)
        (fun i => 0.5 * beta * ((size : ℝ) - 1 - (i : ℕ)) + b) fun co =>
      .beta (size - 1) (fun i => 0.5 * beta * ((size : ℝ) - 1 - (i : ℕ)))
          (fun i => 0.5 * beta * ((size : ℝ) - 1 - ((i : ℕ) + 1)) + a + b) fun ce =>
        .ret (eigTridiag la size
          (xiAlpha (betaXiOdd (vget co) (shiftZero ce)) (betaXiEven (vget co) (shiftZero ce)))
          (fun i => √(xiBeta (betaXiOdd (vget co) (shiftZero ce)) (betaXiEven (vget co) (shiftZero ce)) i)))

/-! ### Circular ensemble -/

/-- `haar_mode` (`/repo/dppy/random_matrices.py` lines 263-312) -/
inductive Haar | hermite | qr | other
deriving DecidableEq

open Classical in
/-- end of the QR branch (random_matrices.py:310-312): `U = Q * (d / |d|)`, column by column; a zero on the diagonal of `R` gives
`nan`, on which `la.eigvals` raises `ValueError` -/
noncomputable def qrFinish (la : LA) {N : ℕ} (A : Matrix (Fin N) (Fin N) ℂ) : RP (List ℂ) :=
  if ∃ i, (la.qr A).2 i i = 0 then .fail .valueError
  else .ret (la.eigvals (Matrix.of fun i j =>
    (la.qr A).1 i j * ((la.qr A).2 j j / ((‖(la.qr A).2 j j‖ : ℝ) : ℂ))))

open Classical in
/-- `circular_sampler_full` (random_matrices.py:263-320) -/
noncomputable def circularSamplerFull (la : LA) (N : ℕ) (beta : ℝ) (mode : Haar) : RP (List ℂ) :=
  match mode with
  | .hermite => ginDraw beta N N (fun A => .ret (la.eigvals (la.eighVec (A + Aᴴ))))
      (fun A => .ret (la.eigvals (la.eighVec (A + Aᴴ))))
  | .qr => ginDraw beta N N (fun A => qrFinish la A) (fun _ => .fail .valueError)
  | .other => .fail .valueError

open Classical in
/-- the loop that draws the Verblunsky coefficients (random_matrices.py:340-342): `nu = 1 + beta * (size - 1 - i)`, a Gaussian vector
of length `nu + 1`, and `alpha[i] = (g[0] + 1j g[1]) / norm(g)`.  A zero vector gives `nan`, on which `la.eigvals` raises
`ValueError` at the end. `todo` is the number of coefficients left. -/
noncomputable def verblunsky {α : Type} (beta : ℕ) : (todo : ℕ) → List ℂ → (List ℂ → RP α) → RP α
  | 0, acc, k => k acc.reverse
  | n + 1, acc, k =>
      .normal (1 + beta * n + 1) 0 1 fun g =>
        if (∑ i, g i ^ 2) = 0 then .fail .valueError
        else verblunsky beta n ((((vget g 0 : ℝ) : ℂ) + Complex.I * ((vget g 1 : ℝ) : ℂ)) / ((√(∑ i, g i ^ 2) : ℝ) : ℂ) :: acc) k

/-- a block of `sp.block_diag`: a scalar or a 2 by 2 matrix (`/repo/dppy/random_matrices.py` lines 344-362) -/
inductive Blk
  | one (z : ℂ)
  | two (a b c d : ℂ)

/-- number of rows of `sp.block_diag(blocks)` (`/repo/dppy/random_matrices.py` lines 350-362) -/
def blkSize : List Blk → ℕ
  | [] => 0
  | .one _ :: bs => blkSize bs + 1
  | .two _ _ _ _ :: bs => blkSize bs + 2

/-- entries of `sp.block_diag(blocks)` (`/repo/dppy/random_matrices.py` lines 350-362) -/
def blkEntry : List Blk → ℕ → ℕ → ℂ
  | .one z :: _, 0, 0 => z
  | .one _ :: bs, i + 1, j + 1 => blkEntry bs i j
  | .two a _ _ _ :: _, 0, 0 => a
  | .two _ b _ _ :: _, 0, 1 => b
  | .two _ _ c _ :: _, 1, 0 => c
  | .two _ _ _ d :: _, 1, 1 => d
  | .two _ _ _ _ :: bs, i + 2, j + 2 => blkEntry bs i j
  | _, _, _ => 0

/-- `xi[i] = [[conj(alpha_i), rho_i], [rho_i, -alpha_i]]`, `rho_i = sqrt(1 - |alpha_i|^2)` (random_matrices.py:344-348) -/
noncomputable def xiBlk (alpha : ℂ) : Blk :=
  .two (starRingEnd ℂ alpha) ((√(1 - ‖alpha‖ ^ 2) : ℝ) : ℂ) ((√(1 - ‖alpha‖ ^ 2) : ℝ) : ℂ) (-alpha)

/-- `l[::2]` (`/repo/dppy/random_matrices.py` lines 350-362) -/
def everyOther {α : Type} : List α → List α
  | [] => []
  | [a] => [a]
  | a :: _ :: l => a :: everyOther l

/-- the blocks of `L` and `M` (random_matrices.py:350-362): `alphas[:-1]` gives the 2 by 2 blocks `xi`, the last coefficient gives
a scalar block -/
noncomputable def cmvBlocks (alphas : List ℂ) (last : ℂ) : List Blk × List Blk :=
  if (alphas.length + 1) % 2 = 0 then
    ((everyOther alphas).map xiBlk,
      [.one 1] ++ (everyOther alphas.tail).map xiBlk ++ [.one (starRingEnd ℂ last)])
  else
    ((everyOther alphas).map xiBlk ++ [.one (starRingEnd ℂ last)],
      [.one 1] ++ (everyOther alphas.tail).map xiBlk)

/-- `L.dot(M).toarray()`; scipy raises `ValueError` when the shapes do not match
(`/repo/dppy/random_matrices.py` lines 362-364) -/
noncomputable def cmvFinish (la : LA) (bs : List Blk × List Blk) : RP (List ℂ) :=
  if blkSize bs.1 = blkSize bs.2 then
    .ret (la.eigvals (Matrix.of fun i j : Fin (blkSize bs.1) =>
      ∑ k : Fin (blkSize bs.1), blkEntry bs.1 i k * blkEntry bs.2 k j))
  else .fail .valueError

/-- `mu_ref_unif_unit_circle_sampler_quindiag` (random_matrices.py:323-364). `beta` is an `int` here: the other values raise
`ValueError` (see `CircularEnsemble`).  With `size = 0` the shape `(-1, 2, 2)` raises `ValueError`. -/
noncomputable def unifQuindiag (la : LA) (beta : ℤ) (size : ℕ) : RP (List ℂ) :=
  if ¬ (beta > 0) then .fail .valueError
  else verblunsky beta.toNat size [] fun al =>
    match al.getLast? with
    | none => .fail .valueError
    | some z => cmvFinish la (cmvBlocks al.dropLast z)

/-- `ginibre_sampler_full` (random_matrices.py:370-377) -/
noncomputable def ginibreSamplerFull (la : LA) (N : ℕ) : RP (List ℂ) :=
  .normal (N * N) 0 1 fun x => .normal (N * N) 0 1 fun y =>
    .ret ((la.eigvals (cplxMat N N x y)).map (· / ((√2 : ℝ) : ℂ)))

end Verif.Model
