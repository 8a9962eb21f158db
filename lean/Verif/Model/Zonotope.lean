import Verif.Model.MCMC

/-!
Model of `/repo/dppy/mcmc_sampling.py` lines 415-614: `extract_basis` and `zonotope_sampler`.

The linear programs (solved by cvxopt/glpk) are parameters: `lp x` is the solution of
`min c.y s.t. A y = x, 0 <= y <= 1` and `seg x d` the pair `(alpha_m, alpha_M)`.  The Gaussian direction
`d` and the two uniform numbers of each iteration are read from a tape.
-/

namespace Verif.Model
open Verif

variable {N r : ℕ}

open Classical in
/-- `extract_basis(y_sol, eps)` (`/repo/dppy/mcmc_sampling.py` lines 418-448):
`np.where((eps < y_sol) & (y_sol < 1 - eps))[0]`. -/
noncomputable def extractBasis (eps : ℝ) (y : Fin N → ℝ) : List (Fin N) :=
  (List.finRange N).filter fun i => decide (eps < y i ∧ y i < 1 - eps)

/-- The two kinds of linear programs. (`/repo/dppy/mcmc_sampling.py` lines 566, 588-589, 595) -/
structure Lp (N r : ℕ) where
  lp : (Fin r → ℝ) → (Fin N → ℝ)
  seg : (Fin r → ℝ) → (Fin r → ℝ) → ℝ × ℝ

/-- Draws of one iteration: direction `d = rng.randn(r, 1)`, `u = rng.rand()` for the point on the
segment, `v = rng.rand()` for the acceptance (unused when the tile is ill conditioned).
(`/repo/dppy/mcmc_sampling.py` lines 582, 592, 604) -/
structure ZDraw (r : ℕ) where
  d : Fin r → ℝ
  u : ℝ
  v : ℝ

/-- `la.det(A_zono[:, B])` for a tile with `r` columns (called only for those).
(`/repo/dppy/mcmc_sampling.py` lines 575, 603) -/
noncomputable def detCols (A : Matrix (Fin r) (Fin N) ℝ) (B : List (Fin N)) : ℝ :=
  if h : B.length = r then Matrix.det (Matrix.of fun a b : Fin r => A a (B.get (Fin.cast h.symm b))) else 0

/-- `x0, B_x0, det_B_x0` (`/repo/dppy/mcmc_sampling.py` lines 566-605) -/
structure ZSt (N r : ℕ) where
  x : Fin r → ℝ
  B : List (Fin N)
  det : ℝ

/-- `eps = 1e-5`, the default of `extract_basis` (`/repo/dppy/mcmc_sampling.py` line 418) -/
noncomputable def zEps : ℝ := 1 / 10 ^ 5

/-- The initialisation `B_x0 = []; while len(B_x0) != r: ...` (`/repo/dppy/mcmc_sampling.py` lines
562-568) run for at most `n` rounds: every round solves the same linear program.  `none`: not finished. -/
noncomputable def zonoInit (L : Lp N r) (x0 : Fin r → ℝ) : ℕ → List (Fin N) → Option (List (Fin N))
  | n, B => if B.length = r then some B else
    match n with
    | 0 => none
    | n + 1 => zonoInit L x0 n (extractBasis zEps (L.lp x0))

/-- `x1 = x0 + (alpha_m + (alpha_M - alpha_m) * rng.rand()) * d` (`/repo/dppy/mcmc_sampling.py` line 590) -/
noncomputable def zonoPoint (L : Lp N r) (x0 : Fin r → ℝ) (t : ZDraw r) : Fin r → ℝ := fun a =>
  x0 a + ((L.seg x0 t.d).1 + ((L.seg x0 t.d).2 - (L.seg x0 t.d).1) * t.u) * t.d a

open Classical in
/-- One iteration (`/repo/dppy/mcmc_sampling.py` lines 579-608). -/
noncomputable def zonoStep (A : Matrix (Fin r) (Fin N) ℝ) (L : Lp N r) (s : ZSt N r) (t : ZDraw r) : ZSt N r :=
  let x1 := zonoPoint L s.x t
  let B1 := extractBasis zEps (L.lp x1)
  if B1.length = r ∧ t.v < |detCols A B1 / s.det| then ⟨x1, B1, detCols A B1⟩ else s

/-- `for it in range(1, nb_iter)` with the time test; `n` iterations are left and `it` is the number of
the next one. (`/repo/dppy/mcmc_sampling.py` lines 579-614) -/
noncomputable def zonoLoop (A : Matrix (Fin r) (Fin N) ℝ) (L : Lp N r) (stop : ℕ → Bool) (tape : ℕ → ZDraw r) :
    ℕ → ℕ → ZSt N r → List (ZSt N r)
  | _, 0, _ => []
  | it, n + 1, s =>
    let s' := zonoStep A L s (tape it)
    if stop it then [s'] else s' :: zonoLoop A L stop tape (it + 1) n s'

/-- `zonotope_sampler(A_zono, lin_obj, x_0, nb_iter, T_max)` (`/repo/dppy/mcmc_sampling.py` lines
451-614) after an initialisation of at most `fuel` rounds: `none` when that is not enough;
`chain = np.zeros((nb_iter, r))`, `chain[0] = B_x0` (`IndexError` without rows). -/
noncomputable def zonoSampler (A : Matrix (Fin r) (Fin N) ℝ) (L : Lp N r) (o : McmcOpts) (tape : ℕ → ZDraw r)
    (x0 : Fin r → ℝ) (fuel : ℕ) : Option (Outcome (List (List (Fin N)))) :=
  (zonoInit L x0 fuel []).map fun B =>
    if o.nbIter = 0 then .indexError
    else
      let l := zonoLoop A L (stopAt o) tape 1 (o.nbIter - 1) ⟨x0, B, detCols A B⟩
      .ok (B :: l.map ZSt.B ++ List.replicate (o.nbIter - 1 - l.length) (zeroRow B))

end Verif.Model
