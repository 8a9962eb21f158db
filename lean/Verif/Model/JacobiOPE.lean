import Verif.Model.Jacobi
import Verif.Model.RandProg
import Verif.Model.RandomMatrices
import Verif.Spec.JacobiPoly

/-!
Model of the random part of `/repo/dppy/multivariate_jacobi_ope.py`: `compute_rejection_bounds` (747-932),
`sample_chain_rule_proposal` (270-361) and `sample` (364-451).

`par j` is the row `(a_j, b_j)` of `jacobi_params` and `L` the list of multi-indices `self.ordering`.  `self.N` is the length of `L`
(true for `N < 32768^d`, see C09).  `scipy.special.eval_jacobi` is the Jacobi polynomial of its documentation.  Numbers are exact reals;
`nan` is `none`.
-/

namespace Verif.Model
open Verif Verif.Spec Matrix

variable {d : ℕ}

/-- `eval_jacobi(k, a_j, b_j, u)` (`/repo/dppy/multivariate_jacobi_ope.py` lines 176, 349) -/
noncomputable def opeP (par : Fin d → ℝ × ℝ) (k : ℕ) (j : Fin d) (u : ℝ) : ℝ := jacobiPoly k (par j).1 (par j).2 u

/-- `norms_1D_polynomials[n, j]`, the square root of the table of square norms (multivariate_jacobi_ope.py:744) -/
noncomputable def opeNorm (par : Fin d → ℝ × ℝ) (n : ℕ) (j : Fin d) : ℝ := √(squareNorm1D (par j).1 (par j).2 n)

/-- `eval_multiD_polynomials` (multivariate_jacobi_ope.py:143-185) with the tables of the constructor -/
noncomputable def opePhi (par : Fin d → ℝ × ℝ) (L : List (List ℕ)) : (Fin d → ℝ) → Fin L.length → ℝ :=
  evalMulti (opeP par) (opeNorm par) L (computeDegrees (colMax L)).2

/-- `square_norms_multiD_polynomials[ind]` (multivariate_jacobi_ope.py:94-97) -/
noncomputable def opeSqNorm (par : Fin d → ℝ × ℝ) (L : List (List ℕ)) (ind : Fin L.length) : ℝ :=
  ∏ j : Fin d, opeNorm par (entry2 L ind j) j ^ 2

/-! ## Rejection bounds -/

/-- `mode = (b - a) / (a + b + 1)` (multivariate_jacobi_ope.py:886) -/
noncomputable def opeMode (a b : ℝ) : ℝ := (b - a) / (a + b + 1)

/-- `scipy.special.betaln` (`/repo/dppy/multivariate_jacobi_ope.py` line 890) -/
noncomputable def betaln (x y : ℝ) : ℝ := gammaln x + gammaln y - gammaln (x + y)

open Classical in
/-- entry `[0, j]` of the table of logarithms for a coordinate that is not arcsine (multivariate_jacobi_ope.py:889-895).  When
`a + b + 1 = 0` the mode is infinite and one of the logarithms is `nan`; the logarithm of a negative number is `nan`; when `1 - mode`
or `1 + mode` vanishes its exponent vanishes too, and `0 * log(0)` is `nan`. -/
noncomputable def opeLogBound0 (a b : ℝ) : Option ℝ :=
  if a + b + 1 = 0 ∨ 1 - opeMode a b ≤ 0 ∨ 1 + opeMode a b ≤ 0 then none
  else some (Real.log Real.pi + (0.5 + a) * Real.log (1 - opeMode a b) + (0.5 + b) * Real.log (1 + opeMode a b)
    - ((a + b + 1) * Real.log 2 + betaln (a + 1) (b + 1)))

/-- entry `[n, j]`, `n >= 1`, of the table of logarithms for a coordinate that is not arcsine
(multivariate_jacobi_ope.py:912-919) -/
noncomputable def opeLogBoundPos (a b : ℝ) (n : ℕ) : ℝ :=
  Real.log 2 + gammaln (n + 1 + a + b) + gammaln (n + 1 + max a b) - gammaln (n + 1)
    - 2 * max a b * Real.log (n + 0.5 * (a + b + 1)) - gammaln (n + 1 + min a b)

open Classical in
/-- entry `[n, j]` of the table `bounds`, `log_scale=True` (multivariate_jacobi_ope.py:868-927) -/
noncomputable def opeLogBound (a b : ℝ) (n : ℕ) : Option ℝ :=
  if a = -0.5 ∧ b = -0.5 then some (if n = 0 then 0 else Real.log 2)
  else if n = 0 then opeLogBound0 a b
  else some (opeLogBoundPos a b n)

open Classical in
/-- `rejection_bounds[ind] = np.exp(np.sum(bounds[ordering, range(dim)], axis=1))` (multivariate_jacobi_ope.py:929-930): `nan` when
one of the terms is -/
noncomputable def opeBound (par : Fin d → ℝ × ℝ) (L : List (List ℕ)) (ind : Fin L.length) : Option ℝ :=
  if ∃ j : Fin d, opeLogBound (par j).1 (par j).2 (entry2 L ind j) = none then none
  else some (Real.exp (∑ j : Fin d, (opeLogBound (par j).1 (par j).2 (entry2 L ind j)).getD 0))

/-! ## Proposals -/

/-- `Pk2_x * w_over_w_eq` (multivariate_jacobi_ope.py:349-354) -/
noncomputable def opeTarget (par : Fin d → ℝ × ℝ) (L : List (List ℕ)) (ind : Fin L.length) (x : Fin d → ℝ) : ℝ :=
  (∏ j : Fin d, opeP par (entry2 L ind j) j (x j)) ^ 2 / opeSqNorm par L ind *
    (Real.pi ^ d * ∏ j : Fin d, ((1 - x j) ^ ((par j).1 + 0.5) * (1 + x j) ^ ((par j).2 + 0.5)))

/-- `rng.rand() * rejection_bound < target` (multivariate_jacobi_ope.py:356); a comparison with `nan` is false -/
def opeAccepts (bound : Option ℝ) (u target : ℝ) : Prop :=
  match bound with
  | none => False
  | some C => u * C < target

/-- `x = 1.0 - 2.0 * y` (multivariate_jacobi_ope.py:346) -/
def opePoint (y : Fin d → ℝ) : Fin d → ℝ := fun j => 1 - 2 * y j

open Classical in
/-- the loop over the trials (multivariate_jacobi_ope.py:342-361); when all are rejected the last proposal is returned -/
noncomputable def opePropLoop (par : Fin d → ℝ × ℝ) (L : List (List ℕ)) (ind : Fin L.length) :
    ℕ → (Fin d → ℝ) → RP (Fin d → ℝ)
  | 0, x => .ret x
  | T + 1, _ =>
    .beta d (fun _ => 1 / 2) (fun _ => 1 / 2) fun y => .unif 1 fun u =>
      if opeAccepts (opeBound par L ind) (u 0) (opeTarget par L ind (opePoint y)) then .ret (opePoint y)
      else opePropLoop par L ind T (opePoint y)

open Classical in
/-- `sample_chain_rule_proposal(nb_trials_max)` (multivariate_jacobi_ope.py:270-361); with `nb_trials_max = 0` the message of line 359
reads the variable `trial`, which is not defined -/
noncomputable def opeProposal (par : Fin d → ℝ × ℝ) (L : List (List ℕ)) (T0 : ℕ) : RP (Fin d → ℝ) :=
  .randint L.length fun ind =>
    if T0 = 0 then .fail .unboundLocalError else opePropLoop par L ind T0 0

/-! ## Chain rule -/

/-- the arrays `sample` and `phi` of `sample` (`/repo/dppy/multivariate_jacobi_ope.py` lines 425-426) -/
abbrev OpeSt (d N : ℕ) : Type := (Fin N → Fin d → ℝ) × (Fin N → Fin N → ℝ)

/-- `phi[:n]` (`/repo/dppy/multivariate_jacobi_ope.py` line 440) -/
def opeRows {N : ℕ} (s : OpeSt d N) (n : ℕ) : List (Fin N → ℝ) := (List.ofFn s.2).take n

open Classical in
/-- the loop over the trials of the point `n` (multivariate_jacobi_ope.py:430-449), `T` trials left.  The proposals are drawn with the
default `nb_trials_max` of `sample_chain_rule_proposal`, here `T0`. -/
noncomputable def opeTrials (par : Fin d → ℝ × ℝ) (L : List (List ℕ)) (T0 : ℕ) (n : Fin L.length) :
    ℕ → OpeSt d L.length → RP (OpeSt d L.length)
  | 0, s => .ret s
  | T + 1, s =>
    (opeProposal par L T0).bind fun x => .unif 1 fun u =>
      if u 0 < jacRatio (opeRows s n) (opePhi par L x) then
        .ret (Function.update s.1 n x, Function.update s.2 n
          ((√(jacResid (opeRows s n) (opePhi par L x) ⬝ᵥ jacResid (opeRows s n) (opePhi par L x)))⁻¹ •
            jacResid (opeRows s n) (opePhi par L x)))
      else opeTrials par L T0 n T (Function.update s.1 n x, Function.update s.2 n (jacResid (opeRows s n) (opePhi par L x)))

open Classical in
/-- the loop over the points (multivariate_jacobi_ope.py:428-449); with `nb_trials_max = 0` the message of line 449 reads the undefined
variable `trial` -/
noncomputable def opeSteps (par : Fin d → ℝ × ℝ) (L : List (List ℕ)) (T0 T : ℕ) :
    List (Fin L.length) → OpeSt d L.length → RP (OpeSt d L.length)
  | [], s => .ret s
  | n :: ns, s =>
    (if T = 0 then .fail .unboundLocalError else opeTrials par L T0 n T s).bind (opeSteps par L T0 T ns)

/-- `sample(nb_trials_max)` outside the tridiagonal branch (multivariate_jacobi_ope.py:425-451); the code has `T0 = 10000` -/
noncomputable def opeSample (par : Fin d → ℝ × ℝ) (L : List (List ℕ)) (T0 T : ℕ) : RP (Fin L.length → Fin d → ℝ) :=
  (opeSteps par L T0 T (List.finRange L.length) (0, 0)).map Prod.fst

/-- the tridiagonal branch of `sample` (multivariate_jacobi_ope.py:414-419): `tridiagonal_model(a + 1, b + 1, size=N)` with its default
`beta = 2`, as a column, then `1.0 - 2.0 * sample`.  `tridiagonal_model` is `mu_ref_beta_sampler_tridiag` (line 26). -/
noncomputable def opeTridiag (la : LA) (ab : ℝ × ℝ) (N : ℕ) : RP (Fin N → Fin d → ℝ) :=
  (betaTridiag la (ab.1 + 1) (ab.2 + 1) 2 N).map fun l => fun i _ => 1 - 2 * l.getD i 0

open Classical in
/-- `sample(nb_trials_max, tridiag_1D)` (multivariate_jacobi_ope.py:363-451) -/
noncomputable def opeSampleCall (la : LA) (params : List (ℝ × ℝ)) (J : JacobiOPE) (T0 T : ℕ) (tridiag1D : Bool) :
    RP (Fin J.ordering.length → Fin params.length → ℝ) :=
  if params.length = 1 ∧ tridiag1D = true then opeTridiag la (params.getD 0 (0, 0)) J.ordering.length
  else opeSample params.get J.ordering T0 T

end Verif.Model
