import Verif.Outcome
import Mathlib.Algebra.Polynomial.Derivative
import Mathlib.Algebra.Polynomial.Eval.Defs
import Mathlib.Analysis.SpecialFunctions.Log.Basic
import Mathlib.LinearAlgebra.Matrix.Trace
import Mathlib.Analysis.Real.Sqrt

/-!
Model of `/repo/dppy/beta_ensemble_polynomial_potential_core.py` (shift of polynomials, samplers of the conditionals,
MALA, polynomials of the conditionals) and `/repo/dppy/beta_ensemble_polynomial_potential.py` (constructor and Gibbs
sampler).

`np.poly1d` objects are polynomials; numbers are exact reals; random numbers are parameters.  Not modelled: the root
finders (`roots`, `brentq`, `newton`), the plots.  The equilibrium densities are in `Verif/Model/Equilibrium.lean`.
-/

namespace Verif.Model
open Verif Polynomial

/-- `shift_pol(P, x0)` (`/repo/dppy/beta_ensemble_polynomial_potential_core.py` lines 9-15):
`sum((X - x0)**n * c_n)` over the coefficients in increasing order. -/
noncomputable def shiftPol (P : ℝ[X]) (x0 : ℝ) : ℝ[X] :=
  ∑ n ∈ Finset.range (P.natDegree + 1), (X - C x0) ^ n * C (P.coeff n)

/-! ## Conditionals -/

/-- `l[z]` with a Python integer `z` (negative indices count from the end); the default is never used for the
indices of the Gibbs sampler. (`/repo/dppy/beta_ensemble_polynomial_potential_core.py` lines 340-473) -/
def pyGet (l : List ℝ) (z : ℤ) : ℝ :=
  if z < 0 then l.getD (l.length + z).toNat 0 else l.getD z.toNat 0

/-- `polynomial_in_negative_log_conditional_a_coef(i, a, b, V)`
(`/repo/dppy/beta_ensemble_polynomial_potential_core.py` lines 340-412).  `if V[k]:` skips a zero term, which does not
change the sum. -/
noncomputable def condPolyA (i : ℤ) (a b : List ℝ) (V : ℝ[X]) : ℝ[X] :=
  C (V.coeff 1) * X
  + C (V.coeff 2) * X ^ 2
  + C (V.coeff 3) * (X ^ 3 + C (3 * (pyGet b (i - 1) + pyGet b i)) * X)
  + C (V.coeff 4) * (X ^ 4 + C (4 * (pyGet b (i - 1) + pyGet b i)) * X ^ 2
      + C (4 * (pyGet a (i - 1) * pyGet b (i - 1) + pyGet a (i + 1) * pyGet b i)) * X)
  + C (V.coeff 5) * (X ^ 5 + C (5 * (pyGet b (i - 1) + pyGet b i)) * X ^ 3
      + C (5 * (pyGet a (i - 1) * pyGet b (i - 1) + pyGet a (i + 1) * pyGet b i)) * X ^ 2
      + C (5 * (pyGet b (i - 1) * (pyGet a (i - 1) ^ 2 + pyGet b (max 0 (i - 2)))
          + (pyGet b (i - 1) + pyGet b i) ^ 2
          + pyGet b i * (pyGet a (i + 1) ^ 2 + pyGet b (i + 1)))) * X)
  + C (V.coeff 6) * (X ^ 6 + C (6 * (pyGet b (i - 1) + pyGet b i)) * X ^ 4
      + C (6 * (pyGet a (i - 1) * pyGet b (i - 1) + pyGet a (i + 1) * pyGet b i)) * X ^ 3
      + C (3 * (2 * pyGet b (i - 1) * (pyGet a (i - 1) ^ 2 + pyGet b (max 0 (i - 2)))
          + 3 * (pyGet b (i - 1) + pyGet b i) ^ 2
          + 2 * pyGet b i * (pyGet a (i + 1) ^ 2 + pyGet b (i + 1)))) * X ^ 2
      + C (6 * (pyGet a (max 0 (i - 2)) * pyGet b (max 0 (i - 2)) * pyGet b (i - 1)
          + pyGet a (i - 1) * pyGet b (i - 1)
            * (pyGet a (i - 1) ^ 2 + 2 * (pyGet b (max 0 (i - 2)) + pyGet b (i - 1) + pyGet b i))
          + pyGet a (i + 1) * pyGet b i
            * (pyGet a (i + 1) ^ 2 + 2 * (pyGet b (i - 1) + pyGet b i + pyGet b (i + 1)))
          + pyGet a (i + 2) * pyGet b i * pyGet b (i + 1))) * X)

/-- `polynomial_in_negative_log_conditional_b_coef(i, a, b, V)`
(`/repo/dppy/beta_ensemble_polynomial_potential_core.py` lines 415-471). -/
noncomputable def condPolyB (i : ℤ) (a b : List ℝ) (V : ℝ[X]) : ℝ[X] :=
  C (V.coeff 2) * (C 2 * X)
  + C (V.coeff 3) * (C (3 * (pyGet a i + pyGet a (i + 1))) * X)
  + C (V.coeff 4) * (C 2 * X ^ 2
      + C (4 * (pyGet a i ^ 2 + pyGet a i * pyGet a (i + 1) + pyGet a (i + 1) ^ 2
          + pyGet b (i - 1) + pyGet b (i + 1))) * X)
  + C (V.coeff 5) * (C (5 * (pyGet a i + pyGet a (i + 1))) * X ^ 2
      + C (5 * (pyGet a i ^ 3 + pyGet a i ^ 2 * pyGet a (i + 1) + pyGet a i * pyGet a (i + 1) ^ 2 + pyGet a (i + 1) ^ 3
          + pyGet b (i - 1) * (pyGet a (i - 1) + 2 * pyGet a i + pyGet a (i + 1))
          + pyGet b (i + 1) * (pyGet a i + 2 * pyGet a (i + 1) + pyGet a (i + 2)))) * X)
  + C (V.coeff 6) * (C 2 * X ^ 3
      + C (3 * (3 * pyGet a i ^ 2 + 4 * pyGet a i * pyGet a (i + 1) + 3 * pyGet a (i + 1) ^ 2
          + 2 * (pyGet b (i - 1) + pyGet b (i + 1)))) * X ^ 2
      + C (6 * (pyGet a i ^ 4 + pyGet a i ^ 3 * pyGet a (i + 1) + pyGet a i ^ 2 * pyGet a (i + 1) ^ 2
          + pyGet a i * pyGet a (i + 1) ^ 3 + pyGet a (i + 1) ^ 4
          + pyGet b (i - 1) * (pyGet a (i - 1) ^ 2 + pyGet a (i - 1) * pyGet a (i + 1) + pyGet a (i + 1) ^ 2
              + pyGet a i * (2 * pyGet a (i - 1) + 3 * pyGet a i + 2 * pyGet a (i + 1))
              + pyGet b (i - 2) + pyGet b (i - 1) + pyGet b (i + 1))
          + pyGet b (i + 1) * (pyGet a i ^ 2 + pyGet a i * pyGet a (i + 2) + pyGet a (i + 2) ^ 2
              + pyGet a (i + 1) * (2 * pyGet a i + 3 * pyGet a (i + 1) + 2 * pyGet a (i + 2))
              + pyGet b (i + 1) + pyGet b (i + 2)))) * X)

/-! ## Constructor and Gibbs sampler -/

open Classical in
/-- `BetaEnsemblePolynomialPotential.__init__(beta, potential_V)`
(`/repo/dppy/beta_ensemble_polynomial_potential.py` lines 22-49) without the equilibrium density: the checks in order and the
potential kept by the object (`V[0]` reset to zero).  `V.order` is the degree. -/
noncomputable def potentialInit (beta : ℝ) (V : ℝ[X]) : Outcome ℝ[X] :=
  if ¬ 0 < beta then .valueError
  else if 7 < V.natDegree then .valueError
  else if V.coeff 5 ≠ 0 then .valueError
  else if V.natDegree % 2 = 1 then .valueError
  else if V.coeff V.natDegree < 0 then .valueError
  else .ok (V - C (V.coeff 0))

open Classical in
/-- The checks of `sample_mcmc(sample_exact_cond=True)`
(`/repo/dppy/beta_ensemble_polynomial_potential.py` lines 134-148): `V[3]`, degree at least five, and some even coefficient
`g_2, g_4, ...` negative. -/
noncomputable def exactCondCheck (V : ℝ[X]) : Outcome Unit :=
  if V.coeff 3 ≠ 0 then .valueError
  else if 5 ≤ V.natDegree then .valueError
  else if ¬ (∀ n, 1 ≤ n → 2 * n ≤ V.natDegree → 0 ≤ V.coeff (2 * n)) then .valueError
  else .ok ()

/-- The arrays `a` and `b` of the Gibbs sampler, both of length `N + 3`.
(`/repo/dppy/beta_ensemble_polynomial_potential.py` lines 160-200) -/
structure GibbsSt where
  a : List ℝ
  b : List ℝ

/-- `a, b = np.zeros((2, N + 3))` (`/repo/dppy/beta_ensemble_polynomial_potential.py` line 153) -/
def gibbsInit (N : ℕ) : GibbsSt where
  a := List.replicate (N + 3) 0
  b := List.replicate (N + 3) 0

/-- One iteration of the loop over `i` (`/repo/dppy/beta_ensemble_polynomial_potential.py` lines 164-186): `a[i]` is replaced, then `b[i]` when `i < N`.  `drawA`, `drawB` are
the samplers of the conditionals: they see the polynomial (times `0.5 * beta * N`), the current value (for MALA) or the
shape `0.5 * beta * (N - i)`. -/
noncomputable def gibbsStep (beta : ℝ) (N : ℕ) (V : ℝ[X]) (drawA : ℝ[X] → ℝ → ℝ) (drawB : ℝ[X] → ℝ → ℝ) (i : ℕ)
    (st : GibbsSt) : GibbsSt :=
  let a' := st.a.set i (drawA (C (1 / 2 * beta * N) * condPolyA i st.a st.b V) (pyGet st.a i))
  { a := a'
    b := if i < N then
        st.b.set i (drawB (C (1 / 2 * beta * N) * condPolyB i a' st.b V) (1 / 2 * beta * ((N : ℝ) - i)))
      else st.b }

/-- The arrays after `t` iterations of the inner loop (`/repo/dppy/beta_ensemble_polynomial_potential.py` lines 158-186): pass `t / N`, index `i = t % N + 1`.  The draws of
iteration `t` are `drawA t`, `drawB t`; `sample_mcmc(N, nb_gibbs_passes)` stops after `nb_gibbs_passes * N` iterations. -/
noncomputable def gibbsAfter (beta : ℝ) (N : ℕ) (V : ℝ[X]) (drawA drawB : ℕ → ℝ[X] → ℝ → ℝ) : ℕ → GibbsSt
  | 0 => gibbsInit N
  | t + 1 => gibbsStep beta N V (drawA t) (drawB t) (t % N + 1) (gibbsAfter beta N V drawA drawB t)

/-- The tridiagonal matrix whose eigenvalues are returned, `la.eigvalsh_tridiagonal(a[1:N + 1], np.sqrt(b[1:N]))`
(lines 189, 192 and 203 of `beta_ensemble_polynomial_potential.py`). -/
noncomputable def gibbsMatrix (N : ℕ) (st : GibbsSt) : Matrix (Fin N) (Fin N) ℝ := Matrix.of fun p q =>
  if p = q then st.a.getD (p + 1) 0
  else if (q : ℕ) = p + 1 then Real.sqrt (st.b.getD (p + 1) 0)
  else if (p : ℕ) = q + 1 then Real.sqrt (st.b.getD (q + 1) 0)
  else 0

/-! ## MALA -/

/-- mean of the proposal, `x_ - 0.5 * sigma**2 * grad_Vx`
(`/repo/dppy/beta_ensemble_polynomial_potential_core.py` line 325) -/
noncomputable def malaMean (V : ℝ[X]) (sigma x : ℝ) : ℝ := x - 1 / 2 * sigma ^ 2 * V.derivative.eval x

/-- the log of the acceptance ratio computed by `sampler_mala` (`/repo/dppy/beta_ensemble_polynomial_potential_core.py` lines 329-333) -/
noncomputable def malaAccept (V : ℝ[X]) (sigma x y : ℝ) : ℝ :=
  V.eval x - V.eval y
    + 1 / 2 / sigma ^ 2 * ((x - y + 1 / 2 * sigma ^ 2 * V.derivative.eval y) ^ 2
      - (y - x + 1 / 2 * sigma ^ 2 * V.derivative.eval x) ^ 2)

open Classical in
/-- `sampler_mala(x, V, sigma, nb_steps)` (`/repo/dppy/beta_ensemble_polynomial_potential_core.py` lines 313-337): each element of the tape is `(rng.randn(), rng.rand())`. -/
noncomputable def malaChain (V : ℝ[X]) (sigma : ℝ) : ℝ → List (ℝ × ℝ) → ℝ
  | x, [] => x
  | x, (g, u) :: ts =>
    malaChain V sigma
      (if Real.log u < malaAccept V sigma x (malaMean V sigma x + sigma * g) then malaMean V sigma x + sigma * g else x) ts

/-! ## Exact sampler of the log-concave conditionals -/

/-- What the sampler computes from the target `log_f` (recentred at its mode) and the points `b < 0 < a`
(`/repo/dppy/beta_ensemble_polynomial_potential_core.py` lines 232-237). -/
structure DevSt where
  logf : ℝ → ℝ
  a : ℝ
  b : ℝ

/-- `log_f_a - log_f_2a` (`/repo/dppy/beta_ensemble_polynomial_potential_core.py` line 237) -/
noncomputable def DevSt.fa2a (s : DevSt) : ℝ := s.logf s.a - s.logf (2 * s.a)
/-- `log_f_b - log_f_2b` (`/repo/dppy/beta_ensemble_polynomial_potential_core.py` line 237) -/
noncomputable def DevSt.fb2b (s : DevSt) : ℝ := s.logf s.b - s.logf (2 * s.b)

open Classical in
/-- the dominating function `log_h(x)` (`/repo/dppy/beta_ensemble_polynomial_potential_core.py` lines 239-250) -/
noncomputable def DevSt.logh (s : DevSt) (x : ℝ) : ℝ :=
  if x < 2 * s.b then (s.b - x) * (s.fb2b / s.b) + s.logf s.b
  else if x < s.b then s.logf s.b
  else if x < s.a then s.logf 0
  else if x < 2 * s.a then s.logf s.a
  else (s.a - x) * (s.fa2a / s.a) + s.logf s.a

/-- the masses of the five regions `[b,a]`, `[a,2a]`, `[2b,b]`, `[2a,oo)`, and the left tail, in this order: the terms
`b_lse * exp(a_lse)` (`/repo/dppy/beta_ensemble_polynomial_potential_core.py` lines 259-269).  `trunc = none`: no truncation (`shape is None`); `some mode`: the left tail stops at
`-mode`, the last two terms of the list are added. -/
noncomputable def DevSt.masses (s : DevSt) : Option ℝ → List ℝ
  | none => [(s.a + |s.b|) * Real.exp (s.logf 0), s.a * Real.exp (s.logf s.a), |s.b| * Real.exp (s.logf s.b),
      s.a / s.fa2a * Real.exp (s.logf (2 * s.a)), |s.b| / s.fb2b * Real.exp (s.logf (2 * s.b))]
  | some mode => [(s.a + |s.b|) * Real.exp (s.logf 0), s.a * Real.exp (s.logf s.a), |s.b| * Real.exp (s.logf s.b),
      s.a / s.fa2a * Real.exp (s.logf (2 * s.a)),
      |s.b| / s.fb2b * Real.exp (s.logf (2 * s.b))
        + -|s.b| / s.fb2b * Real.exp (s.logf s.b + (1 + mode / s.b) * s.fb2b)]

/-- the proposal in each region from a uniform number (`/repo/dppy/beta_ensemble_polynomial_potential_core.py` lines 281-302); regions in the order of `masses`. -/
noncomputable def DevSt.propose (s : DevSt) (trunc : Option ℝ) (u : ℝ) : ℕ → ℝ
  | 0 => s.b + (s.a - s.b) * u
  | 1 => s.a + s.a * u
  | 2 => s.b + s.b * u
  | 3 => 2 * s.a - s.a / s.fa2a * Real.log u
  | _ => match trunc with
    | none => 2 * s.b + |s.b| / s.fb2b * Real.log (1 - u)
    | some mode => 2 * s.b + |s.b| / s.fb2b
        * Real.log (1 - u * (1 - Real.exp (-(mode + 2 * s.b) / (|s.b| / s.fb2b))))

open Classical in
/-- the region chosen by `V` (`/repo/dppy/beta_ensemble_polynomial_potential_core.py` lines 281-298): the first partial sum of the masses that reaches `V * Z_h`. -/
noncomputable def devRegion (v : ℝ) (w : List ℝ) : ℕ :=
  if v * w.sum ≤ (w.take 1).sum then 0
  else if v * w.sum ≤ (w.take 2).sum then 1
  else if v * w.sum ≤ (w.take 3).sum then 2
  else if v * w.sum ≤ (w.take 4).sum then 3
  else 4

open Classical in
/-- the loop (`/repo/dppy/beta_ensemble_polynomial_potential_core.py` lines 271-310): each element of the tape is `(U, V, W)`; the value returned (shifted back by the mode) and
whether it was accepted. A tape of length zero does not occur (`nb_iter_max = 100`). -/
noncomputable def devLoop (s : DevSt) (mode : ℝ) (trunc : Option ℝ) : ℝ → List (ℝ × ℝ × ℝ) → ℝ × Bool
  | last, [] => (last + mode, false)
  | _, (u, v, w) :: ts =>
    let x := s.propose trunc u (devRegion v (s.masses trunc))
    if Real.log w ≤ s.logf x - s.logh x then (x + mode, true) else devLoop s mode trunc x ts

/-- `log_f` (`/repo/dppy/beta_ensemble_polynomial_potential_core.py` lines 203-204 and 226-227): the log-density of the target, up to a constant, with its mode at the origin. -/
noncomputable def devLogf (P : ℝ[X]) (shape : Option ℝ) (mode x : ℝ) : ℝ :=
  shape.elim (-P.eval (x + mode)) (fun k => (k - 1) * Real.log (x + mode) - P.eval (x + mode))

/-- the quantities the loop works with: `b, a = 0.5 * find_...` (`/repo/dppy/beta_ensemble_polynomial_potential_core.py` lines 206 and 229). -/
noncomputable def devState (P : ℝ[X]) (shape : Option ℝ) (mode rootB rootA : ℝ) : DevSt where
  logf := devLogf P shape mode
  a := 1 / 2 * rootA
  b := 1 / 2 * rootB

/-- What `find_mode_convex_quartic` and `find_b_a_convex_quartic` return (`/repo/dppy/beta_ensemble_polynomial_potential_core.py` lines 30-53): a real root of `P'`, and the two real
roots, in increasing order, of `shift_pol(P, -mode) - P(mode) - 2 log 2` (with another number of real roots the unpacking
`b, a = ...` raises).  The root finder itself is not modelled. -/
structure QuarticRoots (P : ℝ[X]) (mode rootB rootA : ℝ) : Prop where
  mode_root : P.derivative.eval mode = 0
  b_root : (shiftPol P (-mode) - C (P.eval mode) - C (2 * Real.log 2)).eval rootB = 0
  a_root : (shiftPol P (-mode) - C (P.eval mode) - C (2 * Real.log 2)).eval rootA = 0
  lt : rootB < rootA

/-- What `find_mode_convex_gen_gamma` and `find_a_b_convex_gen_gamma` return (`/repo/dppy/beta_ensemble_polynomial_potential_core.py` lines 67-130): a positive root of
`X P'(X) - (shape - 1)`; `b` between `-mode` and zero, either a root of `f` or `-mode / 2`; `a` a root of `f`, assumed
positive (Newton iteration started at a positive point; its convergence is not modelled). -/
structure GammaRoots (shape : ℝ) (P : ℝ[X]) (mode rootB rootA : ℝ) : Prop where
  mode_pos : 0 < mode
  mode_root : (X * P.derivative - C (shape - 1)).eval mode = 0
  b_root : (-mode < rootB ∧ rootB < 0 ∧ (shape - 1) * Real.log (1 + rootB / mode)
      - (shiftPol P (-mode) - C (P.eval mode) - C (2 * Real.log 2)).eval rootB = 0) ∨ rootB = -(1 / 2) * mode
  a_pos : 0 < rootA
  a_root : (shape - 1) * Real.log (1 + rootA / mode)
      - (shiftPol P (-mode) - C (P.eval mode) - C (2 * Real.log 2)).eval rootA = 0

/-- acceptance test of `trunc_gaussian_sampler(b, mu, var)` (`/repo/dppy/beta_ensemble_polynomial_potential_core.py` line 140): the log ratio compared with `log U` -/
noncomputable def truncGaussLog (b mu var x : ℝ) : ℝ := -(b - mu) * (x - b) / var

/-- acceptance test of `gen_gamma_alpha_lt_1_sampler(shape, P)` (`/repo/dppy/beta_ensemble_polynomial_potential_core.py` line 158) -/
noncomputable def genGammaLog (P : ℝ[X]) (x : ℝ) : ℝ := -P.coeff 2 * x ^ 2

/-- Which sampler `sampler_exact_convex_quartic(P, shape)` uses (`/repo/dppy/beta_ensemble_polynomial_potential_core.py` lines 197-230). -/
inductive DevBranch where
  | quartic
  | gamma
  | genGamma
  | truncGauss
  | dev12

open Classical in
/-- the choice of the branch (`/repo/dppy/beta_ensemble_polynomial_potential_core.py` lines 197-225) -/
noncomputable def devBranch (P : ℝ[X]) : Option ℝ → DevBranch
  | none => .quartic
  | some shape =>
    if P.coeff 2 = 0 then .gamma
    else if shape < 1 then .genGamma
    else if shape = 1 then .truncGauss
    else .dev12

/-- log-density, up to a constant, of `rng.gamma(shape, scale)`
(`/repo/dppy/beta_ensemble_polynomial_potential_core.py` lines 157, 210) -/
noncomputable def gammaLogPdf (shape scale x : ℝ) : ℝ := (shape - 1) * Real.log x - x / scale

/-- log-density, up to a constant, of `rng.normal(loc, scale=sqrt(var))`
(`/repo/dppy/beta_ensemble_polynomial_potential_core.py` line 138) -/
noncomputable def normalLogPdf (loc var x : ℝ) : ℝ := -(x - loc) ^ 2 / (2 * var)

/-- log-density on `x > 0`, up to a constant, of the values accepted by the samplers used for `shape <= 1` or `P[2] = 0`
(`/repo/dppy/beta_ensemble_polynomial_potential_core.py` lines 209-222, 128-169): log-density of the proposal plus the log of the acceptance probability (the comparison with
`log U`, so the probability is capped at one).  `none` for the other branches. -/
noncomputable def smallShapeLog (P : ℝ[X]) (shape x : ℝ) : Option ℝ :=
  match devBranch P (some shape) with
  | .gamma => some (gammaLogPdf shape (1 / P.coeff 1) x)
  | .genGamma => some (gammaLogPdf shape (1 / P.coeff 1) x + min 0 (genGammaLog P x))
  | .truncGauss => some (normalLogPdf 0 (1 / 2 / P.coeff 2) x
      + min 0 (truncGaussLog 0 (-(1 / 2) * P.coeff 1 / P.coeff 2) (1 / 2 / P.coeff 2) x))
  | _ => none

end Verif.Model
