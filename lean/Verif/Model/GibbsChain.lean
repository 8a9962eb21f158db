import Verif.Model.PolyPotential
import Verif.Model.RandomMatrices
import Verif.Spec.PolyPotential

/-!
The Gibbs sampler of `/repo/dppy/beta_ensemble_polynomial_potential.py` (`sample_mcmc`, lines 150-203) as a random program: the
samplers of the conditionals are expectation operators (`draw P x φ` is the expectation of `φ` of the value drawn), and so is
each stage of the loop.  Exact reals; the acceptance flag of the samplers is ignored, as in the code.
-/

namespace Verif.Model
open Verif Polynomial MeasureTheory

/-- One iteration of the loop over `i` (lines 164-186 of `beta_ensemble_polynomial_potential.py`): the expectation of `k` of
the arrays after the iteration.  `drawA`, `drawB` are as in `gibbsStep`, random. -/
noncomputable def gibbsStepE (beta : ℝ) (N : ℕ) (V : ℝ[X]) (drawA drawB : ℝ[X] → ℝ → (ℝ → ENNReal) → ENNReal) (i : ℕ)
    (st : GibbsSt) (k : GibbsSt → ENNReal) : ENNReal :=
  drawA (C (1 / 2 * beta * N) * condPolyA i st.a st.b V) (pyGet st.a i) fun x =>
    if i < N then
      drawB (C (1 / 2 * beta * N) * condPolyB i (st.a.set i x) st.b V) (1 / 2 * beta * ((N : ℝ) - i)) fun z =>
        k { a := st.a.set i x, b := st.b.set i z }
    else k { a := st.a.set i x, b := st.b }

/-- iterations of the loop over the given indices, in order
(`/repo/dppy/beta_ensemble_polynomial_potential.py` lines 160-200) -/
noncomputable def gibbsLoopE (beta : ℝ) (N : ℕ) (V : ℝ[X]) (drawA drawB : ℝ[X] → ℝ → (ℝ → ENNReal) → ENNReal) :
    List ℕ → GibbsSt → (GibbsSt → ENNReal) → ENNReal
  | [], st, k => k st
  | i :: is, st, k => gibbsStepE beta N V drawA drawB i st fun st' => gibbsLoopE beta N V drawA drawB is st' k

/-- one pass, `for i in range(1, N + 1)` (`/repo/dppy/beta_ensemble_polynomial_potential.py` line 164) -/
noncomputable def gibbsPassE (beta : ℝ) (N : ℕ) (V : ℝ[X]) (drawA drawB : ℝ[X] → ℝ → (ℝ → ENNReal) → ENNReal)
    (st : GibbsSt) (k : GibbsSt → ENNReal) : ENNReal :=
  gibbsLoopE beta N V drawA drawB (List.range' 1 N) st k

/-- `for p in range(nb_gibbs_passes)` (`/repo/dppy/beta_ensemble_polynomial_potential.py` line 160), from the arrays `st` (the code starts from zero arrays, `gibbsInit N`) -/
noncomputable def gibbsRunE (beta : ℝ) (N : ℕ) (V : ℝ[X]) (drawA drawB : ℝ[X] → ℝ → (ℝ → ENNReal) → ENNReal) :
    ℕ → GibbsSt → (GibbsSt → ENNReal) → ENNReal
  | 0, st, k => k st
  | p + 1, st, k => gibbsPassE beta N V drawA drawB st fun st' => gibbsRunE beta N V drawA drawB p st' k

/-- `sampler_exact_convex_quartic(P)` (`/repo/dppy/beta_ensemble_polynomial_potential_core.py` lines 172-310, `shape=None`): the
expectation of `φ` of the value returned, given that it was accepted (so the loop is idealised: it goes on until a value is
accepted; the code gives up after 100 rounds).  `roots` is what the root finders return: mode and the two points. -/
noncomputable def devDrawA (roots : ℝ[X] → ℝ × ℝ × ℝ) (P : ℝ[X]) (_ : ℝ) (φ : ℝ → ENNReal) : ENNReal :=
  Spec.tapeLInt 100 (fun ts => Spec.accObs φ
      (devLoop (devState P none (roots P).1 (roots P).2.1 (roots P).2.2) (roots P).1 none 0 ts))
    / Spec.tapeLInt 100 (fun ts => Spec.accObs (fun _ => 1)
      (devLoop (devState P none (roots P).1 (roots P).2.1 (roots P).2.2) (roots P).1 none 0 ts))

/-- the same with a `shape` (`/repo/dppy/beta_ensemble_polynomial_potential_core.py` lines 207-310): when `P[2] = 0` or `shape <= 1` the density of the accepted values is the one of
`smallShapeLog`, normalised; otherwise the loop is run. -/
noncomputable def devDrawB (roots : ℝ[X] → ℝ → ℝ × ℝ × ℝ) (P : ℝ[X]) (shape : ℝ) (φ : ℝ → ENNReal) : ENNReal :=
  match devBranch P (some shape) with
  | .dev12 =>
    Spec.tapeLInt 100 (fun ts => Spec.accObs φ
        (devLoop (devState P (some shape) (roots P shape).1 (roots P shape).2.1 (roots P shape).2.2) (roots P shape).1
          (some (roots P shape).1) 0 ts))
      / Spec.tapeLInt 100 (fun ts => Spec.accObs (fun _ => 1)
        (devLoop (devState P (some shape) (roots P shape).1 (roots P shape).2.1 (roots P shape).2.2) (roots P shape).1
          (some (roots P shape).1) 0 ts))
  | _ =>
    (∫⁻ x in Set.Ioi (0 : ℝ), φ x * ENNReal.ofReal (Real.exp ((smallShapeLog P shape x).getD 0)))
      / ∫⁻ x in Set.Ioi (0 : ℝ), ENNReal.ofReal (Real.exp ((smallShapeLog P shape x).getD 0))

/-- what is assumed of the root finders for the diagonal coefficients
(`find_mode_convex_quartic`, `find_b_a_convex_quartic`, core `/repo/dppy/beta_ensemble_polynomial_potential_core.py` lines 30-53) -/
def RootsA (r : ℝ[X] → ℝ × ℝ × ℝ) : Prop :=
  ∀ P, (∃ m b a, QuarticRoots P m b a) → QuarticRoots P (r P).1 (r P).2.1 (r P).2.2

/-- ... and for the off-diagonal ones (`find_mode_convex_gen_gamma`, `find_a_b_convex_gen_gamma`, core `/repo/dppy/beta_ensemble_polynomial_potential_core.py` lines 67-130) -/
def RootsB (r : ℝ[X] → ℝ → ℝ × ℝ × ℝ) : Prop :=
  ∀ P s, (∃ m b a, GammaRoots s P m b a) → GammaRoots s P (r P s).1 (r P s).2.1 (r P s).2.2

/-- The arrays `a, b` of length `N + 3` (`/repo/dppy/beta_ensemble_polynomial_potential.py` line 153), `N = n + 1`, that hold the coefficients `a[1:N+1]` and `b[1:N]`; the other
entries are zero, as in the code. -/
def gState {n : ℕ} (p : (Fin (n + 1) → ℝ) × (Fin n → ℝ)) : GibbsSt where
  a := 0 :: (List.ofFn p.1 ++ [0, 0])
  b := 0 :: (List.ofFn p.2 ++ [0, 0, 0])

/-- `la.eigvalsh_tridiagonal(a[1:N + 1], np.sqrt(b[1:N]))` (`/repo/dppy/beta_ensemble_polynomial_potential.py` line 203) -/
noncomputable def gibbsEig (la : LA) (N : ℕ) (st : GibbsSt) : List ℝ :=
  eigTridiag la N (fun i => st.a.getD (i + 1) 0) (fun i => √(st.b.getD (i + 1) 0))

end Verif.Model
