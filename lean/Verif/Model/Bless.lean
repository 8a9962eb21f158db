import Verif.Model.Intermediate
import Mathlib.Analysis.SpecialFunctions.Pow.Real
import Mathlib.Analysis.SpecialFunctions.Log.Base

/-!
Model of `/repo/dppy/bless.py`, of `stable_filter` and `stable_invert_root` (`/repo/dppy/utils.py` lines 230-266) and
of the pre-computations of `/repo/dppy/intermediate_sampling.py`.

The data set is `X_0, ..., X_{n-1}` and `L i j` is `eval_L(X_i, X_j)`; in particular `evaluate_L_diagonal` is the
diagonal of `L` (`eval_L` is a deterministic function of pairs of points).  A boolean vector `rng.rand(n) <= p` is a
vector of independent coins.  Floating point rounding, progress bars and their `set_postfix` are not modelled.
-/

namespace Verif.Model
open Verif
open scoped ENNReal NNReal

variable {n : ℕ}

/-- The numerical routines that are not part of the repository: `np.linalg.eigh`, `np.linalg.svd` (left singular
vectors and singular values of a square matrix), `scipy.optimize.brentq` (`none` if it fails or does not converge) and
`np.finfo(float).eps`. (`/repo/dppy/bless.py` lines 59, 246) -/
structure Numerics where
  eigh : (m : ℕ) → (Fin m → Fin m → ℝ) → (Fin m → ℝ) × (Fin m → Fin m → ℝ)
  svd : (m : ℕ) → (Fin m → Fin m → ℝ) → (Fin m → Fin m → ℝ) × (Fin m → ℝ)
  brentq : (ℝ → ℝ) → ℝ → ℝ → Option ℝ
  eps : ℝ

/-! ### stable_filter -/

/-- `thresh = np.abs(eigenval).max() * max(eigenval.shape) * np.finfo(eigenval.dtype).eps`
(`/repo/dppy/utils.py` line 239), for non-empty arrays. -/
noncomputable def stableThresh {m : ℕ} (eps : ℝ) (v : Fin m → ℝ) : ℝ :=
  (List.ofFn fun i => |v i|).foldl max 0 * m * eps

open Classical in
/-- the columns kept by `stable_filter`: `np.logical_not(np.isclose(eigenval, 0., atol=thresh))`
(`/repo/dppy/utils.py` line 240, 247-248) -/
noncomputable def stableKeep {m : ℕ} (eps : ℝ) (v : Fin m → ℝ) : List (Fin m) :=
  (List.finRange m).filter fun i => stableThresh eps v < |v i|

open Classical in
/-- `stable_filter` (`/repo/dppy/utils.py` lines 230-253): the columns that are kept.  The shapes always match in the
calls made by the repository. -/
noncomputable def stableFilter {m : ℕ} (eps : ℝ) (v : Fin m → ℝ) : Outcome (List (Fin m)) :=
  if ∃ i, v i ≤ -stableThresh eps v then .valueError else .ok (stableKeep eps v)

/-! ### BLESS -/

/-- `CentersDictionary` (`/repo/dppy/bless.py` lines 32-33): pairs `(idx, probs)`; `X` is `X_data[idx]`. -/
structure Centers (n : ℕ) where
  items : List (Fin n × ℝ)
  lam : ℝ
  over : ℝ

/-- `D.idx` (`/repo/dppy/bless.py` line 211) -/
def Centers.idx (D : Centers n) (e : Fin D.items.length) : Fin n := (D.items.get e).1

/-- `D.probs` (`/repo/dppy/bless.py` line 213) -/
def Centers.probs (D : Centers n) (e : Fin D.items.length) : ℝ := (D.items.get e).2

/-- `eval_L(D.X, D.X) + lam_new * np.diag(D.probs)` (`/repo/dppy/bless.py` line 59) -/
noncomputable def blessMat (L : Matrix (Fin n) (Fin n) ℝ) (D : Centers n) (lam : ℝ)
    (e f : Fin D.items.length) : ℝ :=
  L (D.idx e) (D.idx f) + if e = f then lam * D.probs e else 0

/-- `X_precond[j, i]` (`/repo/dppy/bless.py` lines 59-65), for a column `j` kept by `stable_invert_root` -/
noncomputable def blessPrecond (num : Numerics) (L : Matrix (Fin n) (Fin n) ℝ) (D : Centers n) (lam : ℝ)
    (j : Fin D.items.length) (i : Fin n) : ℝ :=
  1 / Real.sqrt ((num.svd _ (blessMat L D lam)).2 j) * ∑ e, (num.svd _ (blessMat L D lam)).1 e j * L (D.idx e) i

/-- `rls_estimate` of the point `i` (`/repo/dppy/bless.py` line 69), for the columns `keep` -/
noncomputable def blessRls (num : Numerics) (L : Matrix (Fin n) (Fin n) ℝ) (D : Centers n) (lam : ℝ)
    (keep : List (Fin D.items.length)) (i : Fin n) : ℝ :=
  (L i i - (keep.map fun j => blessPrecond num L D lam j i ^ 2).sum) / lam

open Classical in
/-- `estimate_rls_bless(D, X_U, eval_L, lam_new)` (`/repo/dppy/bless.py` lines 36-75): the estimates of the points in
`U` (those outside of `U` are not looked at). -/
noncomputable def estimateRlsBless (num : Numerics) (L : Matrix (Fin n) (Fin n) ℝ) (D : Centers n) (U : Fin n → Bool)
    (lam : ℝ) : Outcome (Fin n → ℝ) :=
  match stableFilter num.eps (num.svd _ (blessMat L D lam)).2 with
  | .raise e => .raise e
  | .ok keep => if ∃ i, U i = true ∧ blessRls num L D lam keep i < 0 then .valueError
      else .ok (blessRls num L D lam keep)

/-- `ucb = np.minimum(rls_oversample_parameter * diag / (diag + lam_new), 1.)` (`/repo/dppy/bless.py` line 111) -/
noncomputable def ucb (L : Matrix (Fin n) (Fin n) ℝ) (over lam : ℝ) (i : Fin n) : ℝ :=
  min (over * L i i / (L i i + lam)) 1

/-- `probs = np.minimum(rls_oversample_parameter * rls_estimate, ucb[U])` (`/repo/dppy/bless.py` line 124) -/
noncomputable def redProbs (L : Matrix (Fin n) (Fin n) ℝ) (over lam : ℝ) (rls : Fin n → ℝ) (i : Fin n) : ℝ :=
  min (over * rls i) (ucb L over lam i)

/-- `probs_reject = probs / ucb[U]` (`/repo/dppy/bless.py` line 125) -/
noncomputable def redReject (L : Matrix (Fin n) (Fin n) ℝ) (over lam : ℝ) (rls : Fin n → ℝ) (i : Fin n) : ℝ :=
  redProbs L over lam rls i / ucb L over lam i

/-- the points of a boolean mask, in increasing order (`/repo/dppy/bless.py` lines 113, 138, 234) -/
def selOnes (U : Fin n → Bool) : List (Fin n) := (List.finRange n).filter fun i => U i

open Classical in
/-- `reduce_lambda` (`/repo/dppy/bless.py` lines 78-151), `over = none` for the default.  The second vector of coins
has one entry per point of `U`; here it has one entry per point and the entries outside of `U` are ignored. -/
noncomputable def reduceLambda (num : Numerics) (L : Matrix (Fin n) (Fin n) ℝ) (D : Centers n) (lam : ℝ)
    (over? : Option ℝ) : PMF (Outcome (Centers n)) :=
  let over := over?.getD D.over
  if D.lam / lam < 1 then PMF.pure .valueError
  else (indep fun i => coin (ucb L over lam i)).bind fun U =>
    if selOnes U = [] then PMF.pure .valueError
    else match estimateRlsBless num L D U lam with
      | .raise e => PMF.pure (.raise e)
      | .ok rls =>
        if ∃ i ∈ selOnes U, redProbs L over lam rls i < 0 then PMF.pure .valueError
        else if over * (((selOnes U).map fun i => redReject L over lam rls i).sum / over) < 1 then PMF.pure .valueError
        else (indep fun i => coin (redReject L over lam rls i)).map fun sel =>
          if (selOnes U).filter (fun i => sel i) = [] then .valueError
          else .ok
            { items := ((selOnes U).filter fun i => sel i).map fun i => (i, redProbs L over lam rls i)
              lam := lam
              over := over }

/-- `rls_oversample_param * diag_norm / (diag_norm + lam_init)` (`/repo/dppy/bless.py` lines 227, 230, 358) -/
noncomputable def ucbInit (L : Matrix (Fin n) (Fin n) ℝ) (over lam : ℝ) (i : Fin n) : ℝ := over * L i i / (L i i + lam)

open Classical in
/-- the loop `while ucb_init.sum() <= 10` (`/repo/dppy/bless.py` lines 228-230): the value of `lam_init` after the
loop, `none` if the loop is still running after `fuel` tests. -/
noncomputable def lamInitLoop (L : Matrix (Fin n) (Fin n) ℝ) (over : ℝ) : ℕ → ℝ → Option ℝ
  | 0, _ => none
  | fuel + 1, lam => if ∑ i, ucbInit L over lam i ≤ 10 then lamInitLoop L over fuel (lam / 1.25) else some lam

/-- `list(np.geomspace(start, stop, num))` for positive ends, `num` non-negative: the ends are exact.
(`/repo/dppy/bless.py` lines 246, 356) -/
noncomputable def geomspace (start stop : ℝ) (num : ℕ) : List ℝ :=
  (List.range num).map fun i => if i = 0 then start else if i + 1 = num then stop
    else start * (stop / start) ^ ((i : ℝ) / ((num : ℝ) - 1))

open Classical in
/-- The initial dictionary (`/repo/dppy/bless.py` lines 234-244 and 362-373): the first point is forced, its
probability is set to `rls_oversample_param`. -/
noncomputable def blessInit (L : Matrix (Fin n) (Fin n) ℝ) (over lam : ℝ) : PMF (Outcome (Centers n)) :=
  if n = 0 then PMF.pure .indexError
  else (indep fun i => coin (ucbInit L over lam i)).map fun sel => .ok
    { items := (selOnes fun i => sel i || decide (i.val = 0)).map fun i =>
        (i, if i.val = 0 then over * 1 else ucbInit L over lam i)
      lam := lam
      over := over }

/-- the loop over the decreasing values of lambda (`/repo/dppy/bless.py` lines 252-258) -/
noncomputable def blessSteps (num : Numerics) (L : Matrix (Fin n) (Fin n) ℝ) :
    List ℝ → Centers n → PMF (Outcome (Centers n))
  | [], D => PMF.pure (.ok D)
  | lam :: rest, D => PMF.andThen (reduceLambda num L D lam none) fun D' => blessSteps num L rest D'

/-- default number of iterations of `bless` (`/repo/dppy/bless.py` lines 222-223) -/
noncomputable def blessIters (n : ℕ) (nbIter : Option ℕ) : ℕ := nbIter.getD ⌈Real.log n⌉₊

/-- `bless` (`/repo/dppy/bless.py` lines 154-269) once `lam_init` is known: the last value of `lam_sequence` is
popped first and discarded (`IndexError` on an empty list), the others are used from the last to the first. -/
noncomputable def blessFrom (num : Numerics) (L : Matrix (Fin n) (Fin n) ℝ) (lamFinal over : ℝ) (nbIter : Option ℕ)
    (lamInit : ℝ) : PMF (Outcome (Centers n)) :=
  PMF.andThen (blessInit L over lamInit) fun D =>
    match (geomspace lamFinal lamInit (blessIters n nbIter)).reverse with
    | [] => PMF.pure .indexError
    | _ :: rest => blessSteps num L rest D

/-- the outcome of `bless`, `none` if the search of `lam_init` is still running after `fuel` tests
(`/repo/dppy/bless.py` lines 154-269) -/
noncomputable def bless (num : Numerics) (L : Matrix (Fin n) (Fin n) ℝ) (lamFinal over : ℝ) (nbIter : Option ℕ)
    (fuel : ℕ) : Option (PMF (Outcome (Centers n))) :=
  (lamInitLoop L over fuel n).map fun lamInit => blessFrom num L lamFinal over nbIter lamInit

/-- State of the loop of `bless_size`: `(lam_max, lam_min)`, `lam_new`, `deff_hat_new`, dictionary.
(`/repo/dppy/bless.py` lines 372-400) -/
structure SizeState (n : ℕ) where
  lamMax : ℝ
  lamMin : ℝ
  lamNew : ℝ
  deff : ℝ
  dict : Centers n

/-- `lam_max` after a pass (`/repo/dppy/bless.py` lines 394-396) -/
noncomputable def sizeLamMax (size : ℝ) (st : SizeState n) (deffNew : ℝ) : ℝ :=
  open Classical in
  if st.deff ≤ (size - 1) / 2 ∧ (size - 1) / 2 ≤ deffNew then st.lamNew else st.lamMax

open Classical in
/-- the loop of `bless_size` (`/repo/dppy/bless.py` lines 376-411): `break` when `deff_hat_new >= 2 * (size + 1)` -/
noncomputable def sizeLoop (num : Numerics) (L : Matrix (Fin n) (Fin n) ℝ) (size : ℝ) :
    List ℝ → SizeState n → PMF (Outcome (SizeState n))
  | [], st => PMF.pure (.ok st)
  | lam :: rest, st => PMF.andThen (reduceLambda num L st.dict lam none) fun D =>
      if D.items.length / D.over ≥ 2 * (size + 1) then PMF.pure (.ok
        { lamMax := sizeLamMax size st (D.items.length / D.over)
          lamMin := lam
          lamNew := lam
          deff := D.items.length / D.over
          dict := D })
      else sizeLoop num L size rest
        { lamMax := sizeLamMax size st (D.items.length / D.over)
          lamMin := st.lamMin
          lamNew := lam
          deff := D.items.length / D.over
          dict := D }

/-- `lam_init = diag_norm.sum() / (size_final - 1.0)` (`/repo/dppy/bless.py` line 348) -/
noncomputable def sizeLamInit (L : Matrix (Fin n) (Fin n) ℝ) (size : ℝ) : ℝ := (∑ i, L i i) / (size - 1)

/-- number of iterations of `bless_size` (`/repo/dppy/bless.py` lines 354-355) -/
noncomputable def sizeIters (lamInit : ℝ) (nbIter : Option ℕ) : ℤ :=
  match nbIter with
  | some k => k
  | none => ⌈Real.logb 2 lamInit⌉

open Classical in
/-- `bless_size` (`/repo/dppy/bless.py` lines 272-413) for `size_final > 1` and a positive trace: `np.geomspace` raises
for a negative number of values, `pop` for an empty list.  For `size_final = 1` the division gives `inf` in numpy, and
the default number of iterations is then negative: it raises as well (an explicit `nb_iter_bless` is not modelled in
that case). -/
noncomputable def blessSize (num : Numerics) (L : Matrix (Fin n) (Fin n) ℝ) (size over : ℝ) (nbIter : Option ℕ) :
    PMF (Outcome (SizeState n)) :=
  if size = 1 then PMF.pure .valueError
  else if sizeIters (sizeLamInit L size) nbIter < 0 then PMF.pure .valueError
  else PMF.andThen (blessInit L over (sizeLamInit L size)) fun D =>
    match (geomspace 1 (sizeLamInit L size) (sizeIters (sizeLamInit L size) nbIter).toNat).reverse with
    | [] => PMF.pure .indexError
    | lam :: rest => sizeLoop num L size rest
        { lamMax := sizeLamInit L size
          lamMin := 1
          lamNew := lam
          deff := size - 1
          dict := D }

end Verif.Model
