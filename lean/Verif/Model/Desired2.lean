import Verif.Model.Session

/-!
The parameter `desired_expected_size` of `sample_exact(mode='alpha')`, for natural numbers.
-/

namespace Verif.Model
open Verif

variable {n : ℕ}

/-- `alpha_dpp_sampler` with `desired_expected_size` in `**params` (`/repo/dppy/exact_sampling.py` lines 871-889; the
parameter is read by `alpha_dpp_sampling_precompute_constants`, `/repo/dppy/intermediate_sampling.py` lines 449-661,
that calls `bless_size` and records it in the field `k`; it is ignored by the sampling loop).  It is only used when there
is no pre-computed data.  Simplification: the size is a natural number. -/
noncomputable def alphaDesired (env : SessEnv n) (d : ℕ) (rFunc : ℝ → ℝ) (maxIter : ℕ) (info : Option (AlphaInfo n)) :
    PMF (Outcome (List (Fin n) × AlphaInfo n)) :=
  PMF.andThen
    (match info with
      | some pc => PMF.pure (.ok pc)
      | none => withR rFunc (alphaKPre env.num env.L env.over (env.dictK d) d))
    fun pc => PMF.andThen (alphaLoop env.inner env.L maxIter 0 pc) fun r => PMF.pure (.ok (r.1, r.2.2))

/-- `sample_exact(mode='alpha', desired_expected_size=d)` (`/repo/dppy/finite_dpps.py` lines 373-389) -/
noncomputable def exactAlphaDesired (env : SessEnv n) (d : ℕ) (rFunc : ℝ → ℝ) (maxIter : ℕ) :
    Cache n → PMF (Outcome (List (Fin n) × Cache n))
  | .empty => store .alpha (alphaDesired env d rFunc maxIter none)
  | .alpha pc => store .alpha (alphaDesired env d rFunc maxIter (some pc))
  | .vfx _ => PMF.pure (.raise .attributeError)

end Verif.Model
