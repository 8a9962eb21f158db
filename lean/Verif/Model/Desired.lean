import Verif.Model.Session

/-!
The parameter `desired_expected_size` of `sample_exact(mode='vfx')`.
-/

namespace Verif.Model
open Verif

variable {n : ℕ}

/-- `dpp_vfx_sampler` with `desired_expected_size` in `**params` and no other parameter
(`/repo/dppy/exact_sampling.py` lines 762-776; the parameter is read by `vfx_sampling_precompute_constants`,
`/repo/dppy/intermediate_sampling.py` lines 127-134 and 242-274, and ignored by the sampling loop, line 331).  It is only
used when there is no pre-computed data. -/
noncomputable def vfxDesired (env : SessEnv n) (d : ℝ) (info : Option (VfxInfo n)) : PMF (Outcome (List (Fin n) × VfxInfo n)) :=
  PMF.andThen
    (match info with
      | some pc => PMF.pure (.ok pc)
      | none => vfxPre env.num env.L env.over env.dict ⟨none, none, none⟩ (some d))
    fun pc => PMF.andThen (vfxLoop env.inner env.L pc 1000 0) fun r => PMF.pure (.ok (r.1, pc))

/-- `sample_exact(mode='vfx', desired_expected_size=d)` (`/repo/dppy/finite_dpps.py` lines 355-371) -/
noncomputable def exactVfxDesired (env : SessEnv n) (d : ℝ) : Cache n → PMF (Outcome (List (Fin n) × Cache n))
  | .empty => store .vfx (vfxDesired env d none)
  | .vfx pc => store .vfx (vfxDesired env d (some pc))
  | .alpha _ => PMF.pure (.raise .attributeError)

end Verif.Model
