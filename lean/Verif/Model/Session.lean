import Verif.Model.Precompute

/-!
Model of the use of the intermediate samplers by a `FiniteDPP` object defined by `L_eval_X_data`
(`/repo/dppy/finite_dpps.py` lines 355-390 and 552-590): the attribute `intermediate_sample_info` is given to each
call and overwritten by each call that returns.
-/

namespace Verif.Model
open Verif

variable {n : ℕ}

/-- The attribute `intermediate_sample_info`: `None`, an `_IntermediateSampleInfo` or an
`_IntermediateSampleInfoAlphaRescale` (`/repo/dppy/intermediate_sampling.py` lines 33-45). -/
inductive Cache (n : ℕ) where
  | empty
  | vfx (pc : VfxInfo n)
  | alpha (pc : AlphaInfo n)

/-- What is fixed for the object: the kernel on the data set, the numerical routines, the sampler of the small DPP and
the outcome of `bless` and `bless_size` (for each size). (`/repo/dppy/finite_dpps.py` lines 166-176) -/
structure SessEnv (n : ℕ) where
  num : Numerics
  inner : DppSampler
  L : Matrix (Fin n) (Fin n) ℝ
  over : ℝ
  dict : PMF (Outcome (Centers n))
  dictK : ℕ → PMF (Outcome (SizeState n))

/-- The calls `sample_exact(mode=...)` and `sample_exact_k_dpp(size, mode=...)` for the modes `vfx` and `alpha`, with
their parameters. (`/repo/dppy/finite_dpps.py` lines 264-467, 469-703) -/
inductive SessCall where
  | exactVfx (p : VfxParams)
  | exactAlpha (rFunc : ℝ → ℝ) (maxIter : ℕ)
  | kVfx (p : VfxParams) (size : ℕ)
  | kAlpha (rFunc : ℝ → ℝ) (size maxIter maxSize : ℕ) (earlyStop : Bool)

/-- store the new info (`/repo/dppy/finite_dpps.py` lines 364, 382, 560, 579) -/
noncomputable def store {β : Type*} (f : β → Cache n) (p : PMF (Outcome (List (Fin n) × β))) :
    PMF (Outcome (List (Fin n) × Cache n)) :=
  PMF.andThen p fun r => PMF.pure (.ok (r.1, f r.2))

/-- `sample_exact(mode='vfx')` (`/repo/dppy/finite_dpps.py` lines 355-371).  With the info of the other algorithm, the
first access to a missing field is in the loop. -/
noncomputable def exactVfx (env : SessEnv n) (p : VfxParams) : Cache n → PMF (Outcome (List (Fin n) × Cache n))
  | .empty => store .vfx (dppVfxSampler env.num env.inner env.L env.over env.dict p none)
  | .vfx pc => store .vfx (dppVfxSampler env.num env.inner env.L env.over env.dict p (some pc))
  | .alpha _ => PMF.pure (.raise (if p.maxIter.getD 1000 = 0 then .valueError else .attributeError))

/-- `sample_exact(mode='alpha')` (`/repo/dppy/finite_dpps.py` lines 373-389).  With the info of the other algorithm, the
first access to a missing field is before the loop. -/
noncomputable def exactAlpha (env : SessEnv n) (rFunc : ℝ → ℝ) (maxIter : ℕ) :
    Cache n → PMF (Outcome (List (Fin n) × Cache n))
  | .empty => store .alpha (alphaDppSampler env.num env.inner env.L env.over env.dict rFunc maxIter none)
  | .alpha pc => store .alpha (alphaDppSampler env.num env.inner env.L env.over env.dict rFunc maxIter (some pc))
  | .vfx _ => PMF.pure (.raise .attributeError)

/-- `sample_exact_k_dpp(size, mode='vfx')` (`/repo/dppy/finite_dpps.py` lines 552-569); the field `s` is read first -/
noncomputable def kVfx (env : SessEnv n) (p : VfxParams) (size : ℕ) : Cache n → PMF (Outcome (List (Fin n) × Cache n))
  | .empty => store .vfx (kDppVfxSampler env.num env.inner env.L env.over env.dict p size none)
  | .vfx pc => store .vfx (kDppVfxSampler env.num env.inner env.L env.over env.dict p size (some pc))
  | .alpha _ => PMF.pure (.raise .attributeError)

/-- `sample_exact_k_dpp(size, mode='alpha')` (`/repo/dppy/finite_dpps.py` lines 571-588); the field `k` is read first -/
noncomputable def kAlpha (env : SessEnv n) (rFunc : ℝ → ℝ) (size maxIter maxSize : ℕ) (es : Bool) :
    Cache n → PMF (Outcome (List (Fin n) × Cache n))
  | .empty => store .alpha (alphaKDppSampler env.num env.inner env.L env.over (env.dictK size) rFunc size maxIter maxSize es none)
  | .alpha pc => store .alpha
      (alphaKDppSampler env.num env.inner env.L env.over (env.dictK size) rFunc size maxIter maxSize es (some pc))
  | .vfx _ => PMF.pure (.raise .attributeError)

/-- One call on the object. (`/repo/dppy/finite_dpps.py` lines 352-389, 549-588) -/
noncomputable def sessCall (env : SessEnv n) (c : Cache n) : SessCall → PMF (Outcome (List (Fin n) × Cache n))
  | .exactVfx p => exactVfx env p c
  | .exactAlpha rFunc maxIter => exactAlpha env rFunc maxIter c
  | .kVfx p size => kVfx env p size c
  | .kAlpha rFunc size maxIter maxSize es => kAlpha env rFunc size maxIter maxSize es c

/-- The possible values of the attribute after a history of calls, from `c0`: a call that raises leaves it unchanged.
(`/repo/dppy/finite_dpps.py` line 167) -/
inductive SessReachFrom (env : SessEnv n) (c0 : Cache n) : List SessCall → Cache n → Prop
  | init : SessReachFrom env c0 [] c0
  | returned {h : List SessCall} {c c' : Cache n} {call : SessCall} {l : List (Fin n)} (hc : SessReachFrom env c0 h c)
      (hs : .ok (l, c') ∈ (sessCall env c call).support) : SessReachFrom env c0 (h ++ [call]) c'
  | raised {h : List SessCall} {c : Cache n} {call : SessCall} {e : PyErr} (hc : SessReachFrom env c0 h c)
      (hs : .raise e ∈ (sessCall env c call).support) : SessReachFrom env c0 (h ++ [call]) c

/-- The possible values of the attribute after a history of calls on a new object.
(`/repo/dppy/finite_dpps.py` line 167) -/
abbrev SessReach (env : SessEnv n) : List SessCall → Cache n → Prop := SessReachFrom env .empty

end Verif.Model
