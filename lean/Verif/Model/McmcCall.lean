import Verif.Model.FiniteDPP
import Verif.Model.MCMC

/-!
`FiniteDPP.sample_mcmc` and `FiniteDPP.sample_mcmc_k_dpp` (`/repo/dppy/finite_dpps.py` lines 706-817) with the
chains of `/repo/dppy/mcmc_sampling.py` plugged in, each call having its own keyword arguments, and sequences of
such calls mixed with the other methods.
-/

namespace Verif.Model
open Verif

variable {N : ℕ} {Info : Type}

/-- The keyword arguments of a call of `sample_mcmc` that reach `dpp_sampler_mcmc`
(`/repo/dppy/finite_dpps.py` lines 770-793): `nb_iter` and `T_max` in `opts`, and `s_init`. -/
structure McmcArgs (N : ℕ) where
  opts : McmcOpts
  sInit : Option (List (Fin N))

/-- `dpp_sampler_mcmc(kernel, mode, **params)` (`/repo/dppy/mcmc_sampling.py` lines 24-63) for the kernel held by the
object.  Simplification: for a kernel whose entries are NaN (singular dual kernel) the call is taken to raise
`ValueError`, as it does after 100 failed initialisations; with `s_init` given the real chain would stay there. -/
noncomputable def mcmcOfArgs (a : McmcArgs N) (A : KMat N) (mode : String) (size : Option ℕ) :
    Dist ℝ (Outcome (List (List (Fin N)))) :=
  match A with
  | .num A => mcmcSampler A mode a.opts a.sInit size
  | .nan => Dist.ret .valueError

/-- The routines with `dpp_sampler_mcmc` called with the arguments `a`
(`/repo/dppy/finite_dpps.py` lines 773-793). -/
noncomputable def mcmcEnv (env : Env N Info) (a : McmcArgs N) : Env N Info := { env with mcmc := mcmcOfArgs a }

/-- A sequence of method calls, each with its own MCMC arguments (used by `sample_mcmc` and `sample_mcmc_k_dpp`
only, `/repo/dppy/finite_dpps.py` lines 706-817); exceptions are caught by the caller. -/
noncomputable def runCalls (env : Env N Info) :
    List (Cmd × McmcArgs N) → Obj N Info → Dist ℝ (Obj N Info × List (Outcome (Option (List (Fin N)))))
  | [], o => Dist.ret (o, [])
  | c :: cs, o => (step (mcmcEnv env c.2) c.1 o).bind fun r =>
      (runCalls env cs r.1).map fun q => (q.1, r.2 :: q.2)

/-- `s = dpp.sample_exact(exactMode)` and then `dpp.sample_mcmc(mode, s_init=s, size=size, **params)`
(`/repo/dppy/finite_dpps.py` lines 263-467 and 706-799). -/
noncomputable def exactThenMcmc (env : Env N Info) (exactMode : String) (opts : McmcOpts) (mode : String)
    (size : Option ℕ) (o : Obj N Info) : Call N Info :=
  (sampleExact env o exactMode).bind fun r => match r.2 with
    | .ok s => sampleMcmc (mcmcEnv env ⟨opts, some s⟩) r.1 mode size
    | .raise e => Dist.ret (r.1, .raise e)

/-- `s = dpp.sample_exact_k_dpp(k, exactMode)` and then `dpp.sample_mcmc_k_dpp(k, mode, s_init=s, **params)`
(`/repo/dppy/finite_dpps.py` lines 469-704 and 801-817). -/
noncomputable def exactThenMcmcKDpp (env : Env N Info) (exactMode : String) (opts : McmcOpts) (k : ℕ)
    (mode : String) (o : Obj N Info) : Call N Info :=
  (sampleExactKDpp env o k exactMode).bind fun r => match r.2 with
    | .ok s => sampleMcmcKDpp (mcmcEnv env ⟨opts, some s⟩) r.1 k mode
    | .raise e => Dist.ret (r.1, .raise e)

end Verif.Model
