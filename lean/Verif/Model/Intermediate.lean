import Verif.Discrete
import Mathlib.LinearAlgebra.Matrix.Determinant.Basic
import Mathlib.Analysis.SpecialFunctions.Log.Basic
import Mathlib.Analysis.Real.Sqrt

/-!
Model of the rejection loops of `/repo/dppy/intermediate_sampling.py` and of the samplers built on them in
`/repo/dppy/exact_sampling.py` lines 666-1241.

The data set is `X_0, ..., X_{n-1}` and `L i j` is `eval_L(X_i, X_j)`.  `rng.poisson`, `rng.choice`, `rng.rand`,
`rng.binomial` are exact; floating point rounding is not modelled.  `slogdet` of a singular matrix (`-inf`) is not
modelled: `Real.log 0 = 0`; it does not occur for a positive semi-definite `L`.
-/

namespace Verif.Model
open Verif
open scoped ENNReal NNReal

variable {n : ℕ}

/-- `FiniteDPP(kernel_type='likelihood', L_eig_dec=np.linalg.eigh(M)).sample_exact(random_state=rng)`: a parameter
of the model (see `InnerSpec` and `spectralSampler`).
(`/repo/dppy/intermediate_sampling.py` lines 435-442, 800-807) -/
abbrev DppSampler := (m : ℕ) → Matrix (Fin m) (Fin m) ℝ → PMF (Outcome (List (Fin m)))

/-- `np.unique(sigma)`, given the counts: the sorted list of the items drawn at least once.
(`/repo/dppy/intermediate_sampling.py` line 378) -/
def uniq (c : Fin n → ℕ) : List (Fin n) := (List.finRange n).filter fun i => 0 < c i

/-! ### vfx -/

/-- `_IntermediateSampleInfo` (`/repo/dppy/intermediate_sampling.py` lines 33-36). -/
structure VfxInfo (n : ℕ) where
  alphaStar : ℝ
  logdetIA : ℝ
  q : ℝ
  s : ℝ
  z : ℝ
  rls : Fin n → ℝ
  rejToFirst : ℕ

/-- `W_square_inv = q * rls_estimate[sigma_uniq] / (s * sigma_uniq_count)`
(`/repo/dppy/intermediate_sampling.py` lines 391-393). -/
noncomputable def vfxWSqInv (pc : VfxInfo n) (c : Fin n → ℕ) (i : Fin n) : ℝ :=
  pc.q * pc.rls i / (pc.s * c i)

/-- `I_L_sigma = alpha_star * eval_L(X_sigma_uniq, X_sigma_uniq) + np.diag(W_square_inv)` (`/repo/dppy/intermediate_sampling.py` lines 395-397) -/
noncomputable def vfxISigma (L : Matrix (Fin n) (Fin n) ℝ) (pc : VfxInfo n) (c : Fin n → ℕ) :
    Matrix (Fin (uniq c).length) (Fin (uniq c).length) ℝ :=
  Matrix.of fun a b => pc.alphaStar * L ((uniq c).get a) ((uniq c).get b)
    + if a = b then vfxWSqInv pc c ((uniq c).get a) else 0

/-- `acc_thresh` (`/repo/dppy/intermediate_sampling.py` lines 404-410) -/
noncomputable def vfxAcc (L : Matrix (Fin n) (Fin n) ℝ) (pc : VfxInfo n) (t : ℕ) (c : Fin n → ℕ) : ℝ :=
  pc.z + Real.log |(vfxISigma L pc c).det| - ∑ a, Real.log (vfxWSqInv pc c ((uniq c).get a))
    - pc.logdetIA - t * pc.s / pc.q

open Classical in
/-- The tests and the acceptance of one intermediate sample
(`/repo/dppy/intermediate_sampling.py` lines 399-416): `none` is a rejection. -/
noncomputable def vfxTest (L : Matrix (Fin n) (Fin n) ℝ) (pc : VfxInfo n) (t : ℕ) (c : Fin n → ℕ) :
    PMF (Outcome (Option (Fin n → ℕ))) :=
  if (vfxISigma L pc c).det < 0 then PMF.pure .valueError
  else if vfxAcc L pc t c ≥ 0.1 then PMF.pure .valueError
  else (coin (Real.exp (vfxAcc L pc t c))).map fun b => .ok (if b then some c else none)

/-- `lam = np.ceil(q * np.exp(s / q))` (`/repo/dppy/intermediate_sampling.py` line 370) -/
noncomputable def vfxLam (pc : VfxInfo n) : ℤ := ⌈pc.q * Real.exp (pc.s / pc.q)⌉

/-- number of times each item is drawn: `np.unique(sigma, return_counts=True)` (`/repo/dppy/intermediate_sampling.py` line 378) -/
def countsOf (σ : List (Fin n)) (i : Fin n) : ℕ := σ.count i

open Classical in
/-- One pass in the loop of `vfx_sampling_do_sampling_loop` (`/repo/dppy/intermediate_sampling.py` lines 369-422):
`rng.poisson` raises for a negative parameter, `rng.choice` for invalid probabilities. -/
noncomputable def vfxRound (L : Matrix (Fin n) (Fin n) ℝ) (pc : VfxInfo n) : PMF (Outcome (Option (Fin n → ℕ))) :=
  if vfxLam pc < 0 then PMF.pure .valueError
  else (poisson (vfxLam pc : ℝ).toNNReal).bind fun t =>
    if h : (∀ i, 0 ≤ pc.rls i / pc.s) ∧ ∑ i, pc.rls i / pc.s = 1 then
      (iid (cat (fun i => pc.rls i / pc.s) h) t).bind fun σ => vfxTest L pc t (countsOf σ)
    else PMF.pure .valueError

/-- `W = np.sqrt(s * count) / np.sqrt(q * rls).reshape(-1, 1)` (`/repo/dppy/intermediate_sampling.py` lines
431-432): only the denominator is a column, so numpy broadcasting makes `W` a square array with
`W[i, j] = sqrt(s * count_j) / sqrt(q * rls_i)`. -/
noncomputable def vfxW (pc : VfxInfo n) (c : Fin n → ℕ) (i j : Fin n) : ℝ :=
  Real.sqrt (pc.s * c j) / Real.sqrt (pc.q * pc.rls i)

/-- `L_tilda = alpha_star * W.T * eval_L(X_sigma_uniq, X_sigma_uniq) * W` (entrywise products, `/repo/dppy/intermediate_sampling.py` line 434) -/
noncomputable def vfxTilde (L : Matrix (Fin n) (Fin n) ℝ) (pc : VfxInfo n) (c : Fin n → ℕ) :
    Matrix (Fin (uniq c).length) (Fin (uniq c).length) ℝ :=
  Matrix.of fun a b => pc.alphaStar * vfxW pc c ((uniq c).get b) ((uniq c).get a) * L ((uniq c).get a) ((uniq c).get b)
    * vfxW pc c ((uniq c).get a) ((uniq c).get b)

/-- `S = sigma_uniq[S_tilda]` for a sample `S_tilda` of the likelihood DPP on the intermediate sample
(`/repo/dppy/intermediate_sampling.py` lines 436-446). -/
noncomputable def vfxFinish (inner : DppSampler) (L : Matrix (Fin n) (Fin n) ℝ) (pc : VfxInfo n) (c : Fin n → ℕ) :
    PMF (Outcome (List (Fin n))) :=
  (inner _ (vfxTilde L pc c)).map (Outcome.map (List.map (uniq c).get))

/-- `vfx_sampling_do_sampling_loop` (`/repo/dppy/intermediate_sampling.py` lines 324-446) with `max_iter` passes
left and `rej_iter` rejections so far: the sample and the number of rejections. -/
noncomputable def vfxLoop (inner : DppSampler) (L : Matrix (Fin n) (Fin n) ℝ) (pc : VfxInfo n) :
    ℕ → ℕ → PMF (Outcome (List (Fin n) × ℕ))
  | 0, _ => PMF.pure .valueError
  | maxIter + 1, rej => PMF.andThen (vfxRound L pc) fun o => match o with
      | none => vfxLoop inner L pc maxIter (rej + 1)
      | some c => (vfxFinish inner L pc c).map (Outcome.map fun S => (S, rej))

/-- The loop of `k_dpp_vfx_sampler` (`/repo/dppy/exact_sampling.py` lines 1009-1028): `fuel` is
`max_iter_size_rejection`. -/
noncomputable def kVfxLoop (inner : DppSampler) (L : Matrix (Fin n) (Fin n) ℝ) (size maxIter : ℕ) :
    ℕ → VfxInfo n → PMF (Outcome (List (Fin n) × VfxInfo n))
  | 0, _ => PMF.pure .valueError
  | fuel + 1, pc => PMF.andThen (vfxLoop inner L pc maxIter 0) fun r =>
      if r.1.length = size then PMF.pure (.ok (r.1, { pc with rejToFirst := pc.rejToFirst + r.2 }))
      else kVfxLoop inner L size maxIter fuel { pc with rejToFirst := pc.rejToFirst + r.2 }

/-! ### alpha-dpp -/

/-- The dictionary `dict_alphadpp` with the thin eigendecomposition of the weighted `L_hat`.
(`/repo/dppy/intermediate_sampling.py` lines 470-600) -/
structure Nystrom (n : ℕ) where
  m : ℕ
  m' : ℕ
  idx : Fin m → Fin n
  probs : Fin m → ℝ
  eigvecs : Fin m → Fin m' → ℝ
  eigvals : Fin m' → ℝ

/-- `_IntermediateSampleInfoAlphaRescale` (`/repo/dppy/intermediate_sampling.py` lines 38-45); `deff_alpha_L_hat`
is not kept (it is recomputed by the loop). -/
structure AlphaInfo (n : ℕ) where
  alphaHat : ℝ
  alphaMin : ℝ
  alphaMax : ℝ
  k : ℤ
  dict : Nystrom n
  diagL : Fin n → ℝ
  bound : Fin n → ℝ
  valid : Fin n → Bool
  r : ℝ
  rejToFirst : ℕ
  trialToFirst : ℕ
  switches : ℕ

/-- `E[j, i]` of `estimate_rls_from_weighted_dict_eigendecomp` (`/repo/dppy/intermediate_sampling.py` lines
105-115). -/
noncomputable def nysE (L : Matrix (Fin n) (Fin n) ℝ) (D : Nystrom n) (alpha : ℝ) (j : Fin D.m') (i : Fin n) : ℝ :=
  (∑ e, D.eigvecs e j * (L (D.idx e) i * (1 / Real.sqrt (D.probs e)))) * Real.sqrt (1 / (alpha * D.eigvals j + 1))

/-- `estimate_rls_from_weighted_dict_eigendecomp(X_i, ...)`: `alpha * (L_ii - alpha * sum_j E[j,i]^2)`
(`/repo/dppy/intermediate_sampling.py` lines 117-118). -/
noncomputable def nysRls (L : Matrix (Fin n) (Fin n) ℝ) (D : Nystrom n) (alpha : ℝ) (i : Fin n) : ℝ :=
  alpha * (L i i - alpha * ∑ j, nysE L D alpha j i ^ 2)

/-- `A = sqrt(count / (r * rls_bound))` (`/repo/dppy/intermediate_sampling.py` lines 754, 797). -/
noncomputable def alphaA (r : ℝ) (bound : Fin n → ℝ) (c : Fin n → ℕ) (i : Fin n) : ℝ :=
  Real.sqrt (c i / (r * bound i))

/-- `L_tilda = alpha_hat * A.T * eval_L(X_sigma_uniq, X_sigma_uniq) * A` (`/repo/dppy/intermediate_sampling.py` line 799); `I_L_sigma` (line 756) adds
the identity. -/
noncomputable def alphaTilde (L : Matrix (Fin n) (Fin n) ℝ) (alpha r : ℝ) (bound : Fin n → ℝ) (c : Fin n → ℕ) :
    Matrix (Fin (uniq c).length) (Fin (uniq c).length) ℝ :=
  Matrix.of fun a b => alpha * alphaA r bound c ((uniq c).get b) * L ((uniq c).get a) ((uniq c).get b)
    * alphaA r bound c ((uniq c).get a)

/-- `deff_alpha_L_hat` (`/repo/dppy/intermediate_sampling.py` lines 763-766) -/
noncomputable def nysDeff (D : Nystrom n) (alpha : ℝ) : ℝ := ∑ j, (1 - 1 / (alpha * D.eigvals j + 1))

/-- `log_det_alpha_L_hat` (`/repo/dppy/intermediate_sampling.py` lines 767-769) -/
noncomputable def nysLogdet (D : Nystrom n) (alpha : ℝ) : ℝ := ∑ j, Real.log (1 + alpha * D.eigvals j)

/-- `acc_thresh`, where `t` is the total count (`/repo/dppy/intermediate_sampling.py` lines 742, 771-774) -/
noncomputable def alphaAcc (L : Matrix (Fin n) (Fin n) ℝ) (D : Nystrom n) (alpha r : ℝ) (bound : Fin n → ℝ)
    (c : Fin n → ℕ) : ℝ :=
  nysDeff D alpha + Real.log |(alphaTilde L alpha r bound c + 1).det| - nysLogdet D alpha - (∑ i, (c i : ℝ)) / r

open Classical in
/-- The tests and the acceptance of one intermediate sample (`/repo/dppy/intermediate_sampling.py` lines 758-761, 776-780). -/
noncomputable def alphaTest (L : Matrix (Fin n) (Fin n) ℝ) (D : Nystrom n) (alpha r : ℝ) (bound : Fin n → ℝ)
    (c : Fin n → ℕ) : PMF (Outcome Bool) :=
  if (alphaTilde L alpha r bound c + 1).det < 0 then PMF.pure .valueError
  else if alphaAcc L D alpha r bound c ≥ 0 then PMF.pure .valueError
  else (coin (Real.exp (alphaAcc L D alpha r bound c))).map .ok

/-- the active items whose bound is not certified yet: `idx_rls_to_recompute` (`/repo/dppy/intermediate_sampling.py` lines 717-720) -/
def toRecompute (valid : Fin n → Bool) (sv : Fin n → ℕ) (i : Fin n) : Prop := 0 < sv i ∧ valid i = false

/-- the test of `/repo/dppy/intermediate_sampling.py` lines 717-720 can be evaluated -/
instance (valid : Fin n → Bool) (sv : Fin n → ℕ) : DecidablePred (toRecompute valid sv) := by
  unfold toRecompute; infer_instance

/-- `rls_bound[idx_rls_to_recompute] = rls_estimate` (`/repo/dppy/intermediate_sampling.py` line 735) -/
noncomputable def newBound (est bound : Fin n → ℝ) (valid : Fin n → Bool) (sv : Fin n → ℕ) (i : Fin n) : ℝ :=
  if toRecompute valid sv i then est i else bound i

/-- `rls_bound_valid[idx_rls_to_recompute] = True` (`/repo/dppy/intermediate_sampling.py` line 736) -/
def newValid (valid : Fin n → Bool) (sv : Fin n → ℕ) (i : Fin n) : Bool :=
  if toRecompute valid sv i then true else valid i

/-- `s_vec_filtered`: the counts of the recomputed items are thinned with probability new bound / old bound
(`/repo/dppy/intermediate_sampling.py` lines 738-740). -/
noncomputable def thinned (est bound : Fin n → ℝ) (valid : Fin n → Bool) (sv : Fin n → ℕ) : PMF (Fin n → ℕ) :=
  indep fun i => if toRecompute valid sv i then binom (newBound est bound valid sv i / bound i) (sv i)
    else PMF.pure (sv i)

/-- `lam = r * np.exp(1 / r) * rls_bound` (`/repo/dppy/intermediate_sampling.py` line 715) -/
noncomputable def alphaLam (r : ℝ) (bound : Fin n → ℝ) (i : Fin n) : ℝ := r * Real.exp (1 / r) * bound i

open Classical in
/-- One pass in the loop of `alpha_dpp_sampling_do_sampling_loop` (`/repo/dppy/intermediate_sampling.py` lines
713-787): the new bounds, and `some c` (accepted counts) or `none` (rejection).  It raises when an estimate is
negative or above its bound, when the sign of the determinant is negative, when `acc_thresh >= 0`, and when
`rng.poisson` gets a negative parameter. -/
noncomputable def alphaRound (L : Matrix (Fin n) (Fin n) ℝ) (pc : AlphaInfo n) :
    PMF (Outcome (AlphaInfo n × Option (Fin n → ℕ))) :=
  if ∃ i, alphaLam pc.r pc.bound i < 0 then PMF.pure .valueError
  else (indep fun i => poisson (alphaLam pc.r pc.bound i).toNNReal).bind fun sv =>
    if ∃ i, toRecompute pc.valid sv i ∧ nysRls L pc.dict pc.alphaHat i < 0 then PMF.pure .valueError
    else if ∃ i, toRecompute pc.valid sv i ∧ nysRls L pc.dict pc.alphaHat i > pc.bound i then PMF.pure .valueError
    else (thinned (nysRls L pc.dict pc.alphaHat) pc.bound pc.valid sv).bind fun c =>
      (alphaTest L pc.dict pc.alphaHat pc.r (newBound (nysRls L pc.dict pc.alphaHat) pc.bound pc.valid sv) c).map
        (Outcome.map fun b =>
          ({ pc with
              bound := newBound (nysRls L pc.dict pc.alphaHat) pc.bound pc.valid sv
              valid := newValid pc.valid sv }, if b then some c else none))

/-- Exact sampling of the DPP restricted to the intermediate sample (`/repo/dppy/intermediate_sampling.py` lines 797-809). -/
noncomputable def alphaFinish (inner : DppSampler) (L : Matrix (Fin n) (Fin n) ℝ) (pc : AlphaInfo n)
    (c : Fin n → ℕ) : PMF (Outcome (List (Fin n))) :=
  (inner _ (alphaTilde L pc.alphaHat pc.r pc.bound c)).map (Outcome.map (List.map (uniq c).get))

/-- `alpha_dpp_sampling_do_sampling_loop` (`/repo/dppy/intermediate_sampling.py` lines 664-814): the sample, the
number of rejections and the updated info.  The updated bounds are those of the local variables, only written back
in the info at the end. -/
noncomputable def alphaLoop (inner : DppSampler) (L : Matrix (Fin n) (Fin n) ℝ) :
    ℕ → ℕ → AlphaInfo n → PMF (Outcome (List (Fin n) × ℕ × AlphaInfo n))
  | 0, _, _ => PMF.pure .valueError
  | maxIter + 1, rej, pc => PMF.andThen (alphaRound L pc) fun o => match o.2 with
      | none => alphaLoop inner L maxIter (rej + 1) o.1
      | some c => (alphaFinish inner L o.1 c).map (Outcome.map fun S => (S, rej, o.1))

/-! ### k-DPP by alpha-dpp -/

/-- Local counters of `alpha_k_dpp_sampler` (`/repo/dppy/exact_sampling.py` lines 1151-1157, 1167); `out` is
`sampl_out` once it is bound. -/
structure KCount (n : ℕ) where
  sampleCount : ℕ
  trialCount : ℕ
  under : ℕ
  over : ℕ
  overall : ℕ
  found : Bool
  out : Option (List (Fin n))

/-- `stopping_ratio = 1 + 1 / (size + 3) ** 2` (`/repo/dppy/intermediate_sampling.py` line 1149) -/
noncomputable def stoppingRatio (size : ℕ) : ℝ := 1 + 1 / ((size : ℝ) + 3) ^ 2

/-- `number_trial_search = np.ceil(np.sqrt(size)).astype('int')` (`/repo/dppy/intermediate_sampling.py` line 1148) -/
noncomputable def numberTrialSearch (size : ℕ) : ℕ := ⌈Real.sqrt size⌉₊

/-- the counters before the loop (`/repo/dppy/intermediate_sampling.py` lines 1151-1157, 1167) -/
noncomputable def kCountInit (size : ℕ) (info : AlphaInfo n) : KCount n where
  sampleCount := 0
  trialCount := 0
  under := 0
  over := 0
  overall := 0
  found := decide (info.alphaMax / info.alphaMin ≤ stoppingRatio size)
  out := none

/-- `/repo/dppy/intermediate_sampling.py` lines 1175-1176, 1186-1190: counters after a draw `sampl`, before the test of `early_stop` -/
def kRecord (size : ℕ) (sampl : List (Fin n)) (st : KCount n) : KCount n :=
  { st with
      trialCount := st.trialCount + 1
      overall := st.overall + 1
      out := if sampl.length = size then some sampl else st.out
      sampleCount := if sampl.length = size then st.sampleCount + 1 else st.sampleCount }

/-- `/repo/dppy/intermediate_sampling.py` line 1188-1189 -/
def kRecordInfo (size : ℕ) (sampl : List (Fin n)) (st : KCount n) (info : AlphaInfo n) : AlphaInfo n :=
  if sampl.length = size ∧ info.trialToFirst = 0 then { info with trialToFirst := st.overall } else info

/-- `/repo/dppy/intermediate_sampling.py` lines 1193-1196 -/
def kUnderOver (size : ℕ) (sampl : List (Fin n)) (st : KCount n) : KCount n :=
  { st with
      under := if sampl.length < size then st.under + 1 else st.under
      over := if sampl.length > size then st.over + 1 else st.over }

/-- `/repo/dppy/intermediate_sampling.py` lines 1198-1199 -/
def kRej (rej : ℕ) (info : AlphaInfo n) : AlphaInfo n :=
  if info.trialToFirst = 0 then { info with rejToFirst := info.rejToFirst + rej } else info

/-- `/repo/dppy/intermediate_sampling.py` lines 1206-1209: which end of the bracket moves to the current `alpha_hat` -/
noncomputable def kBracket (st : KCount n) (info : AlphaInfo n) : AlphaInfo n :=
  if st.under > st.over then { info with alphaMin := info.alphaHat } else { info with alphaMax := info.alphaHat }

/-- `/repo/dppy/intermediate_sampling.py` lines 1211-1215: the new `alpha_hat` is the geometric mean of the bracket, all the bounds are reset. -/
noncomputable def kReset (info : AlphaInfo n) : AlphaInfo n :=
  { info with
      alphaHat := Real.sqrt (info.alphaMin * info.alphaMax)
      bound := fun i => Real.sqrt (info.alphaMin * info.alphaMax) * info.diagL i
      valid := fun _ => false }

/-- `/repo/dppy/intermediate_sampling.py` lines 1231-1234 -/
def kFinal (st : KCount n) (info : AlphaInfo n) : AlphaInfo n :=
  if st.found then
    { info with
        alphaMin := info.alphaHat
        alphaMax := info.alphaHat
        switches := info.switches + 1 }
  else info

/-- `/repo/dppy/intermediate_sampling.py` line 1241; `sampl_out` is unbound if no sample of the right size was drawn -/
noncomputable def kReturn (st : KCount n) (info : AlphaInfo n) : PMF (Outcome (List (Fin n) × AlphaInfo n)) :=
  match st.out with
  | some l => PMF.pure (.ok (l, kFinal st info))
  | none => PMF.pure (.raise .unboundLocalError)

/-- `/repo/dppy/intermediate_sampling.py` lines 1222-1225 -/
def kNext (st : KCount n) : KCount n :=
  { st with
      trialCount := 0
      under := 0
      over := 0 }

open Classical in
/-- The loop of `alpha_k_dpp_sampler` (`/repo/dppy/exact_sampling.py` lines 1168-1241), with `fuel` passes left.
`maxIter` is `max_iter`, the number of rejections allowed to each draw. -/
noncomputable def alphaKLoop (inner : DppSampler) (L : Matrix (Fin n) (Fin n) ℝ) (size maxIter : ℕ) (earlyStop : Bool) :
    ℕ → KCount n → AlphaInfo n → PMF (Outcome (List (Fin n) × AlphaInfo n))
  | 0, _, _ => PMF.pure .valueError
  | fuel + 1, st, info => PMF.andThen (alphaLoop inner L maxIter 0 info) fun d =>
      let st1 := kRecord size d.1 st
      let info1 := kRecordInfo size d.1 st1 d.2.2
      if d.1.length = size ∧ earlyStop = true then kReturn st1 info1
      else
        let st2 := kUnderOver size d.1 st1
        let info2 := kRej d.2.1 info1
        if st2.sampleCount = 2 then kReturn { st2 with found := true } info2
        else if st2.trialCount = numberTrialSearch size then
          let info3 := kReset (kBracket st2 info2)
          if info3.alphaMax / info3.alphaMin ≤ stoppingRatio size ∧ st2.sampleCount > 0 then
            kReturn { st2 with found := true } info3
          else alphaKLoop inner L size maxIter earlyStop fuel (kNext st2) { info3 with switches := info3.switches + 1 }
        else alphaKLoop inner L size maxIter earlyStop fuel st2 info2

end Verif.Model
