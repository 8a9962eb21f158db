import Verif.Model.Bless

/-!
Model of `vfx_sampling_precompute_constants` and `alpha_dpp_sampling_precompute_constants`
(`/repo/dppy/intermediate_sampling.py` lines 48-321 and 449-661) and of the samplers of
`/repo/dppy/exact_sampling.py` lines 666-1241 that call them.
-/

namespace Verif.Model
open Verif
open scoped ENNReal NNReal

variable {n : ℕ}

/-! ### vfx -/

/-- `eval_L(D_A.X, D_A.X)` (`/repo/dppy/intermediate_sampling.py` line 212) -/
noncomputable def dictMat (L : Matrix (Fin n) (Fin n) ℝ) (D : Centers n) (e f : Fin D.items.length) : ℝ :=
  L (D.idx e) (D.idx f)

/-- `B_bar_T[a, i]` (`/repo/dppy/intermediate_sampling.py` lines 212-220), for the columns `keep` of the SVD -/
noncomputable def bBar (num : Numerics) (L : Matrix (Fin n) (Fin n) ℝ) (D : Centers n)
    (keep : List (Fin D.items.length)) (a : Fin keep.length) (i : Fin n) : ℝ :=
  1 / Real.sqrt ((num.svd _ (dictMat L D)).2 (keep.get a)) *
    ∑ e, (num.svd _ (dictMat L D)).1 e (keep.get a) * L (D.idx e) i

/-- `I_A_mm` (`/repo/dppy/intermediate_sampling.py` lines 227-228) for embedded points `B` -/
def iAmm {m : ℕ} (B : Fin m → Fin n → ℝ) (a b : Fin m) : ℝ :=
  (∑ i, B a i * B b i) + if a = b then 1 else 0

/-- `natural_expected_size` (`/repo/dppy/intermediate_sampling.py` line 233) -/
noncomputable def vfxNatural {m : ℕ} (L : Matrix (Fin n) (Fin n) ℝ) (B : Fin m → Fin n → ℝ) (eig : Fin m → ℝ) : ℝ :=
  (∑ i, L i i) - (∑ i, ∑ a, B a i ^ 2) + ∑ a, (eig a - 1) / eig a

/-- `temp_func_with_root_in_desired_expected_size` (`/repo/dppy/intermediate_sampling.py` lines 256-260) -/
noncomputable def vfxRootFun {m : ℕ} (L : Matrix (Fin n) (Fin n) ℝ) (B : Fin m → Fin n → ℝ) (eig : Fin m → ℝ)
    (desired x : ℝ) : ℝ :=
  x * (∑ i, L i i) - x * (∑ i, ∑ a, B a i ^ 2) + (∑ a, (eig a - 1) / (eig a - 1 + 1 / x)) - desired

open Classical in
/-- `alpha_star` (`/repo/dppy/intermediate_sampling.py` lines 242-274) -/
noncomputable def vfxAlphaStar (num : Numerics) {m : ℕ} (L : Matrix (Fin n) (Fin n) ℝ) (B : Fin m → Fin n → ℝ)
    (eig : Fin m → ℝ) : Option ℝ → Outcome ℝ
  | none => .ok 1
  | some desired => if vfxNatural L B eig ≤ desired then .valueError
      else match num.brentq (vfxRootFun L B eig desired) (10 * num.eps) 1 with
        | some x => .ok x
        | none => .valueError

/-- `rls_estimate` (`/repo/dppy/intermediate_sampling.py` lines 70-76): the columns `keep` of the eigenvectors of `I / alpha_star + A` are used, `eig` are
its eigenvalues.  `np.maximum(eigvals, 0)` is `eigvals` since they are positive at this point. -/
noncomputable def vfxRls {m : ℕ} (L : Matrix (Fin n) (Fin n) ℝ) (B : Fin m → Fin n → ℝ) (V : Fin m → Fin m → ℝ)
    (eig : Fin m → ℝ) (keep : List (Fin m)) (alpha : ℝ) (i : Fin n) : ℝ :=
  L i i * alpha - (∑ a, B a i ^ 2) * alpha
    + (keep.map fun j => (1 / Real.sqrt (eig j) * ∑ a, V a j * B a i) ^ 2).sum

open Classical in
/-- The last part of the pre-computation, once `alpha_star` is known (`/repo/dppy/intermediate_sampling.py` lines 276-321); `eig0` are the eigenvalues of
`I + A`. -/
noncomputable def vfxConstants (num : Numerics) {m : ℕ} (L : Matrix (Fin n) (Fin n) ℝ) (B : Fin m → Fin n → ℝ)
    (V : Fin m → Fin m → ℝ) (eig0 : Fin m → ℝ) (alpha : ℝ) : Outcome (VfxInfo n) :=
  let eig := fun j => eig0 j + (1 / alpha - 1)
  match stableFilter num.eps eig with
  | .raise e => .raise e
  | .ok keep =>
    let rls := vfxRls L B V eig keep alpha
    let logdet := ∑ j, Real.log (alpha * eig j)
    if ∃ i, rls i < 0 then .valueError
    else if ∑ i, rls i < 0 then .valueError
    else if logdet < 0 then .valueError
    else .ok
      { alphaStar := alpha
        logdetIA := logdet
        q := -1
        s := ∑ i, rls i
        z := ∑ j, (eig j - 1 / alpha) / eig j
        rls := rls
        rejToFirst := 0 }

open Classical in
/-- `vfx_sampling_precompute_constants` (`/repo/dppy/intermediate_sampling.py` lines 127-321) once the dictionary
`D_A` is drawn. -/
noncomputable def vfxPrecompute (num : Numerics) (L : Matrix (Fin n) (Fin n) ℝ) (D : Centers n) (desired : Option ℝ) :
    Outcome (VfxInfo n) :=
  match stableFilter num.eps (num.svd _ (dictMat L D)).2 with
  | .raise e => .raise e
  | .ok keep =>
    let B := bBar num L D keep
    let dec := num.eigh _ (iAmm B)
    if ∃ a, dec.1 a ≤ 1 then .valueError
    else if vfxNatural L B dec.1 < 0 then .valueError
    else match vfxAlphaStar num L B dec.1 desired with
      | .raise e => .raise e
      | .ok alpha => vfxConstants num L B dec.2 dec.1 alpha

/-! ### alpha-dpp -/

/-- `L_hat = W_sqrt.T * L_DD * W_sqrt` (`/repo/dppy/intermediate_sampling.py` lines 579-583) -/
noncomputable def lHat (L : Matrix (Fin n) (Fin n) ℝ) (D : Centers n) (e f : Fin D.items.length) : ℝ :=
  1 / Real.sqrt (D.probs f) * L (D.idx e) (D.idx f) * (1 / Real.sqrt (D.probs e))

/-- the dictionary with the columns `keep` of the eigendecomposition of `L_hat` (`/repo/dppy/intermediate_sampling.py` lines 578-580) -/
noncomputable def nysOf (num : Numerics) (L : Matrix (Fin n) (Fin n) ℝ) (D : Centers n)
    (keep : List (Fin D.items.length)) : Nystrom n where
  m := D.items.length
  m' := keep.length
  idx := D.idx
  probs := D.probs
  eigvecs := fun e j => (num.eigh _ (lHat L D)).2 e (keep.get j)
  eigvals := fun j => (num.eigh _ (lHat L D)).1 (keep.get j)

/-- `natural_expected_size` (`/repo/dppy/intermediate_sampling.py` line 590), the sum over the dictionary of the estimates with `alpha = 1 / lam` divided
by the probabilities -/
noncomputable def alphaNatural (L : Matrix (Fin n) (Fin n) ℝ) (N : Nystrom n) (lam : ℝ) : ℝ :=
  ∑ e, nysRls L N (1 / lam) (N.idx e) / N.probs e

open Classical in
/-- `alpha_hat` (`/repo/dppy/intermediate_sampling.py` lines 599-632) -/
noncomputable def alphaHatOf (num : Numerics) (L : Matrix (Fin n) (Fin n) ℝ) (N : Nystrom n) (lam : ℝ) :
    Option ℝ → Outcome ℝ
  | none => .ok 1
  | some desired => if alphaNatural L N lam ≤ desired then .valueError
      else match num.brentq (fun x => nysDeff N x - desired) (10 * num.eps) 4 with
        | some x => if x > 1 then .valueError else .ok x
        | none => .valueError

/-- the tuple built at `/repo/dppy/intermediate_sampling.py` lines 641-659; `size` holds `(k, lam_max, lam_min)` for a k-DPP. -/
noncomputable def alphaInfoOf (L : Matrix (Fin n) (Fin n) ℝ) (N : Nystrom n) (size : Option (ℤ × ℝ × ℝ)) (alpha : ℝ) :
    AlphaInfo n where
  alphaHat := alpha
  alphaMin := match size with
    | none => alpha
    | some (_, lamMax, _) => 1 / lamMax
  alphaMax := match size with
    | none => alpha
    | some (_, _, lamMin) => 1 / lamMin
  k := match size with
    | none => -1
    | some (k, _, _) => k
  dict := N
  diagL := fun i => L i i
  bound := fun i => alpha * L i i
  valid := fun _ => false
  r := -1
  rejToFirst := 0
  trialToFirst := 0
  switches := 0

open Classical in
/-- `alpha_dpp_sampling_precompute_constants` (`/repo/dppy/intermediate_sampling.py` lines 449-661) once the
dictionary `dict_alphadpp` is drawn. -/
noncomputable def alphaPrecompute (num : Numerics) (L : Matrix (Fin n) (Fin n) ℝ) (D : Centers n)
    (size : Option (ℤ × ℝ × ℝ)) : Outcome (AlphaInfo n) :=
  match stableFilter num.eps (num.eigh _ (lHat L D)).1 with
  | .raise e => .raise e
  | .ok keep =>
    let N := nysOf num L D keep
    if ∃ e, nysRls L N (1 / D.lam) (N.idx e) < 0 then .valueError
    else if alphaNatural L N D.lam < 0 then .valueError
    else match alphaHatOf num L N D.lam (size.map fun s => (s.1 : ℝ)) with
      | .raise e => .raise e
      | .ok alpha => .ok (alphaInfoOf L N size alpha)

/-! ### The samplers -/

/-- sequencing after a deterministic computation that may raise
(`/repo/dppy/intermediate_sampling.py` lines 127-322, 449-661) -/
noncomputable def liftOut {α : Type*} (o : Outcome α) : PMF (Outcome α) := PMF.pure o

/-- The keyword arguments of the vfx samplers that are documented but that `vfx_sampling_precompute_constants` does
not accept: it has no catch-all argument (`/repo/dppy/intermediate_sampling.py` lines 127-134). -/
structure VfxParams where
  qFunc : Option (ℝ → ℝ)
  maxIter : Option ℕ
  maxSize : Option ℕ

/-- `vfx_sampling_precompute_constants` with the random choice of the dictionary (lines 187-199), called with
`**params`: `dict` is the outcome of `bless(X_data, eval_L, 1.0, rls_oversample_bless, rng, ...)`.  The caller then sets
`q` (`/repo/dppy/exact_sampling.py` lines 764-772, 996-1007). -/
noncomputable def vfxPre (num : Numerics) (L : Matrix (Fin n) (Fin n) ℝ) (overVfx : ℝ)
    (dict : PMF (Outcome (Centers n))) (params : VfxParams) (desired : Option ℝ) : PMF (Outcome (VfxInfo n)) :=
  if params.qFunc.isSome || params.maxIter.isSome || params.maxSize.isSome then PMF.pure (.raise .typeError)
  else PMF.andThen dict fun D => PMF.andThen (reduceLambda num L D D.lam (some overVfx)) fun DA =>
    PMF.andThen (liftOut (vfxPrecompute num L DA desired)) fun pc =>
      PMF.pure (.ok { pc with q := params.qFunc.getD (fun s => s * s) pc.s })

/-- the info used by `dpp_vfx_sampler` (`/repo/dppy/exact_sampling.py` lines 764-772): it is computed only if it is
`None`. -/
noncomputable def vfxInfoFor (num : Numerics) (L : Matrix (Fin n) (Fin n) ℝ) (overVfx : ℝ)
    (dict : PMF (Outcome (Centers n))) (params : VfxParams) : Option (VfxInfo n) → PMF (Outcome (VfxInfo n))
  | some pc => PMF.pure (.ok pc)
  | none => vfxPre num L overVfx dict params none

/-- `dpp_vfx_sampler` (`/repo/dppy/exact_sampling.py` lines 762-776) -/
noncomputable def dppVfxSampler (num : Numerics) (inner : DppSampler) (L : Matrix (Fin n) (Fin n) ℝ) (overVfx : ℝ)
    (dict : PMF (Outcome (Centers n))) (params : VfxParams) (info : Option (VfxInfo n)) :
    PMF (Outcome (List (Fin n) × VfxInfo n)) :=
  PMF.andThen (vfxInfoFor num L overVfx dict params info) fun pc =>
    PMF.andThen (vfxLoop inner L pc (params.maxIter.getD 1000) 0) fun r => PMF.pure (.ok (r.1, pc))

/-- `np.isclose(a, b)`: `|a - b| <= 1e-8 + 1e-5 * |b|` (`/repo/dppy/exact_sampling.py` line 997) -/
def npClose (a b : ℝ) : Prop := |a - b| ≤ 1e-8 + 1e-5 * |b|

open Classical in
/-- the info used by `k_dpp_vfx_sampler` (`/repo/dppy/exact_sampling.py` lines 996-1007): it is computed again if it is
`None` or if its `s` is not close to the size. -/
noncomputable def kVfxInfoFor (num : Numerics) (L : Matrix (Fin n) (Fin n) ℝ) (overVfx : ℝ)
    (dict : PMF (Outcome (Centers n))) (params : VfxParams) (size : ℕ) : Option (VfxInfo n) → PMF (Outcome (VfxInfo n))
  | some pc => if npClose pc.s size then PMF.pure (.ok pc) else vfxPre num L overVfx dict params (some (size : ℝ))
  | none => vfxPre num L overVfx dict params (some (size : ℝ))

/-- `k_dpp_vfx_sampler` (`/repo/dppy/exact_sampling.py` lines 994-1028) -/
noncomputable def kDppVfxSampler (num : Numerics) (inner : DppSampler) (L : Matrix (Fin n) (Fin n) ℝ) (overVfx : ℝ)
    (dict : PMF (Outcome (Centers n))) (params : VfxParams) (size : ℕ) (info : Option (VfxInfo n)) :
    PMF (Outcome (List (Fin n) × VfxInfo n)) :=
  PMF.andThen (kVfxInfoFor num L overVfx dict params size info) fun pc =>
    kVfxLoop inner L size (params.maxIter.getD 1000) (params.maxSize.getD 100) pc

/-- `alpha_dpp_sampling_precompute_constants` with the random choice of the dictionary, for a DPP of random size
(`/repo/dppy/intermediate_sampling.py` lines 449-661) -/
noncomputable def alphaPre (num : Numerics) (L : Matrix (Fin n) (Fin n) ℝ) (overAlpha : ℝ)
    (dict : PMF (Outcome (Centers n))) : PMF (Outcome (AlphaInfo n)) :=
  PMF.andThen dict fun D => PMF.andThen (reduceLambda num L D D.lam (some overAlpha)) fun DA =>
    liftOut (alphaPrecompute num L DA none)

/-- the same for a k-DPP: `dict` is the outcome of `bless_size`
(`/repo/dppy/intermediate_sampling.py` lines 449-661) -/
noncomputable def alphaKPre (num : Numerics) (L : Matrix (Fin n) (Fin n) ℝ) (overAlpha : ℝ)
    (dict : PMF (Outcome (SizeState n))) (size : ℕ) : PMF (Outcome (AlphaInfo n)) :=
  PMF.andThen dict fun D => PMF.andThen (reduceLambda num L D.dict D.dict.lam (some overAlpha)) fun DA =>
    liftOut (alphaPrecompute num L DA (some ((size : ℤ), D.lamMax, D.lamMin)))

/-- `r=r_func(deff_alpha_L_hat)` (`/repo/dppy/exact_sampling.py` lines 880-881, 1143-1145) -/
noncomputable def withR (rFunc : ℝ → ℝ) (p : PMF (Outcome (AlphaInfo n))) : PMF (Outcome (AlphaInfo n)) :=
  PMF.andThen p fun pc => PMF.pure (.ok { pc with r := rFunc (nysDeff pc.dict pc.alphaHat) })

/-- the info used by `alpha_dpp_sampler` (`/repo/dppy/exact_sampling.py` lines 873-881): it is computed only if it is
`None`. -/
noncomputable def alphaInfoFor (num : Numerics) (L : Matrix (Fin n) (Fin n) ℝ) (overAlpha : ℝ)
    (dict : PMF (Outcome (Centers n))) (rFunc : ℝ → ℝ) : Option (AlphaInfo n) → PMF (Outcome (AlphaInfo n))
  | some pc => PMF.pure (.ok pc)
  | none => withR rFunc (alphaPre num L overAlpha dict)

/-- `alpha_dpp_sampler` (`/repo/dppy/exact_sampling.py` lines 871-889), `rFunc` is applied to the effective dimension -/
noncomputable def alphaDppSampler (num : Numerics) (inner : DppSampler) (L : Matrix (Fin n) (Fin n) ℝ) (overAlpha : ℝ)
    (dict : PMF (Outcome (Centers n))) (rFunc : ℝ → ℝ) (maxIter : ℕ) (info : Option (AlphaInfo n)) :
    PMF (Outcome (List (Fin n) × AlphaInfo n)) :=
  PMF.andThen (alphaInfoFor num L overAlpha dict rFunc info) fun pc =>
    PMF.andThen (alphaLoop inner L maxIter 0 pc) fun r =>
    PMF.pure (.ok (r.1, r.2.2))

/-- the info used by `alpha_k_dpp_sampler` (`/repo/dppy/exact_sampling.py` lines 1135-1145): it is computed again if it
is `None` or if it was computed for another size. -/
noncomputable def alphaKInfoFor (num : Numerics) (L : Matrix (Fin n) (Fin n) ℝ) (overAlpha : ℝ)
    (dict : PMF (Outcome (SizeState n))) (rFunc : ℝ → ℝ) (size : ℕ) : Option (AlphaInfo n) → PMF (Outcome (AlphaInfo n))
  | some pc => if pc.k = size then PMF.pure (.ok pc) else withR rFunc (alphaKPre num L overAlpha dict size)
  | none => withR rFunc (alphaKPre num L overAlpha dict size)

/-- `alpha_k_dpp_sampler` (`/repo/dppy/exact_sampling.py` lines 1133-1241) -/
noncomputable def alphaKDppSampler (num : Numerics) (inner : DppSampler) (L : Matrix (Fin n) (Fin n) ℝ) (overAlpha : ℝ)
    (dict : PMF (Outcome (SizeState n))) (rFunc : ℝ → ℝ) (size maxIter maxSize : ℕ) (earlyStop : Bool)
    (info : Option (AlphaInfo n)) : PMF (Outcome (List (Fin n) × AlphaInfo n)) :=
  PMF.andThen (alphaKInfoFor num L overAlpha dict rFunc size info) fun pc =>
    alphaKLoop inner L size maxIter earlyStop maxSize (kCountInit size pc) pc

end Verif.Model
