import Verif.Model.Spectral
import Verif.Model.Utils

/-!
Model of the class `FiniteDPP` (`/repo/dppy/finite_dpps.py`): constructor, lazy computation of
kernels, exact and MCMC sampling, as a state machine over the attributes of the object.

* External routines (`la.eigh`, `la.qr`) and the samplers that this file only dispatches to
  (`vfx`, `alpha`, MCMC chains, zonotope) are fields of `Env`.
* Every method returns the object *after* the call together with the value or the exception, so that
  partial updates made before an exception survive it, as in Python.
* Recursive methods are written with the recursion limit of the interpreter as fuel: running out of it
  is `RecursionError`.
* NaN only appears in eigenvectors (division by a zero dual eigenvalue) and in the kernels computed
  from them: `KMat.nan` is an array full of NaN.
-/

namespace Verif.Model
open Verif

/-- Square arrays indexed by items. (`/repo/dppy/finite_dpps.py` lines 121, 136, arrays `K`, `L`) -/
abbrev Mat (N : ℕ) := Matrix (Fin N) (Fin N) ℝ

/-- A kernel stored in the object: numbers, or an array full of NaN.
(`/repo/dppy/finite_dpps.py` lines 819-937, attributes `K`, `L`) -/
inductive KMat (N : ℕ) where
  | num (A : Mat N)
  | nan

/-- The array `eig_vecs` (`N × M`); `bad a` says that column `a` consists of NaN.
(`/repo/dppy/finite_dpps.py` lines 130, 145-146) -/
structure EigVecs (N : ℕ) where
  M : ℕ
  u : Fin N → Fin M → ℝ
  bad : Fin M → Bool

/-- A `d × N` array (`A_zono`, `L_gram_factor`). (`/repo/dppy/finite_dpps.py` lines 132, 149) -/
structure Rect (N : ℕ) where
  d : ℕ
  a : Fin d → Fin N → ℝ

/-- Entries of `list_of_samples`: an exact sample or a whole chain.
(`/repo/dppy/finite_dpps.py` lines 113, 467, 703, 799) -/
inductive Record (N : ℕ) where
  | exact (s : List (Fin N))
  | chain (c : List (List (Fin N)))

/-- External routines and samplers. `vfx`, `alpha` (resp. `vfxK`, `alphaK`) model the calls of
`dpp_vfx_sampler`, `alpha_dpp_sampler` (resp. `k_dpp_vfx_sampler`, `alpha_k_dpp_sampler`) given the
cached `intermediate_sample_info`; `mcmc` and `zono` those of `dpp_sampler_mcmc` and
`zonotope_sampler`. (`/repo/dppy/finite_dpps.py` lines 264-799) -/
structure Env (N : ℕ) (Info : Type) where
  qr : QR N
  eigh : (n : ℕ) → (Fin n → Fin n → ℝ) → (Fin n → ℝ) × (Fin n → Fin n → ℝ)
  eps : ℝ
  vfx : Option Info → Dist ℝ (Outcome (List (Fin N) × Info))
  alpha : Option Info → Dist ℝ (Outcome (List (Fin N) × Info))
  vfxK : ℕ → Option Info → Dist ℝ (Outcome (List (Fin N) × Info))
  alphaK : ℕ → Option Info → Dist ℝ (Outcome (List (Fin N) × Info))
  mcmc : KMat N → String → Option ℕ → Dist ℝ (Outcome (List (List (Fin N))))
  zono : Rect N → Dist ℝ (Outcome (List (List (Fin N))))

/-- Attributes of a `FiniteDPP` object (`/repo/dppy/finite_dpps.py` lines 106-170).  Arrays of
eigenvalues are functions of which the first `M` entries are read, `M` being the number of columns of
`eig_vecs` (numpy refuses arrays of different lengths).  `dual` is `L_gram_factor` when `L_dual` was
computed from it.  `evalL` is the matrix `eval_L(X_data)` when both `eval_L` and `X_data` were
given. -/
structure Obj (N : ℕ) (Info : Type) where
  corr : Bool
  projection : Bool
  mode : String
  samples : List (Record N)
  sizeK : ℕ
  Epoly : Option (Table ℝ)
  K : Option (KMat N)
  Kvals : Option (ℕ → ℝ)
  vecs : Option (EigVecs N)
  zono : Option (Rect N)
  L : Option (KMat N)
  Lvals : Option (ℕ → ℝ)
  gram : Option (Rect N)
  dual : Option (Rect N)
  evalL : Option (Mat N)
  info : Option Info

/-- `sys.getrecursionlimit()`, 1000 by default. (`/repo/dppy/finite_dpps.py` lines 397-461, the recursive calls) -/
def recLimit : ℕ := 1000

section
variable {N : ℕ} {Info : Type}

/-! ### constructor -/

/-- The keyword parameters: `none` when the key is absent, `some none` when it is given with value
`None` (`(None, None)` for the pairs).  Eigenvalues are given with as many eigenvectors.
(`/repo/dppy/finite_dpps.py` lines 121-176) -/
structure Params (N : ℕ) where
  K : Option (Option (Mat N)) := none
  KEigDec : Option (Option ((M : ℕ) × (Fin M → ℝ) × (Fin N → Fin M → ℝ))) := none
  AZono : Option (Option (Rect N)) := none
  L : Option (Option (Mat N)) := none
  LEigDec : Option (Option ((M : ℕ) × (Fin M → ℝ) × (Fin N → Fin M → ℝ))) := none
  LGramFactor : Option (Option (Rect N)) := none
  LEvalXData : Option (Option (Mat N)) := none

/-- The argument `projection`: a `bool` or anything else. (`/repo/dppy/finite_dpps.py` line 196) -/
inductive ProjArg where
  | bool (b : Bool)
  | other

/-- `__check_args_coherence` (`/repo/dppy/finite_dpps.py` lines 192-242): returns the value of
`self.projection`.  For a non-boolean `projection` the error message evaluates `self.is_projection`,
which is not an attribute: `AttributeError`. -/
def checkArgsCoherence (kernelType : String) (projection : ProjArg) (p : Params N) : Outcome Bool :=
  match projection with
  | .other => .raise .attributeError
  | .bool b =>
    if kernelType = "correlation" then
      if p.K.isSome ∨ p.KEigDec.isSome ∨ p.AZono.isSome then
        if p.AZono.isSome ∧ b = false then .ok true else .ok b
      else .valueError
    else if kernelType = "likelihood" then
      if p.L.isSome ∨ p.LEigDec.isSome ∨ p.LGramFactor.isSome ∨ p.LEvalXData.isSome then .ok b
      else .valueError
    else .valueError

/-- sequencing of calls that may raise (`/repo/dppy/finite_dpps.py` lines 104-937) -/
def Outcome.bind' {α β : Type*} : Outcome α → (α → Outcome β) → Outcome β
  | .ok a, k => k a
  | .raise e, _ => .raise e

/-- A vector of length `M` padded with zeros (`vecNat`), with columns that are not NaN.
(`/repo/dppy/finite_dpps.py` lines 125-130, 140-146) -/
noncomputable def eigOfParam (E : (M : ℕ) × (Fin M → ℝ) × (Fin N → Fin M → ℝ)) :
    (ℕ → ℝ) × EigVecs N :=
  (vecNat E.2.1, { M := E.1, u := E.2.2, bad := fun _ => false })

/-- `Phi.T.dot(Phi)` (`/repo/dppy/finite_dpps.py` lines 160 and 901). -/
def gramMat (Phi : Rect N) : Mat N := fun i j => ∑ l, Phi.a l i * Phi.a l j

/-- Checks of `K` and `L`: `is_symmetric`, then `is_projection` if `self.projection`
(`/repo/dppy/finite_dpps.py` lines 121-123 and 136-138).  The validators return their argument. -/
noncomputable def checkKernel (proj : Bool) : Option (Mat N) → Outcome (Option (Mat N))
  | none => .ok none
  | some A => Outcome.bind' (isSymmetric A) fun _ =>
      if proj then (isProjectionCheck A).map fun _ => some A else .ok (some A)

/-- Checks of `K_eig_dec` (`/repo/dppy/finite_dpps.py` lines 125-130). -/
noncomputable def checkKEig (proj : Bool) :
    Option ((M : ℕ) × (Fin M → ℝ) × (Fin N → Fin M → ℝ)) → Outcome (Option ((ℕ → ℝ) × EigVecs N))
  | none => .ok none
  | some E => Outcome.bind' (if proj then isEqualTo01 tol8 E.2.1 else isIn01 tol8 E.2.1) fun _ =>
      Outcome.bind' (isOrthonormalColumns E.2.2) fun _ => .ok (some (eigOfParam E))

/-- Check of `A_zono` (`/repo/dppy/finite_dpps.py` line 132). -/
noncomputable def checkZono : Option (Rect N) → Outcome (Option (Rect N))
  | none => .ok none
  | some A => (isFullRowRank A.a).map fun _ => some A

/-- Checks of `L_eig_dec` (`/repo/dppy/finite_dpps.py` lines 140-149); `noVecs` says that `eig_vecs` is
still `None`. -/
noncomputable def checkLEig (proj noVecs : Bool) :
    Option ((M : ℕ) × (Fin M → ℝ) × (Fin N → Fin M → ℝ)) → Outcome (Option ((ℕ → ℝ) × EigVecs N))
  | none => .ok none
  | some E => Outcome.bind' (if proj then isEqualTo01 tol8 E.2.1 else isGeq0 tol8 E.2.1) fun _ =>
      if noVecs then
        Outcome.bind' (isOrthonormalColumns E.2.2) fun _ => .ok (some (eigOfParam E))
      else .ok (some (eigOfParam E))

/-- `FiniteDPP.__init__` (`/repo/dppy/finite_dpps.py` lines 104-176), in the order of the code.  The
tests on `eval_L` and `X_data` (lines 168-176: callable, non-empty two-dimensional array) are assumed
to pass. -/
noncomputable def Obj.init (kernelType : String) (projection : ProjArg) (p : Params N) :
    Outcome (Obj N Info) :=
  Outcome.bind' (checkArgsCoherence kernelType projection p) fun proj =>
  Outcome.bind' (checkKernel proj p.K.join) fun K =>
  Outcome.bind' (checkKEig proj p.KEigDec.join) fun Kd =>
  Outcome.bind' (checkZono p.AZono.join) fun zono =>
  Outcome.bind' (checkKernel proj p.L.join) fun L =>
  Outcome.bind' (checkLEig proj Kd.isNone p.LEigDec.join) fun Ld =>
  let gram := p.LGramFactor.join
  .ok
    { corr := decide (kernelType = "correlation")
      projection := proj
      mode := "GS"
      samples := []
      sizeK := 0
      Epoly := none
      K := K.map .num
      Kvals := Kd.map Prod.fst
      vecs := match Kd with
        | some E => some E.2
        | none => Ld.map Prod.snd
      zono := zono
      L := match L, gram with
        | none, some Phi => if Phi.d < N then none else some (.num (gramMat Phi))
        | L, _ => L.map .num
      Lvals := Ld.map Prod.fst
      gram := gram
      dual := match gram with
        | some Phi => if Phi.d < N then some Phi else none
        | none => none
      evalL := p.LEvalXData.join
      info := none }

/-! ### kernels -/

/-- `(eig_vecs * vals).dot(eig_vecs.T)` (`/repo/dppy/finite_dpps.py` lines 841, 850, 896): a column of
NaN makes the product NaN, even when its eigenvalue is zero. -/
noncomputable def kerMat (E : EigVecs N) (v : ℕ → ℝ) : KMat N :=
  if (List.finRange E.M).any E.bad then .nan
  else .num fun i j => ∑ a : Fin E.M, v a.val * E.u i a * E.u j a

/-- `la.eigh(A)` on a kernel; scipy refuses NaN with `ValueError`.
(`/repo/dppy/finite_dpps.py` lines 437, 443, 682, 688, 861) -/
noncomputable def eighMat (env : Env N Info) : KMat N → Outcome ((ℕ → ℝ) × EigVecs N)
  | .nan => .valueError
  | .num A =>
    let e := env.eigh N A
    .ok (vecNat e.1, { M := N, u := e.2, bad := fun _ => false })

/-- `la.qr(A_zono.T, mode='economic')[0]` (`/repo/dppy/finite_dpps.py` lines 454, 616, 849). -/
def zonoVecs (env : Env N Info) (A : Rect N) : EigVecs N :=
  { M := A.d, u := env.qr A.d (fun i k => A.a k i), bad := fun _ => false }

open Classical in
/-- is some of the first `M` eigenvalues `< -1e-8`? (`is_geq_0` raises)
(`/repo/dppy/finite_dpps.py` lines 444, 675, 683, 862) -/
noncomputable def someNeg (v : ℕ → ℝ) (M : ℕ) : Bool := decide (∃ a < M, v a < -tol8)

open Classical in
/-- is some of the first `M` eigenvalues outside `[-1e-8, 1+1e-8]`? (`is_in_01` raises)
(`/repo/dppy/finite_dpps.py` lines 438, 689, 932) -/
noncomputable def someNotIn01 (v : ℕ → ℝ) (M : ℕ) : Bool :=
  decide (∃ a < M, v a < -tol8 ∨ 1 + tol8 < v a)

open Classical in
/-- is some of the first `M` eigenvalues equal to 1? (`K/(1-K)` raises `FloatingPointError`)
(`/repo/dppy/finite_dpps.py` lines 664-665, 918-919) -/
noncomputable def someOne (v : ℕ → ℝ) (M : ℕ) : Bool := decide (∃ a < M, v a = 1)

/-- number of columns of `eig_vecs` (`/repo/dppy/finite_dpps.py` lines 395, 607, 633) -/
def nbCols (o : Obj N Info) : ℕ := match o.vecs with
  | some E => E.M
  | none => 0

/-- `eig_L / (1 + eig_L)` (`/repo/dppy/finite_dpps.py` lines 415, 855) -/
noncomputable def toK (v : ℕ → ℝ) : ℕ → ℝ := fun a => v a / (1 + v a)
/-- `eig_K / (1 - eig_K)` (`/repo/dppy/finite_dpps.py` lines 664-665, 918-919) -/
noncomputable def toL (v : ℕ → ℝ) : ℕ → ℝ := fun a => v a / (1 - v a)

mutual
/-- `compute_K` (`/repo/dppy/finite_dpps.py` lines 819-867). -/
noncomputable def computeKF (env : Env N Info) : ℕ → Obj N Info → Obj N Info × Outcome Unit
  | 0, o => (o, .raise .recursionError)
  | fuel + 1, o =>
    match o.K with
    | some _ => (o, .ok ())
    | none =>
    match o.Kvals with
    | some v => match o.vecs with
      | some E => ({ o with K := some (kerMat E v) }, .ok ())
      | none => (o, .raise .typeError)
    | none =>
    match o.zono with
    | some A =>
      let E := zonoVecs env A
      ({ o with Kvals := some fun _ => 1, vecs := some E, K := some (kerMat E fun _ => 1) }, .ok ())
    | none =>
    match o.Lvals with
    | some v => computeKF env fuel { o with Kvals := some (toK v) }
    | none =>
    match o.L with
    | some A => match eighMat env A with
      | .raise e => (o, .raise e)
      | .ok (v, E) =>
        let o := { o with Lvals := some v, vecs := some E }
        if someNeg v E.M then (o, .valueError) else computeKF env fuel o
    | none =>
      match computeLF env fuel o with
      | (o, .raise e) => (o, .raise e)
      | (o, .ok _) => computeKF env fuel o

/-- `compute_L` (`/repo/dppy/finite_dpps.py` lines 869-937). -/
noncomputable def computeLF (env : Env N Info) : ℕ → Obj N Info → Obj N Info × Outcome Unit
  | 0, o => (o, .raise .recursionError)
  | fuel + 1, o =>
    match o.L with
    | some _ => (o, .ok ())
    | none =>
    if o.corr && o.projection then (o, .valueError)
    else
    match o.Lvals with
    | some v => match o.vecs with
      | some E => ({ o with L := some (kerMat E v) }, .ok ())
      | none => (o, .raise .typeError)
    | none =>
    match o.gram with
    | some Phi => ({ o with L := some (.num (gramMat Phi)) }, .ok ())
    | none =>
    match o.evalL with
    | some A => ({ o with L := some (.num A) }, .ok ())
    | none =>
    match o.Kvals with
    | some v =>
      if someOne v (nbCols o) then (o, .raise .floatingPointError)
      else computeLF env fuel { o with Lvals := some (toL v) }
    | none =>
    match o.K with
    | some A => match eighMat env A with
      | .raise e => (o, .raise e)
      | .ok (v, E) =>
        let o := { o with Kvals := some v, vecs := some E }
        if someNotIn01 v E.M then (o, .valueError) else computeLF env fuel o
    | none =>
      match computeKF env fuel o with
      | (o, .raise e) => (o, .raise e)
      | (o, .ok _) => computeLF env fuel o
end

/-- `dpp.compute_K()` (`/repo/dppy/finite_dpps.py` lines 819-867) -/
noncomputable def computeK (env : Env N Info) (o : Obj N Info) : Obj N Info × Outcome Unit :=
  computeKF env recLimit o
/-- `dpp.compute_L()` (`/repo/dppy/finite_dpps.py` lines 869-937) -/
noncomputable def computeL (env : Env N Info) (o : Obj N Info) : Obj N Info × Outcome Unit :=
  computeLF env recLimit o

/-! ### exact sampling -/

/-- Result of a sampling method: the object after the call, and the value returned or raised.
(`/repo/dppy/finite_dpps.py` lines 264-799) -/
abbrev Call (N : ℕ) (Info : Type) := Dist ℝ (Obj N Info × Outcome (List (Fin N)))

/-- `sampl = …; self.list_of_samples.append(sampl); return sampl`
(`/repo/dppy/finite_dpps.py` lines 466-467 and 702-703). -/
def recordExact (o : Obj N Info) (d : Dist ℝ (Outcome (List (Fin N)))) : Call N Info :=
  d.map fun r => match r with
    | .ok s => ({ o with samples := o.samples ++ [.exact s] }, .ok s)
    | .raise e => (o, .raise e)

/-- The same, for the samplers that also return `intermediate_sample_info`
(`/repo/dppy/finite_dpps.py` lines 364-371, 382-389, 560-569, 579-588). -/
def recordInfo (o : Obj N Info) (d : Dist ℝ (Outcome (List (Fin N) × Info))) : Call N Info :=
  d.map fun r => match r with
    | .ok (s, i) => ({ o with samples := o.samples ++ [.exact s], info := some i }, .ok s)
    | .raise e => (o, .raise e)

/-- `proj_dpp_sampler_kernel` on a stored kernel (NaN refused by the random choice).
(`/repo/dppy/finite_dpps.py` lines 432-434) -/
noncomputable def projKernel (A : KMat N) (mode : String) (size : Option ℕ) :
    Dist ℝ (Outcome (List (Fin N))) :=
  match A with
  | .num A => projDppSamplerKernel A mode size
  | .nan => Dist.ret Outcome.valueError

/-- `dpp_sampler_generic_kernel` on a stored kernel (`/repo/dppy/exact_sampling.py` lines 344-357):
when the kernel is NaN the comparison `rng.rand() < nan` is always false, the sample is empty. -/
noncomputable def genericKernel (A : KMat N) : Dist ℝ (Outcome (List (Fin N))) :=
  match A with
  | .num A => (dppSamplerGenericKernel A).map fun out => .ok out.1
  | .nan => Dist.ret (.ok [])

/-- `proj_dpp_sampler_eig(eig_vecs[:, l], mode, size)`; NaN among the selected columns makes the
random choice raise `ValueError`. (`/repo/dppy/finite_dpps.py` lines 394-400, 605-609, 631-635) -/
noncomputable def projEig (env : Env N Info) (E : EigVecs N) (l : List ℕ) (mode : String)
    (size : Option ℕ) : Dist ℝ (Outcome (List (Fin N))) :=
  if (List.finRange E.M).any (fun a => E.bad a && decide (a.val ∈ l)) then Dist.ret Outcome.valueError
  else projDppSamplerEig env.qr (cols E.u l) mode size

open Classical in
/-- indices where `vals > 0.5` (`/repo/dppy/finite_dpps.py` lines 395, 605-607, 631-633) -/
noncomputable def aboveHalf (v : ℕ → ℝ) (M : ℕ) : List ℕ :=
  (List.range M).filter fun a => decide (v a > 1 / 2)

open Classical in
/-- Eigenvalues and eigenvectors of `L = Φᵀ Φ` from those of `Φ Φᵀ`
(`/repo/dppy/finite_dpps.py` lines 423-428, 674-679): `la.eigh(L_dual)`, `is_geq_0`, then
`Φ.T.dot(W / sqrt(theta))`; a zero `theta` gives a column of NaN. `clip` says whether
`np.maximum(., 0.0)` is applied (it is in `sample_exact`, not in `sample_exact_k_dpp`; without it the
square root of a negative eigenvalue also is NaN). -/
noncomputable def dualEig (env : Env N Info) (Phi : Rect N) (clip : Bool) : (ℕ → ℝ) × EigVecs N :=
  let e := env.eigh Phi.d (fun k l => ∑ i, Phi.a k i * Phi.a l i)
  let v : Fin Phi.d → ℝ := fun a => if clip then max (e.1 a) 0 else e.1 a
  (vecNat v,
   { M := Phi.d
     u := fun i a => ∑ l, Phi.a l i * (e.2 l a / Real.sqrt (v a))
     bad := fun a => decide (v a ≤ 0) })

open Classical in
/-- is some dual eigenvalue `< -1e-8`? (`is_geq_0` raises, after `self.L_eig_vals` was assigned)
(`/repo/dppy/finite_dpps.py` lines 423-424, 674-675) -/
noncomputable def dualNeg (env : Env N Info) (Phi : Rect N) : Bool :=
  decide (∃ a, (env.eigh Phi.d (fun k l => ∑ i, Phi.a k i * Phi.a l i)).1 a < -tol8)

/-- `sample_exact(mode)` (`/repo/dppy/finite_dpps.py` lines 336-467), after
`self.sampling_mode = mode`; `again` is the recursive call `self.sample_exact(mode)`. -/
noncomputable def sampleExactBody (env : Env N Info) (again : Obj N Info → Call N Info) (mode : String)
    (o : Obj N Info) : Call N Info :=
    if mode = "Schur" then
      if o.corr && o.projection then
        match computeK env o with
        | (o, .raise e) => Dist.ret (o, .raise e)
        | (o, .ok _) => match o.K with
          | some A => recordExact o (projKernel A mode none)
          | none => Dist.ret (o, .raise .typeError)
      else Dist.ret (o, .valueError)
    else if mode = "Chol" then
      match computeK env o with
      | (o, .raise e) => Dist.ret (o, .raise e)
      | (o, .ok _) => match o.K with
        | some A =>
          if o.corr && o.projection then recordExact o (projKernel A mode none)
          else recordExact o (genericKernel A)
        | none => Dist.ret (o, .raise .typeError)
    else if mode = "vfx" then
      match o.evalL with
      | none => Dist.ret (o, .valueError)
      | some _ => recordInfo o (env.vfx o.info)
    else if mode = "alpha" then
      match o.evalL with
      | none => Dist.ret (o, .valueError)
      | some _ => recordInfo o (env.alpha o.info)
    else
    match o.Kvals with
    | some v => match o.vecs with
      | none => Dist.ret (o, .raise .typeError)
      | some E =>
        if o.corr && o.projection then recordExact o (projEig env E (aboveHalf v E.M) mode none)
        else recordExact o ((dppEigVecsSelector v E.M).bind fun l => projEig env E l mode none)
    | none =>
    match o.Lvals with
    | some v => again { o with Kvals := some (toK v) }
    | none =>
    match o.dual with
    | some Phi =>
      if dualNeg env Phi then
        Dist.ret ({ o with Lvals := some (dualEig env Phi false).1 }, .valueError)
      else
        let e := dualEig env Phi true
        again { o with Lvals := some e.1, vecs := some e.2 }
    | none =>
    match o.K with
    | some A =>
      if o.projection then recordExact o (projKernel A mode none)
      else match eighMat env A with
        | .raise e => Dist.ret (o, .raise e)
        | .ok (v, E) =>
          let o := { o with Kvals := some v, vecs := some E }
          if someNotIn01 v E.M then Dist.ret (o, .valueError) else again o
    | none =>
    match o.L with
    | some A => match eighMat env A with
      | .raise e => Dist.ret (o, .raise e)
      | .ok (v, E) =>
        let o := { o with Lvals := some v, vecs := some E }
        if someNeg v E.M then Dist.ret (o, .valueError) else again o
    | none =>
    match o.zono with
    | some A =>
      again { o with Kvals := some fun _ => 1, vecs := some (zonoVecs env A) }
    | none =>
    match o.evalL with
    | some _ => match computeL env o with
      | (o, .raise e) => Dist.ret (o, .raise e)
      | (o, .ok _) => again o
    | none => Dist.ret (o, .valueError)

/-- `sample_exact(mode)` (`/repo/dppy/finite_dpps.py` lines 264-467), with recursion depth `fuel`. -/
noncomputable def sampleExactF (env : Env N Info) : ℕ → Obj N Info → String → Call N Info
  | 0, o, _ => Dist.ret (o, .raise .recursionError)
  | fuel + 1, o, mode =>
    sampleExactBody env (fun o => sampleExactF env fuel o mode) mode { o with mode := mode }

/-- `dpp.sample_exact(mode)` (`/repo/dppy/finite_dpps.py` lines 264-467) -/
noncomputable def sampleExact (env : Env N Info) (o : Obj N Info) (mode : String) : Call N Info :=
  sampleExactF env recLimit o mode

/-- `tol = np.max(eig_vals) * N * np.finfo(float).eps` (`/repo/dppy/exact_sampling.py` line 1285). -/
noncomputable def rankTol (env : Env N Info) (v : ℕ → ℝ) (M : ℕ) : ℝ :=
  ((List.range M).map v).foldr max 0 * N * env.eps

/-- `np.rint(np.sum(K_eig_vals)).astype(int)` (`/repo/dppy/finite_dpps.py` line 595). -/
noncomputable def rintSum (v : ℕ → ℝ) (M : ℕ) : ℤ := round (∑ a ∈ Finset.range M, v a)

/-- `np.rint(np.trace(K)).astype(int)` of a stored kernel; `none` when it is NaN.
(`/repo/dppy/finite_dpps.py` lines 599, 773) -/
noncomputable def rintTr : KMat N → Option ℤ
  | .num A => some (rintTrace A)
  | .nan => none

/-- `sample_exact_k_dpp(size, mode)` (`/repo/dppy/finite_dpps.py` lines 547-703), after
`self.sampling_mode = mode; self.size_k_dpp = size`; `again` is the recursive call. -/
noncomputable def sampleExactKDppBody (env : Env N Info) (again : Obj N Info → Call N Info) (size : ℕ)
    (mode : String) (o : Obj N Info) : Call N Info :=
    if mode = "vfx" then
      match o.evalL with
      | none => Dist.ret (o, .valueError)
      | some _ => recordInfo o (env.vfxK size o.info)
    else if mode = "alpha" then
      match o.evalL with
      | none => Dist.ret (o, .valueError)
      | some _ => recordInfo o (env.alphaK size o.info)
    else if o.projection then
      if o.corr then
        match o.Kvals with
        | some v => match o.vecs with
          | none => Dist.ret (o, .raise .typeError)
          | some E =>
            if (size : ℤ) ≠ rintSum v E.M then Dist.ret (o, .valueError)
            else recordExact o (projEig env E (aboveHalf v E.M) mode (some size))
        | none =>
        match o.zono with
        | some A =>
          if size ≠ A.d then Dist.ret (o, .valueError)
          else
            let E := zonoVecs env A
            let o := { o with Kvals := some fun _ => 1, vecs := some E }
            recordExact o (projEig env E (List.range A.d) mode (some size))
        | none =>
        match o.K with
        | some A =>
          if some (size : ℤ) ≠ rintTr A then Dist.ret (o, .valueError)
          else recordExact o (projKernel A mode (some size))
        | none => Dist.ret (o, .valueError)
      else
        match o.Lvals with
        | some v => match o.vecs with
          | none => Dist.ret (o, .raise .typeError)
          | some E => recordExact o (projEig env E (aboveHalf v E.M) mode (some size))
        | none =>
          match computeL env o with
          | (o, .raise e) => Dist.ret (o, .raise e)
          | (o, .ok _) => match o.L with
            | some A => recordExact o (projKernel A mode (some size))
            | none => Dist.ret (o, .raise .typeError)
    else
    match o.Lvals with
    | some v => match o.vecs with
      | none => Dist.ret (o, .raise .typeError)
      | some E =>
        let o := { o with Epoly :=
          if o.Epoly.isNone ∨ o.sizeK < size then some (elementarySymmetricPolynomials E.M v size)
          else o.Epoly }
        recordExact o ((kDppEigVecsSelector E.M v (rankTol env v E.M) size o.Epoly).andThen fun l =>
          projEig env E l mode none)
    | none =>
    match o.Kvals with
    | some v =>
      if someOne v (nbCols o) then Dist.ret (o, .raise .floatingPointError)
      else again { o with Lvals := some (toL v) }
    | none =>
    match o.dual with
    | some Phi =>
      if dualNeg env Phi then
        Dist.ret ({ o with Lvals := some (dualEig env Phi false).1 }, .valueError)
      else
        let e := dualEig env Phi false
        again { o with Lvals := some e.1, vecs := some e.2 }
    | none =>
    match o.L with
    | some A => match eighMat env A with
      | .raise e => Dist.ret (o, .raise e)
      | .ok (v, E) =>
        let o := { o with Lvals := some v, vecs := some E }
        if someNeg v E.M then Dist.ret (o, .valueError) else again o
    | none =>
    match o.K with
    | some A => match eighMat env A with
      | .raise e => Dist.ret (o, .raise e)
      | .ok (v, E) =>
        let o := { o with Kvals := some v, vecs := some E }
        if someNotIn01 v E.M then Dist.ret (o, .valueError)
        else again o
    | none =>
    match o.evalL with
    | some _ => match computeL env o with
      | (o, .raise e) => Dist.ret (o, .raise e)
      | (o, .ok _) => again o
    | none => Dist.ret (o, .valueError)

/-- `sample_exact_k_dpp(size, mode)` (`/repo/dppy/finite_dpps.py` lines 469-703), with recursion depth
`fuel`. -/
noncomputable def sampleExactKDppF (env : Env N Info) : ℕ → Obj N Info → ℕ → String → Call N Info
  | 0, o, _, _ => Dist.ret (o, .raise .recursionError)
  | fuel + 1, o, size, mode =>
    sampleExactKDppBody env (fun o => sampleExactKDppF env fuel o size mode) size mode
      { o with mode := mode, sizeK := size }

/-- `dpp.sample_exact_k_dpp(size, mode)` (`/repo/dppy/finite_dpps.py` lines 469-703) -/
noncomputable def sampleExactKDpp (env : Env N Info) (o : Obj N Info) (size : ℕ) (mode : String) :
    Call N Info := sampleExactKDppF env recLimit o size mode

/-! ### MCMC -/

/-- `self.list_of_samples.append(chain); return chain[-1]`
(`/repo/dppy/finite_dpps.py` lines 798-799): on an empty chain `chain[-1]` raises `IndexError` after the
chain was recorded. -/
def recordChain (o : Obj N Info) (d : Dist ℝ (Outcome (List (List (Fin N))))) : Call N Info :=
  d.map fun r => match r with
    | .ok c =>
      ({ o with samples := o.samples ++ [.chain c] },
        match c.getLast? with
        | some s => .ok s
        | none => .indexError)
    | .raise e => (o, .raise e)

/-- `sample_mcmc(mode, size=size)` (`/repo/dppy/finite_dpps.py` lines 706-799), after
`self.sampling_mode = mode`. -/
noncomputable def sampleMcmcBody (env : Env N Info) (mode : String) (size : Option ℕ) (o : Obj N Info) :
    Call N Info :=
  if mode = "zonotope" then
    match o.zono with
    | some A => recordChain o (env.zono A)
    | none => Dist.ret (o, .valueError)
  else if mode = "E" then
    if o.corr && o.projection then
      match computeK env o with
      | (o, .raise e) => Dist.ret (o, .raise e)
      | (o, .ok _) => match o.K with
        | some A =>
          if size.map (Int.ofNat) = rintTr A ∧ size.isSome then recordChain o (env.mcmc A mode size)
          else Dist.ret (o, .valueError)
        | none => Dist.ret (o, .raise .typeError)
    else
      match computeL env o with
      | (o, .raise e) => Dist.ret (o, .raise e)
      | (o, .ok _) => match o.L with
        | some A => recordChain o (env.mcmc A mode size)
        | none => Dist.ret (o, .raise .typeError)
  else if mode = "AED" ∨ mode = "AD" then
    match computeL env o with
    | (o, .raise e) => Dist.ret (o, .raise e)
    | (o, .ok _) => match o.L with
      | some A => recordChain o (env.mcmc A mode size)
      | none => Dist.ret (o, .raise .typeError)
  else Dist.ret (o, .valueError)

/-- `sample_mcmc(mode, size=size)` (`/repo/dppy/finite_dpps.py` lines 706-799). -/
noncomputable def sampleMcmc (env : Env N Info) (o : Obj N Info) (mode : String) (size : Option ℕ) :
    Call N Info := sampleMcmcBody env mode size { o with mode := mode }

/-- `sample_mcmc_k_dpp(size, mode)` (`/repo/dppy/finite_dpps.py` lines 801-817): the argument `mode` is
ignored. -/
noncomputable def sampleMcmcKDpp (env : Env N Info) (o : Obj N Info) (size : ℕ) (_mode : String) :
    Call N Info :=
  sampleMcmc env { o with mode := "E", sizeK := size } "E" (some size)

/-- `flush_samples()` (`/repo/dppy/finite_dpps.py` lines 252-261). -/
def flushSamples (o : Obj N Info) : Obj N Info := { o with samples := [], sizeK := 0 }

/-- The public methods that change the object. (`/repo/dppy/finite_dpps.py` lines 252-937) -/
inductive Cmd where
  | exact (mode : String)
  | exactK (size : ℕ) (mode : String)
  | mcmc (mode : String) (size : Option ℕ)
  | mcmcK (size : ℕ) (mode : String)
  | computeK
  | computeL
  | flush

/-- Effect of one call; methods that do not return a sample give `none`.
(`/repo/dppy/finite_dpps.py` lines 252-937) -/
noncomputable def step (env : Env N Info) (c : Cmd) (o : Obj N Info) :
    Dist ℝ (Obj N Info × Outcome (Option (List (Fin N)))) :=
  match c with
  | .exact mode => (sampleExact env o mode).map fun r => (r.1, r.2.map some)
  | .exactK size mode => (sampleExactKDpp env o size mode).map fun r => (r.1, r.2.map some)
  | .mcmc mode size => (sampleMcmc env o mode size).map fun r => (r.1, r.2.map some)
  | .mcmcK size mode => (sampleMcmcKDpp env o size mode).map fun r => (r.1, r.2.map some)
  | .computeK => let r := Model.computeK env o; Dist.ret (r.1, r.2.map fun _ => none)
  | .computeL => let r := Model.computeL env o; Dist.ret (r.1, r.2.map fun _ => none)
  | .flush => Dist.ret (flushSamples o, .ok none)

/-- A history: the calls are made one after the other, exceptions being caught by the caller; returns
the final object and the result of each call. (`/repo/dppy/finite_dpps.py` lines 252-937) -/
noncomputable def runHist (env : Env N Info) :
    List Cmd → Obj N Info → Dist ℝ (Obj N Info × List (Outcome (Option (List (Fin N)))))
  | [], o => Dist.ret (o, [])
  | c :: cs, o => (step env c o).bind fun r =>
      (runHist env cs r.1).map fun q => (q.1, r.2 :: q.2)

end
end Verif.Model
