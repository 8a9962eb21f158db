import Verif.Model.RandomMatrices
import Mathlib.Analysis.SpecialFunctions.Complex.Circle

/-!
# Beta ensembles (`dppy/beta_ensembles.py`)

The five classes share one state.  Arrays are kept in a heap because `list_of_samples` holds references to the arrays that were
returned to the caller, and some methods modify arrays in place.  Points are complex numbers (real points are embedded).
Plotting itself is not modelled, only the points that are displayed.
-/

namespace Verif.Model
open Matrix

/-- the classes (`/repo/dppy/beta_ensembles.py` lines 110, 376, 707, 1001, 1191) -/
inductive EnsKind | hermite | laguerre | jacobi | circular | ginibre
deriving DecidableEq

/-- a Python number given as `beta`: `int`, `float` or `nan` (`/repo/dppy/beta_ensembles.py` lines 50-54) -/
inductive BetaVal
  | int (z : ℤ)
  | float (r : ℝ)
  | nan

/-- the value of `beta` (`nan` is never stored) (`/repo/dppy/beta_ensembles.py` lines 50-54) -/
noncomputable def BetaVal.val : BetaVal → ℝ
  | .int z => z
  | .float r => r
  | .nan => 0

/-- `sampling_mode` (`/repo/dppy/beta_ensembles.py` line 60 and the assignments `self.sampling_mode = ...`) -/
inductive EnsMode | unset | full | banded
deriving DecidableEq

/-- `size_M`: `None`, a number, or `np.inf` (`/repo/dppy/beta_ensembles.py` lines 393-412, 458-480) -/
inductive PySize
  | none
  | num (r : ℝ)
  | inf

/-- the dictionary `params` (the keys that a class does not use keep their initial value)
(`/repo/dppy/beta_ensembles.py` line 58) -/
structure EnsParams where
  loc : ℝ
  scale : ℝ
  shape : ℝ
  a : ℝ
  b : ℝ
  sizeN : ℕ
  sizeM : PySize
  sizeM1 : PySize
  sizeM2 : PySize
  haar : Haar

/-- an ensemble object, with the heap of arrays (`/repo/dppy/beta_ensembles.py` lines 50-61) -/
structure EnsSt where
  kind : EnsKind
  beta : BetaVal
  mode : EnsMode
  params : EnsParams
  /-- `list_of_samples`: references to arrays -/
  samples : List ℕ
  heap : List (List ℂ)

/-- the value of `beta` (`/repo/dppy/beta_ensembles.py` line 54) -/
noncomputable def EnsSt.b (st : EnsSt) : ℝ := st.beta.val

/-- the `params` set by the constructors (beta_ensembles.py:58, 125-127, 389-391, 720-722, 1016-1017, 1207-1208) -/
noncomputable def ensParams : EnsKind → EnsParams
  | .hermite => ⟨0, √2, 0, 0, 0, 10, .none, .none, .none, .hermite⟩
  | .laguerre => ⟨0, 2, 0, 0, 0, 10, .none, .none, .none, .hermite⟩
  | .jacobi => ⟨0, 0, 0, 1, 1, 10, .none, .none, .none, .hermite⟩
  | .circular => ⟨0, 0, 0, 0, 0, 10, .none, .none, .none, .hermite⟩
  | .ginibre => ⟨0, 0, 0, 0, 0, 10, .none, .none, .none, .hermite⟩

/-- a new object (`/repo/dppy/beta_ensembles.py` lines 50-61) -/
noncomputable def ensNew (kind : EnsKind) (beta : BetaVal) : EnsSt where
  kind := kind
  beta := beta
  mode := .unset
  params := ensParams kind
  samples := []
  heap := []

open Classical in
/-- `BetaEnsemble.__init__` (beta_ensembles.py:50-61).  The message of the `ValueError` formats `self.beta`, which is not set yet:
`AttributeError` is raised instead. -/
noncomputable def ensInitBase (kind : EnsKind) (beta : BetaVal) : Outcome EnsSt :=
  match beta with
  | .nan => .raise .attributeError
  | .int z => if ¬ (z ≥ 0) then .raise .attributeError else .ok (ensNew kind beta)
  | .float r => if ¬ (r ≥ 0) then .raise .attributeError else .ok (ensNew kind beta)

open Classical in
/-- the constructors of the classes (beta_ensembles.py:119-127, 385-391, 716-722, 1010-1017, 1199-1208) -/
noncomputable def ensInit (kind : EnsKind) (beta : BetaVal) : Outcome EnsSt :=
  match kind, beta with
  | .circular, .float _ => .valueError
  | .circular, .nan => .valueError
  | .ginibre, .nan => .valueError
  | .ginibre, b => if b.val ≠ 2 then .valueError else ensInitBase .ginibre b
  | k, b => ensInitBase k b

/-- real points as complex points (`/repo/dppy/beta_ensembles.py` lines 129-169, the samples are arrays of floats) -/
def toC (l : List ℝ) : List ℂ := l.map fun x : ℝ => (x : ℂ)

/-- a vector as a list of complex points
(`/repo/dppy/beta_ensembles.py` lines 129-169, the samples are arrays of floats) -/
def vecC {n : ℕ} (x : Fin n → ℝ) : List ℂ := (List.ofFn x).map fun t : ℝ => (t : ℂ)

/-! ### Sampling methods

Each method first updates `sampling_mode` and `params`, and then runs a program that returns the sample or raises.  The result of
`…Prep` is the updated object and that program.
-/

open Classical in
/-- `HermiteEnsemble.sample_full_model` (beta_ensembles.py:129-169) -/
noncomputable def hermiteFullPrep (la : LA) (st : EnsSt) (N : ℕ) : EnsSt × RP (List ℂ) :=
  ({ st with mode := .full, params := { st.params with loc := 0, scale := √2, sizeN := N } },
    if st.b = 0 then .normal N 0 √2 fun x => .ret (vecC x)
    else (hermiteSamplerFull la N st.b).map toC)

open Classical in
/-- `HermiteEnsemble.sample_banded_model` (beta_ensembles.py:171-224) -/
noncomputable def hermiteBandedPrep (la : LA) (st : EnsSt) (loc scale : ℝ) (N : ℕ) : EnsSt × RP (List ℂ) :=
  ({ st with mode := .banded, params := { st.params with loc := loc, scale := scale, sizeN := N } },
    if st.b = 0 then .normal N loc scale fun x => .ret (vecC x)
    else (normalTridiag la loc scale st.b N).map toC)

open Classical in
/-- `LaguerreEnsemble.sample_full_model` (beta_ensembles.py:393-456); when `M < N` only `sampling_mode` has been updated -/
noncomputable def laguerreFullPrep (la : LA) (st : EnsSt) (N M : ℕ) : EnsSt × RP (List ℂ) :=
  if N ≤ M then
    ({ st with
        mode := .full
        params := { st.params with shape := 0.5 * st.b * ((M : ℝ) - N + 1), scale := 2, sizeN := N, sizeM := .num M } },
      if st.b = 0 then
        if 0.5 * st.b * ((M : ℝ) - N + 1) > 0 then
          .gamma N (fun _ => 0.5 * st.b * ((M : ℝ) - N + 1)) 2 fun x => .ret (vecC x)
        else .fail .valueError
      else (laguerreSamplerFull la M N st.b).map toC)
  else ({ st with mode := .full }, .fail .valueError)

open Classical in
/-- the sampling part of `LaguerreEnsemble.sample_banded_model` (beta_ensembles.py:529-553) -/
noncomputable def laguerreBandedProg (la : LA) (beta shape scale : ℝ) (N : ℕ) : RP (List ℂ) :=
  if beta = 0 then
    if shape > 0 then .gamma N (fun _ => shape) scale fun x => .ret (vecC x) else .fail .valueError
  else (gammaTridiag la shape scale beta N).map toC

open Classical in
/-- `LaguerreEnsemble.sample_banded_model` (beta_ensembles.py:458-553); `size_M` is `None` or a number, and `0` is treated as `None` -/
noncomputable def laguerreBandedPrep (la : LA) (st : EnsSt) (shape scale : ℝ) (N : ℕ) (M : Option ℝ) : EnsSt × RP (List ℂ) :=
  match M with
  | some m =>
      if m = 0 then laguerreBandedPrepNone la st shape scale N
      else if (N : ℝ) ≤ m then
        ({ st with
            mode := .banded
            params := { st.params with shape := 0.5 * st.b * (m - N + 1), scale := 2, sizeN := N, sizeM := .num m } },
          laguerreBandedProg la st.b (0.5 * st.b * (m - N + 1)) 2 N)
      else ({ st with mode := .banded }, .fail .valueError)
  | none => laguerreBandedPrepNone la st shape scale N
where
  /-- the branch `if not size_M` (beta_ensembles.py:514-518) -/
  laguerreBandedPrepNone (la : LA) (st : EnsSt) (shape scale : ℝ) (N : ℕ) : EnsSt × RP (List ℂ) :=
    ({ st with
        mode := .banded
        params := { st.params with
          shape := shape, scale := scale, sizeN := N
          sizeM := if st.b > 0 then .num (2 / st.b * shape + N - 1) else .inf } },
      laguerreBandedProg la st.b shape scale N)

open Classical in
/-- `JacobiEnsemble.sample_full_model` (beta_ensembles.py:724-794) -/
noncomputable def jacobiFullPrep (la : LA) (st : EnsSt) (N M1 M2 : ℕ) : EnsSt × RP (List ℂ) :=
  if N ≤ M1 ∧ N ≤ M2 then
    ({ st with
        mode := .full
        params := { st.params with
          a := 0.5 * st.b * ((M1 : ℝ) - N + 1), b := 0.5 * st.b * ((M2 : ℝ) - N + 1), sizeN := N
          sizeM1 := .num M1, sizeM2 := .num M2 } },
      if st.b = 0 then
        .beta N (fun _ => 0.5 * st.b * ((M1 : ℝ) - N + 1)) (fun _ => 0.5 * st.b * ((M2 : ℝ) - N + 1)) fun x => .ret (vecC x)
      else (jacobiSamplerFull la M1 M2 N st.b).map toC)
  else ({ st with mode := .full }, .fail .valueError)

open Classical in
/-- the sampling part of `JacobiEnsemble.sample_banded_model` (beta_ensembles.py:881-899) -/
noncomputable def jacobiBandedProg (la : LA) (beta a b : ℝ) (N : ℕ) : RP (List ℂ) :=
  if beta = 0 then .beta N (fun _ => a) (fun _ => b) fun x => .ret (vecC x)
  else (betaTridiag la a b beta N).map toC

/-- `size_M1 and size_M2` is truthy (beta_ensembles.py:860): both given and non-zero -/
noncomputable def bothSizes (M1 M2 : Option ℝ) : Option (ℝ × ℝ) := by
  classical exact
  match M1, M2 with
  | some m1, some m2 => if m1 = 0 ∨ m2 = 0 then none else some (m1, m2)
  | _, _ => none

open Classical in
/-- `JacobiEnsemble.sample_banded_model` (beta_ensembles.py:796-899) -/
noncomputable def jacobiBandedPrep (la : LA) (st : EnsSt) (a b : ℝ) (N : ℕ) (M1 M2 : Option ℝ) : EnsSt × RP (List ℂ) :=
  match bothSizes M1 M2 with
  | none =>
      ({ st with
          mode := .banded
          params := { st.params with
            a := a, b := b, sizeN := N
            sizeM1 := if st.b > 0 then .num (2 / st.b * a + N - 1) else .inf
            sizeM2 := if st.b > 0 then .num (2 / st.b * b + N - 1) else .inf } },
        jacobiBandedProg la st.b a b N)
  | some (m1, m2) =>
      if (N : ℝ) ≤ m1 ∧ (N : ℝ) ≤ m2 then
        ({ st with
            mode := .banded
            params := { st.params with
              a := 0.5 * st.b * (m1 - N + 1), b := 0.5 * st.b * (m2 - N + 1), sizeN := N
              sizeM1 := .num m1, sizeM2 := .num m2 } },
          jacobiBandedProg la st.b (0.5 * st.b * (m1 - N + 1)) (0.5 * st.b * (m2 - N + 1)) N)
      else ({ st with mode := .banded }, .fail .valueError)

/-- `np.exp(2 * 1j * np.pi * rng.rand(N))` (`/repo/dppy/beta_ensembles.py` lines 1048, 1086) -/
noncomputable def unitPts {n : ℕ} (x : Fin n → ℝ) : List ℂ :=
  (List.ofFn x).map fun t : ℝ => Complex.exp (2 * Complex.I * (Real.pi : ℂ) * (t : ℂ))

open Classical in
/-- `CircularEnsemble.sample_full_model` (beta_ensembles.py:1019-1057) -/
noncomputable def circularFullPrep (la : LA) (st : EnsSt) (N : ℕ) (mode : Haar) : EnsSt × RP (List ℂ) :=
  ({ st with mode := .full, params := { st.params with sizeN := N, haar := mode } },
    if st.b = 0 then .unif N fun x => .ret (unitPts x) else circularSamplerFull la N st.b mode)

open Classical in
/-- `CircularEnsemble.sample_banded_model` (beta_ensembles.py:1059-1094) -/
noncomputable def circularBandedPrep (la : LA) (st : EnsSt) (N : ℕ) : EnsSt × RP (List ℂ) :=
  ({ st with mode := .banded, params := { st.params with sizeN := N } },
    if st.b = 0 then .unif N fun x => .ret (unitPts x)
    else match st.beta with
      | .int z => unifQuindiag la z N
      | _ => .fail .valueError)

/-- `GinibreEnsemble.sample_full_model` (beta_ensembles.py:1210-1230); `sampling_mode` is not set -/
noncomputable def ginibreFullPrep (la : LA) (st : EnsSt) (N : ℕ) : EnsSt × RP (List ℂ) :=
  ({ st with params := { st.params with sizeN := N } }, ginibreSamplerFull la N)

/-- arguments of the sampling methods; a class ignores the arguments it does not have
(`/repo/dppy/beta_ensembles.py` lines 129-1250, the methods `sample_full_model`, `sample_banded_model`, `normalize_points`) -/
inductive EnsCall
  /-- `sample_full_model(size_N, size_M | size_M1, size_M2 | haar_mode)` -/
  | full (N M1 M2 : ℕ) (haar : Haar)
  /-- `sample_banded_model`: `p`, `q` are `loc, scale` (Hermite), `shape, scale` (Laguerre), `a, b` (Jacobi) -/
  | banded (p q : ℝ) (N : ℕ) (M1 M2 : Option ℝ)
  /-- `normalize_points` on an array that the caller holds -/
  | normalize (ref : ℕ)
  /-- the caller makes an array of its own -/
  | newArray (pts : List ℂ)
  /-- `flush_samples()` -/
  | flush
  /-- `plot(normalization)` or `hist(normalization)` -/
  | display (normalization : Bool)

/-- the sampling method that is called (`/repo/dppy/beta_ensembles.py` lines 129-1230) -/
noncomputable def ensPrep (la : LA) (st : EnsSt) : EnsCall → Option (EnsSt × RP (List ℂ))
  | .full N M1 M2 h => some <| match st.kind with
      | .hermite => hermiteFullPrep la st N
      | .laguerre => laguerreFullPrep la st N M1
      | .jacobi => jacobiFullPrep la st N M1 M2
      | .circular => circularFullPrep la st N h
      | .ginibre => ginibreFullPrep la st N
  | .banded p q N M1 M2 => some <| match st.kind with
      | .hermite => hermiteBandedPrep la st p q N
      | .laguerre => laguerreBandedPrep la st p q N M1
      | .jacobi => jacobiBandedPrep la st p q N M1 M2
      | .circular => circularBandedPrep la st N
      | .ginibre => (st, .fail .notImplementedError)
  | _ => none

/-- what a call returns: a reference to an array, the displayed points, or nothing
(`/repo/dppy/beta_ensembles.py` lines 129-1260) -/
inductive EnsRet
  | array (ref : ℕ)
  | shown (pts : List ℂ)
  | nothing

/-- end of a sampling method: `self.list_of_samples.append(sampl); return sampl`
(`/repo/dppy/beta_ensembles.py` lines 166-169, and the same lines in the other methods) -/
def ensRecord (st : EnsSt) : Outcome (List ℂ) → EnsSt × Outcome EnsRet
  | .ok pts => ({ st with heap := st.heap ++ [pts], samples := st.samples ++ [st.heap.length] }, .ok (.array st.heap.length))
  | .raise e => (st, .raise e)

open Classical in
/-- the values computed by `normalize_points` (beta_ensembles.py:226-274, 555-604, 901-904, 1096-1099, 1237-1250), as a list of
in-place operations; `none` stands for the `TypeError` of `beta * None`.  Division by zero is Lean's. -/
noncomputable def normValues (st : EnsSt) (pts : List ℂ) : List ℂ × Bool :=
  match st.kind with
  | .hermite =>
      let p1 := if st.mode = .banded then pts.map fun x => (x - (st.params.loc : ℂ)) / ((√0.5 * st.params.scale : ℝ) : ℂ) else pts
      (if st.b > 0 then p1.map fun x => x / ((√(st.b * st.params.sizeN) : ℝ) : ℂ) else p1, true)
  | .laguerre =>
      let p1 := if st.mode = .banded then pts.map fun x => x / ((0.5 * st.params.scale : ℝ) : ℂ) else pts
      if st.b > 0 then
        match st.params.sizeM with
        | .num m => (p1.map fun x => x / ((st.b * m : ℝ) : ℂ), true)
        | .inf => (p1.map fun _ => 0, true)
        | .none => (p1, false)
      else (p1, true)
  | .jacobi => (pts, true)
  | .circular => (pts, true)
  | .ginibre => (pts.map fun x => x / ((√(st.params.sizeN : ℝ) : ℝ) : ℂ), true)

/-- `normalize_points(points)` on an array of the heap.  Hermite and Laguerre use in-place operators (`-=`, `/=`), so the array of
the caller is modified, and the same array is returned; Ginibre returns a new array; the others return the array.
(`/repo/dppy/beta_ensembles.py` lines 226-274, 555-604, 901-904, 1096-1099, 1237-1250) -/
noncomputable def ensNormalize (st : EnsSt) (ref : ℕ) : EnsSt × Outcome EnsRet :=
  let pts := st.heap.getD ref []
  match st.kind with
  | .ginibre => ({ st with heap := st.heap ++ [(normValues st pts).1] }, .ok (.array st.heap.length))
  | _ => ({ st with heap := st.heap.set ref (normValues st pts).1 },
      if (normValues st pts).2 then .ok (.array ref) else .raise .typeError)

/-- `__display_and_normalization` (beta_ensembles.py:276-283, 606-613, 906-911, 1101-1108, 1252-1260): the points displayed.  The
last sample is copied first; Jacobi and Circular display it as it is. -/
noncomputable def ensDisplay (st : EnsSt) (normalization : Bool) : Outcome EnsRet :=
  match st.samples.getLast? with
  | none => .valueError
  | some r =>
      if normalization then
        if (normValues st (st.heap.getD r [])).2 then .ok (.shown (normValues st (st.heap.getD r [])).1) else .raise .typeError
      else .ok (.shown (st.heap.getD r []))

/-- one call on the object: the possible results (`/repo/dppy/beta_ensembles.py` lines 34-1260) -/
inductive EnsStep (la : LA) (st : EnsSt) : EnsCall → EnsSt × Outcome EnsRet → Prop
  | sample {c : EnsCall} {st' : EnsSt} {p : RP (List ℂ)} {o : Outcome (List ℂ)} :
      ensPrep la st c = some (st', p) → p.Runs o → EnsStep la st c (ensRecord st' o)
  | normalize (ref : ℕ) : ref < st.heap.length → EnsStep la st (.normalize ref) (ensNormalize st ref)
  | newArray (pts : List ℂ) :
      EnsStep la st (.newArray pts) ({ st with heap := st.heap ++ [pts] }, .ok (.array st.heap.length))
  | flush : EnsStep la st .flush ({ st with samples := [] }, .ok .nothing)
  | display (normalization : Bool) : EnsStep la st (.display normalization) (st, ensDisplay st normalization)

/-- a history of calls on one object, with the result of each call (`/repo/dppy/beta_ensembles.py` lines 34-1260) -/
inductive EnsRun (la : LA) : EnsSt → List (EnsCall × Outcome EnsRet) → EnsSt → Prop
  | nil (st : EnsSt) : EnsRun la st [] st
  | cons {st st' st'' : EnsSt} {c : EnsCall} {r : Outcome EnsRet} {h : List (EnsCall × Outcome EnsRet)} :
      EnsStep la st c (st', r) → EnsRun la st' h st'' → EnsRun la st ((c, r) :: h) st''

end Verif.Model
