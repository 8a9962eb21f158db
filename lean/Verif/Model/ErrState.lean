import Verif.Model.FiniteDPP

/-!
The error state of numpy, shared by all the `FiniteDPP` objects of a process.

`np.seterr(divide='raise')` (`/repo/dppy/finite_dpps.py` lines 664 and 918) changes the treatment of
divisions by zero for the whole process and is never undone.  The methods of `Model/FiniteDPP.lean`
are those of a process in the default state; here the state is passed along: `fl = true` means that
`divide` is `'raise'`.  The functions below are those of `Model/FiniteDPP.lean` with this additional
argument and result.

Only the division that the default state lets through is affected: `L_dual_eig_vecs /
np.sqrt(self.L_eig_vals)` (lines 425-426 and 676-677).  The other divisions of these methods are
`eig_L/(1 + eig_L)` (never by zero for eigenvalues that passed `is_geq_0`), `eig_K/(1 - eig_K)` (made
just after `np.seterr`), and those of the samplers, which divide by positive numbers, or zero by zero:
the latter is reported as `invalid`, not `divide`, and `invalid` keeps its default.
-/

namespace Verif.Model
open Verif

/-- Result of a method: the error state, the object, the value or exception.
(`/repo/dppy/finite_dpps.py` lines 264-703) -/
abbrev CallE (N : ℕ) (Info : Type) := Dist ℝ (Bool × Obj N Info × Outcome (List (Fin N)))

section
variable {N : ℕ} {Info : Type}

/-- the error state is not changed by the rest of the call (`/repo/dppy/finite_dpps.py` lines 264-703) -/
def withFlag (fl : Bool) (c : Call N Info) : CallE N Info := c.map fun r => (fl, r)

mutual
/-- `compute_K` (`/repo/dppy/finite_dpps.py` lines 819-867) with the error state. -/
noncomputable def computeKFE (env : Env N Info) :
    ℕ → Bool → Obj N Info → Bool × Obj N Info × Outcome Unit
  | 0, fl, o => (fl, o, .raise .recursionError)
  | fuel + 1, fl, o =>
    match o.K with
    | some _ => (fl, o, .ok ())
    | none =>
    match o.Kvals with
    | some v => match o.vecs with
      | some E => (fl, { o with K := some (kerMat E v) }, .ok ())
      | none => (fl, o, .raise .typeError)
    | none =>
    match o.zono with
    | some A =>
      let E := zonoVecs env A
      (fl, { o with Kvals := some fun _ => 1, vecs := some E, K := some (kerMat E fun _ => 1) }, .ok ())
    | none =>
    match o.Lvals with
    | some v => computeKFE env fuel fl { o with Kvals := some (toK v) }
    | none =>
    match o.L with
    | some A => match eighMat env A with
      | .raise e => (fl, o, .raise e)
      | .ok (v, E) =>
        let o := { o with Lvals := some v, vecs := some E }
        if someNeg v E.M then (fl, o, .valueError) else computeKFE env fuel fl o
    | none =>
      match computeLFE env fuel fl o with
      | (fl, o, .raise e) => (fl, o, .raise e)
      | (fl, o, .ok _) => computeKFE env fuel fl o

/-- `compute_L` (`/repo/dppy/finite_dpps.py` lines 869-937) with the error state: `np.seterr` is
line 918. -/
noncomputable def computeLFE (env : Env N Info) :
    ℕ → Bool → Obj N Info → Bool × Obj N Info × Outcome Unit
  | 0, fl, o => (fl, o, .raise .recursionError)
  | fuel + 1, fl, o =>
    match o.L with
    | some _ => (fl, o, .ok ())
    | none =>
    if o.corr && o.projection then (fl, o, .valueError)
    else
    match o.Lvals with
    | some v => match o.vecs with
      | some E => (fl, { o with L := some (kerMat E v) }, .ok ())
      | none => (fl, o, .raise .typeError)
    | none =>
    match o.gram with
    | some Phi => (fl, { o with L := some (.num (gramMat Phi)) }, .ok ())
    | none =>
    match o.evalL with
    | some A => (fl, { o with L := some (.num A) }, .ok ())
    | none =>
    match o.Kvals with
    | some v =>
      if someOne v (nbCols o) then (true, o, .raise .floatingPointError)
      else computeLFE env fuel true { o with Lvals := some (toL v) }
    | none =>
    match o.K with
    | some A => match eighMat env A with
      | .raise e => (fl, o, .raise e)
      | .ok (v, E) =>
        let o := { o with Kvals := some v, vecs := some E }
        if someNotIn01 v E.M then (fl, o, .valueError) else computeLFE env fuel fl o
    | none =>
      match computeKFE env fuel fl o with
      | (fl, o, .raise e) => (fl, o, .raise e)
      | (fl, o, .ok _) => computeLFE env fuel fl o
end

/-- `dpp.compute_K()` (`/repo/dppy/finite_dpps.py` lines 819-867) -/
noncomputable def computeKE (env : Env N Info) (fl : Bool) (o : Obj N Info) :
    Bool × Obj N Info × Outcome Unit := computeKFE env recLimit fl o
/-- `dpp.compute_L()` (`/repo/dppy/finite_dpps.py` lines 869-937) -/
noncomputable def computeLE (env : Env N Info) (fl : Bool) (o : Obj N Info) :
    Bool × Obj N Info × Outcome Unit := computeLFE env recLimit fl o

open Classical in
/-- Does `L_dual_eig_vecs / np.sqrt(self.L_eig_vals)` divide a non-zero number by zero?
(`/repo/dppy/finite_dpps.py` lines 425-426 and 676-677.)  `clip` as in `dualEig`: without it the square
root of a negative eigenvalue is NaN, not zero. -/
noncomputable def dualDivides (env : Env N Info) (Phi : Rect N) (clip : Bool) : Bool :=
  let e := env.eigh Phi.d (fun k l => ∑ i, Phi.a k i * Phi.a l i)
  decide (∃ a k, (if clip then max (e.1 a) 0 else e.1 a) = 0 ∧ e.2 k a ≠ 0)

/-- `sample_exact(mode)` (`/repo/dppy/finite_dpps.py` lines 336-467) with the error state. -/
noncomputable def sampleExactBodyE (env : Env N Info) (again : Bool → Obj N Info → CallE N Info)
    (mode : String) (fl : Bool) (o : Obj N Info) : CallE N Info :=
    if mode = "Schur" then
      if o.corr && o.projection then
        match computeKE env fl o with
        | (fl, o, .raise e) => Dist.ret (fl, o, .raise e)
        | (fl, o, .ok _) => match o.K with
          | some A => withFlag fl (recordExact o (projKernel A mode none))
          | none => Dist.ret (fl, o, .raise .typeError)
      else Dist.ret (fl, o, .valueError)
    else if mode = "Chol" then
      match computeKE env fl o with
      | (fl, o, .raise e) => Dist.ret (fl, o, .raise e)
      | (fl, o, .ok _) => match o.K with
        | some A =>
          if o.corr && o.projection then withFlag fl (recordExact o (projKernel A mode none))
          else withFlag fl (recordExact o (genericKernel A))
        | none => Dist.ret (fl, o, .raise .typeError)
    else if mode = "vfx" then
      match o.evalL with
      | none => Dist.ret (fl, o, .valueError)
      | some _ => withFlag fl (recordInfo o (env.vfx o.info))
    else if mode = "alpha" then
      match o.evalL with
      | none => Dist.ret (fl, o, .valueError)
      | some _ => withFlag fl (recordInfo o (env.alpha o.info))
    else
    match o.Kvals with
    | some v => match o.vecs with
      | none => Dist.ret (fl, o, .raise .typeError)
      | some E =>
        if o.corr && o.projection then
          withFlag fl (recordExact o (projEig env E (aboveHalf v E.M) mode none))
        else
          withFlag fl (recordExact o ((dppEigVecsSelector v E.M).bind fun l => projEig env E l mode none))
    | none =>
    match o.Lvals with
    | some v => again fl { o with Kvals := some (toK v) }
    | none =>
    match o.dual with
    | some Phi =>
      if dualNeg env Phi then
        Dist.ret (fl, { o with Lvals := some (dualEig env Phi false).1 }, .valueError)
      else if fl && dualDivides env Phi true then
        Dist.ret (fl, { o with Lvals := some (dualEig env Phi true).1 }, .raise .floatingPointError)
      else
        let e := dualEig env Phi true
        again fl { o with Lvals := some e.1, vecs := some e.2 }
    | none =>
    match o.K with
    | some A =>
      if o.projection then withFlag fl (recordExact o (projKernel A mode none))
      else match eighMat env A with
        | .raise e => Dist.ret (fl, o, .raise e)
        | .ok (v, E) =>
          let o := { o with Kvals := some v, vecs := some E }
          if someNotIn01 v E.M then Dist.ret (fl, o, .valueError) else again fl o
    | none =>
    match o.L with
    | some A => match eighMat env A with
      | .raise e => Dist.ret (fl, o, .raise e)
      | .ok (v, E) =>
        let o := { o with Lvals := some v, vecs := some E }
        if someNeg v E.M then Dist.ret (fl, o, .valueError) else again fl o
    | none =>
    match o.zono with
    | some A =>
      again fl { o with Kvals := some fun _ => 1, vecs := some (zonoVecs env A) }
    | none =>
    match o.evalL with
    | some _ => match computeLE env fl o with
      | (fl, o, .raise e) => Dist.ret (fl, o, .raise e)
      | (fl, o, .ok _) => again fl o
    | none => Dist.ret (fl, o, .valueError)

/-- `sample_exact(mode)` (`/repo/dppy/finite_dpps.py` lines 264-467), with recursion depth `fuel`. -/
noncomputable def sampleExactFE (env : Env N Info) : ℕ → Bool → Obj N Info → String → CallE N Info
  | 0, fl, o, _ => Dist.ret (fl, o, .raise .recursionError)
  | fuel + 1, fl, o, mode =>
    sampleExactBodyE env (fun fl o => sampleExactFE env fuel fl o mode) mode fl { o with mode := mode }

/-- `dpp.sample_exact(mode)` (`/repo/dppy/finite_dpps.py` lines 264-467) -/
noncomputable def sampleExactE (env : Env N Info) (fl : Bool) (o : Obj N Info) (mode : String) :
    CallE N Info := sampleExactFE env recLimit fl o mode

/-- `sample_exact_k_dpp(size, mode)` (`/repo/dppy/finite_dpps.py` lines 547-703) with the error state:
`np.seterr` is line 664. -/
noncomputable def sampleExactKDppBodyE (env : Env N Info) (again : Bool → Obj N Info → CallE N Info)
    (size : ℕ) (mode : String) (fl : Bool) (o : Obj N Info) : CallE N Info :=
    if mode = "vfx" then
      match o.evalL with
      | none => Dist.ret (fl, o, .valueError)
      | some _ => withFlag fl (recordInfo o (env.vfxK size o.info))
    else if mode = "alpha" then
      match o.evalL with
      | none => Dist.ret (fl, o, .valueError)
      | some _ => withFlag fl (recordInfo o (env.alphaK size o.info))
    else if o.projection then
      if o.corr then
        match o.Kvals with
        | some v => match o.vecs with
          | none => Dist.ret (fl, o, .raise .typeError)
          | some E =>
            if (size : ℤ) ≠ rintSum v E.M then Dist.ret (fl, o, .valueError)
            else withFlag fl (recordExact o (projEig env E (aboveHalf v E.M) mode (some size)))
        | none =>
        match o.zono with
        | some A =>
          if size ≠ A.d then Dist.ret (fl, o, .valueError)
          else
            let E := zonoVecs env A
            let o := { o with Kvals := some fun _ => 1, vecs := some E }
            withFlag fl (recordExact o (projEig env E (List.range A.d) mode (some size)))
        | none =>
        match o.K with
        | some A =>
          if some (size : ℤ) ≠ rintTr A then Dist.ret (fl, o, .valueError)
          else withFlag fl (recordExact o (projKernel A mode (some size)))
        | none => Dist.ret (fl, o, .valueError)
      else
        match o.Lvals with
        | some v => match o.vecs with
          | none => Dist.ret (fl, o, .raise .typeError)
          | some E => withFlag fl (recordExact o (projEig env E (aboveHalf v E.M) mode (some size)))
        | none =>
          match computeLE env fl o with
          | (fl, o, .raise e) => Dist.ret (fl, o, .raise e)
          | (fl, o, .ok _) => match o.L with
            | some A => withFlag fl (recordExact o (projKernel A mode (some size)))
            | none => Dist.ret (fl, o, .raise .typeError)
    else
    match o.Lvals with
    | some v => match o.vecs with
      | none => Dist.ret (fl, o, .raise .typeError)
      | some E =>
        let o := { o with Epoly :=
          if o.Epoly.isNone ∨ o.sizeK < size then some (elementarySymmetricPolynomials E.M v size)
          else o.Epoly }
        withFlag fl (recordExact o
          ((kDppEigVecsSelector E.M v (rankTol env v E.M) size o.Epoly).andThen fun l =>
            projEig env E l mode none))
    | none =>
    match o.Kvals with
    | some v =>
      if someOne v (nbCols o) then Dist.ret (true, o, .raise .floatingPointError)
      else again true { o with Lvals := some (toL v) }
    | none =>
    match o.dual with
    | some Phi =>
      if dualNeg env Phi then
        Dist.ret (fl, { o with Lvals := some (dualEig env Phi false).1 }, .valueError)
      else if fl && dualDivides env Phi false then
        Dist.ret (fl, { o with Lvals := some (dualEig env Phi false).1 }, .raise .floatingPointError)
      else
        let e := dualEig env Phi false
        again fl { o with Lvals := some e.1, vecs := some e.2 }
    | none =>
    match o.L with
    | some A => match eighMat env A with
      | .raise e => Dist.ret (fl, o, .raise e)
      | .ok (v, E) =>
        let o := { o with Lvals := some v, vecs := some E }
        if someNeg v E.M then Dist.ret (fl, o, .valueError) else again fl o
    | none =>
    match o.K with
    | some A => match eighMat env A with
      | .raise e => Dist.ret (fl, o, .raise e)
      | .ok (v, E) =>
        let o := { o with Kvals := some v, vecs := some E }
        if someNotIn01 v E.M then Dist.ret (fl, o, .valueError)
        else again fl o
    | none =>
    match o.evalL with
    | some _ => match computeLE env fl o with
      | (fl, o, .raise e) => Dist.ret (fl, o, .raise e)
      | (fl, o, .ok _) => again fl o
    | none => Dist.ret (fl, o, .valueError)

/-- `sample_exact_k_dpp(size, mode)` (`/repo/dppy/finite_dpps.py` lines 469-703), with recursion depth
`fuel`. -/
noncomputable def sampleExactKDppFE (env : Env N Info) :
    ℕ → Bool → Obj N Info → ℕ → String → CallE N Info
  | 0, fl, o, _, _ => Dist.ret (fl, o, .raise .recursionError)
  | fuel + 1, fl, o, size, mode =>
    sampleExactKDppBodyE env (fun fl o => sampleExactKDppFE env fuel fl o size mode) size mode fl
      { o with mode := mode, sizeK := size }

/-- `dpp.sample_exact_k_dpp(size, mode)` (`/repo/dppy/finite_dpps.py` lines 469-703) -/
noncomputable def sampleExactKDppE (env : Env N Info) (fl : Bool) (o : Obj N Info) (size : ℕ)
    (mode : String) : CallE N Info := sampleExactKDppFE env recLimit fl o size mode

/-- `sample_mcmc(mode, size=size)` (`/repo/dppy/finite_dpps.py` lines 706-799) with the error state. -/
noncomputable def sampleMcmcBodyE (env : Env N Info) (mode : String) (size : Option ℕ) (fl : Bool)
    (o : Obj N Info) : CallE N Info :=
  if mode = "zonotope" then
    match o.zono with
    | some A => withFlag fl (recordChain o (env.zono A))
    | none => Dist.ret (fl, o, .valueError)
  else if mode = "E" then
    if o.corr && o.projection then
      match computeKE env fl o with
      | (fl, o, .raise e) => Dist.ret (fl, o, .raise e)
      | (fl, o, .ok _) => match o.K with
        | some A =>
          if size.map (Int.ofNat) = rintTr A ∧ size.isSome then
            withFlag fl (recordChain o (env.mcmc A mode size))
          else Dist.ret (fl, o, .valueError)
        | none => Dist.ret (fl, o, .raise .typeError)
    else
      match computeLE env fl o with
      | (fl, o, .raise e) => Dist.ret (fl, o, .raise e)
      | (fl, o, .ok _) => match o.L with
        | some A => withFlag fl (recordChain o (env.mcmc A mode size))
        | none => Dist.ret (fl, o, .raise .typeError)
  else if mode = "AED" ∨ mode = "AD" then
    match computeLE env fl o with
    | (fl, o, .raise e) => Dist.ret (fl, o, .raise e)
    | (fl, o, .ok _) => match o.L with
      | some A => withFlag fl (recordChain o (env.mcmc A mode size))
      | none => Dist.ret (fl, o, .raise .typeError)
  else Dist.ret (fl, o, .valueError)

/-- `sample_mcmc(mode, size=size)` (`/repo/dppy/finite_dpps.py` lines 706-799) with the error state. -/
noncomputable def sampleMcmcE (env : Env N Info) (fl : Bool) (o : Obj N Info) (mode : String)
    (size : Option ℕ) : CallE N Info := sampleMcmcBodyE env mode size fl { o with mode := mode }

/-- Effect of one call on the error state and on the object. (`/repo/dppy/finite_dpps.py` lines 252-937) -/
noncomputable def stepE (env : Env N Info) (c : Cmd) (fl : Bool) (o : Obj N Info) :
    Dist ℝ (Bool × Obj N Info × Outcome (Option (List (Fin N)))) :=
  match c with
  | .exact mode => (sampleExactE env fl o mode).map fun r => (r.1, r.2.1, r.2.2.map some)
  | .exactK size mode => (sampleExactKDppE env fl o size mode).map fun r => (r.1, r.2.1, r.2.2.map some)
  | .mcmc mode size => (sampleMcmcE env fl o mode size).map fun r => (r.1, r.2.1, r.2.2.map some)
  | .mcmcK size _ => (sampleMcmcE env fl { o with mode := "E", sizeK := size } "E" (some size)).map
      fun r => (r.1, r.2.1, r.2.2.map some)
  | .computeK => let r := computeKE env fl o; Dist.ret (r.1, r.2.1, r.2.2.map fun _ => none)
  | .computeL => let r := computeLE env fl o; Dist.ret (r.1, r.2.1, r.2.2.map fun _ => none)
  | .flush => Dist.ret (fl, flushSamples o, .ok none)

end

/-! ### a process with several objects -/

section
variable {ι : Type} [DecidableEq ι] {n : ι → ℕ} {Info : Type}

/-- A Python process that uses the objects `i : ι`: the error state of numpy, the objects, and for each
object the results of the calls made on it, in order.
(`/repo/dppy/finite_dpps.py` lines 46-982, a process that uses several objects of this class) -/
structure Proc (n : ι → ℕ) (Info : Type) where
  raises : Bool
  obj : ∀ i, Obj (n i) Info
  log : ∀ i, List (Outcome (Option (List (Fin (n i)))))

/-- object `i` becomes `o`, and the call returned (or raised) `r` (`/repo/dppy/finite_dpps.py` lines 252-937) -/
def Proc.set (s : Proc n Info) (i : ι) (fl : Bool) (o : Obj (n i) Info)
    (r : Outcome (Option (List (Fin (n i))))) : Proc n Info where
  raises := fl
  obj := Function.update s.obj i o
  log := Function.update s.log i (s.log i ++ [r])

/-- The calls `(i, c)` (method `c` of object `i`) are made one after the other, exceptions being caught
by the caller. (`/repo/dppy/finite_dpps.py` lines 252-937) -/
noncomputable def runProc (env : ∀ i, Env (n i) Info) :
    List (ι × Cmd) → Proc n Info → Dist ℝ (Proc n Info)
  | [], s => Dist.ret s
  | (i, c) :: cs, s => (stepE (env i) c s.raises (s.obj i)).bind fun r =>
      runProc env cs (s.set i r.1 r.2.1 r.2.2)

end
end Verif.Model
