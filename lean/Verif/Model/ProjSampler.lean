import Verif.Outcome
import Mathlib.Analysis.RCLike.Basic
import Mathlib.Analysis.SpecialFunctions.Pow.NNReal
import Mathlib.LinearAlgebra.Matrix.Trace
import Mathlib.Data.Matrix.Mul
import Mathlib.Algebra.Order.Round
import Mathlib.Data.List.FinRange

/-!
Model of the projection DPP samplers of `/repo/dppy/exact_sampling.py` (lines 25-313 and 398-663).

Arrays indexed by items are functions on `Fin N`; arrays indexed by iteration are functions on `ℕ`
of which the code only reads indices smaller than the current iteration.  Floating point numbers are
real (or complex) numbers.  The loops `for it in range(size)` are written as recursions on the number
`m` of iterations that remain; `it == size - 1` is `m = 0` once an iteration is started.
-/

namespace Verif.Model
open Verif

variable {N r : ℕ}

/-- `np.rint(np.trace(K)).astype(int)` (`/repo/dppy/exact_sampling.py` lines 37, 105, 193, 257).
`np.rint` rounds halves to even, `round` rounds them up: they agree away from half-integers. -/
noncomputable def rintTrace {𝕜 : Type*} [RCLike 𝕜] (K : Matrix (Fin N) (Fin N) 𝕜) : ℤ :=
  round (RCLike.re K.trace)

/-- `ground_set[avail]` with `ground_set = np.arange(N)`. (`/repo/dppy/exact_sampling.py` lines 206, 272, 491, 558) -/
def availList (avail : Fin N → Bool) : List (Fin N) := (List.finRange N).filter avail

/-! ### mode 'GS' -/

/-- Local variables of `proj_dpp_sampler_kernel_GS` (`/repo/dppy/exact_sampling.py` lines 198-203). -/
structure GSState (N : ℕ) where
  avail : Fin N → Bool
  c : Fin N → ℕ → ℝ
  norm2 : Fin N → ℝ

/-- Lines 212-217 of `/repo/dppy/exact_sampling.py`: `avail[j] = False`,
`c[avail, it] = (K[avail, j] - c[avail, :it].dot(c[j, :it])) / sqrt(norm_2[j])`,
`norm_2[avail] -= c[avail, it]**2`. -/
noncomputable def gsUpdate (K : Matrix (Fin N) (Fin N) ℝ) (it : ℕ) (j : Fin N) (st : GSState N) :
    GSState N :=
  let avail := Function.update st.avail j false
  let c : Fin N → ℕ → ℝ := fun i s =>
    if s = it ∧ avail i = true then
      (K i j - ∑ s ∈ Finset.range it, st.c i s * st.c j s) / Real.sqrt (st.norm2 j)
    else st.c i s
  { avail := avail
    c := c
    norm2 := fun i => if avail i = true then st.norm2 i - c i it ^ 2 else st.norm2 i }

/-- Loop of `proj_dpp_sampler_kernel_GS` (`/repo/dppy/exact_sampling.py` lines 205-219). -/
noncomputable def gsLoop (K : Matrix (Fin N) (Fin N) ℝ) (rank : ℤ) :
    ℕ → ℕ → GSState N → Dist ℝ (Outcome (List (Fin N)))
  | 0, _, _ => Dist.ret (.ok [])
  | m + 1, it, st =>
    (Dist.npChoice (availList st.avail) fun i => |st.norm2 i| / ((rank : ℝ) - it)).andThen fun j =>
      if m = 0 then Dist.ret (.ok [j])
      else (gsLoop K rank m (it + 1) (gsUpdate K it j st)).map (Outcome.map (j :: ·))

/-- `proj_dpp_sampler_kernel_GS(K, size)` (`/repo/dppy/exact_sampling.py` lines 155-219). -/
noncomputable def projDppSamplerKernelGS (K : Matrix (Fin N) (Fin N) ℝ) (size : Option ℕ) :
    Dist ℝ (Outcome (List (Fin N))) :=
  gsLoop K (rintTrace K) (size.getD (rintTrace K).toNat) 0
    { avail := fun _ => true, c := fun _ _ => 0, norm2 := fun i => K i i }

/-! ### mode 'Schur' -/

/-- Local variables of `proj_dpp_sampler_kernel_Schur` (`/repo/dppy/exact_sampling.py` lines
262-268); `sampl` holds the entries `sampl[:it]` already written. -/
structure SchurState (N : ℕ) where
  sampl : List (Fin N)
  avail : Fin N → Bool
  schur : Fin N → ℝ
  Kinv : ℕ → ℕ → ℝ

/-- Lines 294-302 of `/repo/dppy/exact_sampling.py` (`it < size - 1`, `it ≥ 2`): Woodbury update of
`K_inv`; `y a` is `sampl[a]`. -/
noncomputable def schurWoodbury (K : Matrix (Fin N) (Fin N) ℝ) (it : ℕ) (j : Fin N) (y : ℕ → Fin N)
    (Kinv : ℕ → ℕ → ℝ) : ℕ → ℕ → ℝ :=
  let temp : ℕ → ℝ := fun a => ∑ b ∈ Finset.range it, Kinv a b * K (y b) j
  let s : ℝ := K j j - ∑ a ∈ Finset.range it, K j (y a) * temp a
  fun a b =>
    if a < it ∧ b < it then Kinv a b + temp a * (temp b / s)
    else if a < it ∧ b = it then - temp a / s
    else if a = it ∧ b < it then - temp b / s
    else if a = it ∧ b = it then 1 / s
    else Kinv a b

/-- Lines 285-302 of `/repo/dppy/exact_sampling.py`: the three ways of updating `K_inv`. -/
noncomputable def schurInv (K : Matrix (Fin N) (Fin N) ℝ) (it : ℕ) (j : Fin N) (y : ℕ → Fin N)
    (Kinv : ℕ → ℕ → ℝ) : ℕ → ℕ → ℝ :=
  if it = 0 then fun a b => if a = 0 ∧ b = 0 then 1 / K j j else Kinv a b
  else if it = 1 then
    let i := y 0
    let det := K i i * K j j - K j i ^ 2
    fun a b =>
      if a = 0 ∧ b = 0 then K j j / det
      else if a = 0 ∧ b = 1 then - K j i / det
      else if a = 1 ∧ b = 0 then - K j i / det
      else if a = 1 ∧ b = 1 then K i i / det
      else Kinv a b
  else schurWoodbury K it j y Kinv

/-- One iteration after the choice of `j` (`/repo/dppy/exact_sampling.py` lines 275-311):
`sampl[it], avail[j] = j, False`, update of `K_inv`, then
`schur_comp[avail] = K_ii - K_iY K_inv K_iY^T`. -/
noncomputable def schurUpdate (K : Matrix (Fin N) (Fin N) ℝ) (it : ℕ) (j : Fin N)
    (st : SchurState N) : SchurState N :=
  let sampl := st.sampl ++ [j]
  let y : ℕ → Fin N := fun a => sampl.getD a j
  let avail := Function.update st.avail j false
  let Kinv := schurInv K it j y st.Kinv
  { sampl := sampl
    avail := avail
    Kinv := Kinv
    schur := fun i =>
      if avail i = true then
        K i i - ∑ b ∈ Finset.range (it + 1),
          (∑ a ∈ Finset.range (it + 1), K i (y a) * Kinv a b) * K i (y b)
      else st.schur i }

/-- Loop of `proj_dpp_sampler_kernel_Schur` (`/repo/dppy/exact_sampling.py` lines 270-313; for `size ≤ 2` the code also computes one last update that nothing reads). -/
noncomputable def schurLoop (K : Matrix (Fin N) (Fin N) ℝ) (rank : ℤ) :
    ℕ → ℕ → SchurState N → Dist ℝ (Outcome (List (Fin N)))
  | 0, _, _ => Dist.ret (.ok [])
  | m + 1, it, st =>
    (Dist.npChoice (availList st.avail) fun i => |st.schur i| / ((rank : ℝ) - it)).andThen fun j =>
      if m = 0 then Dist.ret (.ok [j])
      else (schurLoop K rank m (it + 1) (schurUpdate K it j st)).map (Outcome.map (j :: ·))

/-- `proj_dpp_sampler_kernel_Schur(K, size)` (`/repo/dppy/exact_sampling.py` lines 222-313). -/
noncomputable def projDppSamplerKernelSchur (K : Matrix (Fin N) (Fin N) ℝ) (size : Option ℕ) :
    Dist ℝ (Outcome (List (Fin N))) :=
  schurLoop K (rintTrace K) (size.getD (rintTrace K).toNat) 0
    { sampl := [], avail := fun _ => true, schur := fun i => K i i, Kinv := fun _ _ => 0 }

/-! ### mode 'Chol' (real or complex kernels) -/

section Chol
variable {𝕜 : Type*} [RCLike 𝕜]

/-- Local variables of `proj_dpp_sampler_kernel_Chol` (`/repo/dppy/exact_sampling.py` lines
110-113). -/
structure CholState (N : ℕ) (𝕜 : Type*) where
  A : Matrix (Fin N) (Fin N) 𝕜
  d : Fin N → ℝ
  orig : Fin N → Fin N

/-- The Hermitian swap of indices `j ≤ t` of the lower triangle of `A`
(`/repo/dppy/exact_sampling.py` lines 120-132), in the order of the code: bottom, inner, corner,
diagonal, left. -/
noncomputable def cholSwap (A : Matrix (Fin N) (Fin N) 𝕜) (j t : Fin N) :
    Matrix (Fin N) (Fin N) 𝕜 :=
  let A1 : Fin N → Fin N → 𝕜 := fun a b =>
    if t < a ∧ b = j then A a t else if t < a ∧ b = t then A a j else A a b
  let A2 : Fin N → Fin N → 𝕜 := fun a b =>
    if j < a ∧ a < t ∧ b = j then star (A1 t a)
    else if a = t ∧ j < b ∧ b < t then star (A1 b j) else A1 a b
  let A3 : Fin N → Fin N → 𝕜 := fun a b => if a = t ∧ b = j then star (A2 t j) else A2 a b
  let A4 : Fin N → Fin N → 𝕜 := fun a b =>
    if a = j ∧ b = j then (RCLike.re (A3 t t) : 𝕜)
    else if a = t ∧ b = t then (RCLike.re (A3 j j) : 𝕜) else A3 a b
  fun a b => if a = j ∧ b < j then A4 t b else if a = t ∧ b < j then A4 j b else A4 a b

/-- Lines 120-138 of `/repo/dppy/exact_sampling.py`: swap in `A`, `orig_indices` and `d`, then
`A[j, j] = np.sqrt(d[j])`. -/
noncomputable def cholPivot (j t : Fin N) (st : CholState N 𝕜) : CholState N 𝕜 :=
  let d : Fin N → ℝ := fun a => st.d (Equiv.swap j t a)
  let A := cholSwap st.A j t
  { A := fun a b => if a = j ∧ b = j then (Real.sqrt (d j) : 𝕜) else A a b
    d := d
    orig := fun a => st.orig (Equiv.swap j t a) }

/-- Lines 143-150 of `/repo/dppy/exact_sampling.py`: new column of `A` below the pivot and update of
the diagonal `d[j+1:]`. -/
noncomputable def cholColumn (j : Fin N) (st : CholState N 𝕜) : CholState N 𝕜 :=
  let A : Fin N → Fin N → 𝕜 := fun a b =>
    if j < a ∧ b = j then
      (st.A a j - ∑ s ∈ Finset.univ.filter (· < j), st.A a s * star (st.A j s)) / st.A j j
    else st.A a b
  { A := A
    d := fun a => if j < a then st.d a - ‖A a j‖ ^ 2 else st.d a
    orig := st.orig }

/-- Loop of `proj_dpp_sampler_kernel_Chol` (`/repo/dppy/exact_sampling.py` lines 115-152).  Returns
`orig_indices[:size]` and `A` (the code returns its block `A[:size, :size]`). -/
noncomputable def cholLoop (rank : ℤ) :
    ℕ → ℕ → CholState N 𝕜 → Dist ℝ (Outcome (List (Fin N) × Matrix (Fin N) (Fin N) 𝕜))
  | 0, it, st => Dist.ret (.ok (((List.finRange N).take it).map st.orig, st.A))
  | m + 1, it, st =>
    (Dist.npChoice ((List.finRange N).filter fun t => decide (it ≤ t.val))
        fun t => |st.d t| / ((rank : ℝ) - it)).andThen fun t =>
      if h : it < N then
        let st1 := cholPivot ⟨it, h⟩ t st
        if m = 0 then Dist.ret (.ok (((List.finRange N).take (it + 1)).map st1.orig, st1.A))
        else cholLoop rank m (it + 1) (cholColumn ⟨it, h⟩ st1)
      else Dist.ret Outcome.indexError

/-- `proj_dpp_sampler_kernel_Chol(K, size)` (`/repo/dppy/exact_sampling.py` lines 62-152). -/
noncomputable def projDppSamplerKernelChol (K : Matrix (Fin N) (Fin N) 𝕜) (size : Option ℕ) :
    Dist ℝ (Outcome (List (Fin N) × Matrix (Fin N) (Fin N) 𝕜)) :=
  cholLoop (rintTrace K) (size.getD (rintTrace K).toNat) 0
    { A := K, d := fun i => RCLike.re (K i i), orig := id }

end Chol

open Classical in
/-- `proj_dpp_sampler_kernel(kernel, mode, size)` (`/repo/dppy/exact_sampling.py` lines 25-59). -/
noncomputable def projDppSamplerKernel (K : Matrix (Fin N) (Fin N) ℝ) (mode : String)
    (size : Option ℕ) : Dist ℝ (Outcome (List (Fin N))) :=
  if ∃ k : ℕ, size = some k ∧ k ≠ 0 ∧ (k : ℤ) > rintTrace K then Dist.ret Outcome.valueError
  else if mode = "GS" then projDppSamplerKernelGS K size
  else if mode = "Chol" then (projDppSamplerKernelChol K size).map (Outcome.map Prod.fst)
  else if mode = "Schur" then projDppSamplerKernelSchur K size
  else Dist.ret Outcome.valueError

/-! ### Samplers from eigenvectors -/

/-- Lines 496-502 of `/repo/dppy/exact_sampling.py`. -/
noncomputable def eigGsUpdate (V : Fin N → Fin r → ℝ) (it : ℕ) (j : Fin N) (st : GSState N) :
    GSState N :=
  let avail := Function.update st.avail j false
  let c : Fin N → ℕ → ℝ := fun i s =>
    if s = it ∧ avail i = true then
      (∑ k, V i k * V j k - ∑ s ∈ Finset.range it, st.c i s * st.c j s) / Real.sqrt (st.norm2 j)
    else st.c i s
  { avail := avail
    c := c
    norm2 := fun i => if avail i = true then st.norm2 i - c i it ^ 2 else st.norm2 i }

/-- Loop of `proj_dpp_sampler_eig_GS` (`/repo/dppy/exact_sampling.py` lines 489-504). -/
noncomputable def eigGsLoop (V : Fin N → Fin r → ℝ) :
    ℕ → ℕ → GSState N → Dist ℝ (Outcome (List (Fin N)))
  | 0, _, _ => Dist.ret (.ok [])
  | m + 1, it, st =>
    (Dist.npChoice (availList st.avail) fun i => |st.norm2 i| / ((r : ℝ) - it)).andThen fun j =>
      if m = 0 then Dist.ret (.ok [j])
      else (eigGsLoop V m (it + 1) (eigGsUpdate V it j st)).map (Outcome.map (j :: ·))

/-- `proj_dpp_sampler_eig_GS(eig_vecs, size)` (`/repo/dppy/exact_sampling.py` lines 444-504), `V` of
shape `N × r`. -/
noncomputable def projDppSamplerEigGS (V : Fin N → Fin r → ℝ) (size : Option ℕ) :
    Dist ℝ (Outcome (List (Fin N))) :=
  eigGsLoop V (size.getD r) 0
    { avail := fun _ => true, c := fun _ _ => 0, norm2 := fun i => ∑ k, V i k ^ 2 }

/-- Local variables of `proj_dpp_sampler_eig_GS_bis` (`/repo/dppy/exact_sampling.py` lines
538-552). -/
structure GSBisState (N r : ℕ) where
  sampl : List (Fin N)
  avail : Fin N → Bool
  V : Fin N → Fin r → ℝ
  contrib : Fin N → ℕ → ℝ
  norms2 : Fin N → ℝ

/-- Lines 570-596 of `/repo/dppy/exact_sampling.py`; `y s` is `sampl[s]`. -/
noncomputable def gsBisUpdate (it : ℕ) (j : Fin N) (st : GSBisState N r) : GSBisState N r :=
  let sampl := st.sampl ++ [j]
  let y : ℕ → Fin N := fun a => sampl.getD a j
  let avail := Function.update st.avail j false
  let Vj : Fin r → ℝ := fun k => st.V j k - ∑ s ∈ Finset.range it, st.contrib j s * st.V (y s) k
  let contrib : Fin N → ℕ → ℝ := fun i s =>
    if s = it ∧ avail i = true then ∑ k, st.V i k * Vj k else st.contrib i s
  { sampl := sampl
    avail := avail
    V := Function.update st.V j fun k => Vj k / st.norms2 j
    contrib := contrib
    norms2 := fun i =>
      if avail i = true then st.norms2 i - contrib i it ^ 2 / st.norms2 j else st.norms2 i }

/-- Loop of `proj_dpp_sampler_eig_GS_bis` (`/repo/dppy/exact_sampling.py` lines 554-598). -/
noncomputable def gsBisLoop :
    ℕ → ℕ → GSBisState N r → Dist ℝ (Outcome (List (Fin N)))
  | 0, _, _ => Dist.ret (.ok [])
  | m + 1, it, st =>
    (Dist.npChoice (availList st.avail) fun i => |st.norms2 i| / ((r : ℝ) - it)).andThen fun j =>
      if m = 0 then Dist.ret (.ok [j])
      else (gsBisLoop m (it + 1) (gsBisUpdate it j st)).map (Outcome.map (j :: ·))

/-- `proj_dpp_sampler_eig_GS_bis(eig_vecs, size)` (`/repo/dppy/exact_sampling.py` lines 508-598). -/
noncomputable def projDppSamplerEigGSBis (V : Fin N → Fin r → ℝ) (size : Option ℕ) :
    Dist ℝ (Outcome (List (Fin N))) :=
  gsBisLoop (size.getD r) 0
    { sampl := [], avail := fun _ => true, V := V, contrib := fun _ _ => 0,
      norms2 := fun i => ∑ k, V i k ^ 2 }

/-- `la.qr(M, mode='economic')[0]`, an external routine: a parameter of the model.
(`/repo/dppy/exact_sampling.py` lines 655-661) -/
abbrev QR (N : ℕ) := (c : ℕ) → (Fin N → Fin c → ℝ) → (Fin N → Fin c → ℝ)

/-- Lines 655-659 of `/repo/dppy/exact_sampling.py`: with `k` the first column not vanishing on row
`j`, `V -= np.outer(V[:, k] / V[j, k], V[j, :])` then `np.delete(V, k, axis=1)`. -/
noncomputable def kutaDelete {c : ℕ} (V : Fin N → Fin (c + 1) → ℝ) (j : Fin N) (k : Fin (c + 1)) :
    Fin N → Fin c → ℝ :=
  fun i l => V i (k.succAbove l) - V i k / V j k * V j (k.succAbove l)

/-- Loop of `proj_dpp_sampler_eig_KuTa12` (`/repo/dppy/exact_sampling.py` lines 646-663); `c` is the
current number of columns of `V`.  `np.where(V[j, :] != 0)[0][0]` raises `IndexError` when the row
vanishes (in particular when there is no column left). -/
noncomputable def kutaLoop (qr : QR N) (rank : ℕ) :
    ℕ → ℕ → (c : ℕ) → (Fin N → Fin c → ℝ) → Dist ℝ (Outcome (List (Fin N)))
  | 0, _, _, _ => Dist.ret (.ok [])
  | m + 1, it, 0, V =>
    (Dist.npChoice (List.finRange N) fun i =>
        |∑ k, V i k ^ 2| / ((rank : ℝ) - it)).andThen fun j =>
      if m = 0 then Dist.ret (.ok [j]) else Dist.ret Outcome.indexError
  | m + 1, it, c + 1, V =>
    (Dist.npChoice (List.finRange N) fun i =>
        |∑ k, V i k ^ 2| / ((rank : ℝ) - it)).andThen fun j =>
      if m = 0 then Dist.ret (.ok [j])
      else match (List.finRange (c + 1)).find? fun k => decide (V j k ≠ 0) with
        | none => Dist.ret Outcome.indexError
        | some k =>
          (kutaLoop qr rank m (it + 1) c (qr c (kutaDelete V j k))).map (Outcome.map (j :: ·))

/-- `proj_dpp_sampler_eig_KuTa12(eig_vecs, size)` (`/repo/dppy/exact_sampling.py` lines 601-663). -/
noncomputable def projDppSamplerEigKuTa12 (qr : QR N) (V : Fin N → Fin r → ℝ) (size : Option ℕ) :
    Dist ℝ (Outcome (List (Fin N))) :=
  kutaLoop qr r (size.getD r) 0 r V

/-- `proj_dpp_sampler_eig(eig_vecs, mode, size)` (`/repo/dppy/exact_sampling.py` lines 399-440). -/
noncomputable def projDppSamplerEig (qr : QR N) (V : Fin N → Fin r → ℝ) (mode : String)
    (size : Option ℕ) : Dist ℝ (Outcome (List (Fin N))) :=
  if r ≠ 0 then
    if mode = "GS" then projDppSamplerEigGS V size
    else if mode = "GS_bis" then projDppSamplerEigGSBis V size
    else if mode = "KuTa12" then projDppSamplerEigKuTa12 qr V size
    else Dist.ret Outcome.valueError
  else Dist.ret (.ok [])

end Verif.Model
