import Verif.Model.Exact
import Verif.Model.ProjSampler

/-!
Model of the two-step samplers built from eigenvalues and eigenvectors in
`/repo/dppy/finite_dpps.py`.
-/

namespace Verif.Model
open Verif

variable {N M : ℕ}

/-- A vector of length `M` as the arrays of the selectors (only indices `< M` are read there).
(`/repo/dppy/exact_sampling.py` lines 364-396, 1244-1303) -/
def vecNat (v : Fin M → ℝ) : ℕ → ℝ := fun n => if h : n < M then v ⟨n, h⟩ else 0

/-- `eig_vecs[:, ind_sel]` (`/repo/dppy/exact_sampling.py` lines 394 and 1302). -/
def cols (U : Fin N → Fin M → ℝ) (l : List ℕ) : Fin N → Fin l.length → ℝ :=
  fun i k => if h : l.get k < M then U i ⟨l.get k, h⟩ else 0

/-- `sample_exact` when the eigendecomposition of `K` is available, kernel not a projection
(`/repo/dppy/finite_dpps.py` lines 397-401): Bernoulli selection of eigenvectors, then the projection
sampler. -/
noncomputable def sampleExactEig (qr : QR N) (Kvals : Fin M → ℝ) (U : Fin N → Fin M → ℝ)
    (mode : String) : Dist ℝ (Outcome (List (Fin N))) :=
  (dppEigVecsSelector (vecNat Kvals) M).bind fun l => projDppSamplerEig qr (cols U l) mode none

/-- `K_eig_vals = L_eig_vals / (1 + L_eig_vals)` (`/repo/dppy/finite_dpps.py` lines 415 and 855). -/
noncomputable def KofL (Lvals : Fin M → ℝ) : Fin M → ℝ := fun a => Lvals a / (1 + Lvals a)

/-- `sample_exact_k_dpp` when the eigendecomposition of `L` is available, kernel not a projection
(`/repo/dppy/finite_dpps.py` lines 646-661), `Epoly` being the cached table if any. -/
noncomputable def sampleExactKDppEig (qr : QR N) (Lvals : Fin M → ℝ) (U : Fin N → Fin M → ℝ)
    (mode : String) (size : ℕ) (tol : ℝ) (Epoly : Option (Table ℝ)) :
    Dist ℝ (Outcome (List (Fin N))) :=
  (kDppEigVecsSelector M (vecNat Lvals) tol size Epoly).andThen fun l =>
    projDppSamplerEig qr (cols U l) mode none

end Verif.Model
