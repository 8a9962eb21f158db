import Verif.Outcome
import Verif.Spec.TracyWidom
import Mathlib.Analysis.SpecialFunctions.Trigonometric.Basic

/-!
Model of the class `TracyWidom` (`dppy/beta_ensemble_polynomial_potential_core.py` lines 666-797).  Floats are real numbers;
`scipy.special.airy` is the Airy function and its derivative; `np.polynomial.legendre.leggauss` is a parameter `leg`.
-/

namespace Verif.Model
open Verif Verif.Spec

/-- `phi` (`/repo/dppy/beta_ensemble_polynomial_potential_core.py` lines 680-684) for one value of `s`. -/
noncomputable def twPhi (s x : ℝ) : ℝ := s + 10 * Real.tan (1 / 2 * Real.pi * x)

/-- `d_phi` (`/repo/dppy/beta_ensemble_polynomial_potential_core.py` lines 686-687). -/
noncomputable def twDPhi (x : ℝ) : ℝ := 10 * Real.pi / 2 * (1 + Real.tan (1 / 2 * Real.pi * x) ^ 2)

/-- `K_xy` as first computed (`/repo/dppy/beta_ensemble_polynomial_potential_core.py` lines 709-718): `A_x * dA_y - dA_x * A_y`, for one value of `s`. -/
noncomputable def twNum {m : ℕ} (x : Fin m → ℝ) (i j : Fin m) : ℝ :=
  airyAi (x i) * deriv airyAi (x j) - deriv airyAi (x i) * airyAi (x j)

/-- `/repo/dppy/beta_ensemble_polynomial_potential_core.py` lines 722-725: `K_xy[:, idx[0], idx[1]] /= x_y[idx[0], idx[1]]` over the strict upper triangle; `x0` is the row `x[0]`, that of the
first value of `s`. -/
noncomputable def twUpper {m : ℕ} (x0 x : Fin m → ℝ) (i j : Fin m) : ℝ := if i < j then twNum x i j / (x0 i - x0 j) else twNum x i j

/-- `/repo/dppy/beta_ensemble_polynomial_potential_core.py` line 726: `K_xy[:, idx[1], idx[0]] = K_xy[:, idx[0], idx[1]]`. -/
noncomputable def twSym {m : ℕ} (x0 x : Fin m → ℝ) (i j : Fin m) : ℝ := if j < i then twUpper x0 x j i else twUpper x0 x i j

/-- `/repo/dppy/beta_ensemble_polynomial_potential_core.py` lines 728-733: the diagonal, with a finite difference of step `eps`. -/
noncomputable def twDiag (eps : ℝ) {m : ℕ} (x0 x : Fin m → ℝ) (i j : Fin m) : ℝ :=
  if i = j then (airyAi (x i) * deriv airyAi (x i - eps) - deriv airyAi (x i) * airyAi (x i - eps)) / eps else twSym x0 x i j

/-- The matrix `K` (`/repo/dppy/beta_ensemble_polynomial_potential_core.py` lines 705-735) for the value `s`, when the first value is `s0`. -/
noncomputable def twKernel (eps s0 s : ℝ) {m : ℕ} (X : Fin m → ℝ) (i j : Fin m) : ℝ :=
  √(twDPhi (X i)) * twDiag eps (fun a => twPhi s0 (X a)) (fun a => twPhi s (X a)) i j * √(twDPhi (X j))

/-- `fredholm_determinant` (`/repo/dppy/beta_ensemble_polynomial_potential_core.py` lines 779-797) for one value of `s`. -/
noncomputable def fredholmDet {m : ℕ} (K : Fin m → Fin m → ℝ) (w : Fin m → ℝ) : ℝ :=
  Matrix.det (Matrix.of fun i j => (if i = j then 1 else 0) - √(w i) * K i j * √(w j))

/-- Nodes and weights. (`/repo/dppy/beta_ensemble_polynomial_potential_core.py` lines 773-776) -/
abbrev Quad : Type := Σ m : ℕ, (Fin m → ℝ) × (Fin m → ℝ)

/-- `compute_quadrature` (`/repo/dppy/beta_ensemble_polynomial_potential_core.py` lines 772-776): `leggauss` raises a `ValueError` for `order <= 0`. -/
noncomputable def computeQuadrature (leg : (m : ℕ) → (Fin m → ℝ) × (Fin m → ℝ)) (order : ℤ) : Outcome Quad :=
  if order ≤ 0 then .raise .valueError
  else .ok ⟨order.toNat, fun i => 1 / 2 * ((leg order.toNat).1 i + 1), fun i => 1 / 2 * (leg order.toNat).2 i⟩

/-- The attributes of a `TracyWidom` object (`/repo/dppy/beta_ensemble_polynomial_potential_core.py` lines 673-675). -/
structure TWState where
  quadOrder : Option ℤ
  quad : Option Quad

/-- `__init__` (`/repo/dppy/beta_ensemble_polynomial_potential_core.py` lines 673-675). -/
def twInit : TWState := ⟨none, none⟩

/-- The default `eps_xy=1e-5` (`/repo/dppy/beta_ensemble_polynomial_potential_core.py` line 705). -/
noncomputable def twEps : ℝ := 1 / 100000

/-- The determinants for all the values of `s` (`/repo/dppy/beta_ensemble_polynomial_potential_core.py` lines 753-755, 779-797): `x[0]` raises an `IndexError` when there is none; before that
`0.5 * np.pi * x` raises a `TypeError` when the nodes are `None`. -/
noncomputable def twEval (eps : ℝ) (q : Option Quad) (ss : List ℝ) : Outcome (List ℝ) :=
  match q with
  | none => .raise .typeError
  | some q => match ss with
    | [] => .raise .indexError
    | s0 :: l => .ok ((s0 :: l).map fun s => fredholmDet (twKernel eps s0 s q.2.1) q.2.2)

/-- `cdf(x, quad_order)` (`/repo/dppy/beta_ensemble_polynomial_potential_core.py` lines 739-755): the attribute `quad_order` is set before the quadrature is computed.  `ss` is
`np.atleast_1d(x)`. -/
noncomputable def twCdf (leg : (m : ℕ) → (Fin m → ℝ) × (Fin m → ℝ)) (st : TWState) (ss : List ℝ) (order : ℤ) : Outcome (List ℝ) × TWState :=
  if st.quadOrder = some order then (twEval twEps st.quad ss, st)
  else match computeQuadrature leg order with
    | .raise e => (.raise e, ⟨some order, st.quad⟩)
    | .ok q => (twEval twEps (some q) ss, ⟨some order, some q⟩)

/-- `airy_kernel(x, y)` (`/repo/dppy/beta_ensemble_polynomial_potential_core.py` lines 757-770) for two floats. -/
noncomputable def airyKernelFn (eps x y : ℝ) : ℝ :=
  if x = y then (airyAi x * deriv airyAi (y + eps) - airyAi (y + eps) * deriv airyAi x) / (x - (y + eps))
  else (airyAi x * deriv airyAi y - airyAi y * deriv airyAi x) / (x - y)

end Verif.Model
