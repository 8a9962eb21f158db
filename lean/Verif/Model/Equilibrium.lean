import Verif.Model.PolyPotential
import Mathlib.Analysis.SpecialFunctions.Pow.Real
import Mathlib.Analysis.SpecialFunctions.Trigonometric.Inverse

/-!
Model of the equilibrium densities of `/repo/dppy/beta_ensemble_polynomial_potential_core.py` (lines 473-663) and of their
selection by `BetaEnsemblePolynomialPotential`.  Floats are real numbers; `x` is one entry of the array (all operations are
entrywise); a returned pair `(dmu, support)` is a triple `(dmu, lower end, upper end)`.
-/

namespace Verif.Model
open Verif Polynomial

open Classical in
/-- `equilibrium_x2_x4(g_2, g_4)` (`/repo/dppy/beta_ensemble_polynomial_potential_core.py` lines 476-518). -/
noncomputable def equilibriumX2X4 (g2 g4 : ℝ) : (ℝ → ℝ) × ℝ × ℝ :=
  if g2 > -4 * √(g4 / 4) then
    (fun x => max (g4 / (2 * Real.pi) * (x ^ 2 + 1 / (3 * g4) * (√(g2 ^ 2 + 12 * g4) + 2 * g2))
        * √(max (2 / (3 * g4) * (√(g2 ^ 2 + 12 * g4) - g2) - x ^ 2) 0)) 0,
      √(2 / (3 * g4) * (√(g2 ^ 2 + 12 * g4) - g2)) * -1, √(2 / (3 * g4) * (√(g2 ^ 2 + 12 * g4) - g2)) * 1)
  else
    (fun x => g4 / (2 * Real.pi) * |x| * √(max (((-g2 + 4 * √(g4 / 4) * 1) / g4 - x ^ 2) * (x ^ 2 - (-g2 + 4 * √(g4 / 4) * -1) / g4)) 0),
      √((-g2 + 4 * √(g4 / 4) * 1) / g4) * -1, √((-g2 + 4 * √(g4 / 4) * 1) / g4) * 1)

/-- Entry `j - 1` of `c_prod = np.cumprod([(2 * l - 1) / (2 * l) for l in range(1, m + 1)])`
(`/repo/dppy/beta_ensemble_polynomial_potential_core.py` lines 577 and 607). -/
noncomputable def cProd (j : ℕ) : ℝ := ∏ l ∈ Finset.range j, (2 * ((l : ℝ) + 1) - 1) / (2 * ((l : ℝ) + 1))

/-- `a2 = 1 / (m * t * c_prod[-1])**(1 / m)`, `t = g_2m / (2 * m)` (`/repo/dppy/beta_ensemble_polynomial_potential_core.py` lines 576-578 and 606-608). -/
noncomputable def x2mA2 (m : ℕ) (g : ℝ) : ℝ := 1 / (m * (g / (2 * m)) * cProd m) ^ (1 / (m : ℝ))

/-- The coefficients of the `np.poly1d` object `h1`, highest degree first (`/repo/dppy/beta_ensemble_polynomial_potential_core.py` lines 580-584): degree `2 (m - 1)` with leading
coefficient one, then `h1._coeffs[2::2] = a2**np.arange(1, m) * c_prod[:-1]`. -/
noncomputable def h1Coeffs (m : ℕ) (a2 : ℝ) : List ℝ :=
  (List.range (2 * (m - 1) + 1)).map fun i => if i = 0 then 1 else if i % 2 = 0 then a2 ^ (i / 2) * cProd (i / 2) else 0

/-- Evaluation of a `np.poly1d` object, `np.polyval` (Horner).
(`/repo/dppy/beta_ensemble_polynomial_potential_core.py` lines 476-550) -/
noncomputable def polyval (l : List ℝ) (x : ℝ) : ℝ := l.foldl (fun acc c => acc * x + c) 0

/-- `equilibrium_x2m(m, g_2m)`, `m ≥ 1` (`/repo/dppy/beta_ensemble_polynomial_potential_core.py` lines 553-594). -/
noncomputable def equilibriumX2m (m : ℕ) (g : ℝ) : (ℝ → ℝ) × ℝ × ℝ :=
  (fun x => max (m * (g / (2 * m)) / Real.pi * √(max (x2mA2 m g - x ^ 2) 0) * polyval (h1Coeffs m (x2mA2 m g)) x) 0,
    √(x2mA2 m g) * -1, √(x2mA2 m g) * 1)

/-- `equilibrium_ClItKr10()` (`/repo/dppy/beta_ensemble_polynomial_potential_core.py` lines 643-663). -/
noncomputable def equilibriumClItKr10 : (ℝ → ℝ) × ℝ × ℝ :=
  (fun x => 1 / (10 * Real.pi) * √(max ((x + 2) * (2 - x) ^ 5) 0), 2 * -1, 2 * 1)

/-- `self._V_ClItKr10 = np.poly1d([1 / 20, -4 / 15, 1 / 5, 8 / 5, 0])`
(`/repo/dppy/beta_ensemble_polynomial_potential.py` line 51). -/
noncomputable def vClItKr10 : ℝ[X] :=
  C (1 / 20) * X ^ 4 + C (-4 / 15) * X ^ 3 + C (1 / 5) * X ^ 2 + C (8 / 5) * X

open Classical in
/-- `BetaEnsemblePolynomialPotential.__compute_equilibrium` (`/repo/dppy/beta_ensemble_polynomial_potential.py` lines 63-84),
applied by the constructor to the potential it keeps.  `set_non_zero_coefs` is the support of the polynomial. -/
noncomputable def computeEquilibrium (V : ℝ[X]) : Option ((ℝ → ℝ) × ℝ × ℝ) :=
  if V.natDegree % 2 = 0 then
    if V = vClItKr10 then some equilibriumClItKr10
    else if V.support = {V.natDegree} then some (equilibriumX2m (V.natDegree / 2) (V.natDegree * V.coeff V.natDegree))
    else if V.support = {2, 4} then some (equilibriumX2X4 (2 * V.coeff 2) (4 * V.coeff 4))
    else none
  else none

/-! ## Distribution functions

`cdf(x)` modifies its argument in place; a call is modelled by the pair (returned array, array of the caller afterwards).  Arrays
of floats only. -/

open Classical in
/-- One entry after `x[x < -a] = -a` and `x[x > a] = a`
(`/repo/dppy/beta_ensemble_polynomial_potential_core.py` lines 536-537, 615-616, 626-627). -/
noncomputable def clipEntry (a x : ℝ) : ℝ := if (if x < -a then -a else x) > a then a else (if x < -a then -a else x)

/-- The formula of `cdf` in `cdf_equilibrium_x2_x4` (`/repo/dppy/beta_ensemble_polynomial_potential_core.py` lines 529-546) at one entry `x` of the clipped array. -/
noncomputable def cdfX2X4At (g2 g4 x : ℝ) : ℝ :=
  g4 * (2 / (3 * g4) * (√(g2 ^ 2 + 12 * g4) - g2)) / (8 * Real.pi)
    * ((2 / (3 * g4) * (√(g2 ^ 2 + 12 * g4) - g2) + 4 * (1 / (3 * g4) * (√(g2 ^ 2 + 12 * g4) + 2 * g2))) / 2
          * (Real.arcsin (x / √(2 / (3 * g4) * (√(g2 ^ 2 + 12 * g4) - g2))) + Real.pi / 2)
        + 1 / (3 * g4) * (√(g2 ^ 2 + 12 * g4) + 2 * g2) * Real.sin (2 * Real.arcsin (x / √(2 / (3 * g4) * (√(g2 ^ 2 + 12 * g4) - g2))))
        - 2 / (3 * g4) * (√(g2 ^ 2 + 12 * g4) - g2) / 8 * Real.sin (4 * Real.arcsin (x / √(2 / (3 * g4) * (√(g2 ^ 2 + 12 * g4) - g2)))))

/-- `cdf_equilibrium_x2_x4(g_2, g_4)` (`/repo/dppy/beta_ensemble_polynomial_potential_core.py` lines 521-550): the function `cdf`;
the support is not repeated. -/
noncomputable def cdfX2X4 (g2 g4 : ℝ) (xs : List ℝ) : List ℝ × List ℝ :=
  ((xs.map (clipEntry √(2 / (3 * g4) * (√(g2 ^ 2 + 12 * g4) - g2)))).map (cdfX2X4At g2 g4),
    xs.map (clipEntry √(2 / (3 * g4) * (√(g2 ^ 2 + 12 * g4) - g2))))

/-- The formula of `cdf` in `cdf_equilibrium_x2m` for `m = 2` (`/repo/dppy/beta_ensemble_polynomial_potential_core.py` lines 617-621). -/
noncomputable def cdfX4At (g x : ℝ) : ℝ :=
  2 * (g / (2 * 2)) * √(x2mA2 2 g) ^ 4 / (8 * Real.pi)
    * (3 * (Real.arcsin (x / √(x2mA2 2 g)) + Real.pi / 2) + Real.sin (2 * Real.arcsin (x / √(x2mA2 2 g)))
      - 1 / 4 * Real.sin (4 * Real.arcsin (x / √(x2mA2 2 g))))

/-- The formula of `cdf` in `cdf_equilibrium_x2m` for `m = 3` (`/repo/dppy/beta_ensemble_polynomial_potential_core.py` lines 628-633). -/
noncomputable def cdfX6At (g x : ℝ) : ℝ :=
  3 * (g / (2 * 3)) * √(x2mA2 3 g) ^ 6 / (16 * Real.pi)
    * (5 * (Real.arcsin (x / √(x2mA2 3 g)) + Real.pi / 2) + 5 / 4 * Real.sin (2 * Real.arcsin (x / √(x2mA2 3 g)))
      - 1 / 2 * Real.sin (4 * Real.arcsin (x / √(x2mA2 3 g))) + 1 / 12 * Real.sin (6 * Real.arcsin (x / √(x2mA2 3 g))))

/-- `cdf_equilibrium_x2m(m, g_2m)`, `m ≥ 1` (`/repo/dppy/beta_ensemble_polynomial_potential_core.py` lines 597-640): the function
`cdf`, or the exception for `m` other than 2 and 3. -/
noncomputable def cdfX2m (m : ℕ) (g : ℝ) : Outcome (List ℝ → List ℝ × List ℝ) :=
  if m = 2 then .ok fun xs => ((xs.map (clipEntry √(x2mA2 2 g))).map (cdfX4At g), xs.map (clipEntry √(x2mA2 2 g)))
  else if m = 3 then .ok fun xs => ((xs.map (clipEntry √(x2mA2 3 g))).map (cdfX6At g), xs.map (clipEntry √(x2mA2 3 g)))
  else .raise .notImplementedError

end Verif.Model
