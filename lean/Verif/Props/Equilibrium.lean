import Verif.Lemmas.Equi7

/-!
# Equilibrium measures of the polynomial potentials
-/

set_option linter.unusedVariables false

namespace Verif.Props
open Verif Verif.Spec Verif.Model Verif.Lemmas Verif.Lemmas.Equi Real MeasureTheory Polynomial

/-! ## C98 The equilibrium densities are the equilibrium measures of the potentials -/

/-- C98: `equilibrium_x2_x4(g_2, g_4)`, both branches: for every `g_4 > 0` and `g_2` (convex or double well) the density is a
probability density carried by the interval `support`, and satisfies the Euler-Lagrange conditions of
`V(x) = g_2 / 2 x^2 + g_4 / 4 x^4`. -/
theorem C98_x2_x4 (g2 g4 : ℝ) (h4 : 0 < g4) :
    IsDensityOn (equilibriumX2X4 g2 g4).1 (equilibriumX2X4 g2 g4).2.1 (equilibriumX2X4 g2 g4).2.2
      ∧ IsEquilibrium (fun x => g2 / 2 * x ^ 2 + g4 / 4 * x ^ 4) (equilibriumX2X4 g2 g4).1 :=
  x2x4_main g2 g4 h4

/-- C98: `equilibrium_x2m(m, g_2m)` for every `m ≥ 1` and `g_2m > 0`, potential `g_2m / (2 m) x^(2 m)`. -/
theorem C98_x2m (m : ℕ) (hm : 1 ≤ m) (g : ℝ) (hg : 0 < g) :
    IsDensityOn (equilibriumX2m m g).1 (equilibriumX2m m g).2.1 (equilibriumX2m m g).2.2
      ∧ IsEquilibrium (fun x => g / (2 * m) * x ^ (2 * m)) (equilibriumX2m m g).1 :=
  x2m_main m hm g hg

/-- C98: `equilibrium_ClItKr10()`, potential `x^4 / 20 - 4 x^3 / 15 + x^2 / 5 + 8 x / 5`. -/
theorem C98_ClItKr10 :
    IsDensityOn equilibriumClItKr10.1 equilibriumClItKr10.2.1 equilibriumClItKr10.2.2
      ∧ IsEquilibrium (fun x => 1 / 20 * x ^ 4 - 4 / 15 * x ^ 3 + 1 / 5 * x ^ 2 + 8 / 5 * x) equilibriumClItKr10.1 := by
  have h := clItKr10_main
  refine ⟨h.1, ?_⟩
  have e : (fun x : ℝ => 1 / 20 * x ^ 4 - 4 / 15 * x ^ 3 + 1 / 5 * x ^ 2 + 8 / 5 * x)
      = fun x : ℝ => 1 / 20 * x ^ 4 + -4 / 15 * x ^ 3 + 1 / 5 * x ^ 2 + 8 / 5 * x := by funext x; ring
  rw [e]; exact h.2

/-- A polynomial from its support -/
theorem eval_of_support (V : ℝ[X]) (s : Finset ℕ) (h : V.support = s) (x : ℝ) : V.eval x = ∑ n ∈ s, V.coeff n * x ^ n := by
  rw [eval_eq_sum, Polynomial.sum, h]

/-- C98: whatever the potential accepted by `BetaEnsemblePolynomialPotential(beta, V)`, if the object has an
`equilibrium_density`, it is a probability density carried by `support` and the equilibrium measure of the potential the object
keeps. -/
theorem C98_object (beta : ℝ) (V W : ℝ[X]) (h : potentialInit beta V = .ok W) (f : ℝ → ℝ) (lo hi : ℝ)
    (he : computeEquilibrium W = some (f, lo, hi)) : IsDensityOn f lo hi ∧ IsEquilibrium (fun x => W.eval x) f := by
  classical
  -- what the constructor checks
  have hW : W = V - C (V.coeff 0) ∧ 0 ≤ V.coeff V.natDegree := by
    unfold potentialInit at h
    split_ifs at h with h1 h2 h3 h4 h5
    exact ⟨(Outcome.ok.inj h).symm, not_lt.1 h5⟩
  have hdeg : W.natDegree = V.natDegree := by rw [hW.1]; exact natDegree_sub_C
  have hW0 : W.coeff 0 = 0 := by rw [hW.1]; simp
  have hpos : 0 < W.natDegree → 0 < W.coeff W.natDegree := fun hd => by
    have h1 : W.coeff W.natDegree = V.coeff V.natDegree := by
      rw [hdeg, hW.1, coeff_sub, coeff_C, if_neg (by omega), sub_zero]
    have h2 : W.coeff W.natDegree ≠ 0 := fun h0 => by
      have : W = 0 := leadingCoeff_eq_zero.1 h0
      rw [this] at hd; simp at hd
    rw [h1] at h2 ⊢
    exact lt_of_le_of_ne hW.2 (Ne.symm h2)
  unfold computeEquilibrium at he
  split_ifs at he with e1 e2 e3 e4
  · obtain ⟨rfl⟩ := Option.some.inj he
    have := C98_ClItKr10
    refine ⟨this.1, ?_⟩
    have e : (fun x => W.eval x) = fun x : ℝ => 1 / 20 * x ^ 4 - 4 / 15 * x ^ 3 + 1 / 5 * x ^ 2 + 8 / 5 * x := by
      funext x; rw [e2, vClItKr10]; simp; ring
    rw [e]; exact this.2
  · have hd : 0 < W.natDegree := by
      rcases Nat.eq_zero_or_pos W.natDegree with h0 | h0
      · exfalso
        rw [h0] at e3
        have : 0 ∈ W.support := by rw [e3]; simp
        exact (mem_support_iff.1 this) hW0
      · exact h0
    have hp := hpos hd
    obtain ⟨m, hm⟩ : ∃ m, W.natDegree = 2 * m := ⟨W.natDegree / 2, by omega⟩
    have hm1 : 1 ≤ m := by omega
    rw [hm] at he hp
    rw [Nat.mul_div_cancel_left _ two_pos] at he
    have hm0 : (0 : ℝ) < m := by exact_mod_cast hm1
    have key := C98_x2m m hm1 (((2 * m : ℕ) : ℝ) * W.coeff (2 * m)) (by positivity)
    rw [Option.some.inj he] at key
    refine ⟨key.1, ?_⟩
    have e : (fun x => W.eval x) = fun x : ℝ => ((2 * m : ℕ) : ℝ) * W.coeff (2 * m) / (2 * m) * x ^ (2 * m) := by
      funext x
      rw [eval_of_support W _ e3 x, Finset.sum_singleton, hm]
      push_cast
      field_simp
    rw [e]; exact key.2
  · have hd : W.natDegree = 4 := by
      rw [natDegree_eq_support_max' (by intro h0; rw [h0] at e4; exact absurd e4 (by decide))]
      simp_rw [e4]
      exact le_antisymm (Finset.max'_le _ _ _ (by simp)) (Finset.le_max' _ _ (by simp))
    have hp := hpos (by omega)
    rw [hd] at hp
    have key := C98_x2_x4 (2 * W.coeff 2) (4 * W.coeff 4) (by positivity)
    rw [Option.some.inj he] at key
    refine ⟨key.1, ?_⟩
    have e : (fun x => W.eval x) = fun x : ℝ => 2 * W.coeff 2 / 2 * x ^ 2 + 4 * W.coeff 4 / 4 * x ^ 4 := by
      funext x
      rw [eval_of_support W _ e4 x, Finset.sum_pair (by norm_num)]
      ring
    rw [e]; exact key.2

/-- The hypotheses are met: `V = x^2 / 2`, the Gaussian ensemble, has an equilibrium density, here the semi-circle. -/
example : potentialInit 2 (C (1 / 2) * X ^ 2 : ℝ[X]) = .ok (C (1 / 2) * X ^ 2) ∧ computeEquilibrium (C (1 / 2) * X ^ 2 : ℝ[X])
    = some (equilibriumX2m (2 / 2) (2 * (C (1 / 2) * X ^ 2 : ℝ[X]).coeff 2)) := by
  have hd : (C (1 / 2) * X ^ 2 : ℝ[X]).natDegree = 2 := natDegree_C_mul_X_pow 2 _ (by norm_num)
  refine ⟨?_, ?_⟩
  · unfold potentialInit
    rw [if_neg (by norm_num), if_neg (by rw [hd]; norm_num), if_neg (by simp [coeff_X_pow]), if_neg (by rw [hd]; norm_num),
      if_neg (by rw [hd]; simp [coeff_X_pow])]
    simp [coeff_X_pow]
  · unfold computeEquilibrium
    rw [if_pos (by rw [hd]), if_neg, if_pos (by rw [hd]; exact support_C_mul_X_pow 2 (by norm_num)), hd]
    · norm_num
    intro h
    have := congrArg (fun P : ℝ[X] => P.coeff 4) h
    simp [vClItKr10, coeff_X_pow, coeff_X] at this

/-- Both branches of `equilibrium_x2_x4` are met. -/
example : (1 : ℝ) > -4 * √(1 / 4) ∧ ¬ ((-3 : ℝ) > -4 * √(1 / 4)) := by
  have : √(1 / 4 : ℝ) = 1 / 2 := by rw [show (1 / 4 : ℝ) = (1 / 2) ^ 2 by norm_num, sqrt_sq (by norm_num)]
  rw [this]; norm_num

/-! ## C99 Distribution functions of the equilibrium measures -/

/-- C99 (partial: `g_2 ≥ -2 √g_4`, one interval): `cdf_equilibrium_x2_x4(g_2, g_4)` returns, for every array, the distribution
function of the equilibrium measure of `equilibrium_x2_x4(g_2, g_4)`. -/
theorem C99_x2_x4_partial (g2 g4 : ℝ) (h4 : 0 < g4) (hg : -(2 * √g4) ≤ g2) (xs : List ℝ) :
    (cdfX2X4 g2 g4 xs).1 = xs.map fun x => ∫ y in Set.Iic x, (equilibriumX2X4 g2 g4).1 y := by
  unfold cdfX2X4
  rw [List.map_map]
  exact List.map_congr_left fun x _ => (cdf_x2x4 g2 g4 h4 hg x).symm

/-- C99 refuted for every double well `g_2 < -2 √g_4`: the values returned are not even monotone, so they are not those of the
distribution function of the density returned by `equilibrium_x2_x4` (nor of any measure). -/
theorem C99_double_well_refuted (g2 g4 : ℝ) (h4 : 0 < g4) (hg : g2 < -(2 * √g4)) :
    ∃ x y u v : ℝ, x < y ∧ (cdfX2X4 g2 g4 [x, y]).1 = [u, v] ∧ v < u
      ∧ (cdfX2X4 g2 g4 [x, y]).1 ≠ [x, y].map fun x => ∫ z in Set.Iic x, (equilibriumX2X4 g2 g4).1 z := by
  obtain ⟨x, y, h1, h2, h3, h⟩ := cdf_x2x4_decreasing g2 g4 h4 hg
  have e : (cdfX2X4 g2 g4 [x, y]).1 = [cdfX2X4At g2 g4 x, cdfX2X4At g2 g4 y] := by
    unfold cdfX2X4
    simp only [List.map_cons, List.map_nil]
    rw [clip_mid h1.le (h2.trans h3).le, clip_mid (h1.trans h2).le h3.le]
  refine ⟨x, y, _, _, h2, e, h, fun hc => ?_⟩
  rw [e] at hc
  simp only [List.map_cons, List.map_nil, List.cons.injEq] at hc
  have hd := (C98_x2_x4 g2 g4 h4).1
  have hm : ∫ z in Set.Iic x, (equilibriumX2X4 g2 g4).1 z ≤ ∫ z in Set.Iic y, (equilibriumX2X4 g2 g4).1 z :=
    setIntegral_mono_set hd.integrable.integrableOn (Filter.Eventually.of_forall hd.nonneg) (Set.Iic_subset_Iic.2 h2.le).eventuallyLE
  rw [← hc.1, ← hc.2.1] at hm
  linarith

/-- C99: `cdf_equilibrium_x2m(m, g_2m)` for `m = 2, 3` returns the distribution function of `equilibrium_x2m(m, g_2m)`. -/
theorem C99_x2m (m : ℕ) (hm : m = 2 ∨ m = 3) (g : ℝ) (hg : 0 < g) :
    ∃ cdf, cdfX2m m g = .ok cdf ∧ ∀ xs, (cdf xs).1 = xs.map fun x => ∫ y in Set.Iic x, (equilibriumX2m m g).1 y := by
  rcases hm with rfl | rfl
  · refine ⟨_, if_pos rfl, fun xs => ?_⟩
    simp only []
    rw [List.map_map]
    exact List.map_congr_left fun x _ => (cdf_x4 g hg x).symm
  · refine ⟨_, by unfold cdfX2m; rw [if_neg (by norm_num), if_pos rfl], fun xs => ?_⟩
    simp only []
    rw [List.map_map]
    exact List.map_congr_left fun x _ => (cdf_x6 g hg x).symm

/-- C99: for every other `m` (also `m = 1`, where the density is available) the call raises `NotImplementedError`. -/
theorem C99_other_m (m : ℕ) (h2 : m ≠ 2) (h3 : m ≠ 3) (g : ℝ) : cdfX2m m g = .raise .notImplementedError := by
  unfold cdfX2m; rw [if_neg h2, if_neg h3]

/-- C99 refuted: the distribution functions modify the array of the caller.  The entries are replaced by their projection on the
support. -/
theorem C99_argument_modified_refuted (g2 g4 : ℝ) (h4 : 0 < g4) :
    ∃ xs : List ℝ, (cdfX2X4 g2 g4 xs).2 ≠ xs := by
  have hA := x2x4_a2_pos g2 g4 h4
  obtain ⟨a, ha⟩ : ∃ a, a = √(2 / (3 * g4) * (√(g2 ^ 2 + 12 * g4) - g2)) := ⟨_, rfl⟩
  have ha0 : 0 < a := by rw [ha]; exact sqrt_pos.2 hA
  refine ⟨[a + 1], fun h => ?_⟩
  unfold cdfX2X4 at h
  rw [← ha] at h
  simp only [List.map_cons, List.map_nil, List.cons.injEq] at h
  rw [clip_high ha0 (by linarith)] at h
  linarith [h.1]

/-- Both cases are met. -/
example : (-(2 * √1) ≤ (1 : ℝ)) ∧ ((-3 : ℝ) < -(2 * √1)) := by rw [sqrt_one]; norm_num

end Verif.Props
