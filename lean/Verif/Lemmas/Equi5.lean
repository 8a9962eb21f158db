import Verif.Lemmas.Equi4

/-!
The equilibrium measures of the code.
-/

set_option linter.unusedVariables false

namespace Verif.Lemmas.Equi
open Real MeasureTheory Set intervalIntegral Verif.Spec Polynomial.Chebyshev Verif.Model

theorem x2m_main (m : ℕ) (hm : 1 ≤ m) (g : ℝ) (hg : 0 < g) :
    IsDensityOn (equilibriumX2m m g).1 (equilibriumX2m m g).2.1 (equilibriumX2m m g).2.2
      ∧ IsEquilibrium (fun x => g / (2 * m) * x ^ (2 * m)) (equilibriumX2m m g).1 := by
  have hm0 : (0 : ℝ) < m := by exact_mod_cast hm
  have hc := cProd_pos m
  obtain ⟨A, hA⟩ : ∃ A, A = x2mA2 m g := ⟨_, rfl⟩
  have hbase : 0 < (m : ℝ) * (g / (2 * m)) * cProd m := by positivity
  have hA0 : 0 < A := by rw [hA]; unfold x2mA2; positivity
  have hAm : A ^ m * (m * (g / (2 * m)) * cProd m) = 1 := by
    rw [hA, x2mA2, div_pow, one_pow, ← rpow_natCast, ← rpow_mul hbase.le, one_div_mul_cancel hm0.ne', rpow_one]
    field_simp
  obtain ⟨a, ha⟩ : ∃ a, a = √A := ⟨_, rfl⟩
  have ha0 : 0 < a := by rw [ha]; exact sqrt_pos.2 hA0
  have ha2 : a ^ 2 = A := by rw [ha, sq_sqrt hA0.le]
  obtain ⟨Q, hQ⟩ : ∃ Q : ℝ → ℝ, Q = fun x => m * (g / (2 * m)) * polyval (h1Coeffs m A) x := ⟨_, rfl⟩
  have hQ' : ∀ X, Q (0 + a * X) = m * (g / (2 * m)) * (A ^ (m - 1) * hPol m X) := fun X => by
    rw [hQ]
    beta_reduce
    rw [zero_add, ← ha2, h1_eq m hm]
  have hQ0 : ∀ x, 0 ≤ Q x := fun x => by
    have := hQ' (x / a)
    rw [zero_add, mul_div_cancel₀ _ ha0.ne'] at this
    rw [this]
    have := hPol_nonneg m (x / a)
    positivity
  have hfun : (equilibriumX2m m g).1 = cutDens 0 a Q := by
    funext x
    unfold equilibriumX2m cutDens
    beta_reduce
    rw [← hA, ha2, sub_zero]
    have h1 : m * (g / (2 * m)) / π * √(max (A - x ^ 2) 0) * polyval (h1Coeffs m A) x = 1 / π * Q x * √(max (A - x ^ 2) 0) := by
      rw [hQ]; ring
    simp only []
    rw [h1, max_eq_left]
    have := hQ0 x
    positivity
  have hlo : (equilibriumX2m m g).2.1 = 0 - a := by unfold equilibriumX2m; rw [← hA, ← ha]; ring
  have hhi : (equilibriumX2m m g).2.2 = 0 + a := by unfold equilibriumX2m; rw [← hA, ← ha]; ring
  have hkey : A * (m * (g / (2 * m)) * A ^ (m - 1)) = 1 / cProd m := by
    rw [eq_div_iff hc.ne']
    have : A * A ^ (m - 1) = A ^ m := by rw [← pow_succ', Nat.sub_add_cancel hm]
    linear_combination hAm + (m * (g / (2 * m)) * cProd m) * this
  obtain ⟨hsig, hw0⟩ := wm_data m hm
  obtain ⟨v0, hv⟩ := pot_of_deriv 0 a (fun x => g / (2 * m) * x ^ (2 * m)) (fun x => g / (2 * m) * ((2 * m : ℕ) * x ^ (2 * m - 1))) ((1 / cProd m) • wm m)
    (fun x => (hasDerivAt_pow (2 * m) x).const_mul _) (fun X => by
      rw [sig_smul, hsig, ← hkey, zero_add, mul_pow]
      have : a * a ^ (2 * m - 1) = A * A ^ (m - 1) := by
        rw [← pow_succ', ← pow_succ', Nat.sub_add_cancel hm, ← ha2, ← pow_mul]; congr 1; omega
      push_cast
      linear_combination (g / (2 * m) * (2 * m) * X ^ (2 * m - 1)) * this)
  rw [hfun, hlo, hhi]
  refine one_cut 0 ha0 Q _ v0 ((1 / cProd m) • wm m) ?_ hQ0 (fun X => ?_) hv
  · rw [Finsupp.smul_apply, hw0, smul_eq_mul, one_div_mul_cancel hc.ne']
  · rw [tau_smul, tau_wm, hQ', ← hkey, ha2]; ring

/-- Chebyshev data of a polynomial of degree four -/
noncomputable def w4 (a b c d e : ℝ) : ℕ →₀ ℝ :=
  Finsupp.single 0 a + (Finsupp.single 1 b + (Finsupp.single 2 c + (Finsupp.single 3 d + Finsupp.single 4 e)))

theorem w4_zero (a b c d e : ℝ) : w4 a b c d e 0 = a := by simp [w4, Finsupp.single_apply]

theorem T3 (X : ℝ) : (T ℝ 3).eval X = 4 * X ^ 3 - 3 * X := by
  have := congrArg (Polynomial.eval X) (T_add_two ℝ 1)
  norm_num at this
  rw [this, T_two]; simp; ring

theorem T4 (X : ℝ) : (T ℝ 4).eval X = 8 * X ^ 4 - 8 * X ^ 2 + 1 := by
  have := congrArg (Polynomial.eval X) (T_add_two ℝ 2)
  norm_num at this
  rw [this, T3, T_two]; simp; ring

theorem U3 (X : ℝ) : (U ℝ 3).eval X = 8 * X ^ 3 - 4 * X := by
  have := congrArg (Polynomial.eval X) (U_add_two ℝ 1)
  norm_num at this
  rw [this, U_two]; simp; ring

theorem tau_w4 (a b c d e X : ℝ) : tau (w4 a b c d e) X = a + b * X + c * (2 * X ^ 2 - 1) + d * (4 * X ^ 3 - 3 * X) + e * (8 * X ^ 4 - 8 * X ^ 2 + 1) := by
  unfold w4
  rw [tau_add, tau_add, tau_add, tau_add, tau_single, tau_single, tau_single, tau_single, tau_single]
  push_cast
  rw [T3, T4, T_two, T_one, T_zero]
  simp; ring

theorem sig_w4 (a b c d e X : ℝ) : sig (w4 a b c d e) X = b + c * (2 * X) + d * (4 * X ^ 2 - 1) + e * (8 * X ^ 3 - 4 * X) := by
  unfold w4
  rw [sig_add, sig_add, sig_add, sig_add, sig_single, sig_single, sig_single, sig_single, sig_single]
  push_cast
  norm_num
  rw [U3, U_two]
  simp; ring

theorem clItKr10_main : IsDensityOn equilibriumClItKr10.1 equilibriumClItKr10.2.1 equilibriumClItKr10.2.2
    ∧ IsEquilibrium (fun x => 1 / 20 * x ^ 4 + -4 / 15 * x ^ 3 + 1 / 5 * x ^ 2 + 8 / 5 * x) equilibriumClItKr10.1 := by
  have hfun : equilibriumClItKr10.1 = cutDens 0 2 (fun x => (2 - x) ^ 2 / 10) := by
    funext x
    unfold equilibriumClItKr10 cutDens
    have e : (x + 2) * (2 - x) ^ 5 = ((2 - x) ^ 2) ^ 2 * (2 ^ 2 - (x - 0) ^ 2) := by ring
    have h0 : 0 ≤ ((2 - x) ^ 2) ^ 2 := by positivity
    simp only []
    rw [e, show (0 : ℝ) = ((2 - x) ^ 2) ^ 2 * 0 by rw [mul_zero], ← mul_max_of_nonneg _ _ h0, sqrt_mul h0, sqrt_sq (by positivity), mul_zero]
    ring
  obtain ⟨v0, hv⟩ := pot_of_deriv 0 2 (fun x => 1 / 20 * x ^ 4 + -4 / 15 * x ^ 3 + 1 / 5 * x ^ 2 + 8 / 5 * x)
    (fun x => 1 / 20 * (4 * x ^ 3) + -4 / 15 * (3 * x ^ 2) + 1 / 5 * (2 * x) + 8 / 5) (w4 1 (-4 / 5) (-4 / 5) (4 / 5) (-1 / 5))
    (fun x => by
      have h : ∀ n : ℕ, HasDerivAt (fun x : ℝ => x ^ n) (n * x ^ (n - 1)) x := fun n => hasDerivAt_pow n x
      refine ((((((h 4).const_mul (1 / 20)).fun_add ((h 3).const_mul (-4 / 15))).fun_add ((h 2).const_mul (1 / 5))).fun_add
        ((hasDerivAt_id' x).const_mul (8 / 5)))).congr_deriv ?_
      norm_num) (fun X => by rw [sig_w4]; ring)
  have hlo : equilibriumClItKr10.2.1 = 0 - 2 := by unfold equilibriumClItKr10; norm_num
  have hhi : equilibriumClItKr10.2.2 = 0 + 2 := by unfold equilibriumClItKr10; norm_num
  rw [hfun, hlo, hhi]
  refine one_cut 0 two_pos _ _ v0 _ (w4_zero _ _ _ _ _) (fun x => by positivity) (fun X => ?_) hv
  rw [tau_w4]; ring

/-- the quartic potential of `equilibrium_x2_x4` -/
theorem x2x4_deriv (g2 g4 x : ℝ) : HasDerivAt (fun x : ℝ => g2 / 2 * x ^ 2 + g4 / 4 * x ^ 4) (g2 * x + g4 * x ^ 3) x := by
  have h : ∀ n : ℕ, HasDerivAt (fun x : ℝ => x ^ n) (n * x ^ (n - 1)) x := fun n => hasDerivAt_pow n x
  refine (((h 2).const_mul (g2 / 2)).fun_add ((h 4).const_mul (g4 / 4))).congr_deriv ?_
  norm_num
  ring

theorem four_sqrt (g4 : ℝ) (h4 : 0 < g4) : 4 * √(g4 / 4) = 2 * √g4 := by
  rw [sqrt_div h4.le, show (4 : ℝ) = 2 ^ 2 by norm_num, sqrt_sq (by norm_num)]; ring

theorem x2x4_one (g2 g4 : ℝ) (h4 : 0 < g4) (hg : g2 > -4 * √(g4 / 4)) :
    IsDensityOn (equilibriumX2X4 g2 g4).1 (equilibriumX2X4 g2 g4).2.1 (equilibriumX2X4 g2 g4).2.2
      ∧ IsEquilibrium (fun x => g2 / 2 * x ^ 2 + g4 / 4 * x ^ 4) (equilibriumX2X4 g2 g4).1 := by
  obtain ⟨s, hs⟩ : ∃ s, s = √(g2 ^ 2 + 12 * g4) := ⟨_, rfl⟩
  have hs2 : s ^ 2 = g2 ^ 2 + 12 * g4 := by rw [hs, sq_sqrt (by positivity)]
  have hs0 : 0 < s := by rw [hs]; exact sqrt_pos.2 (by positivity)
  obtain ⟨A, hA⟩ : ∃ A, A = 2 / (3 * g4) * (s - g2) := ⟨_, rfl⟩
  obtain ⟨B, hB⟩ : ∃ B, B = 1 / (3 * g4) * (s + 2 * g2) := ⟨_, rfl⟩
  have hsg : 0 < s - g2 := by nlinarith
  have hA0 : 0 < A := by rw [hA]; positivity
  have hsg2 : 0 ≤ s + 2 * g2 := by
    have h1 := four_sqrt g4 h4
    have h2 : -(2 * √g4) < g2 := by linarith
    have h3 := sq_sqrt h4.le
    have h5 := sqrt_nonneg g4
    by_contra h
    nlinarith
  have hB0 : 0 ≤ B := by rw [hB]; positivity
  obtain ⟨a, ha⟩ : ∃ a, a = √A := ⟨_, rfl⟩
  have ha0 : 0 < a := by rw [ha]; exact sqrt_pos.2 hA0
  have ha2 : a ^ 2 = A := by rw [ha, sq_sqrt hA0.le]
  have e1 : A * g4 * (A + 4 * B) = 16 := by
    rw [hA, hB]; field_simp; linear_combination 12 * hs2
  have e2 : g4 * (B - A / 2) = g2 := by
    rw [hA, hB]; field_simp; ring
  have hfun : (equilibriumX2X4 g2 g4).1 = cutDens 0 a (fun x => g4 / 2 * (x ^ 2 + B)) := by
    funext x
    unfold equilibriumX2X4 cutDens
    rw [if_pos hg, ← hs, ← hA, ← hB, ha2, sub_zero]
    simp only []
    rw [max_eq_left (by positivity)]
    field_simp
  have hlo : (equilibriumX2X4 g2 g4).2.1 = 0 - a := by unfold equilibriumX2X4; rw [if_pos hg, ← hs, ← hA, ← ha]; ring
  have hhi : (equilibriumX2X4 g2 g4).2.2 = 0 + a := by unfold equilibriumX2X4; rw [if_pos hg, ← hs, ← hA, ← ha]; ring
  obtain ⟨v0, hv⟩ := pot_of_deriv 0 a _ _ (w4 1 0 (-(A * g4 * B / 4)) 0 (-(A ^ 2 * g4 / 16))) (x2x4_deriv g2 g4) (fun X => by
    rw [sig_w4, ← e2]
    linear_combination (g4 * (B - A / 2) * X + g4 * X ^ 3 * (a ^ 2 + A)) * ha2)
  rw [hfun, hlo, hhi]
  refine one_cut 0 ha0 _ _ v0 _ (w4_zero _ _ _ _ _) (fun x => by positivity) (fun X => ?_) hv
  rw [tau_w4]
  simp only [zero_add]
  rw [mul_pow, ha2]
  linear_combination (-1 / 16) * e1

end Verif.Lemmas.Equi
