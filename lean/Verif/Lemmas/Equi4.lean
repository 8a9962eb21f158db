import Verif.Lemmas.Equi3
import Verif.Model.Equilibrium

/-!
Chebyshev data of the monomial potentials.
-/

set_option linter.unusedVariables false

namespace Verif.Lemmas.Equi
open Real MeasureTheory Set intervalIntegral Verif.Spec Polynomial.Chebyshev Verif.Model

theorem tau_add (v w : ℕ →₀ ℝ) (X : ℝ) : tau (v + w) X = tau v X + tau w X :=
  Finsupp.sum_add_index' (fun n => zero_mul _) (fun n b c => add_mul _ _ _)

theorem sig_add (v w : ℕ →₀ ℝ) (X : ℝ) : sig (v + w) X = sig v X + sig w X :=
  Finsupp.sum_add_index' (fun n => zero_mul _) (fun n b c => add_mul _ _ _)

theorem tau_single (n : ℕ) (c X : ℝ) : tau (Finsupp.single n c) X = c * (T ℝ n).eval X :=
  Finsupp.sum_single_index (zero_mul _)

theorem sig_single (n : ℕ) (c X : ℝ) : sig (Finsupp.single n c) X = c * (U ℝ ((n : ℤ) - 1)).eval X :=
  Finsupp.sum_single_index (zero_mul _)

theorem tau_smul (k : ℝ) (w : ℕ →₀ ℝ) (X : ℝ) : tau (k • w) X = k * tau w X := by
  unfold tau
  rw [Finsupp.sum_smul_index (fun n => zero_mul _), Finsupp.mul_sum]
  exact Finsupp.sum_congr fun n _ => mul_assoc _ _ _

theorem sig_smul (k : ℝ) (w : ℕ →₀ ℝ) (X : ℝ) : sig (k • w) X = k * sig w X := by
  unfold sig
  rw [Finsupp.sum_smul_index (fun n => zero_mul _), Finsupp.mul_sum]
  exact Finsupp.sum_congr fun n _ => mul_assoc _ _ _

/-- multiplication by `X` of a Chebyshev term -/
noncomputable def xiTerm (n : ℕ) (c : ℝ) : ℕ →₀ ℝ :=
  if n = 0 then Finsupp.single 1 c else Finsupp.single (n - 1) (c / 2) + Finsupp.single (n + 1) (c / 2)

/-- multiplication by `X` of a Chebyshev expansion -/
noncomputable def xi (w : ℕ →₀ ℝ) : ℕ →₀ ℝ := w.sum xiTerm

theorem xiTerm_zero (n : ℕ) : xiTerm n 0 = 0 := by unfold xiTerm; split_ifs <;> simp

theorem xiTerm_add (n : ℕ) (b c : ℝ) : xiTerm n (b + c) = xiTerm n b + xiTerm n c := by
  unfold xiTerm
  split_ifs
  · rw [Finsupp.single_add]
  · rw [add_div, Finsupp.single_add, Finsupp.single_add]; abel

theorem xi_add (v w : ℕ →₀ ℝ) : xi (v + w) = xi v + xi w := Finsupp.sum_add_index' xiTerm_zero xiTerm_add

theorem xi_single (n : ℕ) (c : ℝ) : xi (Finsupp.single n c) = xiTerm n c := Finsupp.sum_single_index (xiTerm_zero n)

theorem xi_zero : xi 0 = 0 := Finsupp.sum_zero_index

theorem tau_zero (X : ℝ) : tau 0 X = 0 := Finsupp.sum_zero_index
theorem sig_zero (X : ℝ) : sig 0 X = 0 := Finsupp.sum_zero_index

theorem tau_xi (w : ℕ →₀ ℝ) (X : ℝ) : tau (xi w) X = X * tau w X := by
  induction w using Finsupp.induction_linear with
  | zero => rw [xi_zero, tau_zero, mul_zero]
  | add v w hv hw => rw [xi_add, tau_add, tau_add, hv, hw, mul_add]
  | single n c =>
    rw [xi_single, tau_single, xiTerm]
    rcases n with _ | n
    · rw [if_pos rfl, tau_single]; simp; ring
    · rw [if_neg (Nat.succ_ne_zero n), tau_add, tau_single, tau_single]
      have h := congrArg (Polynomial.eval X) (T_add_two ℝ n)
      simp only [Polynomial.eval_sub, Polynomial.eval_mul, Polynomial.eval_X, Polynomial.eval_ofNat] at h
      have e1 : ((n + 1 - 1 : ℕ) : ℤ) = n := by simp
      have e2 : ((n + 1 + 1 : ℕ) : ℤ) = n + 2 := by push_cast; ring
      rw [e1, e2, h]
      push_cast
      ring

theorem sig_xi (w : ℕ →₀ ℝ) (X : ℝ) : sig (xi w) X = X * sig w X + w 0 := by
  induction w using Finsupp.induction_linear with
  | zero => rw [xi_zero, sig_zero]; simp
  | add v w hv hw => rw [xi_add, sig_add, sig_add, hv, hw, Finsupp.add_apply]; ring
  | single n c =>
    rw [xi_single, sig_single, xiTerm]
    rcases n with _ | n
    · rw [if_pos rfl, sig_single]; simp
    · rw [if_neg (Nat.succ_ne_zero n), sig_add, sig_single, sig_single]
      have h := congrArg (Polynomial.eval X) (U_add_one ℝ n)
      simp only [Polynomial.eval_sub, Polynomial.eval_mul, Polynomial.eval_X, Polynomial.eval_ofNat] at h
      have e1 : ((n + 1 - 1 : ℕ) : ℤ) - 1 = n - 1 := by simp
      have e2 : ((n + 1 + 1 : ℕ) : ℤ) - 1 = n + 1 := by push_cast; ring
      have e3 : ((n + 1 : ℕ) : ℤ) - 1 = n := by push_cast; ring
      rw [e1, e2, e3, h, Finsupp.single_apply, if_neg (Nat.succ_ne_zero n)]
      ring

theorem continuous_sig (w : ℕ →₀ ℝ) : Continuous (sig w) := by
  unfold sig Finsupp.sum
  exact continuous_finsetSum _ fun n _ => continuous_const.mul (Polynomial.continuous _)

theorem integral_T_cos (n : ℕ) : ∫ p in (0 : ℝ)..π, (T ℝ n).eval (cos p) = if n = 0 then π else 0 := by
  have := integral_tau (Finsupp.single n 1)
  simp_rw [tau_single, one_mul] at this
  rw [this, Finsupp.single_apply]
  split_ifs <;> simp

theorem integral_one_add_U (n : ℕ) : ∫ p in (0 : ℝ)..π, (1 + cos p) * (U ℝ n).eval (cos p) = π := by
  induction n with
  | zero =>
    simp
  | succ n ih =>
    have e : ∀ p : ℝ, (1 + cos p) * (U ℝ ((n + 1 : ℕ) : ℤ)).eval (cos p)
        = (1 + cos p) * (U ℝ n).eval (cos p) + ((T ℝ ((n + 1 : ℕ) : ℤ)).eval (cos p) + (T ℝ ((n + 2 : ℕ) : ℤ)).eval (cos p)) := fun p => by
      have h1 := congrArg (Polynomial.eval (cos p)) (U_eq_X_mul_U_add_T ℝ n)
      have h2 := congrArg (Polynomial.eval (cos p)) (T_eq_X_mul_U_sub_U ℝ n)
      simp only [Polynomial.eval_sub, Polynomial.eval_add, Polynomial.eval_mul, Polynomial.eval_X] at h1 h2
      push_cast
      linear_combination h1 - h2
    simp_rw [e]
    have c : ∀ P : Polynomial ℝ, Continuous fun p : ℝ => P.eval (cos p) := fun P => (Polynomial.continuous _).comp continuous_cos
    have i1 : IntervalIntegrable (fun p => (1 + cos p) * (U ℝ n).eval (cos p)) volume 0 π :=
      Continuous.intervalIntegrable ((by fun_prop : Continuous fun p : ℝ => 1 + cos p).mul (c _)) _ _
    have i2 : ∀ k : ℕ, IntervalIntegrable (fun p => (T ℝ k).eval (cos p)) volume 0 π := fun k => (c _).intervalIntegrable _ _
    rw [intervalIntegral.integral_add i1 ((i2 _).add (i2 _)), intervalIntegral.integral_add (i2 _) (i2 _), ih, integral_T_cos, integral_T_cos]
    simp

theorem integral_one_add_sig (w : ℕ →₀ ℝ) : ∫ p in (0 : ℝ)..π, (1 + cos p) * sig w (cos p) = π * (tau w 1 - w 0) := by
  have c1 : ∀ v : ℕ →₀ ℝ, IntervalIntegrable (fun p => (1 + cos p) * sig v (cos p)) volume 0 π := fun v =>
    Continuous.intervalIntegrable ((by fun_prop : Continuous fun p : ℝ => 1 + cos p).mul ((continuous_sig v).comp continuous_cos)) _ _
  induction w using Finsupp.induction_linear with
  | zero => simp [sig_zero, tau_zero]
  | add v w hv hw =>
    simp_rw [sig_add, mul_add]
    rw [intervalIntegral.integral_add (c1 v) (c1 w), hv, hw, tau_add, Finsupp.add_apply]
    ring
  | single n c =>
    simp_rw [sig_single]
    rw [tau_single, T_eval_one, Finsupp.single_apply]
    rcases n with _ | n
    · simp
    · have e3 : ((n + 1 : ℕ) : ℤ) - 1 = n := by push_cast; ring
      rw [e3, if_neg (Nat.succ_ne_zero n)]
      have : ∀ p : ℝ, (1 + cos p) * (c * (U ℝ n).eval (cos p)) = c * ((1 + cos p) * (U ℝ n).eval (cos p)) := fun p => by ring
      simp_rw [this]
      rw [intervalIntegral.integral_const_mul, integral_one_add_U]
      ring

theorem integral_odd_cos (g : ℝ → ℝ) (hg : ∀ x, g (-x) = - g x) : ∫ p in (0 : ℝ)..π, g (cos p) = 0 := by
  have h := intervalIntegral.integral_comp_sub_left (a := 0) (b := π) (fun p => g (cos p)) π
  rw [sub_self, sub_zero] at h
  simp_rw [cos_pi_sub, hg] at h
  rw [intervalIntegral.integral_neg] at h
  linarith

theorem cProd_succ (m : ℕ) : cProd (m + 1) = cProd m * ((2 * ((m : ℝ) + 1) - 1) / (2 * ((m : ℝ) + 1))) := Finset.prod_range_succ _ _

theorem cProd_pos (m : ℕ) : 0 < cProd m := by
  refine Finset.prod_pos fun l _ => div_pos ?_ (by positivity)
  have : (0 : ℝ) ≤ l := Nat.cast_nonneg l
  linarith

theorem integral_cos_even (m : ℕ) : ∫ p in (0 : ℝ)..π, cos p ^ (2 * m) = π * cProd m := by
  induction m with
  | zero => simp [cProd]
  | succ m ih =>
    rw [show 2 * (m + 1) = 2 * m + 2 by ring, integral_cos_pow, ih, cProd_succ]
    simp
    field_simp
    ring

/-- `h1` for `a = 1` -/
noncomputable def hPol : ℕ → ℝ → ℝ
  | 0, _ => 0
  | m + 1, X => X ^ 2 * hPol m X + cProd m

theorem hPol_nonneg (m : ℕ) (X : ℝ) : 0 ≤ hPol m X := by
  induction m with
  | zero => exact le_rfl
  | succ m ih => rw [hPol]; have := cProd_pos m; positivity

theorem hPol_neg (m : ℕ) (X : ℝ) : hPol m (-X) = hPol m X := by
  induction m with
  | zero => rfl
  | succ m ih => rw [hPol, hPol, ih]; ring

/-- Chebyshev coefficients of `(1 - X²) hPol m X` -/
noncomputable def wm : ℕ → ℕ →₀ ℝ
  | 0 => 0
  | m + 1 => xi (xi (wm m)) + (Finsupp.single 0 (cProd m / 2) + Finsupp.single 2 (-(cProd m / 2)))

theorem tau_wm (m : ℕ) (X : ℝ) : tau (wm m) X = (1 - X ^ 2) * hPol m X := by
  induction m with
  | zero => rw [wm, tau_zero, hPol, mul_zero]
  | succ m ih =>
    rw [wm, tau_add, tau_add, tau_xi, tau_xi, ih, tau_single, tau_single, hPol]
    simp [T_two]
    ring

theorem wm_xi_zero (m : ℕ) : xi (wm m) 0 = 0 := by
  have h := integral_tau (xi (wm m))
  rw [show (fun p : ℝ => tau (xi (wm m)) (cos p)) = fun p => (fun X => X * ((1 - X ^ 2) * hPol m X)) (cos p) from
    funext fun p => by rw [tau_xi, tau_wm], integral_odd_cos (fun X => X * ((1 - X ^ 2) * hPol m X)) (fun X => by rw [hPol_neg]; ring)] at h
  have := pi_pos
  rcases mul_eq_zero.1 h.symm with h' | h'
  · linarith
  · exact h'

theorem wm_data (m : ℕ) (hm : 1 ≤ m) : (∀ X, sig (wm m) X = - X ^ (2 * m - 1)) ∧ wm m 0 = cProd m := by
  have hz : ∀ m, 1 ≤ m → (∀ X, sig (wm m) X = - X ^ (2 * m - 1)) → wm m 0 = cProd m := fun m hm h => by
    have h1 := integral_one_add_sig (wm m)
    rw [tau_wm] at h1
    simp_rw [h] at h1
    have e : ∀ p : ℝ, (1 + cos p) * -cos p ^ (2 * m - 1) = -(cos p ^ (2 * m - 1)) + -(cos p ^ (2 * m)) := fun p => by
      obtain ⟨k, hk⟩ : ∃ k, 2 * m - 1 = k := ⟨_, rfl⟩
      rw [show 2 * m = k + 1 by omega, show k + 1 - 1 = k by omega, pow_succ]; ring
    simp_rw [e] at h1
    rw [intervalIntegral.integral_add (Continuous.intervalIntegrable (by fun_prop) _ _) (Continuous.intervalIntegrable (by fun_prop) _ _),
      intervalIntegral.integral_neg, intervalIntegral.integral_neg, integral_cos_even,
      integral_odd_cos (fun x => x ^ (2 * m - 1)) (fun x => Odd.neg_pow ⟨m - 1, by omega⟩ x)] at h1
    have := pi_pos
    have h2 : π * (wm m 0 - cProd m) = 0 := by linarith
    rcases mul_eq_zero.1 h2 with h' | h' <;> linarith
  have hs : ∀ X, sig (wm m) X = - X ^ (2 * m - 1) := by
    induction m, hm using Nat.le_induction with
    | base =>
      intro X
      rw [wm, wm, xi_zero, xi_zero, sig_add, sig_add, sig_zero, sig_single, sig_single]
      simp [cProd]
    | succ m hm ih =>
      intro X
      rw [wm, sig_add, sig_add, sig_xi, sig_xi, ih, hz m hm ih, wm_xi_zero, sig_single, sig_single]
      obtain ⟨k, rfl⟩ : ∃ k, m = k + 1 := ⟨m - 1, by omega⟩
      rw [show 2 * (k + 1 + 1) - 1 = 2 * k + 3 by omega, show 2 * (k + 1) - 1 = 2 * k + 1 by omega]
      simp
      ring
  exact ⟨hs, hz m hm hs⟩

theorem polyval_append (l : List ℝ) (c x : ℝ) : polyval (l ++ [c]) x = polyval l x * x + c := by
  unfold polyval; rw [List.foldl_append]; rfl

theorem h1_eq (m : ℕ) (hm : 1 ≤ m) (a X : ℝ) : polyval (h1Coeffs m (a ^ 2)) (a * X) = (a ^ 2) ^ (m - 1) * hPol m X := by
  induction m, hm using Nat.le_induction with
  | base => simp [h1Coeffs, polyval, hPol, cProd]
  | succ m hm ih =>
    have e : h1Coeffs (m + 1) (a ^ 2) = h1Coeffs m (a ^ 2) ++ [0] ++ [(a ^ 2) ^ m * cProd m] := by
      unfold h1Coeffs
      rw [show 2 * (m + 1 - 1) + 1 = 2 * (m - 1) + 1 + 1 + 1 by omega, List.range_succ, List.map_append, List.range_succ, List.map_append]
      congr 1
      · congr 1
        simp
      · simp only [List.map_cons, List.map_nil]
        rw [if_neg (by omega), if_pos (by omega), show (2 * (m - 1) + 1 + 1) / 2 = m by omega]
    obtain ⟨k, rfl⟩ : ∃ k, m = k + 1 := ⟨m - 1, by omega⟩
    rw [e, polyval_append, polyval_append, ih, show hPol (k + 1 + 1) X = X ^ 2 * hPol (k + 1) X + cProd (k + 1) from rfl]
    simp only [Nat.add_sub_cancel]
    ring

end Verif.Lemmas.Equi
