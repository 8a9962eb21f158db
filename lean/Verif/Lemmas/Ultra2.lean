import Verif.Lemmas.JacPoly
import Verif.Lemmas.OpeLaw
import Mathlib.Analysis.Calculus.Deriv.MeanValue
import Mathlib.Analysis.Calculus.Deriv.Polynomial
import Mathlib.Analysis.SpecialFunctions.Pow.Deriv

/-!
Ultraspherical polynomials: differential equation, values at the origin, and the majorant of Sonin.
-/

namespace Verif.Lemmas
open Verif.Spec Polynomial

/-! ### The differential equation -/

theorem jpT_coeff_all (n : ℕ) (a b : ℝ) (k : ℕ) : (jpT n a b).coeff k = jacobiCoeff n a b k := by
  rw [jpT, Polynomial.finsetSum_coeff]
  simp only [Polynomial.coeff_C_mul, Polynomial.coeff_X_pow, mul_ite, mul_one, mul_zero]
  rw [Finset.sum_ite_eq]
  split_ifs with h
  · rfl
  · rw [jacobiCoeff, Nat.choose_eq_zero_of_lt (by simpa using h)]; simp

theorem jacobiCoeff_rec (n : ℕ) (a b : ℝ) (k : ℕ) :
    ((k : ℝ) + 1) * (k + a + 1) * jacobiCoeff n a b (k + 1) = ((k : ℝ) - n) * (n + a + b + 1 + k) * jacobiCoeff n a b k := by
  rcases lt_trichotomy k n with h | rfl | h
  · obtain ⟨r, rfl⟩ : ∃ r, n = k + 1 + r := ⟨n - (k + 1), by omega⟩
    have hc : ((k + 1 + r).choose (k + 1) : ℝ) * (k + 1) = ((k + 1 + r).choose k : ℝ) * (1 + r) := by
      have := Nat.choose_succ_right_eq (k + 1 + r) k
      rw [show k + 1 + r - k = 1 + r by omega] at this
      exact_mod_cast this
    rw [jacobiCoeff, jacobiCoeff, show k + 1 + r - (k + 1) = r by omega, show k + 1 + r - k = r + 1 by omega, poch_succ,
      poch_succ' (a + k + 1)]
    push_cast
    rw [show a + ((k : ℝ) + 1) + 1 = a + k + 1 + 1 by ring]
    generalize poch (a + k + 1 + 1) r = A
    generalize poch ((k : ℝ) + 1 + r + a + b + 1) k = B
    generalize ((k + 1 + r).choose (k + 1) : ℝ) = C1 at *
    generalize ((k + 1 + r).choose k : ℝ) = C2 at *
    rw [pow_succ]
    have e : (k : ℝ) - (k + 1 + r) = -(1 + r) := by ring
    rw [e]
    linear_combination (-((-1 : ℝ) ^ k) * ((k : ℝ) + a + 1) * B * ((k : ℝ) + 1 + r + a + b + 1 + k) * A / ((k + 1 + r).factorial : ℝ)) * hc
  · rw [jacobiCoeff, Nat.choose_eq_zero_of_lt (by omega)]; simp
  · rw [jacobiCoeff, Nat.choose_eq_zero_of_lt (by omega), jacobiCoeff, Nat.choose_eq_zero_of_lt h]; simp

theorem jpT_ode (n : ℕ) (a b : ℝ) :
    X * derivative (derivative (jpT n a b)) - X * (X * derivative (derivative (jpT n a b))) + C (a + 1) * derivative (jpT n a b)
      - C (a + b + 2) * (X * derivative (jpT n a b)) + C ((n : ℝ) * (n + a + b + 1)) * jpT n a b = 0 := by
  ext k
  have h := jacobiCoeff_rec n a b k
  rcases k with _ | _ | k
  · simp only [coeff_add, coeff_sub, coeff_C_mul, coeff_X_mul_zero, coeff_derivative, jpT_coeff_all, coeff_zero]
    push_cast at h ⊢
    linear_combination h
  · simp only [coeff_add, coeff_sub, coeff_C_mul, coeff_X_mul, coeff_X_mul_zero, coeff_derivative, jpT_coeff_all, coeff_zero]
    push_cast at h ⊢
    linear_combination h
  · simp only [coeff_add, coeff_sub, coeff_C_mul, coeff_X_mul, coeff_derivative, jpT_coeff_all, coeff_zero]
    push_cast at h ⊢
    linear_combination h

/-- the Jacobi polynomial as a polynomial in `x` -/
noncomputable def jpX (n : ℕ) (a b : ℝ) : Polynomial ℝ := (jpT n a b).comp (C (1 / 2) + C (-1 / 2) * X)

theorem jpX_eval (n : ℕ) (a b x : ℝ) : (jpX n a b).eval x = jacobiPoly n a b x := by
  rw [jacobiPoly_eq, jpX, eval_comp]
  congr 1
  simp; ring

theorem jpX_deriv (n : ℕ) (a b : ℝ) :
    derivative (jpX n a b) = C (-1 / 2) * (derivative (jpT n a b)).comp (C (1 / 2) + C (-1 / 2) * X) := by
  rw [jpX, derivative_comp]
  congr 1
  simp

theorem jpX_deriv2 (n : ℕ) (a b : ℝ) :
    derivative (derivative (jpX n a b)) = C (1 / 4) * (derivative (derivative (jpT n a b))).comp (C (1 / 2) + C (-1 / 2) * X) := by
  rw [jpX_deriv, derivative_C_mul, derivative_comp]
  simp only [derivative_add, derivative_C, derivative_C_mul, derivative_X, zero_add, mul_one]
  rw [← mul_assoc, ← C_mul]
  norm_num

theorem jpX_ode_eval (n : ℕ) (a b x : ℝ) :
    (1 - x ^ 2) * (derivative (derivative (jpX n a b))).eval x + (b - a - (a + b + 2) * x) * (derivative (jpX n a b)).eval x
      + n * (n + a + b + 1) * (jpX n a b).eval x = 0 := by
  have h := congrArg (eval (1 / 2 + -1 / 2 * x)) (jpT_ode n a b)
  simp only [eval_add, eval_sub, eval_mul, eval_X, eval_C, eval_zero] at h
  rw [jpX_deriv2, jpX_deriv, jpX]
  simp only [eval_mul, eval_comp, eval_add, eval_C, eval_X]
  linear_combination h

theorem jpX_ode (n : ℕ) (a b : ℝ) :
    derivative (derivative (jpX n a b)) - X * (X * derivative (derivative (jpX n a b))) + C (b - a) * derivative (jpX n a b)
      - C (a + b + 2) * (X * derivative (jpX n a b)) + C ((n : ℝ) * (n + a + b + 1)) * jpX n a b = 0 := by
  refine Polynomial.funext fun x => ?_
  have := jpX_ode_eval n a b x
  simp only [eval_add, eval_sub, eval_mul, eval_X, eval_C, eval_zero]
  linear_combination this

theorem coeff_comp_affine {Q : Polynomial ℝ} {n : ℕ} (hQ : Q.natDegree ≤ n) (u v : ℝ) :
    (Q.comp (C u + C v * X)).coeff n = Q.coeff n * v ^ n := by
  have hL : (C u + C v * X : Polynomial ℝ).natDegree ≤ 1 := by
    refine (natDegree_add_le _ _).trans (max_le (by simp) (natDegree_C_mul_le _ _ |>.trans natDegree_X_le))
  rw [comp, eval₂_eq_sum_range' C (Nat.lt_succ_of_le hQ), finsetSum_coeff, Finset.sum_range_succ, Finset.sum_eq_zero, zero_add, coeff_C_mul]
  · have := coeff_pow_of_natDegree_le (n := 1) (m := n) hL
    rw [mul_one] at this
    rw [this]
    congr 2
    simp
  · intro k hk
    have hk' := Finset.mem_range.1 hk
    have := natDegree_pow_le_of_le k hL
    rw [coeff_C_mul, coeff_eq_zero_of_natDegree_lt (p := (C u + C v * X) ^ k) (by omega), mul_zero]

theorem jpX_lead (n : ℕ) (a b : ℝ) : (jpX n a b).coeff n * (n.factorial : ℝ) = poch (n + a + b + 1) n / 2 ^ n := by
  rw [jpX, coeff_comp_affine (jpT_natDegree_le n a b), jpT_coeff_all, jacobiCoeff]
  simp only [Nat.choose_self, Nat.cast_one, mul_one, Nat.sub_self, poch_zero]
  have h1 : (n.factorial : ℝ) ≠ 0 := by positivity
  have h2 : ((-1 / 2 : ℝ)) ^ n = (-1) ^ n / 2 ^ n := by rw [div_pow]
  rw [h2]
  have h3 : ((-1 : ℝ) ^ n) * (-1) ^ n = 1 := by rw [← mul_pow]; norm_num
  field_simp
  linear_combination poch (n + a + b + 1) n * h3

theorem jpX_natDegree (n : ℕ) (a b : ℝ) : (jpX n a b).natDegree ≤ n := by
  rw [jpX]
  refine natDegree_comp_le.trans ?_
  have hL : (C (1 / 2) + C (-1 / 2) * X : Polynomial ℝ).natDegree ≤ 1 :=
    (natDegree_add_le _ _).trans (max_le (by simp) (natDegree_C_mul_le _ _ |>.trans natDegree_X_le))
  calc _ ≤ n * 1 := Nat.mul_le_mul (jpT_natDegree_le n a b) hL
    _ = n := mul_one n

theorem jpX_coeff_rec (n : ℕ) (a : ℝ) (k : ℕ) :
    (jpX n a a).coeff (k + 2) * ((k : ℝ) + 2) * (k + 1) = ((k : ℝ) - n) * (k + n + 2 * a + 1) * (jpX n a a).coeff k := by
  have h := congrArg (fun p => coeff p k) (jpX_ode n a a)
  rcases k with _ | _ | k
  · simp only [coeff_add, coeff_sub, coeff_C_mul, coeff_X_mul_zero, coeff_derivative, coeff_zero, sub_self, zero_mul] at h
    push_cast at h ⊢
    linear_combination h
  · simp only [coeff_add, coeff_sub, coeff_C_mul, coeff_X_mul, coeff_X_mul_zero, coeff_derivative, coeff_zero, sub_self, zero_mul] at h
    push_cast at h ⊢
    linear_combination h
  · simp only [coeff_add, coeff_sub, coeff_C_mul, coeff_X_mul, coeff_derivative, coeff_zero, sub_self, zero_mul] at h
    push_cast at h ⊢
    linear_combination h

/-! ### Values at the origin -/

theorem poch_dup (z : ℝ) (m : ℕ) : poch (2 * z) (2 * m) = 4 ^ m * poch z m * poch (z + 1 / 2) m := by
  induction m with
  | zero => simp [poch_zero]
  | succ m ih =>
    rw [show 2 * (m + 1) = 2 * m + 1 + 1 by ring, poch_succ, poch_succ, ih, poch_succ, poch_succ]
    push_cast
    ring

theorem coeff_even (m : ℕ) (a : ℝ) (k : ℕ) : (jpX (2 * m) a a).coeff (2 * k) * ((2 * k).factorial : ℝ)
    = (-4) ^ k * (∏ i ∈ Finset.range k, ((m : ℝ) - i)) * poch (m + (a + 1 / 2)) k * (jpX (2 * m) a a).coeff 0 := by
  induction k with
  | zero => simp [poch_zero]
  | succ k ih =>
    have h := jpX_coeff_rec (2 * m) a (2 * k)
    rw [show 2 * (k + 1) = 2 * k + 2 by ring, Nat.factorial_succ, Nat.factorial_succ, Finset.prod_range_succ, poch_succ, pow_succ]
    push_cast at h ⊢
    linear_combination ((2 * k).factorial : ℝ) * h + (2 * (k : ℝ) - 2 * m) * (2 * k + 2 * m + 2 * a + 1) * ih

theorem coeff_odd (m : ℕ) (a : ℝ) (k : ℕ) : (jpX (2 * m + 1) a a).coeff (2 * k + 1) * ((2 * k + 1).factorial : ℝ)
    = (-4) ^ k * (∏ i ∈ Finset.range k, ((m : ℝ) - i)) * poch (m + (a + 1 / 2) + 1) k * (jpX (2 * m + 1) a a).coeff 1 := by
  induction k with
  | zero => simp [poch_zero]
  | succ k ih =>
    have h := jpX_coeff_rec (2 * m + 1) a (2 * k + 1)
    rw [show 2 * (k + 1) + 1 = 2 * k + 1 + 2 by ring, Nat.factorial_succ, Nat.factorial_succ, Finset.prod_range_succ, poch_succ, pow_succ]
    push_cast at h ⊢
    linear_combination ((2 * k + 1).factorial : ℝ) * h + (2 * (k : ℝ) - 2 * m) * (2 * k + 1 + (2 * m + 1) + 2 * a + 1) * ih

theorem coeff_parity (n : ℕ) {a : ℝ} (ha : -1 / 2 < a) (k : ℕ) (h : (n + k) % 2 = 1) : (jpX n a a).coeff k = 0 := by
  by_cases hk : n < k
  · exact coeff_eq_zero_of_natDegree_lt ((jpX_natDegree n a a).trans_lt hk)
  · have hkn : k < n := by omega
    have ih := coeff_parity n ha (k + 2) (by omega)
    have hr := jpX_coeff_rec n a k
    rw [ih, zero_mul, zero_mul] at hr
    have h1 : ((k : ℝ) - n) ≠ 0 := by
      have : (k : ℝ) < n := by exact_mod_cast hkn
      linarith
    have h2 : (k + n + 2 * a + 1 : ℝ) ≠ 0 := by
      have h3 : (1 : ℝ) ≤ n := by exact_mod_cast (by omega : 1 ≤ n)
      have h4 : (0 : ℝ) ≤ k := k.cast_nonneg
      linarith
    exact (mul_eq_zero.1 hr.symm).resolve_left (mul_ne_zero h1 h2)
  termination_by n + 1 - k

/-- `|P_(2m)(0)|` -/
theorem value_even (m : ℕ) {a : ℝ} (ha : -1 / 2 < a) :
    (jpX (2 * m) a a).coeff 0 ^ 2 * (Real.Gamma (m + (a + 1 / 2) + 1 / 2) * (4 ^ m * (m.factorial : ℝ))) ^ 2
      = Real.Gamma (2 * m + (a + 1 / 2) + 1 / 2) ^ 2 := by
  set l := a + 1 / 2 with hl
  have hl0 : 0 < l := by rw [hl]; linarith
  have h := coeff_even m a m
  rw [jpX_lead, prod_sub_factorial] at h
  push_cast at h
  rw [show (2 * m : ℝ) + a + a + 1 = 2 * (m + l) by rw [hl]; ring, poch_dup, pow_mul] at h
  have hp : 0 < poch (m + l) m := poch_pos (by positivity) m
  have hg := poch_gamma (show 0 < (m : ℝ) + l + 1 / 2 by positivity) m
  rw [show (m : ℝ) + l + 1 / 2 + m = 2 * m + l + 1 / 2 by ring] at hg
  rw [← hg]
  have h4 : ((-4 : ℝ)) ^ m = (-1) ^ m * 4 ^ m := by rw [← mul_pow]; norm_num
  have h22 : ((2 : ℝ) ^ 2) ^ m = 4 ^ m := by norm_num
  rw [h4, h22] at h
  have h41 : ((-1 : ℝ) ^ m) ^ 2 = 1 := by rw [← pow_mul, mul_comm, pow_mul]; norm_num
  have hq : poch (m + l + 1 / 2) m = (-1) ^ m * 4 ^ m * (m.factorial : ℝ) * (jpX (2 * m) a a).coeff 0 := by
    have h44 : (0 : ℝ) < 4 ^ m := by positivity
    have : poch (m + l) m * (poch (m + l + 1 / 2) m) = poch (m + l) m * ((-1) ^ m * 4 ^ m * (m.factorial : ℝ) * (jpX (2 * m) a a).coeff 0) := by
      rw [div_eq_iff h44.ne'] at h
      have h' : 4 ^ m * (poch (m + l) m * poch (m + l + 1 / 2) m)
          = 4 ^ m * (poch (m + l) m * ((-1) ^ m * 4 ^ m * (m.factorial : ℝ) * (jpX (2 * m) a a).coeff 0)) := by
        rw [hl] at h ⊢
        linear_combination h
      exact mul_left_cancel₀ h44.ne' h'
    exact mul_left_cancel₀ hp.ne' this
  rw [hq, mul_pow, mul_pow, mul_pow, mul_pow, mul_pow, mul_pow, h41]
  ring

/-- `|P_(2m+1)'(0)|` -/
theorem value_odd (m : ℕ) {a : ℝ} (ha : -1 / 2 < a) :
    (jpX (2 * m + 1) a a).coeff 1 ^ 2 * (Real.Gamma (m + (a + 1 / 2) + 1 / 2) * (4 ^ m * (m.factorial : ℝ))) ^ 2
      = Real.Gamma (2 * m + 1 + (a + 1 / 2) + 1 / 2) ^ 2 := by
  set l := a + 1 / 2 with hl
  have hl0 : 0 < l := by rw [hl]; linarith
  have h := coeff_odd m a m
  rw [jpX_lead, prod_sub_factorial] at h
  push_cast at h
  rw [show (2 * m + 1 : ℝ) + a + a + 1 = 2 * (m + l + 1 / 2) by rw [hl]; ring, poch_succ, poch_dup, pow_succ 2, pow_mul 2] at h
  have hp : 0 < poch (m + l + 1) m := poch_pos (by positivity) m
  have hg := poch_gamma (show 0 < (m : ℝ) + l + 1 / 2 by positivity) (m + 1)
  rw [show (m : ℝ) + l + 1 / 2 + (m + 1 : ℕ) = 2 * m + 1 + l + 1 / 2 by push_cast; ring] at hg
  rw [← hg, poch_succ]
  have h4 : ((-4 : ℝ)) ^ m = (-1) ^ m * 4 ^ m := by rw [← mul_pow]; norm_num
  have h22 : ((2 : ℝ) ^ 2) ^ m = 4 ^ m := by norm_num
  rw [h4, h22, show (m : ℝ) + l + 1 / 2 + 1 / 2 = m + l + 1 by ring] at h
  have h41 : ((-1 : ℝ) ^ m) ^ 2 = 1 := by rw [← pow_mul, mul_comm, pow_mul]; norm_num
  have hq : poch (m + l + 1 / 2) m * (m + l + 1 / 2 + m) = (-1) ^ m * 4 ^ m * (m.factorial : ℝ) * (jpX (2 * m + 1) a a).coeff 1 := by
    have h44 : (0 : ℝ) < 4 ^ m := by positivity
    have : poch (m + l + 1) m * (poch (m + l + 1 / 2) m * (m + l + 1 / 2 + m))
        = poch (m + l + 1) m * ((-1) ^ m * 4 ^ m * (m.factorial : ℝ) * (jpX (2 * m + 1) a a).coeff 1) := by
      rw [div_eq_iff (by positivity)] at h
      have h' : 4 ^ m * (poch (m + l + 1) m * (poch (m + l + 1 / 2) m * (m + l + 1 / 2 + m)))
          = 4 ^ m * (poch (m + l + 1) m * ((-1) ^ m * 4 ^ m * (m.factorial : ℝ) * (jpX (2 * m + 1) a a).coeff 1)) := by
        push_cast at h
        rw [hl] at h ⊢
        linear_combination h / 2
      exact mul_left_cancel₀ h44.ne' h'
    exact mul_left_cancel₀ hp.ne' this
  rw [hq, mul_pow, mul_pow, mul_pow, mul_pow, mul_pow, mul_pow, h41]
  ring

/-! ### The majorant of Sonin -/

theorem sonin {l N : ℝ} (h0 : 0 < l) (h1 : l ≤ 1) (hN : 0 ≤ N) {y y1 y2 : ℝ → ℝ} (hy : ∀ x, HasDerivAt y (y1 x) x)
    (hy1 : ∀ x, HasDerivAt y1 (y2 x) x) (hode : ∀ x, (1 - x ^ 2) * y2 x = (2 * l + 1) * x * y1 x - N * (N + 2 * l) * y x)
    {x : ℝ} (hx : x ∈ Set.Ioo (-1 : ℝ) 1) :
    (1 - x ^ 2) ^ l * y x ^ 2 ≤ y 0 ^ 2 + y1 0 ^ 2 / ((N + l) ^ 2 + l * (1 - l)) := by
  have he : 0 ≤ l * (1 - l) := mul_nonneg h0.le (by linarith)
  have hk : 0 < (N + l) ^ 2 := by positivity
  set D : ℝ → ℝ := fun x => (N + l) ^ 2 * (1 - x ^ 2) + l * (1 - l) with hD
  set q : ℝ → ℝ := fun x => l * x * y x - (1 - x ^ 2) * y1 x with hq
  set f : ℝ → ℝ := fun x => (1 - x ^ 2) ^ l * (y x ^ 2 + q x ^ 2 / D x) with hf
  have hs : ∀ x ∈ Set.Ioo (-1 : ℝ) 1, 0 < 1 - x ^ 2 := fun x hx => by nlinarith [hx.1, hx.2]
  have hDp : ∀ x ∈ Set.Ioo (-1 : ℝ) 1, 0 < D x := fun x hx => by
    have := mul_pos hk (hs x hx); rw [hD]; simp only; linarith
  have hder : ∀ x ∈ Set.Ioo (-1 : ℝ) 1, HasDerivAt f (-2 * (l * (1 - l)) * x * ((1 - x ^ 2) ^ (l - 1) * q x ^ 2 / D x ^ 2)) x := by
    intro x hx
    have hsx := hs x hx
    have hDx := hDp x hx
    have hs' : HasDerivAt (fun x : ℝ => 1 - x ^ 2) (-(2 * x)) x := by
      have := ((hasDerivAt_id x).pow 2).const_sub 1
      simpa using this
    have hq' : HasDerivAt q ((l * y x + l * x * y1 x) - (-(2 * x) * y1 x + (1 - x ^ 2) * y2 x)) x := by
      have a1 : HasDerivAt (fun x => l * x * y x) (l * y x + l * x * y1 x) x := by
        have := ((hasDerivAt_id x).const_mul l).mul (hy x)
        simp only [id, mul_one] at this
        exact this
      exact a1.sub (hs'.mul (hy1 x))
    have hD' : HasDerivAt D ((N + l) ^ 2 * -(2 * x)) x := (hs'.const_mul _).add_const _
    have hR := ((hy x).pow 2).add ((hq'.pow 2).div hD' hDx.ne')
    have hW := hs'.rpow_const (p := l) (Or.inl hsx.ne')
    have := hW.mul hR
    refine this.congr_deriv ?_
    have hl : (1 - x ^ 2) ^ l = (1 - x ^ 2) ^ (l - 1) * (1 - x ^ 2) := by
      rw [← Real.rpow_add_one hsx.ne', sub_add_cancel]
    have ho := hode x
    simp only [Pi.add_apply, Pi.pow_apply, Pi.div_apply]
    rw [hl]
    generalize (1 - x ^ 2) ^ (l - 1) = W
    have hDe : D x = (N + l) ^ 2 * (1 - x ^ 2) + l * (1 - l) := rfl
    have hqe : q x = l * x * y x - (1 - x ^ 2) * y1 x := rfl
    have hA : (1 - x ^ 2) * y1 x = l * x * y x - q x := by rw [hqe]; ring
    generalize hq1 : (l * y x + l * x * y1 x) - (-(2 * x) * y1 x + (1 - x ^ 2) * y2 x) = q1
    have hB : q1 = (l + N * (N + 2 * l)) * y x + (1 - l) * x * y1 x := by rw [← hq1, ho]; ring
    generalize q x = Q at *
    generalize D x = DD at *
    generalize y x = Y at *
    generalize y1 x = Y1 at *
    have hC : -l * x * (Y ^ 2 * DD + Q ^ 2) + (1 - x ^ 2) * Y * Y1 * DD + (1 - x ^ 2) * Q * q1 + x * Q ^ 2 = 0 := by
      linear_combination (Y * DD) * hA + Q * (1 - x ^ 2) * hB + Q * (1 - l) * x * hA - Q * Y * hDe
    have hfin : -(2 * x) * l * W * (Y ^ 2 + Q ^ 2 / DD) + W * (1 - x ^ 2) * (2 * Y * Y1 + (2 * Q * q1 * DD - Q ^ 2 * ((N + l) ^ 2 * -(2 * x))) / DD ^ 2)
        - -2 * (l * (1 - l)) * x * (W * Q ^ 2 / DD ^ 2)
        = 2 * W / DD * (-l * x * (Y ^ 2 * DD + Q ^ 2) + (1 - x ^ 2) * Y * Y1 * DD + (1 - x ^ 2) * Q * q1 + x * Q ^ 2)
          + 2 * W * x * Q ^ 2 / DD ^ 2 * ((N + l) ^ 2 * (1 - x ^ 2) + l * (1 - l) - DD) := by
      field_simp
      ring
    rw [hC, ← hDe, sub_self, mul_zero, mul_zero, add_zero, sub_eq_zero] at hfin
    rw [← hfin]
    push_cast
    ring
  have hcont : ContinuousOn f (Set.Ioo (-1) 1) := fun x hx => (hder x hx).continuousAt.continuousWithinAt
  have hle : (1 - x ^ 2) ^ l * y x ^ 2 ≤ f x := by
    rw [hf]
    refine mul_le_mul_of_nonneg_left (le_add_of_nonneg_right (div_nonneg (sq_nonneg _) (hDp x hx).le)) (Real.rpow_nonneg (hs x hx).le _)
  have hf0 : f 0 = y 0 ^ 2 + y1 0 ^ 2 / ((N + l) ^ 2 + l * (1 - l)) := by
    simp [hf, hq, hD]
  rw [← hf0]
  refine hle.trans ?_
  have hpos : ∀ x ∈ Set.Ioo (-1 : ℝ) 1, 0 ≤ 2 * (l * (1 - l)) * ((1 - x ^ 2) ^ (l - 1) * q x ^ 2 / D x ^ 2) := fun x hx =>
    mul_nonneg (by linarith) (div_nonneg (mul_nonneg (Real.rpow_nonneg (hs x hx).le _) (sq_nonneg _)) (sq_nonneg _))
  rcases le_total 0 x with h | h
  · have hsub : Set.Ico (0 : ℝ) 1 ⊆ Set.Ioo (-1) 1 := fun z hz => ⟨by linarith [hz.1], hz.2⟩
    have hanti : AntitoneOn f (Set.Ico 0 1) := by
      refine antitoneOn_of_deriv_nonpos (convex_Ico 0 1) (hcont.mono hsub) (fun z hz => ?_) fun z hz => ?_
      · rw [interior_Ico] at hz
        exact (hder z (hsub ⟨hz.1.le, hz.2⟩)).differentiableAt.differentiableWithinAt
      · rw [interior_Ico] at hz
        rw [(hder z (hsub ⟨hz.1.le, hz.2⟩)).deriv]
        have := mul_nonneg (hpos z (hsub ⟨hz.1.le, hz.2⟩)) hz.1.le
        linarith
    exact hanti ⟨le_rfl, one_pos⟩ ⟨h, hx.2⟩ h
  · have hsub : Set.Ioc (-1 : ℝ) 0 ⊆ Set.Ioo (-1) 1 := fun z hz => ⟨hz.1, by linarith [hz.2]⟩
    have hmono : MonotoneOn f (Set.Ioc (-1) 0) := by
      refine monotoneOn_of_deriv_nonneg (convex_Ioc (-1) 0) (hcont.mono hsub) (fun z hz => ?_) fun z hz => ?_
      · rw [interior_Ioc] at hz
        exact (hder z (hsub ⟨hz.1, hz.2.le⟩)).differentiableAt.differentiableWithinAt
      · rw [interior_Ioc] at hz
        rw [(hder z (hsub ⟨hz.1, hz.2.le⟩)).deriv]
        have := mul_nonneg (hpos z (hsub ⟨hz.1, hz.2.le⟩)) (neg_nonneg.2 hz.2.le)
        linarith
    exact hmono ⟨hx.1, h⟩ ⟨by norm_num, le_rfl⟩ h

/-- the bound for the ultraspherical polynomials in terms of the values at the origin -/
theorem ultra_le {a : ℝ} (h0 : -1 / 2 < a) (h1 : a ≤ 1 / 2) (n : ℕ) {u : ℝ} (hu : u ∈ Set.Ioo (-1 : ℝ) 1) :
    (1 - u ^ 2) ^ (a + 1 / 2) * jacobiPoly n a a u ^ 2
      ≤ (jpX n a a).coeff 0 ^ 2 + (jpX n a a).coeff 1 ^ 2 / ((n + (a + 1 / 2)) ^ 2 + (a + 1 / 2) * (1 - (a + 1 / 2))) := by
  have key := sonin (l := a + 1 / 2) (N := n) (by linarith) (by linarith) n.cast_nonneg (y := fun x => (jpX n a a).eval x)
    (y1 := fun x => (derivative (jpX n a a)).eval x) (y2 := fun x => (derivative (derivative (jpX n a a))).eval x)
    (fun x => (jpX n a a).hasDerivAt x) (fun x => (derivative (jpX n a a)).hasDerivAt x) (fun x => ?_) hu
  · rw [jpX_eval, ← coeff_zero_eq_eval_zero, ← coeff_zero_eq_eval_zero, coeff_derivative] at key
    simpa using key
  · have := jpX_ode_eval n a a x
    linear_combination this

end Verif.Lemmas
