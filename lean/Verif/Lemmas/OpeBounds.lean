import Verif.Lemmas.OpeProp3
import Mathlib.Analysis.SpecialFunctions.Trigonometric.Chebyshev.RootsExtrema
import Mathlib.Analysis.MeanInequalities

/-!
The rejection bounds of `compute_rejection_bounds`.
-/

namespace Verif.Lemmas
open MeasureTheory ProbabilityTheory Verif Verif.Model Verif.Spec Verif.Props
open scoped ENNReal

/-- the quotient of densities that the entry `[k, j]` of the table has to bound: squared orthonormal polynomial times Jacobi weight
over arcsine density -/
noncomputable def ratio1 (a b : ℝ) (k : ℕ) (u : ℝ) : ℝ :=
  jacobiPoly k a b u ^ 2 / squareNorm1D a b k * (Real.pi * ((1 - u) ^ (a + 0.5) * (1 + u) ^ (b + 0.5)))

/-- the entry of the table is a number and bounds the quotient -/
def Dom1 (a b : ℝ) (k : ℕ) : Prop :=
  ∃ c, opeLogBound a b k = some c ∧ ∀ u ∈ Set.Ioo (-1 : ℝ) 1, ratio1 a b k u ≤ Real.exp c

theorem ratio1_nonneg {a b : ℝ} (ha : -1 < a) (hb : -1 < b) (k : ℕ) {u : ℝ} (hu : u ∈ Set.Ioo (-1 : ℝ) 1) : 0 ≤ ratio1 a b k u :=
  mul_nonneg (div_nonneg (sq_nonneg _) (squareNorm1D_pos ha hb k).le) (mul_nonneg Real.pi_pos.le (weight_nonneg hu))

theorem opeTarget_eq {d : ℕ} {par : Fin d → ℝ × ℝ} (h : ∀ j, -1 < (par j).1 ∧ -1 < (par j).2) (L : List (List ℕ)) (ind : Fin L.length)
    (x : Fin d → ℝ) : opeTarget par L ind x = ∏ j, ratio1 (par j).1 (par j).2 (entry2 L ind j) (x j) := by
  rw [opeTarget, opeSqNorm, ← Fin.prod_const d Real.pi, ← Finset.prod_mul_distrib, ← Finset.prod_pow, ← Finset.prod_div_distrib,
    ← Finset.prod_mul_distrib]
  refine Finset.prod_congr rfl fun j _ => ?_
  rw [ratio1, opeNorm, Real.sq_sqrt (squareNorm1D_pos (h j).1 (h j).2 _).le, opeP]

theorem boundsOK_of_dom1 {d : ℕ} {par : Fin d → ℝ × ℝ} (h : ∀ j, -1 < (par j).1 ∧ -1 < (par j).2) {L : List (List ℕ)}
    (hD : ∀ (ind : Fin L.length) (j : Fin d), Dom1 (par j).1 (par j).2 (entry2 L ind j)) : OpeBoundsOK par L := by
  intro ind
  choose c hc hle using hD ind
  refine ⟨Real.exp (∑ j : Fin d, (opeLogBound (par j).1 (par j).2 (entry2 L ind j)).getD 0), ?_, ?_⟩
  · rw [opeBound, if_neg]
    rintro ⟨j, hj⟩
    rw [hc j] at hj
    simp at hj
  · intro x hx
    rw [opeTarget_eq h, Real.exp_sum]
    refine Finset.prod_le_prod (fun j _ => ratio1_nonneg (h j).1 (h j).2 _ (hx j (Set.mem_univ j))) fun j _ => ?_
    rw [hc j]
    exact hle j _ (hx j (Set.mem_univ j))

/-! ### Degree zero: the mode -/

theorem weight_le_mode {p q u : ℝ} (hp : 0 < p) (hq : 0 < q) (hu : u ∈ Set.Ioo (-1 : ℝ) 1) :
    (1 - u) ^ p * (1 + u) ^ q ≤ (2 * p / (p + q)) ^ p * (2 * q / (p + q)) ^ q := by
  have h1 : 0 < 1 - u := by linarith [hu.2]
  have h2 : 0 < 1 + u := by linarith [hu.1]
  have hpq : 0 < p + q := by linarith
  have hA : 0 < 2 * p / (p + q) := by positivity
  have hB : 0 < 2 * q / (p + q) := by positivity
  have key := Real.geom_mean_le_arith_mean2_weighted (w₁ := p / (p + q)) (w₂ := q / (p + q))
    (p₁ := (1 - u) / (2 * p / (p + q))) (p₂ := (1 + u) / (2 * q / (p + q))) (by positivity) (by positivity) (by positivity) (by positivity)
    (by field_simp)
  have e : p / (p + q) * ((1 - u) / (2 * p / (p + q))) + q / (p + q) * ((1 + u) / (2 * q / (p + q))) = 1 := by
    field_simp; ring
  rw [e] at key
  have k2 := Real.rpow_le_one (by positivity) key hpq.le
  rw [Real.mul_rpow (by positivity) (by positivity), ← Real.rpow_mul (by positivity), ← Real.rpow_mul (by positivity),
    div_mul_cancel₀ _ hpq.ne', div_mul_cancel₀ _ hpq.ne', Real.div_rpow h1.le hA.le, Real.div_rpow h2.le hB.le, div_mul_div_comm,
    div_le_one (mul_pos (Real.rpow_pos_of_pos hA _) (Real.rpow_pos_of_pos hB _))] at k2
  exact k2

theorem jacobiPoly_zero (a b u : ℝ) : jacobiPoly 0 a b u = 1 := by simp [jacobiPoly, jacobiCoeff, poch]

theorem dom1_zero {a b : ℝ} (ha : -1 / 2 < a) (hb : -1 / 2 < b) : Dom1 a b 0 := by
  have hs : 0 < a + b + 1 := by linarith
  have e1 : 1 - opeMode a b = 2 * (a + 0.5) / ((a + 0.5) + (b + 0.5)) := by
    rw [opeMode, show (a + 0.5) + (b + 0.5) = a + b + 1 by norm_num; ring]; field_simp; norm_num; ring
  have e2 : 1 + opeMode a b = 2 * (b + 0.5) / ((a + 0.5) + (b + 0.5)) := by
    rw [opeMode, show (a + 0.5) + (b + 0.5) = a + b + 1 by norm_num; ring]; field_simp; norm_num; ring
  have hp : 0 < a + 0.5 := by norm_num; linarith
  have hq : 0 < b + 0.5 := by norm_num; linarith
  have m1 : 0 < 1 - opeMode a b := by rw [e1]; positivity
  have m2 : 0 < 1 + opeMode a b := by rw [e2]; positivity
  have hna : ¬ (a = -0.5 ∧ b = -0.5) := by rintro ⟨h, -⟩; rw [h] at hp; norm_num at hp
  have hna' : ¬ (a = -1 / 2 ∧ b = -1 / 2) := by rintro ⟨h, -⟩; rw [h] at ha; exact lt_irrefl _ ha
  have g1 := Real.Gamma_pos_of_pos (show 0 < a + 1 by linarith)
  have g2 := Real.Gamma_pos_of_pos (show 0 < b + 1 by linarith)
  have g3 := Real.Gamma_pos_of_pos (show 0 < a + 1 + (b + 1) by linarith)
  refine ⟨_, by rw [opeLogBound, if_neg hna, if_pos rfl, opeLogBound0, if_neg (by
    rintro (h | h | h)
    · exact hs.ne' h
    · exact absurd m1 (not_lt.2 h)
    · exact absurd m2 (not_lt.2 h))], fun u hu => ?_⟩
  rw [Real.exp_sub, Real.exp_add, Real.exp_add, Real.exp_add, Real.exp_log Real.pi_pos, betaln, gammaln, gammaln, gammaln, Real.exp_sub,
    Real.exp_add, Real.exp_log g1, Real.exp_log g2, Real.exp_log g3, mul_comm _ (Real.log (1 - _)), mul_comm _ (Real.log (1 + _)),
    mul_comm _ (Real.log 2), ← Real.rpow_def_of_pos m1, ← Real.rpow_def_of_pos m2, ← Real.rpow_def_of_pos (by norm_num),
    ratio1, jacobiPoly_zero, squareNorm1D, if_neg hna', if_pos rfl, one_pow, one_div, ← div_eq_inv_mul, mul_assoc Real.pi]
  have hw := weight_le_mode hp hq hu
  rw [← e1, ← e2] at hw
  rw [add_comm 0.5 a, add_comm 0.5 b]
  exact div_le_div_of_nonneg_right (mul_le_mul_of_nonneg_left hw Real.pi_pos.le) (by positivity)

/-! ### The arcsine law: Chebyshev polynomials -/
open Polynomial in
theorem chebyshev_taylor (n : ℕ) (x : ℝ) : (Chebyshev.T ℝ n).eval x
    = ∑ k ∈ Finset.range (n + 1), (∏ l ∈ Finset.range k, ((n : ℝ) ^ 2 - l ^ 2) / (2 * l + 1)) / (k.factorial : ℝ) * (x - 1) ^ k := by
  rw [← taylor_eval_sub 1 (Chebyshev.T ℝ n) x, eval_eq_sum_range, natDegree_taylor, Chebyshev.natDegree_T, Int.natAbs_natCast]
  refine Finset.sum_congr rfl fun k _ => ?_
  congr 1
  have h := Chebyshev.iterate_derivative_T_eval_one_eq_div (𝔽 := ℝ) n k
  rw [← factorial_smul_hasseDeriv] at h
  have e : eval 1 ((k.factorial • hasseDeriv k) (Chebyshev.T ℝ n)) = (k.factorial : ℝ) * eval 1 (hasseDeriv k (Chebyshev.T ℝ n)) := by
    rw [LinearMap.smul_apply, eval_smul, nsmul_eq_mul]
  rw [e] at h
  rw [taylor_coeff, eq_div_iff (by positivity), mul_comm, Finset.prod_div_distrib]
  push_cast at h
  exact h

theorem poch_eq_prod (x : ℝ) (k : ℕ) : poch x k = ∏ l ∈ Finset.range k, (x + l) := rfl

theorem poch_add (x : ℝ) (k m : ℕ) : poch x (k + m) = poch x k * poch (x + k) m := by
  rw [poch, poch, poch, Finset.prod_range_add]
  congr 1
  exact Finset.prod_congr rfl fun i _ => by push_cast; ring

theorem choose_fact {n k : ℕ} (hk : k ≤ n) : (n.choose k : ℝ) * (k.factorial : ℝ) = ∏ l ∈ Finset.range k, ((n : ℝ) - l) := by
  rw [mul_comm, ← Nat.cast_mul, ← Nat.descFactorial_eq_factorial_mul_choose, Nat.descFactorial_eq_prod_range]
  push_cast
  refine Finset.prod_congr rfl fun l hl => ?_
  rw [Nat.cast_sub (by have := Finset.mem_range.1 hl; omega)]

/-- `P_n^(-1/2,-1/2) = ((1/2)_n / n!) T_n` -/
theorem jacobiPoly_arcsine (n : ℕ) (x : ℝ) :
    jacobiPoly n (-1 / 2) (-1 / 2) x = poch (1 / 2) n / (n.factorial : ℝ) * (Polynomial.Chebyshev.T ℝ n).eval x := by
  rw [jacobiPoly, chebyshev_taylor, Finset.mul_sum]
  refine Finset.sum_congr rfl fun k hk => ?_
  have hk' : k ≤ n := by have := Finset.mem_range.1 hk; omega
  have h1 := choose_fact hk'
  have h2 : poch (1 / 2) n = poch (1 / 2) k * poch (-1 / 2 + k + 1) (n - k) := by
    rw [show -1 / 2 + (k : ℝ) + 1 = 1 / 2 + k by ring, ← poch_add, Nat.add_sub_cancel' hk']
  have h3 : ∏ l ∈ Finset.range k, ((n : ℝ) ^ 2 - l ^ 2) / (2 * l + 1)
      = (∏ l ∈ Finset.range k, ((n : ℝ) - l)) * poch (n + -1 / 2 + -1 / 2 + 1) k / (2 ^ k * poch (1 / 2) k) := by
    rw [Finset.prod_div_distrib]
    congr 1
    · rw [poch, ← Finset.prod_mul_distrib]
      exact Finset.prod_congr rfl fun l _ => by ring
    · rw [poch, ← Finset.card_range k, ← Finset.prod_const, Finset.card_range, ← Finset.prod_mul_distrib]
      exact Finset.prod_congr rfl fun l _ => by ring
  have hp : poch (1 / 2) k ≠ 0 := (poch_pos (by norm_num) k).ne'
  have hf : (k.factorial : ℝ) ≠ 0 := by positivity
  have hf2 : (n.factorial : ℝ) ≠ 0 := by positivity
  have h4 : ((1 - x) / 2) ^ k = (-1) ^ k * (x - 1) ^ k / 2 ^ k := by
    rw [← mul_pow, ← div_pow]; congr 1; ring
  have h5 : ((-1 : ℝ)) ^ k * (-1) ^ k = 1 := by rw [← mul_pow]; norm_num
  rw [h3, ← h1, h2, jacobiCoeff, h4]
  generalize poch (n + -1 / 2 + -1 / 2 + 1) k = A
  generalize poch (-1 / 2 + k + 1) (n - k) = B
  field_simp
  linear_combination (↑(n.choose k) * A * B * (x - 1) ^ k) * h5

theorem dom1_arcsine (n : ℕ) : Dom1 (-1 / 2) (-1 / 2) n := by
  refine ⟨_, by rw [opeLogBound, if_pos (by norm_num)], fun u hu => ?_⟩
  have e : (-1 / 2 : ℝ) + 0.5 = 0 := by norm_num
  rw [ratio1, e, Real.rpow_zero, Real.rpow_zero, mul_one, mul_one]
  rcases Nat.eq_zero_or_pos n with rfl | hn
  · rw [if_pos rfl, Real.exp_zero, jacobiPoly_zero, squareNorm1D, if_pos (by norm_num), if_pos rfl]
    rw [one_pow, one_div, inv_mul_cancel₀ Real.pi_pos.ne']
  · rw [if_neg hn.ne', Real.exp_log (by norm_num), jacobiPoly_arcsine, squareNorm1D, if_pos (by norm_num), if_neg hn.ne', gammaln, gammaln]
    have g1 := Real.Gamma_pos_of_pos (show (0 : ℝ) < n + 1 / 2 by positivity)
    have g2 := Real.Gamma_pos_of_pos (show (0 : ℝ) < n + 1 by positivity)
    have hT := Polynomial.Chebyshev.abs_eval_T_real_le_one n (x := u) (abs_le.2 ⟨hu.1.le, hu.2.le⟩)
    have hg := poch_gamma (x := 1 / 2) (by norm_num) n
    rw [Real.Gamma_one_half_eq, add_comm (1 / 2 : ℝ)] at hg
    have hs := Real.mul_self_sqrt Real.pi_pos.le
    have hfac : Real.Gamma ((n : ℝ) + 1) = (n.factorial : ℝ) := Real.Gamma_nat_eq_factorial n
    have e2 : 1 / 2 * Real.exp (2 * (Real.log (Real.Gamma ((n : ℝ) + 1 / 2)) - Real.log (Real.Gamma ((n : ℝ) + 1))))
        = Real.pi / 2 * (poch (1 / 2) n / (n.factorial : ℝ)) ^ 2 := by
      rw [← Real.log_div g1.ne' g2.ne', two_mul, Real.exp_add, Real.exp_log (div_pos g1 g2), hfac, ← hg]
      field_simp
      linear_combination (poch (1 / 2) n ^ 2) * hs
    rw [e2]
    have hc : 0 < poch (1 / 2) n / (n.factorial : ℝ) := div_pos (poch_pos (by norm_num) n) (by positivity)
    set c := poch (1 / 2) n / (n.factorial : ℝ)
    have e3 : (c * Polynomial.eval u (Polynomial.Chebyshev.T ℝ n)) ^ 2 / (Real.pi / 2 * c ^ 2) * Real.pi
        = 2 * Polynomial.eval u (Polynomial.Chebyshev.T ℝ n) ^ 2 := by
      have := Real.pi_pos.ne'
      field_simp
    rw [e3]
    have := sq_le_one_iff_abs_le_one _ |>.2 hT
    linarith

end Verif.Lemmas
