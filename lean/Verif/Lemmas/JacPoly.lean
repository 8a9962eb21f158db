import Verif.Spec.JacobiPoly
import Verif.Props.JacobiNorms
import Mathlib.Algebra.Group.ForwardDiff
import Mathlib.Algebra.Polynomial.Degree.Lemmas

/-!
Orthogonality and norms of the Jacobi polynomials: Beta integrals and finite differences.
-/

namespace Verif.Lemmas
open Verif.Spec Verif.Props MeasureTheory intervalIntegral
open scoped Nat

theorem poch_succ (x : ℝ) (k : ℕ) : poch x (k + 1) = poch x k * (x + k) := by
  rw [poch, Finset.prod_range_succ]; rfl

theorem poch_zero (x : ℝ) : poch x 0 = 1 := by simp [poch]

theorem poch_succ' (x : ℝ) (k : ℕ) : poch x (k + 1) = x * poch (x + 1) k := by
  rw [poch, Finset.prod_range_succ', poch, mul_comm]
  congr 1
  · simp
  · refine Finset.prod_congr rfl fun i _ => ?_
    push_cast; ring

theorem poch_pos {x : ℝ} (hx : 0 < x) (k : ℕ) : 0 < poch x k :=
  Finset.prod_pos fun i _ => by positivity

theorem poch_gamma {x : ℝ} (hx : 0 < x) (k : ℕ) : poch x k * Real.Gamma x = Real.Gamma (x + k) := by
  induction k with
  | zero => simp [poch_zero]
  | succ k ih =>
    rw [poch_succ, mul_right_comm, ih, Nat.cast_succ, ← add_assoc, Real.Gamma_add_one (by positivity)]
    ring

/-- `(x + r)_j` as a polynomial in `r` -/
noncomputable def pochPoly (x : ℝ) (j : ℕ) : Polynomial ℝ :=
  ∏ i ∈ Finset.range j, (Polynomial.X + Polynomial.C (x + i))

theorem pochPoly_eval (x : ℝ) (j : ℕ) (r : ℝ) : (pochPoly x j).eval r = poch (x + r) j := by
  rw [pochPoly, Polynomial.eval_prod, poch]
  refine Finset.prod_congr rfl fun i _ => ?_
  simp; ring

theorem pochPoly_natDegree (x : ℝ) (j : ℕ) : (pochPoly x j).natDegree = j := by
  rw [pochPoly, Polynomial.natDegree_prod_of_monic _ _ fun i _ => Polynomial.monic_X_add_C _,
    Finset.sum_congr rfl fun i _ => Polynomial.natDegree_X_add_C _]
  simp

/-- the `n`-th difference of a polynomial of smaller degree vanishes -/
theorem alt_sum_zero {P : Polynomial ℝ} {n : ℕ} (hP : P.natDegree < n) :
    ∑ k ∈ Finset.range (n + 1), (-1 : ℝ) ^ k * (n.choose k : ℝ) * P.eval (k : ℝ) = 0 := by
  have h := congrFun (Polynomial.fwdDiff_iter_eq_zero_of_degree_lt hP) 0
  rw [fwdDiff_iter_eq_sum_shift] at h
  have h2 : ∑ k ∈ Finset.range (n + 1), (-1 : ℝ) ^ k * (n.choose k : ℝ) * P.eval (k : ℝ)
      = (-1) ^ n * ∑ k ∈ Finset.range (n + 1), ((-1 : ℤ) ^ (n - k) * n.choose k) • P.eval (0 + k • (1 : ℝ)) := by
    rw [Finset.mul_sum]
    refine Finset.sum_congr rfl fun k hk => ?_
    have hk' : k ≤ n := by have := Finset.mem_range.1 hk; omega
    have e : (-1 : ℝ) ^ n * (-1) ^ (n - k) = (-1) ^ k := by
      rw [← pow_add, show n + (n - k) = k + 2 * (n - k) by omega, pow_add, pow_mul]; simp
    simp only [zsmul_eq_mul, nsmul_eq_mul, mul_one, zero_add]
    push_cast
    rw [← e]; ring
  rw [h2, h]; simp

theorem alt_sum_inv (n : ℕ) : ∀ c : ℝ, 0 < c →
    ∑ k ∈ Finset.range (n + 1), (-1 : ℝ) ^ k * (n.choose k : ℝ) / (c + k) = (n ! : ℝ) / poch c (n + 1) := by
  induction n with
  | zero => intro c hc; simp [poch]
  | succ n ih =>
    intro c hc
    have h : ∑ k ∈ Finset.range (n + 1 + 1), (-1 : ℝ) ^ k * ((n + 1).choose k : ℝ) / (c + k)
        = ∑ k ∈ Finset.range (n + 1), (-1 : ℝ) ^ k * (n.choose k : ℝ) / (c + k)
          - ∑ k ∈ Finset.range (n + 1), (-1 : ℝ) ^ k * (n.choose k : ℝ) / (c + 1 + k) := by
      rw [Finset.sum_range_succ']
      have e1 : ∀ k : ℕ, (-1 : ℝ) ^ (k + 1) * ((n + 1).choose (k + 1) : ℝ) / (c + ((k + 1 : ℕ) : ℝ))
          = (-1 : ℝ) ^ (k + 1) * (n.choose (k + 1) : ℝ) / (c + ((k + 1 : ℕ) : ℝ))
            - (-1 : ℝ) ^ k * (n.choose k : ℝ) / (c + 1 + k) := by
        intro k
        rw [Nat.choose_succ_succ]
        push_cast
        rw [show c + ((k : ℝ) + 1) = c + 1 + k by ring, pow_succ]
        ring
      rw [Finset.sum_congr rfl fun k _ => e1 k, Finset.sum_sub_distrib]
      have e2 := Finset.sum_range_succ' (fun k : ℕ => (-1 : ℝ) ^ k * (n.choose k : ℝ) / (c + k)) (n + 1)
      rw [Finset.sum_range_succ] at e2
      simp only [Nat.choose_succ_self, Nat.cast_zero, mul_zero, zero_div, add_zero, Nat.choose_zero_right] at e2 ⊢
      rw [e2]; ring
    rw [h, ih c hc, ih (c + 1) (by linarith), poch_succ' c (n + 1), poch_succ (c + 1) n, poch_succ' c n, Nat.factorial_succ]
    have p1 := (poch_pos (show 0 < c + 1 by linarith) n).ne'
    have p2 : (c + 1 + n : ℝ) ≠ 0 := by positivity
    push_cast
    field_simp
    ring

/-! ### integrals on `[0, 1]` -/

/-- `t^a (1-t)^b` -/
noncomputable def w01 (a b t : ℝ) : ℝ := t ^ a * (1 - t) ^ b

theorem monomial_w01 {a b t : ℝ} (h0 : 0 < t) (h1 : t < 1) (k m : ℕ) :
    t ^ k * (1 - t) ^ m * w01 a b t = t ^ ((a + k + 1) - 1) * (1 - t) ^ ((b + m + 1) - 1) := by
  rw [w01, show a + k + 1 - 1 = a + k by ring, show b + m + 1 - 1 = b + m by ring,
    Real.rpow_add_natCast h0.ne', Real.rpow_add_natCast (by linarith)]
  ring

theorem integral_monomial {a b : ℝ} (ha : -1 < a) (hb : -1 < b) (k m : ℕ) :
    IntervalIntegrable (fun t => t ^ k * (1 - t) ^ m * w01 a b t) volume 0 1 ∧
    ∫ t in (0 : ℝ)..1, t ^ k * (1 - t) ^ m * w01 a b t
      = Real.Gamma (a + k + 1) * Real.Gamma (b + m + 1) / Real.Gamma (a + b + k + m + 2) := by
  have hk : (0 : ℝ) ≤ k := k.cast_nonneg
  have hm : (0 : ℝ) ≤ m := m.cast_nonneg
  have hx : 0 < a + k + 1 := by linarith
  have hy : 0 < b + m + 1 := by linarith
  have hI : ∫ t in (0 : ℝ)..1, t ^ k * (1 - t) ^ m * w01 a b t
      = Real.Gamma (a + k + 1) * Real.Gamma (b + m + 1) / Real.Gamma (a + b + k + m + 2) := by
    rw [show a + b + k + m + 2 = (a + k + 1) + (b + m + 1) by ring, ← real_beta_integral hx hy]
    rw [intervalIntegral.integral_of_le zero_le_one, intervalIntegral.integral_of_le zero_le_one,
      integral_Ioc_eq_integral_Ioo, integral_Ioc_eq_integral_Ioo]
    exact setIntegral_congr_fun measurableSet_Ioo fun t ht => monomial_w01 ht.1 ht.2 k m
  refine ⟨?_, hI⟩
  by_contra h
  rw [intervalIntegral.integral_undef h] at hI
  have := mul_pos (Real.Gamma_pos_of_pos hx) (Real.Gamma_pos_of_pos hy)
  have h3 := div_pos this (Real.Gamma_pos_of_pos (show 0 < a + b + k + m + 2 by linarith))
  rw [← hI] at h3
  exact lt_irrefl _ h3

/-- the Jacobi polynomial in `t = (1 - x) / 2` -/
noncomputable def jpT (n : ℕ) (a b : ℝ) : Polynomial ℝ :=
  ∑ k ∈ Finset.range (n + 1), Polynomial.C (jacobiCoeff n a b k) * Polynomial.X ^ k

theorem jpT_eval (n : ℕ) (a b t : ℝ) :
    (jpT n a b).eval t = ∑ k ∈ Finset.range (n + 1), jacobiCoeff n a b k * t ^ k := by
  rw [jpT, Polynomial.eval_finsetSum]; simp

theorem jacobiPoly_eq (n : ℕ) (a b x : ℝ) : jacobiPoly n a b x = (jpT n a b).eval ((1 - x) / 2) := by
  rw [jpT_eval]; rfl

theorem jpT_natDegree_le (n : ℕ) (a b : ℝ) : (jpT n a b).natDegree ≤ n := by
  refine Polynomial.natDegree_sum_le_of_forall_le _ _ fun k hk => ?_
  exact (Polynomial.natDegree_C_mul_X_pow_le _ _).trans (by have := Finset.mem_range.1 hk; omega)

theorem jpT_coeff (n : ℕ) (a b : ℝ) : (jpT n a b).coeff n = jacobiCoeff n a b n := by
  rw [jpT, Polynomial.finsetSum_coeff]
  simp only [Polynomial.coeff_C_mul, Polynomial.coeff_X_pow]
  simp

/-- integral of `P_n (1-t)^m` -/
noncomputable def momJ (n : ℕ) (a b : ℝ) (m : ℕ) : ℝ :=
  Real.Gamma (a + n + 1) * Real.Gamma (b + m + 1) / (n ! : ℝ) *
    ∑ k ∈ Finset.range (n + 1), (-1) ^ k * (n.choose k : ℝ) * (poch (n + a + b + 1) k / Real.Gamma (a + b + k + m + 2))

theorem integral_jp_pow {a b : ℝ} (ha : -1 < a) (hb : -1 < b) (n m : ℕ) :
    IntervalIntegrable (fun t => (jpT n a b).eval t * (1 - t) ^ m * w01 a b t) volume 0 1 ∧
    ∫ t in (0 : ℝ)..1, (jpT n a b).eval t * (1 - t) ^ m * w01 a b t = momJ n a b m := by
  have he : (fun t => (jpT n a b).eval t * (1 - t) ^ m * w01 a b t)
      = fun t => ∑ k ∈ Finset.range (n + 1), jacobiCoeff n a b k * (t ^ k * (1 - t) ^ m * w01 a b t) := by
    funext t
    rw [jpT_eval, Finset.sum_mul, Finset.sum_mul]
    exact Finset.sum_congr rfl fun k _ => by ring
  have hi : ∀ k ∈ Finset.range (n + 1),
      IntervalIntegrable (fun t => jacobiCoeff n a b k * (t ^ k * (1 - t) ^ m * w01 a b t)) volume 0 1 :=
    fun k _ => (integral_monomial ha hb k m).1.const_mul _
  rw [he]
  refine ⟨?_, ?_⟩
  · have := IntervalIntegrable.sum (Finset.range (n + 1)) hi
    simpa [Finset.sum_fn] using this
  · rw [intervalIntegral.integral_finsetSum hi, momJ, Finset.mul_sum]
    refine Finset.sum_congr rfl fun k hk => ?_
    have hk' : k ≤ n := by have := Finset.mem_range.1 hk; omega
    rw [intervalIntegral.integral_const_mul, (integral_monomial ha hb k m).2, jacobiCoeff]
    have hg := poch_gamma (show 0 < a + k + 1 by have : (0 : ℝ) ≤ k := k.cast_nonneg; linarith) (n - k)
    rw [show a + k + 1 + ((n - k : ℕ) : ℝ) = a + n + 1 by rw [Nat.cast_sub hk']; ring] at hg
    rw [← hg]; ring

theorem momJ_zero {a b : ℝ} (ha : -1 < a) (hb : -1 < b) {n m : ℕ} (hm : m < n) : momJ n a b m = 0 := by
  have hn : (1 : ℝ) ≤ n := by exact_mod_cast (by omega : 1 ≤ n)
  have hs : 0 < (n : ℝ) + a + b + 1 := by linarith
  have h : ∑ k ∈ Finset.range (n + 1), (-1) ^ k * (n.choose k : ℝ) * (poch (n + a + b + 1) k / Real.Gamma (a + b + k + m + 2))
      = (Real.Gamma (n + a + b + 1))⁻¹ * ∑ k ∈ Finset.range (n + 1), (-1) ^ k * (n.choose k : ℝ) *
          (pochPoly (a + b + m + 2) (n - 1 - m)).eval (k : ℝ) := by
    rw [Finset.mul_sum]
    refine Finset.sum_congr rfl fun k _ => ?_
    have hk : (0 : ℝ) ≤ k := k.cast_nonneg
    have hm0 : (0 : ℝ) ≤ m := m.cast_nonneg
    have h2 : 0 < a + b + m + 2 + k := by linarith
    have g1 := poch_gamma hs k
    have g2 := poch_gamma h2 (n - 1 - m)
    rw [show a + b + m + 2 + k + ((n - 1 - m : ℕ) : ℝ) = n + a + b + 1 + k by
      rw [Nat.cast_sub (by omega), Nat.cast_sub (by omega)]; push_cast; ring] at g2
    rw [pochPoly_eval, show a + b + k + m + 2 = a + b + m + 2 + k by ring]
    have p1 := (Real.Gamma_pos_of_pos hs).ne'
    have p2 := (Real.Gamma_pos_of_pos h2).ne'
    have : poch (n + a + b + 1) k / Real.Gamma (a + b + m + 2 + k)
        = (Real.Gamma (n + a + b + 1))⁻¹ * poch (a + b + m + 2 + k) (n - 1 - m) := by
      field_simp
      rw [mul_comm, mul_comm (Real.Gamma _), g1, ← g2, mul_comm]
    rw [this]; ring
  rw [momJ, h, alt_sum_zero (by rw [pochPoly_natDegree]; omega)]
  simp

theorem momJ_self {a b : ℝ} (ha : -1 < a) (hb : -1 < b) {n : ℕ} (hn : 1 ≤ n) :
    momJ n a b n = Real.Gamma (a + n + 1) * Real.Gamma (b + n + 1) /
      (Real.Gamma (n + a + b + 1) * poch (n + a + b + 1) (n + 1)) := by
  have hn1 : (1 : ℝ) ≤ n := by exact_mod_cast hn
  have hs : 0 < (n : ℝ) + a + b + 1 := by linarith
  have h : ∑ k ∈ Finset.range (n + 1), (-1) ^ k * (n.choose k : ℝ) * (poch (n + a + b + 1) k / Real.Gamma (a + b + k + n + 2))
      = (Real.Gamma (n + a + b + 1))⁻¹ * ∑ k ∈ Finset.range (n + 1), (-1) ^ k * (n.choose k : ℝ) / (n + a + b + 1 + k) := by
    rw [Finset.mul_sum]
    refine Finset.sum_congr rfl fun k _ => ?_
    have hk : (0 : ℝ) ≤ k := k.cast_nonneg
    have h2 : 0 < (n : ℝ) + a + b + 1 + k := by linarith
    have g1 := poch_gamma hs k
    have g2 := Real.Gamma_add_one h2.ne'
    rw [show (n : ℝ) + a + b + 1 + k + 1 = a + b + k + n + 2 by ring] at g2
    rw [g2, ← g1]
    have p1 := (Real.Gamma_pos_of_pos hs).ne'
    have p2 := (poch_pos hs k).ne'
    field_simp
  rw [momJ, h, alt_sum_inv n _ hs]
  have p1 := (Real.Gamma_pos_of_pos hs).ne'
  have p2 := (poch_pos hs (n + 1)).ne'
  have p3 : (n ! : ℝ) ≠ 0 := by positivity
  field_simp

/-- integral of `P_n` against a polynomial of degree at most `n` -/
theorem integral_jp_poly {a b : ℝ} (ha : -1 < a) (hb : -1 < b) (n : ℕ) (Q : Polynomial ℝ) {l : ℕ} (hQ : Q.natDegree ≤ l) :
    IntervalIntegrable (fun t => (jpT n a b).eval t * Q.eval t * w01 a b t) volume 0 1 ∧
    ∫ t in (0 : ℝ)..1, (jpT n a b).eval t * Q.eval t * w01 a b t
      = ∑ j ∈ Finset.range (l + 1), (Q.comp (1 - Polynomial.X)).coeff j * momJ n a b j := by
  have hdeg : (Q.comp (1 - Polynomial.X)).natDegree < l + 1 := by
    refine Nat.lt_succ_of_le (Polynomial.natDegree_comp_le.trans ?_)
    have : (1 - Polynomial.X : Polynomial ℝ).natDegree ≤ 1 := by
      refine (Polynomial.natDegree_sub_le _ _).trans ?_
      simp
    calc _ ≤ l * 1 := Nat.mul_le_mul hQ this
      _ = l := mul_one l
  have hev : ∀ t : ℝ, Q.eval t = ∑ j ∈ Finset.range (l + 1), (Q.comp (1 - Polynomial.X)).coeff j * (1 - t) ^ j := by
    intro t
    rw [← Polynomial.eval_eq_sum_range' hdeg, Polynomial.eval_comp]
    simp
  have he : (fun t => (jpT n a b).eval t * Q.eval t * w01 a b t)
      = fun t => ∑ j ∈ Finset.range (l + 1), (Q.comp (1 - Polynomial.X)).coeff j *
          ((jpT n a b).eval t * (1 - t) ^ j * w01 a b t) := by
    funext t
    rw [hev, Finset.mul_sum, Finset.sum_mul]
    exact Finset.sum_congr rfl fun k _ => by ring
  have hi : ∀ k ∈ Finset.range (l + 1), IntervalIntegrable (fun t => (Q.comp (1 - Polynomial.X)).coeff k *
      ((jpT n a b).eval t * (1 - t) ^ k * w01 a b t)) volume 0 1 :=
    fun k _ => (integral_jp_pow ha hb n k).1.const_mul _
  rw [he]
  refine ⟨?_, ?_⟩
  · have := IntervalIntegrable.sum (Finset.range (l + 1)) hi
    simpa [Finset.sum_fn] using this
  · rw [intervalIntegral.integral_finsetSum hi]
    exact Finset.sum_congr rfl fun k _ => by rw [intervalIntegral.integral_const_mul, (integral_jp_pow ha hb n k).2]

theorem jp_orthogonal_lt {a b : ℝ} (ha : -1 < a) (hb : -1 < b) {n l : ℕ} (h : l < n) :
    ∫ t in (0 : ℝ)..1, (jpT n a b).eval t * (jpT l a b).eval t * w01 a b t = 0 := by
  rw [(integral_jp_poly ha hb n _ (jpT_natDegree_le l a b)).2]
  refine Finset.sum_eq_zero fun j hj => ?_
  rw [momJ_zero ha hb (by have := Finset.mem_range.1 hj; omega), mul_zero]

theorem comp_one_sub_coeff {Q : Polynomial ℝ} {n : ℕ} (hQ : Q.natDegree ≤ n) :
    (Q.comp (1 - Polynomial.X)).coeff n = (-1) ^ n * Q.coeff n := by
  rcases hQ.lt_or_eq with h | h
  · rw [Polynomial.coeff_eq_zero_of_natDegree_lt h, mul_zero]
    refine Polynomial.coeff_eq_zero_of_natDegree_lt (lt_of_le_of_lt Polynomial.natDegree_comp_le ?_)
    have : (1 - Polynomial.X : Polynomial ℝ).natDegree ≤ 1 := by
      refine (Polynomial.natDegree_sub_le _ _).trans ?_
      simp
    calc _ ≤ Q.natDegree * 1 := Nat.mul_le_mul le_rfl this
      _ < n := by omega
  · have h1 : (1 - Polynomial.X : Polynomial ℝ).natDegree = 1 := by
      rw [← neg_sub, Polynomial.natDegree_neg, ← Polynomial.C_1, Polynomial.natDegree_X_sub_C]
    have hl : (1 - Polynomial.X : Polynomial ℝ).leadingCoeff = -1 := by
      rw [← neg_sub, Polynomial.leadingCoeff_neg, ← Polynomial.C_1, Polynomial.leadingCoeff_X_sub_C]
    have := Polynomial.coeff_comp_degree_mul_degree (p := Q) (q := 1 - Polynomial.X) (by rw [h1]; norm_num)
    rw [h1, mul_one, hl] at this
    rw [← h, this, Polynomial.leadingCoeff, mul_comm]

theorem jp_norm {a b : ℝ} (ha : -1 < a) (hb : -1 < b) {n : ℕ} (hn : 1 ≤ n) :
    2 ^ (a + b + 1) * ∫ t in (0 : ℝ)..1, (jpT n a b).eval t * (jpT n a b).eval t * w01 a b t = docSquareNorm a b n := by
  have hn1 : (1 : ℝ) ≤ n := by exact_mod_cast hn
  have hs : 0 < (n : ℝ) + a + b + 1 := by linarith
  rw [(integral_jp_poly ha hb n _ (jpT_natDegree_le n a b)).2, Finset.sum_range_succ,
    Finset.sum_eq_zero fun j hj => by rw [momJ_zero ha hb (Finset.mem_range.1 hj), mul_zero], zero_add,
    comp_one_sub_coeff (jpT_natDegree_le n a b), jpT_coeff, momJ_self ha hb hn, jacobiCoeff, poch_succ, docSquareNorm]
  have p1 := (Real.Gamma_pos_of_pos hs).ne'
  have p2 := (poch_pos hs n).ne'
  have p3 : (n ! : ℝ) ≠ 0 := by positivity
  have p4 : (n : ℝ) + a + b + 1 + n ≠ 0 := by positivity
  have p5 : 2 * (n : ℝ) + a + b + 1 ≠ 0 := by linarith
  have e : (-1 : ℝ) ^ n * (-1) ^ n = 1 := by rw [← mul_pow]; norm_num
  rw [Nat.choose_self, Nat.sub_self, poch_zero, show (n : ℝ) + a + 1 = a + n + 1 by ring,
    show (n : ℝ) + b + 1 = b + n + 1 by ring]
  rw [show (-1 : ℝ) ^ n * ((-1) ^ n * ((1 : ℕ) : ℝ) * poch (n + a + b + 1) n * 1 / (n ! : ℝ))
    = poch (n + a + b + 1) n / (n ! : ℝ) by push_cast; rw [← mul_div_assoc, ← mul_assoc, ← mul_assoc, ← mul_assoc, e]; ring]
  have e5 : 2 * (n : ℝ) + a + b + 1 = n + a + b + 1 + n := by ring
  rw [e5]
  field_simp

/-! ### integrals on `[-1, 1]` -/

theorem squareNorm1D_pos {a b : ℝ} (ha : -1 < a) (hb : -1 < b) (n : ℕ) : 0 < Model.squareNorm1D a b n := by
  rcases Nat.eq_zero_or_pos n with rfl | hn
  · rw [Model.squareNorm1D, if_pos rfl, if_pos rfl]
    split_ifs
    · exact Real.pi_pos
    · have h1 := Real.Gamma_pos_of_pos (show 0 < a + 1 by linarith)
      have h2 := Real.Gamma_pos_of_pos (show 0 < b + 1 by linarith)
      have h3 := Real.Gamma_pos_of_pos (show 0 < a + 1 + (b + 1) by linarith)
      positivity
  · exact (C73_square_norm ha hb hn).2

theorem weight_integrable {a b : ℝ} (ha : -1 < a) (hb : -1 < b) :
    IntervalIntegrable (fun u : ℝ => (1 - u) ^ a * (1 + u) ^ b) volume (-1) 1 := by
  by_contra h
  have h1 := C73_mass ha hb
  rw [intervalIntegral.integral_undef h] at h1
  exact (squareNorm1D_pos ha hb 0).ne' h1

theorem weight_nonneg {a b u : ℝ} (hu : u ∈ Set.Ioo (-1 : ℝ) 1) : 0 ≤ (1 - u) ^ a * (1 + u) ^ b :=
  mul_nonneg (Real.rpow_nonneg (by linarith [hu.2]) _) (Real.rpow_nonneg (by linarith [hu.1]) _)

theorem measurable_weight (a b : ℝ) : Measurable fun u : ℝ => (1 - u) ^ a * (1 + u) ^ b := by
  fun_prop

theorem integrable_jacobiMeasure {a b : ℝ} (ha : -1 < a) (hb : -1 < b) {f : ℝ → ℝ} (hf : Continuous f) :
    Integrable f (jacobiMeasure a b) := by
  rw [jacobiMeasure, integrable_withDensity_iff (by fun_prop) (Filter.Eventually.of_forall fun _ => ENNReal.ofReal_lt_top)]
  have h := (weight_integrable ha hb).continuousOn_mul hf.continuousOn
  rw [intervalIntegrable_iff_integrableOn_Ioo_of_le (by norm_num)] at h
  refine h.congr_fun_ae ?_
  refine (ae_restrict_iff' measurableSet_Ioo).2 (Filter.Eventually.of_forall fun u hu => ?_)
  beta_reduce
  rw [ENNReal.toReal_ofReal (weight_nonneg hu)]

theorem integral_jacobiMeasure (a b : ℝ) (f : ℝ → ℝ) :
    ∫ u, f u ∂(jacobiMeasure a b) = 2 ^ (a + b + 1) * ∫ t in (0 : ℝ)..1, f (1 - 2 * t) * w01 a b t := by
  rw [jacobiMeasure, integral_withDensity_eq_integral_toReal_smul (by fun_prop)
    (Filter.Eventually.of_forall fun _ => ENNReal.ofReal_lt_top)]
  have e1 : ∫ u in Set.Ioo (-1 : ℝ) 1, (ENNReal.ofReal ((1 - u) ^ a * (1 + u) ^ b)).toReal • f u
      = ∫ u in (-1 : ℝ)..1, f u * ((1 - u) ^ a * (1 + u) ^ b) := by
    rw [intervalIntegral.integral_of_le (by norm_num), integral_Ioc_eq_integral_Ioo]
    refine setIntegral_congr_fun measurableSet_Ioo fun u hu => ?_
    beta_reduce
    rw [ENNReal.toReal_ofReal (weight_nonneg hu), smul_eq_mul, mul_comm]
  rw [e1]
  have hs := intervalIntegral.integral_comp_sub_mul (a := (0 : ℝ)) (b := 1)
    (fun u : ℝ => f u * ((1 - u) ^ a * (1 + u) ^ b)) (c := 2) (by norm_num) 1
  norm_num at hs
  have hs2 : ∫ u in (-1 : ℝ)..1, f u * ((1 - u) ^ a * (1 + u) ^ b)
      = 2 * ∫ t in (0 : ℝ)..1, f (1 - 2 * t) * ((2 * t) ^ a * (1 + (1 - 2 * t)) ^ b) := by
    rw [hs]; ring
  rw [hs2, ← intervalIntegral.integral_const_mul, ← intervalIntegral.integral_const_mul]
  refine intervalIntegral.integral_congr fun t ht => ?_
  rw [Set.uIcc_of_le (by norm_num)] at ht
  beta_reduce
  rw [show 1 + (1 - 2 * t) = 2 * (1 - t) by ring, Real.mul_rpow (by norm_num) ht.1,
    Real.mul_rpow (by norm_num) (by linarith [ht.2]), Real.rpow_add (by norm_num), Real.rpow_add (by norm_num),
    Real.rpow_one, w01]
  ring

theorem continuous_jacobiPoly (n : ℕ) (a b : ℝ) : Continuous (jacobiPoly n a b) := by
  unfold jacobiPoly; fun_prop

/-- orthogonality and norms of the Jacobi polynomials -/
theorem jacobiPoly_integral {a b : ℝ} (ha : -1 < a) (hb : -1 < b) (k l : ℕ) :
    ∫ u, jacobiPoly k a b u * jacobiPoly l a b u ∂(jacobiMeasure a b)
      = if k = l then Model.squareNorm1D a b k else 0 := by
  rw [integral_jacobiMeasure]
  have e : ∀ t : ℝ, jacobiPoly k a b (1 - 2 * t) * jacobiPoly l a b (1 - 2 * t)
      = (jpT k a b).eval t * (jpT l a b).eval t := by
    intro t
    rw [jacobiPoly_eq, jacobiPoly_eq, show (1 - (1 - 2 * t)) / 2 = t by ring]
  simp only [e]
  split_ifs with h
  · subst h
    rcases Nat.eq_zero_or_pos k with rfl | hk
    · have h0 : ∀ t : ℝ, (jpT 0 a b).eval t = 1 := fun t => by
        rw [jpT_eval]; simp [jacobiCoeff, poch]
      have := integral_jacobiMeasure a b (fun _ => 1)
      simp only [h0, one_mul] at this ⊢
      rw [← this, C73_mass ha hb, jacobiMeasure, integral_withDensity_eq_integral_toReal_smul (by fun_prop)
        (Filter.Eventually.of_forall fun _ => ENNReal.ofReal_lt_top), intervalIntegral.integral_of_le (by norm_num),
        integral_Ioc_eq_integral_Ioo]
      refine setIntegral_congr_fun measurableSet_Ioo fun u hu => ?_
      beta_reduce
      rw [ENNReal.toReal_ofReal (weight_nonneg hu), smul_eq_mul, mul_one]
    · rw [jp_norm ha hb hk, (C73_square_norm ha hb hk).1]
  · rcases lt_or_gt_of_ne h with h | h
    · have h1 := jp_orthogonal_lt ha hb h
      simp only [mul_comm ((jpT k a b).eval _)]
      rw [h1, mul_zero]
    · rw [jp_orthogonal_lt ha hb h, mul_zero]

end Verif.Lemmas
