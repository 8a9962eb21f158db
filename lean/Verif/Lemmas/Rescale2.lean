import Verif.Lemmas.Rescale1

/-!
The edge constant for the potentials with a known equilibrium.
-/

set_option linter.unusedVariables false

namespace Verif.Lemmas.Equi
open Real MeasureTheory Set Verif.Spec Verif.Model Filter Topology

/-! ### `x^(2m)` -/

theorem x2m_edge (m : ℕ) (hm : 1 ≤ m) (g : ℝ) (hg : 0 < g) : ∃ a : ℝ, 0 < a ∧ (equilibriumX2m m g).2.1 = -a
    ∧ (equilibriumX2m m g).2.2 = a
    ∧ EdgeCoeff (equilibriumX2m m g).1 a (g / 2 * (a ^ (2 * m - 2) * hPol m 1) * √(2 * a)) := by
  have hm0 : (0 : ℝ) < m := by exact_mod_cast hm
  have hc := cProd_pos m
  obtain ⟨A, hA⟩ : ∃ A, A = x2mA2 m g := ⟨_, rfl⟩
  have hbase : 0 < (m : ℝ) * (g / (2 * m)) * cProd m := by positivity
  have hA0 : 0 < A := by rw [hA]; unfold x2mA2; positivity
  obtain ⟨a, ha⟩ : ∃ a, a = √A := ⟨_, rfl⟩
  have ha0 : 0 < a := by rw [ha]; exact sqrt_pos.2 hA0
  have ha2 : a ^ 2 = A := by rw [ha, sq_sqrt hA0.le]
  obtain ⟨Q, hQ⟩ : ∃ Q : ℝ → ℝ, Q = fun x => m * (g / (2 * m)) * polyval (h1Coeffs m A) x := ⟨_, rfl⟩
  have hQ' : ∀ X, Q (0 + a * X) = m * (g / (2 * m)) * (A ^ (m - 1) * hPol m X) := fun X => by
    rw [hQ]
    beta_reduce
    rw [zero_add, ← ha2, h1_eq m hm]
  have hQ0 : ∀ x, 0 ≤ Q x := fun x => by
    have := hQ' (x / a)
    rw [zero_add, mul_div_cancel₀ _ ha0.ne'] at this
    rw [this]
    have := hPol_nonneg m (x / a)
    positivity
  have hQc : Continuous Q := by
    have h1 : ∀ l : List ℝ, ∀ f : ℝ → ℝ, Continuous f → Continuous fun x => l.foldl (fun acc c => acc * x + c) (f x) := by
      intro l
      induction l with
      | nil => intro f hf; exact hf
      | cons c l ih => intro f hf; exact ih (fun x => f x * x + c) (by fun_prop)
    have h2 : Continuous fun x => polyval (h1Coeffs m A) x := h1 _ (fun _ => 0) continuous_const
    rw [hQ]
    fun_prop
  have hfun : (equilibriumX2m m g).1 = cutDens 0 a Q := by
    funext x
    unfold equilibriumX2m cutDens
    beta_reduce
    rw [← hA, ha2, sub_zero]
    have h1 : m * (g / (2 * m)) / π * √(max (A - x ^ 2) 0) * polyval (h1Coeffs m A) x = 1 / π * Q x * √(max (A - x ^ 2) 0) := by
      rw [hQ]; ring
    simp only []
    rw [h1, max_eq_left]
    have := hQ0 x
    positivity
  refine ⟨a, ha0, by unfold equilibriumX2m; rw [← hA, ← ha]; ring, by unfold equilibriumX2m; rw [← hA, ← ha]; ring, ?_⟩
  have h := edge_cut (c := 0) ha0 hQc
  have hq := hQ' 1
  rw [mul_one] at hq
  rw [hq, zero_add] at h
  rw [hfun]
  have e : (m : ℝ) * (g / (2 * m)) * (A ^ (m - 1) * hPol m 1) = g / 2 * (a ^ (2 * m - 2) * hPol m 1) := by
    rw [← ha2, ← pow_mul, show 2 * (m - 1) = 2 * m - 2 by omega]
    field_simp
  rw [e] at h
  exact h

theorem coeffsLow_mono (c : ℝ) (hc : c ≠ 0) (n : ℕ) :
    coeffsLow (Polynomial.C c * Polynomial.X ^ n) = List.replicate n 0 ++ [c] := by
  rw [coeffsLow, Polynomial.natDegree_C_mul_X_pow n c hc, List.range_succ, List.map_append]
  congr 1
  · rw [List.eq_replicate_iff]
    refine ⟨by simp, fun b hb => ?_⟩
    obtain ⟨k, hk, rfl⟩ := List.mem_map.1 hb
    rw [List.mem_range] at hk
    rw [Polynomial.coeff_C_mul_X_pow, if_neg (by omega)]
  · simp

theorem sumK_x2m (m : ℕ) (hm : 1 ≤ m) (k a : ℝ) (hk : k ≠ 0) (ha : 0 < a) :
    sumK (coeffsLow (dVShift (Polynomial.C k * Polynomial.X ^ (2 * m)) (-a) a)) = 2 * m * k * a ^ (2 * m - 1) * hPol m 1 := by
  have hm0 : (0 : ℝ) < m := by exact_mod_cast hm
  have e : dVShift (Polynomial.C k * Polynomial.X ^ (2 * m)) (-a) a
      = Polynomial.C (2 * m * k * a ^ (2 * m - 1)) * Polynomial.X ^ (2 * (m - 1) + 1) := by
    rw [dVShift, Polynomial.derivative_C_mul_X_pow, show 1 / 2 * (a - -a) = a by ring, show 1 / 2 * (a + -a) = 0 by ring,
      show 2 * (m - 1) + 1 = 2 * m - 1 by omega]
    simp only [Polynomial.mul_comp, Polynomial.C_comp, Polynomial.X_pow_comp, Polynomial.C_0, add_zero, mul_pow, ← Polynomial.C_pow]
    rw [← mul_assoc, ← Polynomial.C_mul]
    congr 2
    push_cast
    ring
  rw [e, coeffsLow_mono _ (by positivity), sumK_odd, show m - 1 + 1 = m by omega]

/-! ### `x^2, x^4` -/

theorem sumK_cubic (p q r s : ℝ) (hs : s ≠ 0) :
    sumK (coeffsLow (Polynomial.C s * Polynomial.X ^ 3 + Polynomial.C r * Polynomial.X ^ 2 + Polynomial.C q * Polynomial.X + Polynomial.C p))
      = q + r + 3 / 2 * s := by
  rw [coeffsLow, Polynomial.natDegree_cubic hs]
  have e : List.range (3 + 1) = [0, 1, 2, 3] := rfl
  rw [e, ← sumK_four p q r s]
  congr 1
  simp [Polynomial.coeff_X, Polynomial.coeff_C]

theorem sumK_x2x4 (g2 g4 a : ℝ) (h4 : g4 ≠ 0) (ha : 0 < a) (V : Polynomial ℝ)
    (hV : V = Polynomial.C (g2 / 2) * Polynomial.X ^ 2 + Polynomial.C (g4 / 4) * Polynomial.X ^ 4) :
    sumK (coeffsLow (dVShift V (-a) a)) = g2 * a + 3 / 2 * (g4 * a ^ 3) := by
  have e : dVShift V (-a) a = Polynomial.C (g4 * a ^ 3) * Polynomial.X ^ 3 + Polynomial.C 0 * Polynomial.X ^ 2
      + Polynomial.C (g2 * a) * Polynomial.X + Polynomial.C 0 := by
    rw [dVShift, hV, show 1 / 2 * (a - -a) = a by ring, show 1 / 2 * (a + -a) = 0 by ring]
    apply Polynomial.funext
    intro x
    simp
    ring
  rw [e, sumK_cubic _ _ _ _ (by positivity)]
  ring

theorem x2x4_edge_one (g2 g4 : ℝ) (h4 : 0 < g4) (hg : g2 > -4 * √(g4 / 4)) : ∃ a : ℝ, 0 < a ∧ (equilibriumX2X4 g2 g4).2.1 = -a
    ∧ (equilibriumX2X4 g2 g4).2.2 = a ∧ 0 < g2 * a + 3 / 2 * (g4 * a ^ 3)
    ∧ EdgeCoeff (equilibriumX2X4 g2 g4).1 a ((g2 * a + 3 / 2 * (g4 * a ^ 3)) / √(2 * a)) := by
  obtain ⟨s, hs⟩ : ∃ s, s = √(g2 ^ 2 + 12 * g4) := ⟨_, rfl⟩
  have hs2 : s ^ 2 = g2 ^ 2 + 12 * g4 := by rw [hs, sq_sqrt (by positivity)]
  have hs0 : 0 < s := by rw [hs]; exact sqrt_pos.2 (by positivity)
  obtain ⟨A, hA⟩ : ∃ A, A = 2 / (3 * g4) * (s - g2) := ⟨_, rfl⟩
  obtain ⟨B, hB⟩ : ∃ B, B = 1 / (3 * g4) * (s + 2 * g2) := ⟨_, rfl⟩
  have hsg : 0 < s - g2 := by nlinarith
  have hA0 : 0 < A := by rw [hA]; positivity
  have hsg2 : 0 ≤ s + 2 * g2 := by
    have h1 := four_sqrt g4 h4
    have h2 : -(2 * √g4) < g2 := by linarith
    have h3 := sq_sqrt h4.le
    have h5 := sqrt_nonneg g4
    by_contra h
    nlinarith
  have hB0 : 0 ≤ B := by rw [hB]; positivity
  obtain ⟨a, ha⟩ : ∃ a, a = √A := ⟨_, rfl⟩
  have ha0 : 0 < a := by rw [ha]; exact sqrt_pos.2 hA0
  have ha2 : a ^ 2 = A := by rw [ha, sq_sqrt hA0.le]
  have e2 : g4 * (B - A / 2) = g2 := by
    rw [hA, hB]; field_simp; ring
  have hfun : (equilibriumX2X4 g2 g4).1 = cutDens 0 a (fun x => g4 / 2 * (x ^ 2 + B)) := by
    funext x
    unfold equilibriumX2X4 cutDens
    rw [if_pos hg, ← hs, ← hA, ← hB, ha2, sub_zero]
    simp only []
    rw [max_eq_left (by positivity)]
    field_simp
  have hS : g2 * a + 3 / 2 * (g4 * a ^ 3) = 2 * a * (g4 / 2 * (a ^ 2 + B)) := by
    rw [← e2, ← ha2]
    ring
  refine ⟨a, ha0, by unfold equilibriumX2X4; rw [if_pos hg, ← hs, ← hA, ← ha]; ring,
    by unfold equilibriumX2X4; rw [if_pos hg, ← hs, ← hA, ← ha]; ring, by rw [hS]; positivity, ?_⟩
  have h := edge_cut (c := 0) ha0 (Q := fun x => g4 / 2 * (x ^ 2 + B)) (by fun_prop)
  rw [zero_add] at h
  rw [hfun, hS]
  have e : 2 * a * (g4 / 2 * (a ^ 2 + B)) / √(2 * a) = g4 / 2 * (a ^ 2 + B) * √(2 * a) := by
    rw [div_eq_iff (sqrt_pos.2 (by positivity)).ne', mul_assoc (g4 / 2 * (a ^ 2 + B)), mul_self_sqrt (by positivity)]
    ring
  rw [e]
  exact h

/-- the second branch: the coefficient at the edge is `r √r b √(2 b)`, `r = √g4` -/
theorem x2x4_edge_two (g2 g4 : ℝ) (h4 : 0 < g4) (hg : ¬ g2 > -4 * √(g4 / 4)) : ∃ b : ℝ, 0 < b ∧ (equilibriumX2X4 g2 g4).2.1 = -b
    ∧ (equilibriumX2X4 g2 g4).2.2 = b ∧ b ^ 2 * g4 = -g2 + 2 * √g4
    ∧ EdgeCoeff (equilibriumX2X4 g2 g4).1 b (√g4 * √(√g4) * b * √(2 * b)) := by
  obtain ⟨r, hr⟩ : ∃ r, r = √g4 := ⟨_, rfl⟩
  have hr0 : 0 < r := by rw [hr]; exact sqrt_pos.2 h4
  have hr2 : r ^ 2 = g4 := by rw [hr, sq_sqrt h4.le]
  have h4s : 4 * √(g4 / 4) = 2 * r := by rw [hr]; exact four_sqrt g4 h4
  have hg2 : g2 ≤ -(2 * r) := by
    have : g2 ≤ -4 * √(g4 / 4) := not_lt.1 hg
    linarith
  obtain ⟨B, hB⟩ : ∃ B, B = (-g2 + 4 * √(g4 / 4) * 1) / g4 := ⟨_, rfl⟩
  obtain ⟨A, hA⟩ : ∃ A, A = (-g2 + 4 * √(g4 / 4) * -1) / g4 := ⟨_, rfl⟩
  have hB' : B * g4 = -g2 + 2 * r := by rw [hB, div_mul_cancel₀ _ h4.ne', h4s, mul_one]
  have hA' : A * g4 = -g2 - 2 * r := by
    rw [hA, div_mul_cancel₀ _ h4.ne', h4s]
    ring
  have hB0 : 0 < B := by
    rw [hB, h4s]
    apply div_pos _ h4
    linarith
  have hA0 : 0 ≤ A := by
    rw [hA, h4s]
    apply div_nonneg _ h4.le
    linarith
  have hBA : B - A = 4 / r := by
    rw [eq_div_iff hr0.ne']
    have : (B - A) * g4 = 4 * r := by linarith
    rw [← hr2] at this
    have h2 : (B - A) * r * r = 4 * r := by linarith
    exact mul_right_cancel₀ hr0.ne' h2
  obtain ⟨b, hb⟩ : ∃ b, b = √B := ⟨_, rfl⟩
  have hb0 : 0 < b := by rw [hb]; exact sqrt_pos.2 hB0
  have hb2 : b ^ 2 = B := by rw [hb, sq_sqrt hB0.le]
  obtain ⟨a, ha⟩ : ∃ a, a = √A := ⟨_, rfl⟩
  have ha0 : 0 ≤ a := by rw [ha]; exact sqrt_nonneg _
  have ha2 : a ^ 2 = A := by rw [ha, sq_sqrt hA0]
  have hab : a < b := by
    rw [ha, hb]
    apply sqrt_lt_sqrt hA0
    have : 0 < 4 / r := by positivity
    linarith
  refine ⟨b, hb0, by unfold equilibriumX2X4; rw [if_neg hg, ← hB, ← hb]; ring,
    by unfold equilibriumX2X4; rw [if_neg hg, ← hB, ← hb]; ring, by rw [hb2, hB', hr], ?_⟩
  have h := edge_of_factor (f := (equilibriumX2X4 g2 g4).1) (G := fun x => g4 / 2 * |x| * √((b + x) * (x ^ 2 - A))) hab (fun x hx => by
    unfold equilibriumX2X4
    rw [if_neg hg, ← hB, ← hA]
    simp only []
    have hx0 : 0 ≤ x := ha0.trans hx.1.le
    have h1 : 0 ≤ x ^ 2 - A := by rw [← ha2]; nlinarith [hx.1]
    have h2 : 0 ≤ b - x := by linarith [hx.2]
    have e : (B - x ^ 2) * (x ^ 2 - A) = (b + x) * (x ^ 2 - A) * (b - x) := by rw [← hb2]; ring
    rw [e, max_eq_left (by positivity), sqrt_mul (by positivity)]
    field_simp) (by fun_prop)
  have e : g4 / 2 * |b| * √((b + b) * (b ^ 2 - A)) = √g4 * √(√g4) * b * √(2 * b) := by
    rw [abs_of_pos hb0, ← hr, hb2, hBA, show b + b = 2 * b by ring, sqrt_mul (by positivity), sqrt_div (by norm_num),
      show (4 : ℝ) = 2 ^ 2 by norm_num, sqrt_sq (by norm_num), ← hr2]
    obtain ⟨q, hq⟩ : ∃ q, q = √r := ⟨_, rfl⟩
    have hq0 : 0 < q := by rw [hq]; exact sqrt_pos.2 hr0
    have hq2 : r = q ^ 2 := by rw [hq, sq_sqrt hr0.le]
    rw [← hq, hq2]
    field_simp
  rw [e] at h
  exact h

/-! ### `ClItKr10` -/

theorem clItKr10_edge : EdgeCoeff equilibriumClItKr10.1 2 0 := by
  have hfun : equilibriumClItKr10.1 = cutDens 0 2 (fun x => (2 - x) ^ 2 / 10) := by
    funext x
    unfold equilibriumClItKr10 cutDens
    have e : (x + 2) * (2 - x) ^ 5 = ((2 - x) ^ 2) ^ 2 * (2 ^ 2 - (x - 0) ^ 2) := by ring
    have h0 : 0 ≤ ((2 - x) ^ 2) ^ 2 := by positivity
    simp only []
    rw [e, show (0 : ℝ) = ((2 - x) ^ 2) ^ 2 * 0 by ring, ← mul_max_of_nonneg _ _ h0, sqrt_mul h0, sqrt_sq (by positivity)]
    simp
    field_simp
  have h := edge_cut (c := 0) (a := 2) (by norm_num) (Q := fun x => (2 - x) ^ 2 / 10) (by fun_prop)
  rw [hfun]
  norm_num at h
  exact h

theorem sumK_clItKr10 : sumK (coeffsLow (dVShift vClItKr10 (-2) 2)) = 0 := by
  have e : dVShift vClItKr10 (-2) 2 = Polynomial.C (8 / 5) * Polynomial.X ^ 3 + Polynomial.C (-16 / 5) * Polynomial.X ^ 2
      + Polynomial.C (4 / 5) * Polynomial.X + Polynomial.C (8 / 5) := by
    rw [dVShift, vClItKr10]
    apply Polynomial.funext
    intro x
    simp
    ring
  rw [e, sumK_cubic _ _ _ _ (by norm_num)]
  norm_num

end Verif.Lemmas.Equi
