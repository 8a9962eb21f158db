import Verif.Lemmas.Equi6
import Verif.Model.Rescale

/-!
The edge constant computed by `rescale_largest_eig_val`.
-/

set_option linter.unusedVariables false

namespace Verif.Lemmas.Equi
open Real MeasureTheory Set intervalIntegral Verif.Spec Polynomial.Chebyshev Verif.Model Filter Topology

theorem chebMulX_add (v w : ℕ → ℝ) : chebMulX (v + w) = chebMulX v + chebMulX w := by
  funext k
  rcases k with _ | _ | k <;> simp [chebMulX] <;> ring

theorem chebMulX_eq (w : ℕ →₀ ℝ) : chebMulX w = xi w := by
  induction w using Finsupp.induction_linear with
  | zero =>
    rw [xi_zero]
    funext k
    rcases k with _ | _ | k <;> simp [chebMulX]
  | add v w hv hw => rw [Finsupp.coe_add, chebMulX_add, hv, hw, xi_add, Finsupp.coe_add]
  | single n c =>
    rw [xi_single, xiTerm]
    funext k
    rcases n with _ | n
    · rw [if_pos rfl]
      rcases k with _ | _ | k <;> simp [chebMulX, Finsupp.single_apply]
    · rw [if_neg (by omega)]
      rcases k with _ | _ | k
      · rcases n with _ | n <;> simp [chebMulX, Finsupp.single_apply]
      · rcases n with _ | _ | n <;> simp [chebMulX, Finsupp.single_apply]
      · simp only [chebMulX, Finsupp.coe_add, Pi.add_apply, Finsupp.single_apply]
        by_cases h1 : n = k
        · subst h1
          simp
          intro h
          omega
        · by_cases h2 : n = k + 2
          · subst h2; simp
          · have : ¬ n + 1 = k + 1 := by omega
            have h3 : ¬ n + 1 = k + 3 := by omega
            have h4 : ¬ n + 1 - 1 = k + 2 := by omega
            have h5 : ¬ n + 1 + 1 = k + 2 := by omega
            simp [this, h3, h5, h2, h1]

/-- the Chebyshev series as a finitely supported sequence -/
noncomputable def serF : List ℝ → ℕ →₀ ℝ
  | [] => 0
  | p :: l => xi (serF l) + Finsupp.single 0 p

theorem poly2cheb_eq : ∀ l : List ℝ, poly2cheb l = serF l
  | [] => rfl
  | p :: l => by
    funext k
    rw [poly2cheb, poly2cheb_eq l, chebMulX_eq, serF, Finsupp.add_apply, Finsupp.single_apply]
    simp only [eq_comm]

theorem serF_support : ∀ (l : List ℝ) (k : ℕ), l.length ≤ k → serF l k = 0
  | [], k, _ => rfl
  | p :: l, k, h => by
    rw [List.length_cons] at h
    rw [serF, Finsupp.add_apply, ← chebMulX_eq, Finsupp.single_apply, if_neg (by omega), add_zero]
    rcases k with _ | _ | k
    · omega
    · have hl : l = [] := List.length_eq_zero_iff.1 (by omega)
      subst hl
      simp [chebMulX, serF]
    · simp only [chebMulX]
      rw [serF_support l _ (by omega), serF_support l _ (by omega)]
      simp

theorem sig_one (w : ℕ →₀ ℝ) : sig w 1 = w.sum fun n c => (n : ℝ) * c := by
  unfold sig
  refine Finsupp.sum_congr fun n _ => ?_
  rw [U_eval_one]
  push_cast
  ring

theorem sumK_eq (l : List ℝ) : sumK l = sig (serF l) 1 := by
  rw [sumK, poly2cheb_eq, sig_one, Finsupp.sum_of_support_subset (s := Finset.range l.length)]
  · intro k hk
    rw [Finset.mem_range]
    by_contra hn
    exact (Finsupp.mem_support_iff.1 hk) (serF_support l k (by omega))
  · intro k _
    ring

theorem sumK_cons (p : ℝ) (l : List ℝ) : sumK (p :: l) = sumK l + serF l 0 := by
  rw [sumK_eq, sumK_eq, serF, sig_add, sig_xi, sig_single]
  simp

theorem serF_zero (l : List ℝ) : serF l 0 = 1 / π * ∫ p in (0 : ℝ)..π, tau (serF l) (cos p) := by
  rw [integral_tau]
  field_simp [pi_ne_zero]

theorem tau_serF_mono (n : ℕ) (c X : ℝ) : tau (serF (List.replicate n 0 ++ [c])) X = c * X ^ n := by
  induction n with
  | zero =>
    rw [List.replicate_zero, List.nil_append, serF, serF, xi_zero, zero_add, tau_single]
    simp
  | succ n ih =>
    rw [List.replicate_succ, List.cons_append, serF, Finsupp.single_zero, add_zero, tau_xi, ih, pow_succ]
    ring

theorem sumK_mono (c : ℝ) (m : ℕ) : sumK (List.replicate (2 * m) 0 ++ [c]) = c * hPol m 1 := by
  induction m with
  | zero => simp [sumK, hPol]
  | succ m ih =>
    have e : List.replicate (2 * (m + 1)) (0 : ℝ) ++ [c] = 0 :: (0 :: (List.replicate (2 * m) 0 ++ [c])) := by
      rw [show 2 * (m + 1) = 2 * m + 1 + 1 by ring, List.replicate_succ, List.replicate_succ]
      rfl
    have e1 : serF (0 :: (List.replicate (2 * m) 0 ++ [c])) 0 = 0 := by
      rw [serF_zero, show (0 : ℝ) :: (List.replicate (2 * m) 0 ++ [c]) = List.replicate (2 * m + 1) 0 ++ [c] by
        rw [List.replicate_succ]; rfl]
      simp_rw [tau_serF_mono]
      rw [integral_odd_cos (fun x => c * x ^ (2 * m + 1)) (fun x => by rw [Odd.neg_pow ⟨m, rfl⟩]; ring), mul_zero]
    have e2 : serF (List.replicate (2 * m) 0 ++ [c]) 0 = c * cProd m := by
      rw [serF_zero]
      simp_rw [tau_serF_mono]
      rw [intervalIntegral.integral_const_mul, integral_cos_even]
      field_simp [pi_ne_zero]
    rw [e, sumK_cons, sumK_cons, ih, e1, e2, hPol]
    ring

theorem sumK_odd (c : ℝ) (m : ℕ) : sumK (List.replicate (2 * m + 1) 0 ++ [c]) = c * hPol (m + 1) 1 := by
  have e2 : serF (List.replicate (2 * m) 0 ++ [c]) 0 = c * cProd m := by
    rw [serF_zero]
    simp_rw [tau_serF_mono]
    rw [intervalIntegral.integral_const_mul, integral_cos_even]
    field_simp [pi_ne_zero]
  rw [List.replicate_succ, List.cons_append, sumK_cons, sumK_mono, e2, hPol]
  ring

theorem sumK_four (p q r s : ℝ) : sumK [p, q, r, s] = q + r + 3 / 2 * s := by
  simp [sumK, poly2cheb, chebMulX, Finset.sum_range_succ]
  ring

/-! ### the edge of a density -/

/-- `π f(x) / √(b - x) → κ` at the right edge -/
def EdgeCoeff (f : ℝ → ℝ) (b κ : ℝ) : Prop := Tendsto (fun x => π * f x / √(b - x)) (𝓝[<] b) (𝓝 κ)

theorem edge_of_factor {f G : ℝ → ℝ} {b a : ℝ} (hab : a < b) (hf : ∀ x ∈ Ioo a b, f x = 1 / π * (G x * √(b - x)))
    (hG : ContinuousAt G b) : EdgeCoeff f b (G b) := by
  have h1 : Tendsto G (𝓝[<] b) (𝓝 (G b)) := hG.tendsto.mono_left nhdsWithin_le_nhds
  refine h1.congr' ?_
  filter_upwards [Ioo_mem_nhdsLT hab] with x hx
  have h2 : 0 < √(b - x) := sqrt_pos.2 (by linarith [hx.2])
  rw [hf x hx]
  field_simp [pi_ne_zero]

theorem edge_cut {c a : ℝ} (ha : 0 < a) {Q : ℝ → ℝ} (hQ : Continuous Q) : EdgeCoeff (cutDens c a Q) (c + a) (Q (c + a) * √(2 * a)) := by
  have := edge_of_factor (f := cutDens c a Q) (G := fun x => Q x * √(a + (x - c))) (b := c + a) (a := c - a) (by linarith)
    (fun x hx => by
      unfold cutDens
      have e : a ^ 2 - (x - c) ^ 2 = (a + (x - c)) * (c + a - x) := by ring
      rw [e, max_eq_left (mul_nonneg (by linarith [hx.1]) (by linarith [hx.2])), sqrt_mul (by linarith [hx.1])]
      ring) (by fun_prop)
  rw [show a + (c + a - c) = 2 * a by ring] at this
  exact this

/-- the density in the rescaled variable -/
theorem scaled_limit {f : ℝ → ℝ} {b κ c : ℝ} (h : EdgeCoeff f b κ) (hc : 0 < c) {ξ : ℝ} (hξ : ξ < 0) :
    Tendsto (fun N : ℕ => (N : ℝ) * f (b + ξ / ((N : ℝ) ^ (2 / 3 : ℝ) * c)) / ((N : ℝ) ^ (2 / 3 : ℝ) * c)) atTop
      (𝓝 (κ / c ^ (3 / 2 : ℝ) * (√(-ξ) / π))) := by
  have hN : Tendsto (fun N : ℕ => (N : ℝ) ^ (2 / 3 : ℝ) * c) atTop atTop :=
    Tendsto.atTop_mul_const hc ((tendsto_rpow_atTop (by norm_num)).comp tendsto_natCast_atTop_atTop)
  have hx : Tendsto (fun N : ℕ => b + ξ / ((N : ℝ) ^ (2 / 3 : ℝ) * c)) atTop (𝓝[<] b) := by
    rw [tendsto_nhdsWithin_iff]
    constructor
    · have := (tendsto_const_nhds (x := ξ)).div_atTop hN
      simpa using this.const_add b
    · filter_upwards [eventually_gt_atTop 0] with N hN0
      have : (0 : ℝ) < (N : ℝ) ^ (2 / 3 : ℝ) * c := by
        have : (0 : ℝ) < N := by exact_mod_cast hN0
        positivity
      have : ξ / ((N : ℝ) ^ (2 / 3 : ℝ) * c) < 0 := div_neg_of_neg_of_pos hξ this
      simp only [mem_Iio]
      linarith
  have h1 := (h.comp hx).mul_const (1 / c ^ (3 / 2 : ℝ) * (√(-ξ) / π))
  rw [show κ * (1 / c ^ (3 / 2 : ℝ) * (√(-ξ) / π)) = κ / c ^ (3 / 2 : ℝ) * (√(-ξ) / π) by ring] at h1
  refine h1.congr' ?_
  filter_upwards [eventually_gt_atTop 0] with N hN0
  have hN1 : (0 : ℝ) < N := by exact_mod_cast hN0
  obtain ⟨M, hM⟩ : ∃ M : ℝ, M = (N : ℝ) ^ (1 / 3 : ℝ) := ⟨_, rfl⟩
  have hM0 : 0 < M := by rw [hM]; positivity
  have hM2 : (N : ℝ) ^ (2 / 3 : ℝ) = M ^ 2 := by
    rw [hM, ← rpow_natCast, ← rpow_mul hN1.le]
    norm_num
  have hM3 : (N : ℝ) = M ^ 3 := by
    rw [hM, ← rpow_natCast, ← rpow_mul hN1.le]
    norm_num
  obtain ⟨d, hd⟩ : ∃ d : ℝ, d = √c := ⟨_, rfl⟩
  have hd0 : 0 < d := by rw [hd]; exact sqrt_pos.2 hc
  have hd2 : c = d ^ 2 := by rw [hd, sq_sqrt hc.le]
  have hd3 : c ^ (3 / 2 : ℝ) = d ^ 3 := by
    rw [hd2, ← rpow_natCast d 2, ← rpow_mul hd0.le, ← rpow_natCast]
    norm_num
  obtain ⟨t, ht⟩ : ∃ t : ℝ, t = √(-ξ) := ⟨_, rfl⟩
  have ht0 : 0 < t := by rw [ht]; exact sqrt_pos.2 (by linarith)
  have hs : √(b - (b + ξ / ((N : ℝ) ^ (2 / 3 : ℝ) * c))) = t / (M * d) := by
    rw [hM2, hd2, show b - (b + ξ / (M ^ 2 * d ^ 2)) = -ξ / (M * d) ^ 2 by ring, sqrt_div (by linarith), sqrt_sq (by positivity), ht]
  change π * f (b + ξ / ((N : ℝ) ^ (2 / 3 : ℝ) * c)) / √(b - (b + ξ / ((N : ℝ) ^ (2 / 3 : ℝ) * c))) * (1 / c ^ (3 / 2 : ℝ) * (√(-ξ) / π)) = _
  rw [hs, hd3, ← ht]
  generalize f (b + ξ / ((N : ℝ) ^ (2 / 3 : ℝ) * c)) = F
  rw [hM2, hM3, hd2]
  field_simp [pi_ne_zero]

/-- the constant of the code from `sum_k_dV_k` -/
theorem cV_pow (V : Polynomial ℝ) {a b S : ℝ} (hab : a < b) (hS : sumK (coeffsLow (dVShift V a b)) = S) :
    cV V a b ^ (3 / 2 : ℝ) = |S| / √(b - a) := by
  have h0 : 0 ≤ S ^ 2 / (b - a) := div_nonneg (sq_nonneg _) (by linarith)
  rw [cV, hS, ← rpow_mul h0, show (1 / 3 * (3 / 2) : ℝ) = 1 / 2 by norm_num, ← sqrt_eq_rpow, sqrt_div (sq_nonneg _), sqrt_sq_eq_abs]

theorem cV_nonneg (V : Polynomial ℝ) {a b : ℝ} (hab : a < b) : 0 ≤ cV V a b := by
  have h0 : 0 ≤ sumK (coeffsLow (dVShift V a b)) ^ 2 / (b - a) := div_nonneg (sq_nonneg _) (by linarith)
  exact rpow_nonneg h0 _

theorem cV_pos (V : Polynomial ℝ) {a b S : ℝ} (hab : a < b) (hS : sumK (coeffsLow (dVShift V a b)) = S) (h : S ≠ 0) : 0 < cV V a b := by
  have h0 : 0 < S ^ 2 / (b - a) := div_pos (by positivity) (by linarith)
  rw [cV, hS]
  exact rpow_pos_of_pos h0 _

end Verif.Lemmas.Equi
