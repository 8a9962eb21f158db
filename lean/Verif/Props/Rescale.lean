import Verif.Lemmas.Rescale2
import Verif.Props.Equilibrium

/-!
C102: `rescale_largest_eig_val`.
-/

set_option linter.unusedVariables false

namespace Verif.Props
open Verif Verif.Spec Verif.Model Verif.Lemmas Verif.Lemmas.Equi Real Polynomial

theorem softEdge_of {f : ℝ → ℝ} {b κ c : ℝ} (h : EdgeCoeff f b κ) (hc : 0 < c) (hk : c ^ (3 / 2 : ℝ) = κ) : SoftEdge f b c := fun ξ hξ => by
  have h1 := scaled_limit h hc hξ
  rw [← hk, div_self (rpow_pos_of_pos hc _).ne', one_mul] at h1
  exact h1

theorem not_softEdge_of {f : ℝ → ℝ} {b κ c : ℝ} (h : EdgeCoeff f b κ) (hc : 0 < c) (hk : c ^ (3 / 2 : ℝ) ≠ κ) : ¬ SoftEdge f b c := fun hs => by
  have h1 := scaled_limit h hc (show (-1 : ℝ) < 0 by norm_num)
  have h2 := tendsto_nhds_unique h1 (hs (-1) (by norm_num))
  have h3 : (√(-(-1 : ℝ)) / π) ≠ 0 := by
    rw [neg_neg, sqrt_one]
    exact div_ne_zero one_ne_zero pi_ne_zero
  have h4 : κ / c ^ (3 / 2 : ℝ) = 1 := mul_right_cancel₀ h3 (h2.trans (one_mul _).symm)
  rw [div_eq_one_iff_eq (rpow_pos_of_pos hc _).ne'] at h4
  exact hk h4.symm

/-- What the constructor guarantees. -/
theorem potentialInit_facts {beta : ℝ} {V W : ℝ[X]} (h : potentialInit beta V = .ok W) :
    W.coeff 0 = 0 ∧ (0 < W.natDegree → 0 < W.coeff W.natDegree) := by
  have hW : W = V - C (V.coeff 0) ∧ 0 ≤ V.coeff V.natDegree := by
    unfold potentialInit at h
    split_ifs at h with h1 h2 h3 h4 h5
    exact ⟨(Outcome.ok.inj h).symm, not_lt.1 h5⟩
  have hdeg : W.natDegree = V.natDegree := by rw [hW.1]; exact natDegree_sub_C
  refine ⟨by rw [hW.1]; simp, fun hd => ?_⟩
  have h1 : W.coeff W.natDegree = V.coeff V.natDegree := by
    rw [hdeg, hW.1, coeff_sub, coeff_C, if_neg (by omega), sub_zero]
  have h2 : W.coeff W.natDegree ≠ 0 := fun h0 => by
    have : W = 0 := leadingCoeff_eq_zero.1 h0
    rw [this] at hd; simp at hd
  rw [h1] at h2 ⊢
  exact lt_of_le_of_ne hW.2 (Ne.symm h2)

theorem natDegree_of_support_24 {W : ℝ[X]} (e4 : W.support = {2, 4}) : W.natDegree = 4 := by
  rw [natDegree_eq_support_max' (by intro h0; rw [h0] at e4; exact absurd e4 (by decide))]
  simp_rw [e4]
  exact le_antisymm (Finset.max'_le _ _ _ (by simp)) (Finset.le_max' _ _ (by simp))

theorem poly_of_support_24 {W : ℝ[X]} (e4 : W.support = {2, 4}) :
    W = C (2 * W.coeff 2 / 2) * X ^ 2 + C (4 * W.coeff 4 / 4) * X ^ 4 := by
  apply Polynomial.funext
  intro x
  rw [eval_of_support W _ e4 x, Finset.sum_pair (by norm_num)]
  simp

/-- C102 (holds for every potential with an equilibrium density except the two kinds below): for a potential accepted by the
constructor, whose equilibrium is known, and which is neither a double well (`V = g_2/2 x^2 + g_4/4 x^4` with
`g_2 < -2 √g_4`) nor the potential of `ClItKr10`, `rescale_largest_eig_val` returns `N^(2/3) c (lambda_max - b)` where `b` is the
right end of the support and `N^(2/3) c`, `c > 0`, is the natural scale at that edge of the equilibrium density.

Full property (false, see the refutations): the same for every potential with an equilibrium density. -/
theorem C102_rescale_partial (beta : ℝ) (V W : ℝ[X]) (h : potentialInit beta V = .ok W) (f : ℝ → ℝ) (lo hi : ℝ)
    (he : computeEquilibrium W = some (f, lo, hi)) (hW : W ≠ vClItKr10)
    (hdw : W.support = {2, 4} → -(2 * √(4 * W.coeff 4)) ≤ 2 * W.coeff 2) :
    ∃ c > 0, (∀ (N : ℕ) (lam : ℝ), rescaleLargest W (some (lo, hi)) (some N) lam = .ok ((N : ℝ) ^ (2 / 3 : ℝ) * c * (lam - hi)))
      ∧ SoftEdge f hi c := by
  obtain ⟨h0, hpos⟩ := potentialInit_facts h
  unfold computeEquilibrium at he
  split_ifs at he with e1 e3 e4
  · have hd : 0 < W.natDegree := by
      rcases Nat.eq_zero_or_pos W.natDegree with h' | h'
      · exfalso
        rw [h'] at e3
        have : 0 ∈ W.support := by rw [e3]; simp
        exact (mem_support_iff.1 this) h0
      · exact h'
    have hp := hpos hd
    obtain ⟨m, hm⟩ : ∃ m, W.natDegree = 2 * m := ⟨W.natDegree / 2, by omega⟩
    have hm1 : 1 ≤ m := by omega
    have hm0 : (0 : ℝ) < m := by exact_mod_cast hm1
    rw [hm] at he hp e3
    rw [Nat.mul_div_cancel_left _ two_pos] at he
    obtain ⟨k, hk⟩ : ∃ k, k = W.coeff (2 * m) := ⟨_, rfl⟩
    rw [← hk] at he hp
    have hWm : W = C k * X ^ (2 * m) := by
      apply Polynomial.funext
      intro x
      rw [eval_of_support W _ e3 x, Finset.sum_singleton, hk]
      simp
    obtain ⟨a, ha, hlo, hhi, hedge⟩ := x2m_edge m hm1 (((2 * m : ℕ) : ℝ) * k) (by positivity)
    rw [Option.some.inj he] at hlo hhi hedge
    simp only at hlo hhi hedge
    rw [hlo, hhi]
    have hpm : 0 < hPol m 1 := by
      obtain ⟨m', rfl⟩ : ∃ m', m = m' + 1 := ⟨m - 1, by omega⟩
      rw [hPol]
      have := cProd_pos m'
      have := hPol_nonneg m' 1
      positivity
    have hS := sumK_x2m m hm1 k a hp.ne' ha
    rw [← hWm] at hS
    have hS0 : 0 < 2 * m * k * a ^ (2 * m - 1) * hPol m 1 := by positivity
    have hab : -a < a := by linarith
    have hc := cV_pos W hab hS hS0.ne'
    refine ⟨cV W (-a) a, hc, fun N lam => rfl, softEdge_of hedge hc ?_⟩
    rw [cV_pow W hab hS, abs_of_pos hS0, show a - -a = 2 * a by ring, div_eq_iff (sqrt_pos.2 (by positivity)).ne',
      mul_assoc _ (√(2 * a)) (√(2 * a)), mul_self_sqrt (by positivity), show a ^ (2 * m - 1) = a ^ (2 * m - 2) * a by
        rw [← pow_succ]; congr 1; omega]
    push_cast
    ring
  · have hd := natDegree_of_support_24 e4
    have hp := hpos (by omega)
    rw [hd] at hp
    have hWe := poly_of_support_24 e4
    have hdw := hdw e4
    obtain ⟨g2, hg2⟩ : ∃ g, g = 2 * W.coeff 2 := ⟨_, rfl⟩
    obtain ⟨g4, hg4⟩ : ∃ g, g = 4 * W.coeff 4 := ⟨_, rfl⟩
    have h4 : 0 < g4 := by rw [hg4]; positivity
    rw [← hg2, ← hg4] at he hdw hWe
    by_cases hg : g2 > -4 * √(g4 / 4)
    · obtain ⟨a, ha, hlo, hhi, hS0, hedge⟩ := x2x4_edge_one g2 g4 h4 hg
      rw [Option.some.inj he] at hlo hhi hedge
      simp only at hlo hhi hedge
      rw [hlo, hhi]
      have hS := sumK_x2x4 g2 g4 a h4.ne' ha W hWe
      have hab : -a < a := by linarith
      have hc := cV_pos W hab hS hS0.ne'
      refine ⟨cV W (-a) a, hc, fun N lam => rfl, softEdge_of hedge hc ?_⟩
      rw [cV_pow W hab hS, abs_of_pos hS0, show a - -a = 2 * a by ring]
    · obtain ⟨b, hb, hlo, hhi, hbg, hedge⟩ := x2x4_edge_two g2 g4 h4 hg
      rw [Option.some.inj he] at hlo hhi hedge
      simp only at hlo hhi hedge
      rw [hlo, hhi]
      have hS := sumK_x2x4 g2 g4 b h4.ne' hb W hWe
      have hab : -b < b := by linarith
      have hgeq : g2 = -(2 * √g4) := by
        have h1 := four_sqrt g4 h4
        have h2 : g2 ≤ -4 * √(g4 / 4) := not_lt.1 hg
        linarith
      obtain ⟨q, hq⟩ : ∃ q, q = √(√g4) := ⟨_, rfl⟩
      have hr0 : 0 < √g4 := sqrt_pos.2 h4
      have hq0 : 0 < q := by rw [hq]; exact sqrt_pos.2 hr0
      have hq2 : √g4 = q ^ 2 := by rw [hq, sq_sqrt hr0.le]
      have hq4 : g4 = q ^ 4 := by
        have := sq_sqrt h4.le
        rw [hq2] at this
        rw [← this]
        ring
      rw [hgeq, hq2, hq4] at hbg
      have hbq : b * q = 2 := by
        have h1 : (b * q) ^ 2 * q ^ 2 = 2 ^ 2 * q ^ 2 := by linear_combination hbg
        have h2 : (b * q) ^ 2 = 2 ^ 2 := mul_right_cancel₀ (by positivity) h1
        exact (pow_left_inj₀ (by positivity) (by norm_num) two_ne_zero).1 h2
      have hSe : g2 * b + 3 / 2 * (g4 * b ^ 3) = 4 * q ^ 2 * b := by
        rw [hgeq, hq2, hq4]
        linear_combination 3 / 2 * q ^ 2 * b * (b * q + 2) * hbq
      rw [hSe] at hS
      have hS0 : 0 < 4 * q ^ 2 * b := by positivity
      have hc := cV_pos W hab hS hS0.ne'
      refine ⟨cV W (-b) b, hc, fun N lam => rfl, softEdge_of hedge hc ?_⟩
      rw [cV_pow W hab hS, abs_of_pos hS0, show b - -b = 2 * b by ring, div_eq_iff (sqrt_pos.2 (by positivity)).ne', mul_assoc (_ * _),
        mul_self_sqrt (by positivity), ← hq, hq2]
      linear_combination (-2 * q ^ 2 * b) * hbq

/-- C102 refuted for every double well `V = g_2/2 x^2 + g_4/4 x^4`, `g_2 < -2 √g_4`: the returned value is
`N^(2/3) c (lambda_max - b)` with a constant `c > 0` which is not the natural scale of the edge of the equilibrium density (the
formula used is the one of potentials whose equilibrium measure has an interval as support). -/
theorem C102_double_well_refuted (beta : ℝ) (V W : ℝ[X]) (h : potentialInit beta V = .ok W) (hs : W.support = {2, 4})
    (hdw : 2 * W.coeff 2 < -(2 * √(4 * W.coeff 4))) (hW : W ≠ vClItKr10) :
    ∃ f lo hi c, computeEquilibrium W = some (f, lo, hi) ∧ 0 < c
      ∧ (∀ (N : ℕ) (lam : ℝ), rescaleLargest W (some (lo, hi)) (some N) lam = .ok ((N : ℝ) ^ (2 / 3 : ℝ) * c * (lam - hi)))
      ∧ ¬ SoftEdge f hi c := by
  obtain ⟨h0, hpos⟩ := potentialInit_facts h
  have hd := natDegree_of_support_24 hs
  have hp := hpos (by omega)
  rw [hd] at hp
  have hWe := poly_of_support_24 hs
  have he : computeEquilibrium W = some (equilibriumX2X4 (2 * W.coeff 2) (4 * W.coeff 4)) := by
    unfold computeEquilibrium
    rw [if_pos (by rw [hd]), if_neg hW, if_neg (by rw [hd, hs]; decide), if_pos hs]
  obtain ⟨g2, hg2⟩ : ∃ g, g = 2 * W.coeff 2 := ⟨_, rfl⟩
  obtain ⟨g4, hg4⟩ : ∃ g, g = 4 * W.coeff 4 := ⟨_, rfl⟩
  have h4 : 0 < g4 := by rw [hg4]; positivity
  rw [← hg2, ← hg4] at he hdw hWe
  have hg : ¬ g2 > -4 * √(g4 / 4) := by
    have h1 := four_sqrt g4 h4
    rw [gt_iff_lt, not_lt]
    linarith
  obtain ⟨b, hb, hlo, hhi, hbg, hedge⟩ := x2x4_edge_two g2 g4 h4 hg
  have hS := sumK_x2x4 g2 g4 b h4.ne' hb W hWe
  have hab : -b < b := by linarith
  obtain ⟨q, hq⟩ : ∃ q, q = √(√g4) := ⟨_, rfl⟩
  have hr0 : 0 < √g4 := sqrt_pos.2 h4
  have hq0 : 0 < q := by rw [hq]; exact sqrt_pos.2 hr0
  have hq2 : √g4 = q ^ 2 := by rw [hq, sq_sqrt hr0.le]
  have hq4 : g4 = q ^ 4 := by
    have := sq_sqrt h4.le
    rw [hq2] at this
    rw [← this]
    ring
  rw [hq2] at hdw
  have hge : g2 = 2 * q ^ 2 - b ^ 2 * q ^ 4 := by
    rw [hq2, hq4] at hbg
    linarith
  have hbq : 2 < b * q := by
    rw [hge] at hdw
    have h1 : 2 ^ 2 * q ^ 2 < (b * q) ^ 2 * q ^ 2 := by nlinarith
    have h2 : (2 : ℝ) ^ 2 < (b * q) ^ 2 := lt_of_mul_lt_mul_right h1 (by positivity)
    exact lt_of_pow_lt_pow_left₀ 2 (by positivity) h2
  have hSe : g2 * b + 3 / 2 * (g4 * b ^ 3) = b * (2 * q ^ 2 + (b * q) ^ 2 * q ^ 2 / 2) := by
    rw [hge, hq4]
    ring
  rw [hSe] at hS
  have hS0 : 0 < b * (2 * q ^ 2 + (b * q) ^ 2 * q ^ 2 / 2) := by positivity
  have hc := cV_pos W hab hS hS0.ne'
  refine ⟨(equilibriumX2X4 g2 g4).1, -b, b, cV W (-b) b, ?_, hc, fun N lam => rfl, not_softEdge_of hedge hc ?_⟩
  · rw [he]
    exact congrArg some (Prod.ext rfl (Prod.ext hlo hhi))
  · rw [cV_pow W hab hS, abs_of_pos hS0, show b - -b = 2 * b by ring, Ne, div_eq_iff (sqrt_pos.2 (by positivity)).ne', mul_assoc (_ * _),
      mul_self_sqrt (by positivity), ← hq, hq2]
    intro hcon
    have h1 : b * q ^ 2 / 2 * (b * q - 2) ^ 2 = 0 := by linear_combination hcon
    have h2 : 0 < b * q ^ 2 / 2 * (b * q - 2) ^ 2 := by
      have : 0 < b * q - 2 := by linarith
      positivity
    linarith

/-- C102 for the potential of `ClItKr10`, whose equilibrium density vanishes to higher order at its right edge: the returned value
is `0` whatever `lambda_max`, and no scale `N^(2/3) c` is the natural one. -/
theorem C102_ClItKr10_refuted : ∃ f lo hi, computeEquilibrium vClItKr10 = some (f, lo, hi)
    ∧ (∀ (N : ℕ) (lam : ℝ), rescaleLargest vClItKr10 (some (lo, hi)) (some N) lam = .ok 0) ∧ ∀ c > 0, ¬ SoftEdge f hi c := by
  have hd : vClItKr10.natDegree = 4 := by
    unfold vClItKr10
    compute_degree!
  refine ⟨equilibriumClItKr10.1, 2 * -1, 2 * 1, ?_, fun N lam => ?_, fun c hc => ?_⟩
  · unfold computeEquilibrium
    rw [if_pos (by rw [hd]), if_pos rfl]
    rfl
  · have h := sumK_clItKr10
    have e : cV vClItKr10 (2 * -1) (2 * 1) = 0 := by
      rw [show (2 : ℝ) * -1 = -2 by norm_num, mul_one, cV, h]
      norm_num
    rw [rescaleLargest, e, mul_zero, zero_mul]
  · rw [mul_one]
    exact not_softEdge_of clItKr10_edge hc (rpow_pos_of_pos hc _).ne'

/-- C102: the call fails before any sampling, and for a potential without known equilibrium. -/
theorem C102_errors (W : ℝ[X]) (s : Option (ℝ × ℝ)) (N : Option ℕ) (lam : ℝ) (h : s = none ∨ N = none) :
    rescaleLargest W s N lam = .raise .typeError := by
  rcases h with rfl | rfl
  · cases N <;> rfl
  · cases s <;> rfl

/-- The Gaussian ensemble `V = x^2 / 2` meets the hypotheses of C102, with `c = 1` and support `[-2, 2]`. -/
example : cV (C (1 / 2) * X ^ 2 : ℝ[X]) (-2) 2 = 1 := by
  have h := sumK_x2m 1 le_rfl (1 / 2) 2 (by norm_num) (by norm_num)
  rw [mul_one] at h
  rw [cV, h]
  simp [hPol, cProd]
  norm_num

end Verif.Props
