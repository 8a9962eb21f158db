import Verif.Lemmas.PolyLaw1
import Mathlib.Analysis.Polynomial.Basic
import Mathlib.MeasureTheory.Integral.Pi
import Mathlib.MeasureTheory.Integral.ExpDecay

/-!
The density of a beta ensemble with polynomial potential of even degree is integrable.
-/

namespace Verif.Lemmas.PL
open Finset MeasureTheory Verif.Model Verif.Spec Verif.Lemmas Polynomial

theorem one_sided {Q : ℝ[X]} (hd : 2 ≤ Q.natDegree) (hl : 0 < Q.leadingCoeff) (A : ℝ) :
    ∃ M : ℝ, ∀ x : ℝ, 0 ≤ x → A * x - M ≤ Q.eval x := by
  have hdeg : (C A * X : ℝ[X]).degree < Q.degree := by
    refine lt_of_le_of_lt (degree_C_mul_X_le A) ?_
    rw [degree_eq_natDegree (by rintro rfl; simp at hd)]
    exact_mod_cast hd
  have h1 : (Q - C A * X).leadingCoeff = Q.leadingCoeff := leadingCoeff_sub_of_degree_lt hdeg
  have h2 : (Q - C A * X).degree = Q.degree := degree_sub_eq_left_of_degree_lt hdeg
  have h3 : Filter.Tendsto (fun x => (Q - C A * X).eval x) Filter.atTop Filter.atTop := by
    refine tendsto_atTop_of_leadingCoeff_nonneg _ ?_ (by rw [h1]; exact hl.le)
    rw [h2]
    refine lt_trans ?_ (lt_of_lt_of_le ?_ (le_refl _)) (b := (1 : WithBot ℕ))
    · exact_mod_cast Nat.zero_lt_one
    · rw [degree_eq_natDegree (by rintro rfl; simp at hd)]
      exact_mod_cast hd
  obtain ⟨T, hT⟩ := Filter.eventually_atTop.1 (h3.eventually_ge_atTop 0)
  obtain ⟨m, hm⟩ := (isCompact_Icc (a := (0 : ℝ)) (b := T)).bddBelow_image (f := fun x => (Q - C A * X).eval x)
    (Polynomial.continuous _).continuousOn
  refine ⟨-(min m 0), fun x hx => ?_⟩
  have key : min m 0 ≤ (Q - C A * X).eval x := by
    rcases le_total T x with h | h
    · exact (min_le_right _ _).trans (hT x h)
    · exact (min_le_left _ _).trans (hm ⟨x, ⟨hx, h⟩, rfl⟩)
  simp only [eval_sub, eval_mul, eval_C, eval_X] at key
  linarith

theorem two_sided {Q : ℝ[X]} (hd : 2 ≤ Q.natDegree) (he : Even Q.natDegree) (hl : 0 < Q.leadingCoeff) (A : ℝ) :
    ∃ M : ℝ, ∀ x : ℝ, A * |x| - M ≤ Q.eval x := by
  obtain ⟨M1, h1⟩ := one_sided hd hl A
  obtain ⟨M2, h2⟩ := one_sided (Q := Q.comp (-X)) (by rw [natDegree_comp]; simpa using hd)
    (by rw [leadingCoeff_comp (by simp)]; simpa [he.neg_one_pow] using hl) A
  refine ⟨max M1 M2, fun x => ?_⟩
  rcases le_total 0 x with h | h
  · rw [abs_of_nonneg h]
    have := h1 x h
    linarith [le_max_left M1 M2]
  · rw [abs_of_nonpos h]
    have := h2 (-x) (by linarith)
    rw [eval_comp] at this
    simp only [eval_neg, eval_X, neg_neg] at this
    linarith [le_max_right M1 M2]

theorem integrable_exp_neg_abs : Integrable fun x : ℝ => Real.exp (-|x|) := by
  have h1 : IntegrableOn (fun x : ℝ => Real.exp (-|x|)) (Set.Ioi 0) :=
    (integrableOn_exp_neg_Ioi 0).congr_fun (fun x hx => by
      change Real.exp (-x) = Real.exp (-|x|)
      rw [abs_of_pos hx]) measurableSet_Ioi
  have h2 : IntegrableOn (fun x : ℝ => Real.exp (-|x|)) (Set.Iic 0) :=
    (integrableOn_exp_Iic 0).congr_fun (fun x hx => by
      change Real.exp x = Real.exp (-|x|)
      rw [abs_of_nonpos hx, neg_neg]) measurableSet_Iic
  have := h2.union h1
  rw [Set.Iic_union_Ioi] at this
  exact integrableOn_univ.1 this

theorem vdm_le {N : ℕ} {l : Fin N → ℝ} (hl : StrictMono l) : vdm l ≤ Real.exp (2 * N * ∑ i, |l i|) := by
  have hS : ∀ i, |l i| ≤ ∑ i, |l i| := fun i => single_le_sum (f := fun i => |l i|) (fun j _ => abs_nonneg _) (mem_univ i)
  have hS0 : 0 ≤ ∑ i, |l i| := sum_nonneg fun i _ => abs_nonneg _
  have h1 : ∀ i, ∏ j ∈ Ioi i, (l j - l i) ≤ Real.exp (∑ j ∈ Ioi i, (|l j| + |l i|)) := by
    intro i
    rw [Real.exp_sum]
    refine prod_le_prod (fun j hj => (sub_pos.2 (hl (mem_Ioi.1 hj))).le) fun j hj => ?_
    have := Real.add_one_le_exp (|l j| + |l i|)
    have h2 := le_abs_self (l j)
    have h3 := neg_abs_le (l i)
    linarith
  have h2 : vdm l ≤ Real.exp (∑ i, ∑ j ∈ Ioi i, (|l j| + |l i|)) := by
    rw [Real.exp_sum, vdm]
    exact prod_le_prod (fun i _ => prod_nonneg fun j hj => (sub_pos.2 (hl (mem_Ioi.1 hj))).le) fun i _ => h1 i
  refine h2.trans (Real.exp_le_exp.2 ?_)
  have h3 : ∀ i, ∑ j ∈ Ioi i, (|l j| + |l i|) ≤ ∑ i, |l i| + N * |l i| := by
    intro i
    rw [sum_add_distrib, sum_const, nsmul_eq_mul]
    refine add_le_add (sum_le_sum_of_subset_of_nonneg (subset_univ _) fun j _ _ => abs_nonneg _) ?_
    refine mul_le_mul_of_nonneg_right ?_ (abs_nonneg _)
    have := card_le_univ (Ioi i)
    rw [Fintype.card_fin] at this
    exact_mod_cast this
  refine (sum_le_sum fun i _ => h3 i).trans ?_
  rw [sum_add_distrib, ← mul_sum, sum_const, card_univ, Fintype.card_fin, nsmul_eq_mul]
  linarith

theorem ensemble_lt_top {N : ℕ} {beta g : ℝ} (hb : 0 < beta) (hg : 0 < g) {V : ℝ[X]} (hd : 2 ≤ V.natDegree)
    (he : Even V.natDegree) (hl : 0 < V.leadingCoeff) :
    ∫⁻ l in ordS N, ENNReal.ofReal (vdm l ^ beta) * ENNReal.ofReal (Real.exp (-(g * ∑ i, V.eval (l i)))) < ⊤ := by
  have hgV : (C g * V).natDegree = V.natDegree := natDegree_C_mul hg.ne'
  obtain ⟨M, hM⟩ := two_sided (Q := C g * V) (by rw [hgV]; exact hd) (by rw [hgV]; exact he)
    (by rw [leadingCoeff_mul, leadingCoeff_C]; positivity) (beta * (2 * N) + 1)
  have hint : Integrable fun l : Fin N → ℝ => ∏ i, Real.exp (-|l i|) :=
    Integrable.fintype_prod (f := fun _ x => Real.exp (-|x|)) fun _ => integrable_exp_neg_abs
  have hfin : ∫⁻ l : Fin N → ℝ, ENNReal.ofReal (Real.exp (N * M) * ∏ i, Real.exp (-|l i|)) < ⊤ := by
    have := (hint.const_mul (Real.exp (N * M))).lintegral_lt_top
    exact this
  refine lt_of_le_of_lt ?_ hfin
  refine le_trans ?_ (setLIntegral_le_lintegral (ordS N) _)
  refine setLIntegral_mono' measurableSet_ordS fun l hls => ?_
  have hls : StrictMono l := hls
  rw [← ENNReal.ofReal_mul (Real.rpow_nonneg (vdm_pos hls).le _)]
  refine ENNReal.ofReal_le_ofReal ?_
  have h1 : vdm l ^ beta ≤ Real.exp (beta * (2 * N) * ∑ i, |l i|) := by
    refine (Real.rpow_le_rpow (vdm_pos hls).le (vdm_le hls) hb.le).trans ?_
    rw [← Real.exp_mul]
    exact Real.exp_le_exp.2 (by nlinarith)
  refine (mul_le_mul_of_nonneg_right h1 (Real.exp_pos _).le).trans ?_
  rw [← Real.exp_sum, ← Real.exp_add, ← Real.exp_add]
  refine Real.exp_le_exp.2 ?_
  have h2 : ∑ i, ((beta * (2 * N) + 1) * |l i| - M) ≤ ∑ i, g * V.eval (l i) := by
    refine sum_le_sum fun i _ => ?_
    have := hM (l i)
    rwa [eval_mul, eval_C] at this
  rw [sum_sub_distrib, ← mul_sum, ← mul_sum, sum_const, card_univ, Fintype.card_fin, nsmul_eq_mul] at h2
  rw [sum_neg_distrib]
  nlinarith

end Verif.Lemmas.PL
