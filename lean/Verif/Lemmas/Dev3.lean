import Verif.Lemmas.Dev2
import Verif.Props.PolyPotential
import Mathlib.Analysis.Convex.SpecificFunctions.Basic
import Mathlib.Analysis.Convex.SpecificFunctions.Pow
import Mathlib.Analysis.Convex.Deriv
import Mathlib.Topology.Algebra.Polynomial

namespace Verif.Lemmas
open Verif Verif.Model MeasureTheory Set Polynomial

/-- the polynomials `p1 x + p2 x^2 + p4 x^4` (plus a constant) with `p2, p4 >= 0` -/
structure EvenConvex (P : ℝ[X]) : Prop where
  deg : P.natDegree ≤ 4
  c3 : P.coeff 3 = 0
  c2 : 0 ≤ P.coeff 2
  c4 : 0 ≤ P.coeff 4

theorem EvenConvex.eval (h : EvenConvex P) (x : ℝ) :
    P.eval x = P.coeff 0 + P.coeff 1 * x + P.coeff 2 * x ^ 2 + P.coeff 4 * x ^ 4 := by
  rw [eval_eq_sum_range' (n := 5) (by have := h.deg; omega)]
  simp only [Finset.sum_range_succ, Finset.sum_range_zero, h.c3]
  ring

theorem EvenConvex.derivative (h : EvenConvex P) (x : ℝ) :
    P.derivative.eval x = P.coeff 1 + 2 * P.coeff 2 * x + 4 * P.coeff 4 * x ^ 3 := by
  have hd : P.derivative.natDegree < 4 := by
    have := P.natDegree_derivative_le; have := h.deg; omega
  rw [eval_eq_sum_range' (n := 4) hd]
  simp only [Finset.sum_range_succ, Finset.sum_range_zero, coeff_derivative, h.c3]
  norm_num
  ring

theorem EvenConvex.convex (h : EvenConvex P) : ConvexOn ℝ univ (fun x => P.eval x) := by
  simp only [h.eval]
  have h2 : ConvexOn ℝ univ (fun x : ℝ => x ^ 2) := (even_two).convexOn_pow
  have h4 : ConvexOn ℝ univ (fun x : ℝ => x ^ 4) := (by decide : Even 4).convexOn_pow
  have h1 : ConvexOn ℝ univ (fun x : ℝ => P.coeff 0 + P.coeff 1 * x) := by
    refine ⟨convex_univ, fun x _ y _ a b _ _ hab => le_of_eq ?_⟩
    simp only [smul_eq_mul]
    linear_combination (-P.coeff 0) * hab
  have := (h1.add (h2.smul h.c2)).add (h4.smul h.c4)
  exact this

theorem EvenConvex.tangent (h : EvenConvex P) (m y : ℝ) : P.eval m + P.derivative.eval m * (y - m) ≤ P.eval y := by
  rw [h.eval, h.eval, h.derivative]
  have h2 := h.c2; have h4 := h.c4
  have e : P.coeff 0 + P.coeff 1 * y + P.coeff 2 * y ^ 2 + P.coeff 4 * y ^ 4
      - (P.coeff 0 + P.coeff 1 * m + P.coeff 2 * m ^ 2 + P.coeff 4 * m ^ 4
        + (P.coeff 1 + 2 * P.coeff 2 * m + 4 * P.coeff 4 * m ^ 3) * (y - m))
      = P.coeff 2 * (y - m) ^ 2 + P.coeff 4 * ((y - m) ^ 2 * ((y + m) ^ 2 + 2 * m ^ 2)) := by ring
  have : 0 ≤ P.coeff 2 * (y - m) ^ 2 + P.coeff 4 * ((y - m) ^ 2 * ((y + m) ^ 2 + 2 * m ^ 2)) := by positivity
  linarith

theorem concave_shift {D : Set ℝ} {f : ℝ → ℝ} (h : ConcaveOn ℝ D f) (m : ℝ) :
    ConcaveOn ℝ {x | x + m ∈ D} (fun x => f (x + m)) := by
  have key : ∀ {x y a b : ℝ}, a + b = 1 → a • x + b • y + m = a • (x + m) + b • (y + m) := by
    intro x y a b hab
    simp only [smul_eq_mul]; linear_combination (-m) * hab
  refine ⟨fun x hx y hy a b ha hb hab => ?_, fun x hx y hy a b ha hb hab => ?_⟩
  · simp only [mem_setOf_eq] at hx hy ⊢
    rw [key hab]; exact h.1 hx hy ha hb hab
  · dsimp only
    rw [key hab]; exact h.2 hx hy ha hb hab

/-- conditions on `a`, `b` from the values at `2a`, `2b` -/
theorem devOk_of {s : DevSt} {trunc : Option ℝ} {D : Set ℝ} (hc : ConcaveOn ℝ D s.logf) (h0 : (0 : ℝ) ∈ D)
    (h2a : 2 * s.a ∈ D) (h2b : 2 * s.b ∈ D)
    (hb : s.b < 0) (ha : 0 < s.a) (hfa : s.logf (2 * s.a) < s.logf 0) (hfb : s.logf (2 * s.b) < s.logf 0)
    (ht : ∀ m ∈ trunc, -m < 2 * s.b) : DevOk s trunc where
  hb := hb
  ha := ha
  fa := by
    have := conc3 hc h0 h2a ha.le (by linarith)
    rw [DevSt.fa2a]; nlinarith
  fb := by
    have := conc3 hc h2b h0 (by linarith : 2 * s.b ≤ s.b) hb.le
    rw [DevSt.fb2b]; nlinarith
  ht := ht

theorem rejProb_le_one {s : DevSt} {trunc : Option ℝ} (h : DevOk s trunc) : rejProb s trunc ≤ 1 := by
  have h1 := propose_law h (φ := fun _ => 1) measurable_const
  simp only [lintegral_const, one_mul, Measure.restrict_apply MeasurableSet.univ, univ_inter, Real.volume_Ioo, sub_zero,
    ENNReal.ofReal_one] at h1
  rw [h1, rejProb]
  refine mul_le_mul_right (lintegral_mono fun x => ?_) _
  rw [← ENNReal.ofReal_mul (by linarith [min_le_left 1 (Real.exp (s.logf x - s.logh x))])]
  apply ENNReal.ofReal_le_ofReal
  have hm : 0 ≤ min 1 (Real.exp (s.logf x - s.logh x)) := le_min zero_le_one (Real.exp_pos _).le
  nlinarith [Real.exp_pos (s.logh x)]

theorem loop_const {s : DevSt} {trunc : Option ℝ} (h : DevOk s trunc) {n : ℕ} (hn : 0 < n) :
    let c := (∑ k ∈ Finset.range n, rejProb s trunc ^ k) * ENNReal.ofReal (1 / (s.masses trunc).sum)
    0 < c ∧ c < ⊤ := by
  intro c
  constructor
  · refine ENNReal.mul_pos ?_ ?_
    · obtain ⟨k, rfl⟩ : ∃ k, n = k + 1 := ⟨n - 1, by omega⟩
      rw [Finset.sum_range_succ', pow_zero]
      simp
    · rw [Ne, ENNReal.ofReal_eq_zero, not_le]
      exact one_div_pos.2 (masses_sum_pos h)
  · refine ENNReal.mul_lt_top ?_ ENNReal.ofReal_lt_top
    refine ENNReal.sum_lt_top.2 fun k _ => ?_
    exact (pow_le_one₀ zero_le (rejProb_le_one h)).trans_lt ENNReal.one_lt_top

theorem lint_shift (m : ℝ) (g : ℝ → ENNReal) : ∫⁻ x in Ioi (-m), g (x + m) = ∫⁻ y in Ioi (0 : ℝ), g y := by
  rw [← lintegral_indicator measurableSet_Ioi, ← lintegral_indicator measurableSet_Ioi,
    ← lintegral_add_right_eq_self ((Ioi (0 : ℝ)).indicator g) m]
  refine lintegral_congr fun x => ?_
  simp only [indicator, mem_Ioi]
  congr 1
  exact propext ⟨fun h => by linarith, fun h => by linarith⟩

/-! ### Quartic -/

variable {P : ℝ[X]} {mode rb ra : ℝ}

theorem quartic_concave (h : EvenConvex P) (mode rb ra : ℝ) :
    ConcaveOn ℝ univ (devState P none mode rb ra).logf := by
  have := concave_shift (h.convex.neg) mode
  have e : {x : ℝ | x + mode ∈ (univ : Set ℝ)} = univ := by ext x; simp
  rw [e] at this
  exact this

theorem quartic_max (h : EvenConvex P) (hr : QuarticRoots P mode rb ra) (x : ℝ) :
    (devState P none mode rb ra).logf x ≤ (devState P none mode rb ra).logf 0 := by
  have := h.tangent mode (x + mode)
  rw [hr.mode_root] at this
  simp only [devState, devLogf, Option.elim, zero_add]
  linarith

theorem quartic_val {x : ℝ} (hx : (shiftPol P (-mode) - C (P.eval mode) - C (2 * Real.log 2)).eval x = 0) :
    (devState P none mode rb ra).logf x = (devState P none mode rb ra).logf 0 - 2 * Real.log 2 := by
  simp only [eval_sub, eval_C, Props.C49_shift_polynomial, sub_neg_eq_add] at hx
  simp only [devState, devLogf, Option.elim, zero_add]
  linarith

theorem log2_pos : 0 < 2 * Real.log 2 := by have := Real.log_pos (by norm_num : (1 : ℝ) < 2); linarith

theorem quartic_ok (h : EvenConvex P) (hr : QuarticRoots P mode rb ra) : DevOk (devState P none mode rb ra) none := by
  have hc := quartic_concave h mode rb ra
  have hb := quartic_val (rb := rb) (ra := ra) hr.b_root
  have ha := quartic_val (rb := rb) (ra := ra) hr.a_root
  have hl := log2_pos
  have hrb : rb < 0 := by
    by_contra hcon
    push Not at hcon
    have := conc3 hc (mem_univ 0) (mem_univ ra) hcon hr.lt.le
    have hlt := hr.lt
    rw [ha, hb] at this
    nlinarith
  have hra : 0 < ra := by
    by_contra hcon
    push Not at hcon
    have := conc3 hc (mem_univ rb) (mem_univ 0) hr.lt.le hcon
    have hlt := hr.lt
    rw [ha, hb] at this
    nlinarith
  have ea : 2 * (devState P none mode rb ra).a = ra := by simp only [devState]; ring
  have eb : 2 * (devState P none mode rb ra).b = rb := by simp only [devState]; ring
  refine devOk_of hc (mem_univ _) (mem_univ _) (mem_univ _) ?_ ?_ ?_ ?_ (by simp)
  · linarith
  · linarith
  · rw [ea, ha]; linarith
  · rw [eb, hb]; linarith

theorem quartic_measurable (P : ℝ[X]) (mode rb ra : ℝ) : Measurable (devState P none mode rb ra).logf := by
  have : Continuous fun x : ℝ => -P.eval (x + mode) := by fun_prop
  exact this.measurable

/-! ### Generalised gamma -/

/-- the polynomials `p1 x + p2 x^2 + p3 x^3` (plus a constant) with `p2, p3 >= 0` -/
structure CubicConvex (P : ℝ[X]) : Prop where
  deg : P.natDegree ≤ 3
  c2 : 0 ≤ P.coeff 2
  c3 : 0 ≤ P.coeff 3

theorem CubicConvex.eval (h : CubicConvex P) (x : ℝ) :
    P.eval x = P.coeff 0 + P.coeff 1 * x + P.coeff 2 * x ^ 2 + P.coeff 3 * x ^ 3 := by
  rw [eval_eq_sum_range' (n := 4) (by have := h.deg; omega)]
  simp only [Finset.sum_range_succ, Finset.sum_range_zero]
  ring

theorem CubicConvex.derivative (h : CubicConvex P) (x : ℝ) :
    P.derivative.eval x = P.coeff 1 + 2 * P.coeff 2 * x + 3 * P.coeff 3 * x ^ 2 := by
  have hd : P.derivative.natDegree < 3 := by
    have := P.natDegree_derivative_le
    have h3 := h.deg
    by_cases h0 : P.natDegree = 0
    · have : P.derivative = 0 := by rw [eq_C_of_natDegree_eq_zero h0]; simp
      rw [this]; simp
    · omega
  rw [eval_eq_sum_range' (n := 3) hd]
  simp only [Finset.sum_range_succ, Finset.sum_range_zero, coeff_derivative]
  norm_num
  ring

theorem CubicConvex.convex (h : CubicConvex P) : ConvexOn ℝ (Ioi 0) (fun x => P.eval x) := by
  simp only [h.eval]
  have h2 : ConvexOn ℝ (Ioi 0) (fun x : ℝ => x ^ 2) := (convexOn_pow 2).subset Ioi_subset_Ici_self (convex_Ioi 0)
  have h3 : ConvexOn ℝ (Ioi 0) (fun x : ℝ => x ^ 3) := (convexOn_pow 3).subset Ioi_subset_Ici_self (convex_Ioi 0)
  have h1 : ConvexOn ℝ (Ioi 0) (fun x : ℝ => P.coeff 0 + P.coeff 1 * x) := by
    refine ⟨convex_Ioi 0, fun x _ y _ a b _ _ hab => le_of_eq ?_⟩
    simp only [smul_eq_mul]
    linear_combination (-P.coeff 0) * hab
  exact (h1.add (h2.smul h.c2)).add (h3.smul h.c3)

theorem CubicConvex.tangent (h : CubicConvex P) {m y : ℝ} (hm : 0 < m) (hy : 0 < y) :
    P.eval m + P.derivative.eval m * (y - m) ≤ P.eval y := by
  rw [h.eval, h.eval, h.derivative]
  have h2 := h.c2; have h3 := h.c3
  have e : P.coeff 0 + P.coeff 1 * y + P.coeff 2 * y ^ 2 + P.coeff 3 * y ^ 3
      - (P.coeff 0 + P.coeff 1 * m + P.coeff 2 * m ^ 2 + P.coeff 3 * m ^ 3
        + (P.coeff 1 + 2 * P.coeff 2 * m + 3 * P.coeff 3 * m ^ 2) * (y - m))
      = P.coeff 2 * (y - m) ^ 2 + P.coeff 3 * ((y - m) ^ 2 * (y + 2 * m)) := by ring
  have : 0 ≤ P.coeff 2 * (y - m) ^ 2 + P.coeff 3 * ((y - m) ^ 2 * (y + 2 * m)) := by positivity
  linarith

variable {k : ℝ}

theorem gamma_concave (h : CubicConvex P) (hk : 1 < k) (mode rb ra : ℝ) :
    ConcaveOn ℝ (Ioi (-mode)) (devState P (some k) mode rb ra).logf := by
  have h1 : ConcaveOn ℝ (Ioi 0) (fun x => (k - 1) * Real.log x - P.eval x) := by
    have := (strictConcaveOn_log_Ioi.concaveOn.smul (by linarith : 0 ≤ k - 1)).sub h.convex
    exact this
  have h2 := concave_shift h1 mode
  have e : {x : ℝ | x + mode ∈ Ioi 0} = Ioi (-mode) := by
    ext x; simp only [mem_setOf_eq, mem_Ioi]; constructor <;> intro h <;> linarith
  rw [e] at h2
  exact h2

/-- the mode is the unique maximum -/
theorem gamma_max (h : CubicConvex P) (hk : 1 < k) (hr : GammaRoots k P mode rb ra) {x : ℝ} (hx : -mode < x) (h0 : x ≠ 0) :
    (devState P (some k) mode rb ra).logf x < (devState P (some k) mode rb ra).logf 0 := by
  have hm := hr.mode_pos
  have hy : 0 < x + mode := by linarith
  have ht := h.tangent hm hy
  have hroot := hr.mode_root
  simp only [eval_sub, eval_mul, eval_X, eval_C] at hroot
  have hd : P.derivative.eval mode = (k - 1) / mode := by rw [eq_div_iff hm.ne']; linarith
  rw [hd] at ht
  have hlog := Real.log_lt_sub_one_of_pos (div_pos hy hm) (by
    rw [Ne, div_eq_one_iff_eq hm.ne']; intro hc; apply h0; linarith)
  rw [Real.log_div hy.ne' hm.ne'] at hlog
  simp only [devState, devLogf, Option.elim, zero_add]
  have e : (k - 1) / mode * (x + mode - mode) = (k - 1) * ((x + mode) / mode - 1) := by field_simp
  rw [e] at ht
  nlinarith

theorem gamma_ok (h : CubicConvex P) (hk : 1 < k) (hr : GammaRoots k P mode rb ra) :
    DevOk (devState P (some k) mode rb ra) (some mode) := by
  have hm := hr.mode_pos
  have hrb : -mode < rb ∧ rb < 0 := by
    rcases hr.b_root with hb | hb
    · exact ⟨hb.1, hb.2.1⟩
    · constructor <;> linarith
  have hra := hr.a_pos
  have ea : 2 * (devState P (some k) mode rb ra).a = ra := by simp only [devState]; ring
  have eb : 2 * (devState P (some k) mode rb ra).b = rb := by simp only [devState]; ring
  refine devOk_of (gamma_concave h hk mode rb ra) ?_ ?_ ?_ ?_ ?_ ?_ ?_ ?_
  · simp only [mem_Ioi]; linarith
  · rw [ea]; simp only [mem_Ioi]; linarith
  · rw [eb]; simp only [mem_Ioi]; linarith
  · linarith
  · linarith
  · rw [ea]; exact gamma_max h hk hr (by linarith) hra.ne'
  · rw [eb]; exact gamma_max h hk hr (by linarith) hrb.2.ne
  · intro m hmm
    rw [eb]
    simp only [Option.mem_def, Option.some.injEq] at hmm
    rw [← hmm]; exact hrb.1

theorem gamma_measurable (P : ℝ[X]) (k mode rb ra : ℝ) : Measurable (devState P (some k) mode rb ra).logf := by
  have : Continuous fun x : ℝ => P.eval (x + mode) := by fun_prop
  have h2 := this.measurable
  have h3 : Measurable fun x : ℝ => (k - 1) * Real.log (x + mode) - P.eval (x + mode) := by fun_prop
  exact h3

end Verif.Lemmas
