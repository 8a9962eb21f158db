import Verif.Lemmas.Dev3
import Mathlib.Tactic.ComputeDegree

/-!
Exact sampler of the log-concave conditionals: the envelope dominates the target (C52), and the value returned has exactly the
law of the conditional when it is accepted (C74).
-/

namespace Verif.Props
open Verif Verif.Model Verif.Lemmas Verif.Spec MeasureTheory Set Polynomial

/-! ## C52 -/

/-- **C52** For every polynomial `p0 + p1 x + p2 x^2 + p4 x^4` with `p2, p4 >= 0` (the conditionals of the diagonal
coefficients) and whatever mode and roots the root finders return, the dominating function is at least the target
everywhere, so that the acceptance ratio is in `(0, 1]`. -/
theorem C52_envelope_quartic {P : ℝ[X]} (hdeg : P.natDegree ≤ 4) (h3 : P.coeff 3 = 0) (h2 : 0 ≤ P.coeff 2)
    (h4 : 0 ≤ P.coeff 4) {mode rb ra : ℝ} (hr : QuarticRoots P mode rb ra) (x : ℝ) :
    let s := devState P none mode rb ra
    s.logf x = -P.eval (x + mode) ∧ s.logf x ≤ s.logh x
      ∧ 0 < Real.exp (s.logf x - s.logh x) ∧ Real.exp (s.logf x - s.logh x) ≤ 1 := by
  intro s
  have h : EvenConvex P := ⟨hdeg, h3, h2, h4⟩
  have hok := quartic_ok h hr
  have hle : s.logf x ≤ s.logh x :=
    logf_le_logh (quartic_concave h mode rb ra) (mem_univ _) (fun y _ => quartic_max h hr y) hok.hb hok.ha (mem_univ _)
      (mem_univ _) (mem_univ x)
  exact ⟨rfl, hle, Real.exp_pos _, Real.exp_le_one_iff.2 (by linarith)⟩

/-- **C52** The same for `x^(shape-1) exp(-P(x))` on `x > 0` with `shape > 1` and
`P = p0 + p1 x + p2 x^2 + p3 x^3`, `p2, p3 >= 0` (the conditionals of the off-diagonal coefficients). -/
theorem C52_envelope_gamma {P : ℝ[X]} (hdeg : P.natDegree ≤ 3) (h2 : 0 ≤ P.coeff 2) (h3 : 0 ≤ P.coeff 3)
    {shape mode rb ra : ℝ} (hs : 1 < shape) (hr : GammaRoots shape P mode rb ra) {x : ℝ} (hx : 0 < x + mode) :
    let s := devState P (some shape) mode rb ra
    s.logf x = (shape - 1) * Real.log (x + mode) - P.eval (x + mode) ∧ s.logf x ≤ s.logh x
      ∧ 0 < Real.exp (s.logf x - s.logh x) ∧ Real.exp (s.logf x - s.logh x) ≤ 1 := by
  intro s
  have h : CubicConvex P := ⟨hdeg, h2, h3⟩
  have hok := gamma_ok h hs hr
  have hm := hr.mode_pos
  have hb := hok.ht mode rfl
  have ha := hok.ha
  have hle : s.logf x ≤ s.logh x := by
    refine logf_le_logh (gamma_concave h hs mode rb ra) (mem_Ioi.2 (by linarith)) (fun y hy => ?_) hok.hb hok.ha
      (mem_Ioi.2 (by linarith)) (mem_Ioi.2 hb) (mem_Ioi.2 (by linarith))
    rcases eq_or_ne y 0 with rfl | h0
    · exact le_rfl
    · exact (gamma_max h hs hr hy h0).le
  exact ⟨rfl, hle, Real.exp_pos _, Real.exp_le_one_iff.2 (by linarith)⟩

/-! ## C74 -/

/-- **C74** Quartic conditionals: over `n >= 1` rounds of independent uniform numbers, the expectation of any function
of the value returned, on the event that it was accepted, is a constant times the integral of this function against
`exp(-P)`; the constant does not depend on the function. -/
theorem C74_quartic_exact {P : ℝ[X]} (hdeg : P.natDegree ≤ 4) (h3 : P.coeff 3 = 0) (h2 : 0 ≤ P.coeff 2)
    (h4 : 0 ≤ P.coeff 4) {mode rb ra : ℝ} (hr : QuarticRoots P mode rb ra) {n : ℕ} (hn : 0 < n) (last : ℝ) :
    ∃ c : ENNReal, 0 < c ∧ c < ⊤ ∧ ∀ φ : ℝ → ENNReal, Measurable φ →
      tapeLInt n (fun ts => accObs φ (devLoop (devState P none mode rb ra) mode none last ts))
        = c * ∫⁻ y, φ y * ENNReal.ofReal (Real.exp (-P.eval y)) := by
  have h : EvenConvex P := ⟨hdeg, h3, h2, h4⟩
  have hok := quartic_ok h hr
  refine ⟨_, (loop_const hok hn).1, (loop_const hok hn).2, fun φ hφ => ?_⟩
  rw [loop_law hok (quartic_measurable P mode rb ra)
    (fun x _ => (C52_envelope_quartic hdeg h3 h2 h4 hr x).2.1) mode hφ n last, mul_assoc]
  congr 2
  rw [devDomain, setLIntegral_univ]
  exact lintegral_add_right_eq_self (fun y => φ y * ENNReal.ofReal (Real.exp (-P.eval y))) mode

/-- **C74** Off-diagonal conditionals with `shape > 1`. -/
theorem C74_gamma_exact {P : ℝ[X]} (hdeg : P.natDegree ≤ 3) (h2 : 0 ≤ P.coeff 2) (h3 : 0 ≤ P.coeff 3)
    {shape mode rb ra : ℝ} (hs : 1 < shape) (hr : GammaRoots shape P mode rb ra) {n : ℕ} (hn : 0 < n) (last : ℝ) :
    ∃ c : ENNReal, 0 < c ∧ c < ⊤ ∧ ∀ φ : ℝ → ENNReal, Measurable φ →
      tapeLInt n (fun ts => accObs φ (devLoop (devState P (some shape) mode rb ra) mode (some mode) last ts))
        = c * ∫⁻ y in Ioi (0 : ℝ), φ y * ENNReal.ofReal (Real.exp ((shape - 1) * Real.log y - P.eval y)) := by
  have h : CubicConvex P := ⟨hdeg, h2, h3⟩
  have hok := gamma_ok h hs hr
  refine ⟨_, (loop_const hok hn).1, (loop_const hok hn).2, fun φ hφ => ?_⟩
  rw [loop_law hok (gamma_measurable P shape mode rb ra)
    (fun x hx => (C52_envelope_gamma hdeg h2 h3 hs hr (by
      have : -mode < x := hx
      linarith)).2.1) mode hφ n last, mul_assoc]
  congr 2
  rw [devDomain]
  exact lint_shift mode (fun y => φ y * ENNReal.ofReal (Real.exp ((shape - 1) * Real.log y - P.eval y)))

theorem exactCondCheck_ok {V : ℝ[X]} (h : exactCondCheck V = .ok ()) :
    V.coeff 3 = 0 ∧ V.natDegree ≤ 4 ∧ 0 ≤ V.coeff 2 ∧ 0 ≤ V.coeff 4 := by
  unfold exactCondCheck at h
  split at h
  · cases h
  · rename_i h3
    split at h
    · cases h
    · rename_i h5
      split at h
      · cases h
      · rename_i hE
        push Not at hE h3 h5
        have hco : ∀ k, 1 ≤ k → 0 ≤ V.coeff (2 * k) := by
          intro k hk
          by_cases hd : 2 * k ≤ V.natDegree
          · exact hE k hk hd
          · rw [coeff_eq_zero_of_natDegree_lt (by omega)]
        exact ⟨h3, by omega, hco 1 le_rfl, hco 2 (by norm_num)⟩

theorem condA_shape {V : ℝ[X]} (h : exactCondCheck V = .ok ()) {k : ℝ} (hk : 0 ≤ k) (i : ℤ) (a b : List ℝ)
    (hb : 0 ≤ pyGet b (i - 1) ∧ 0 ≤ pyGet b i) :
    EvenConvex (C k * condPolyA i a b V) := by
  obtain ⟨h3, hd, h2, h4⟩ := exactCondCheck_ok h
  have h5 : V.coeff 5 = 0 := coeff_eq_zero_of_natDegree_lt (by omega)
  have h6 : V.coeff 6 = 0 := coeff_eq_zero_of_natDegree_lt (by omega)
  have e : condPolyA i a b V = C (V.coeff 1
        + V.coeff 4 * (4 * (pyGet a (i - 1) * pyGet b (i - 1) + pyGet a (i + 1) * pyGet b i))) * X
      + C (V.coeff 2 + V.coeff 4 * (4 * (pyGet b (i - 1) + pyGet b i))) * X ^ 2 + C (V.coeff 4) * X ^ 4 := by
    simp only [condPolyA, h3, h5, h6, map_zero, zero_mul, add_zero, map_add, map_mul]
    ring
  rw [e]
  generalize V.coeff 1
        + V.coeff 4 * (4 * (pyGet a (i - 1) * pyGet b (i - 1) + pyGet a (i + 1) * pyGet b i)) = p1
  have hp2 : 0 ≤ V.coeff 2 + V.coeff 4 * (4 * (pyGet b (i - 1) + pyGet b i)) := by
    have := hb.1; have := hb.2; positivity
  generalize V.coeff 2 + V.coeff 4 * (4 * (pyGet b (i - 1) + pyGet b i)) = p2 at hp2
  generalize V.coeff 4 = p4 at h4
  refine ⟨by compute_degree, ?_, ?_, ?_⟩
  · simp [coeff_X, coeff_X_pow]
  · simp [coeff_X, coeff_X_pow]; positivity
  · simp [coeff_X, coeff_X_pow]; positivity

theorem condB_shape {V : ℝ[X]} (h : exactCondCheck V = .ok ()) {k : ℝ} (hk : 0 ≤ k) (i : ℤ) (a b : List ℝ) :
    (C k * condPolyB i a b V).natDegree ≤ 2 ∧ (C k * condPolyB i a b V).coeff 2 = k * (2 * V.coeff 4)
      ∧ 0 ≤ (C k * condPolyB i a b V).coeff 2 := by
  obtain ⟨h3, hd, h2, h4⟩ := exactCondCheck_ok h
  have h5 : V.coeff 5 = 0 := coeff_eq_zero_of_natDegree_lt (by omega)
  have h6 : V.coeff 6 = 0 := coeff_eq_zero_of_natDegree_lt (by omega)
  have e : condPolyB i a b V = C (2 * V.coeff 2 + V.coeff 4 * (4 * (pyGet a i ^ 2 + pyGet a i * pyGet a (i + 1)
        + pyGet a (i + 1) ^ 2 + pyGet b (i - 1) + pyGet b (i + 1)))) * X + C (2 * V.coeff 4) * X ^ 2 := by
    simp only [condPolyB, h3, h5, h6, map_zero, zero_mul, add_zero, map_add, map_mul]
    ring
  rw [e]
  generalize 2 * V.coeff 2 + V.coeff 4 * (4 * (pyGet a i ^ 2 + pyGet a i * pyGet a (i + 1)
        + pyGet a (i + 1) ^ 2 + pyGet b (i - 1) + pyGet b (i + 1))) = p1
  have hq : 0 ≤ 2 * V.coeff 4 := by linarith
  generalize 2 * V.coeff 4 = q at hq
  have e2 : (C k * (C p1 * X + C q * X ^ 2)).coeff 2 = k * q := by
    simp [coeff_X, coeff_X_pow]
  exact ⟨by compute_degree, e2, by rw [e2]; positivity⟩

/-- **C74** The Gibbs sampler with exact conditionals, for every potential accepted by `sample_exact_cond=True`, in every
history: with the polynomial of the current iteration, whatever mode and roots the root finders return, the new value of `a_i`
has, when accepted, the law whose density is proportional to the joint density of the Jacobi coefficients seen as a function of
`a_i` alone; and the same for `b_i` on the positive half line when its shape `beta/2 * (N - i)` is larger than one. -/
theorem C74_exact_gibbs {N : ℕ} (hN : 0 < N) {beta : ℝ} (hbeta : 0 < beta) {V : ℝ[X]} (hV : exactCondCheck V = .ok ())
    (drawA drawB : ℕ → ℝ[X] → ℝ → ℝ) (hB : ∀ t P x, 0 ≤ drawB t P x) (t : ℕ) {n : ℕ} (hn : 0 < n) (last : ℝ) :
    let i := t % N + 1
    let st := gibbsAfter beta N V drawA drawB t
    let st' := gibbsAfter beta N V drawA drawB (t + 1)
    (∃ P : ℝ[X], st'.a = st.a.set i (drawA t P (st.a.getD i 0))
      ∧ ∀ mode rb ra, QuarticRoots P mode rb ra → ∃ c : ENNReal, 0 < c ∧ c < ⊤ ∧ ∀ φ : ℝ → ENNReal, Measurable φ →
        tapeLInt n (fun ts => accObs φ (devLoop (devState P none mode rb ra) mode none last ts))
          = c * ∫⁻ x, φ x * ENNReal.ofReal (Real.exp (Spec.jacobiLogDensity beta N V
              (Function.update (fun j => st.a.getD j 0) i x) (fun j => st.b.getD j 0))))
    ∧ (i < N → 1 < beta / 2 * ((N : ℝ) - i) → ∃ Q : ℝ[X], st'.b = st.b.set i (drawB t Q (beta / 2 * ((N : ℝ) - i)))
      ∧ ∀ mode rb ra, GammaRoots (beta / 2 * ((N : ℝ) - i)) Q mode rb ra → ∃ c : ENNReal, 0 < c ∧ c < ⊤ ∧
        ∀ φ : ℝ → ENNReal, Measurable φ →
        tapeLInt n (fun ts => accObs φ (devLoop (devState Q (some (beta / 2 * ((N : ℝ) - i))) mode rb ra) mode (some mode)
            last ts))
          = c * ∫⁻ x in Ioi (0 : ℝ), φ x * ENNReal.ofReal (Real.exp (Spec.jacobiLogDensity beta N V
              (fun j => st'.a.getD j 0) (Function.update (fun j => st.b.getD j 0) i x)))) := by
  intro i st st'
  have hi1 : 1 ≤ i := by omega
  have hiN : i ≤ N := by have := Nat.mod_lt t hN; omega
  have hp : Padded N st.a st.b := padded_after hN beta V drawA drawB hB t
  have hp' : Padded N st'.a st'.b := padded_after hN beta V drawA drawB hB (t + 1)
  have hst' : st' = gibbsStep beta N V (drawA t) (drawB t) i st := rfl
  have hdeg : V.natDegree ≤ 6 := by have := (exactCondCheck_ok hV).2.1; omega
  have hk : 0 ≤ 1 / 2 * beta * (N : ℝ) := by positivity
  have hexp : ∀ (c' : ℝ) (f g : ℝ → ℝ) (S : Set ℝ) (hS : MeasurableSet S) (hfg : ∀ x ∈ S, f x = c' + g x)
      (c : ENNReal) (hc : 0 < c ∧ c < ⊤) (I : (ℝ → ENNReal) → ENNReal)
      (hI : ∀ φ : ℝ → ENNReal, Measurable φ → I φ = c * ∫⁻ x in S, φ x * ENNReal.ofReal (Real.exp (g x))),
      ∃ c : ENNReal, 0 < c ∧ c < ⊤ ∧ ∀ φ : ℝ → ENNReal, Measurable φ →
        I φ = c * ∫⁻ x in S, φ x * ENNReal.ofReal (Real.exp (f x)) := by
    intro c' f g S hS hfg c hc I hI
    refine ⟨c * ENNReal.ofReal (Real.exp (-c')), ENNReal.mul_pos hc.1.ne' ?_, ENNReal.mul_lt_top hc.2 ENNReal.ofReal_lt_top,
      fun φ hφ => ?_⟩
    · rw [Ne, ENNReal.ofReal_eq_zero, not_le]; exact Real.exp_pos _
    · rw [hI φ hφ, mul_assoc, ← lintegral_const_mul' _ _ ENNReal.ofReal_ne_top]
      congr 1
      refine setLIntegral_congr_fun hS fun x hx => ?_
      rw [hfg x hx, mul_left_comm, ← ENNReal.ofReal_mul (Real.exp_pos _).le, ← Real.exp_add]
      congr 3
      ring
  constructor
  · refine ⟨C (1 / 2 * beta * N) * condPolyA i st.a st.b V, ?_, fun mode rb ra hr => ?_⟩
    · rw [hst', gibbsStep, pyGet_nonneg _ (by omega)]
      rfl
    · have hE := condA_shape hV hk i st.a st.b
        ⟨by rw [pyGet_nonneg _ (by omega)]; exact hp.bpos _, by rw [pyGet_nonneg _ (by omega)]; exact hp.bpos _⟩
      obtain ⟨c, hc0, hct, hc⟩ := C74_quartic_exact hE.deg hE.c3 hE.c2 hE.c4 hr hn last
      obtain ⟨c', hc'⟩ := condA hp V hdeg hi1 hiN
      have := hexp ((∑ j ∈ Finset.Ico 1 N, (beta / 2 * ((N : ℝ) - j) - 1) * Real.log (st.b.getD j 0)) - beta * N / 2 * c')
        (fun x => Spec.jacobiLogDensity beta N V (Function.update (fun j => st.a.getD j 0) i x) (fun j => st.b.getD j 0))
        (fun x => -(C (1 / 2 * beta * N) * condPolyA i st.a st.b V).eval x) univ MeasurableSet.univ (fun x _ => by
          rw [Spec.jacobiLogDensity, hc' x, eval_mul, eval_C]
          ring) c ⟨hc0, hct⟩ _ (by simpa only [setLIntegral_univ] using hc)
      simpa only [setLIntegral_univ] using this
  · intro hlt hsh
    have hpb : Padded N st'.a st.b := ⟨hp'.la, hp.lb, hp'.a0, hp.b0, hp.bN, hp'.aT, hp.bT, hp.bpos⟩
    refine ⟨C (1 / 2 * beta * N) * condPolyB i st'.a st.b V, ?_, fun mode rb ra hr => ?_⟩
    · rw [hst', gibbsStep]
      simp only [if_pos hlt]
      rw [show (1 : ℝ) / 2 * beta * ((N : ℝ) - i) = beta / 2 * ((N : ℝ) - i) by ring]
    · obtain ⟨hE1, hE2, hE3⟩ := condB_shape hV hk i st'.a st.b
      obtain ⟨c, hc0, hct, hc⟩ := C74_gamma_exact (by omega) hE3
        (by rw [coeff_eq_zero_of_natDegree_lt (by omega)]) hsh hr hn last
      obtain ⟨c', hc'⟩ := condB hpb V hdeg hi1 hlt
      exact hexp ((∑ j ∈ (Finset.Ico 1 N).erase i, (beta / 2 * ((N : ℝ) - j) - 1) * Real.log (st.b.getD j 0))
        - beta * N / 2 * c')
        (fun x => Spec.jacobiLogDensity beta N V (fun j => st'.a.getD j 0) (Function.update (fun j => st.b.getD j 0) i x))
        (fun x => (beta / 2 * ((N : ℝ) - i) - 1) * Real.log x - (C (1 / 2 * beta * N) * condPolyB i st'.a st.b V).eval x)
        (Ioi 0) measurableSet_Ioi (fun x hx => by
          have hx : 0 < x := hx
          rw [Spec.jacobiLogDensity, hc' x hx.le, eval_mul, eval_C,
            ← Finset.add_sum_erase _ _ (Finset.mem_Ico.2 ⟨hi1, hlt⟩), Function.update_self]
          rw [Finset.sum_congr rfl fun j hj => by
            rw [Function.update_of_ne (Finset.ne_of_mem_erase hj)]]
          ring) c ⟨hc0, hct⟩ _ hc

/-- The hypotheses on the root finders can be met: for every such polynomial that is not affine there are a mode and two
roots. -/
theorem C74_quartic_roots_exist {P : ℝ[X]} (hdeg : P.natDegree ≤ 4) (h3 : P.coeff 3 = 0) (h2 : 0 ≤ P.coeff 2)
    (h4 : 0 ≤ P.coeff 4) (hpos : 0 < P.coeff 2 + P.coeff 4) : ∃ mode rb ra, QuarticRoots P mode rb ra := by
  have h : EvenConvex P := ⟨hdeg, h3, h2, h4⟩
  have hK : 0 < 2 * P.coeff 2 + 4 * P.coeff 4 := by linarith
  set K := 2 * P.coeff 2 + 4 * P.coeff 4 with hKdef
  set x0 := 1 + |P.coeff 1| / K with hx0
  have hx1 : 1 ≤ x0 := by have := div_nonneg (abs_nonneg (P.coeff 1)) hK.le; linarith
  have hKx : |P.coeff 1| ≤ K * x0 := by
    rw [hx0, mul_add, mul_div_cancel₀ _ hK.ne']; linarith
  have hcube : x0 ≤ x0 ^ 3 := by nlinarith [sq_nonneg (x0 - 1)]
  have hx3 : K * x0 ≤ 2 * P.coeff 2 * x0 + 4 * P.coeff 4 * x0 ^ 3 := by rw [hKdef]; nlinarith
  have hcont : Continuous fun x : ℝ => P.derivative.eval x := by fun_prop
  have hiv := intermediate_value_Icc (show -x0 ≤ x0 by linarith) hcont.continuousOn
  obtain ⟨m, -, hm⟩ := hiv (show (0 : ℝ) ∈ Icc _ _ from by
    rw [mem_Icc, h.derivative, h.derivative]
    have := abs_le.1 (le_refl |P.coeff 1|)
    constructor
    · have e : (-x0) ^ 3 = -x0 ^ 3 := by ring
      rw [e]; linarith
    · linarith)
  have hm : P.derivative.eval m = 0 := hm
  set g := fun x : ℝ => (shiftPol P (-m) - C (P.eval m) - C (2 * Real.log 2)).eval x with hg
  have hgval : ∀ x, g x = P.eval (x + m) - P.eval m - 2 * Real.log 2 := by
    intro x; simp only [hg, eval_sub, eval_C, C49_shift_polynomial, sub_neg_eq_add]
  have hl := log2_pos
  set L := P.coeff 2 + P.coeff 4 / 3 with hL
  have hLp : 0 < L := by
    rcases lt_or_eq_of_le h2 with h' | h'
    · positivity
    · rw [← h', zero_add] at hpos; rw [hL, ← h']; positivity
  set Y := 1 + 2 * Real.log 2 / L with hY
  have hY1 : 1 ≤ Y := by have := div_nonneg hl.le hLp.le; linarith
  have hLY : 2 * Real.log 2 ≤ L * Y := by
    rw [hY, mul_add, mul_div_cancel₀ _ hLp.ne']; linarith
  have hbig : ∀ y : ℝ, y ^ 2 = Y ^ 2 → 0 ≤ g y := by
    intro y hy
    rw [hgval]
    have hd := h.derivative m
    rw [hm] at hd
    have e : P.eval (y + m) - P.eval m = P.coeff 2 * y ^ 2 + P.coeff 4 * (y ^ 2 * ((y + 2 * m) ^ 2 + 2 * m ^ 2)) := by
      rw [h.eval, h.eval]; linear_combination (-y) * hd
    have e2 : y ^ 2 / 3 ≤ (y + 2 * m) ^ 2 + 2 * m ^ 2 := by nlinarith [sq_nonneg (y + 3 * m)]
    have hY2 : Y ≤ y ^ 2 := by rw [hy]; nlinarith
    have hy1 : 1 ≤ y ^ 2 := by linarith
    have e3 : y ^ 2 / 3 ≤ y ^ 2 * ((y + 2 * m) ^ 2 + 2 * m ^ 2) := by nlinarith
    have e4 : L * y ^ 2 ≤ P.coeff 2 * y ^ 2 + P.coeff 4 * (y ^ 2 * ((y + 2 * m) ^ 2 + 2 * m ^ 2)) := by
      rw [hL]; nlinarith
    rw [e]; nlinarith
  have hg0 : g 0 < 0 := by rw [hgval]; simp; linarith
  have hgc : Continuous g := by simp only [hg]; fun_prop
  obtain ⟨ra, hra1, hra2⟩ := intermediate_value_Icc (show (0 : ℝ) ≤ Y by linarith) hgc.continuousOn
    (show (0 : ℝ) ∈ Icc _ _ from ⟨hg0.le, hbig Y rfl⟩)
  obtain ⟨rb, hrb1, hrb2⟩ := intermediate_value_Icc' (show -Y ≤ (0 : ℝ) by linarith) hgc.continuousOn
    (show (0 : ℝ) ∈ Icc _ _ from ⟨hg0.le, hbig (-Y) (by ring)⟩)
  refine ⟨m, rb, ra, hm, hrb2, hra2, ?_⟩
  have h1 : rb ≠ 0 := fun hc => by rw [hc] at hrb2; linarith
  have h2 := lt_of_le_of_ne hrb1.2 h1
  linarith [hra1.1]

/-- ... and the same for the off-diagonal conditionals. -/
theorem C74_gamma_roots_exist {P : ℝ[X]} (hdeg : P.natDegree ≤ 3) (h2 : 0 ≤ P.coeff 2) (h3 : 0 ≤ P.coeff 3)
    (hpos : 0 < P.coeff 2 + P.coeff 3) {shape : ℝ} (hs : 1 < shape) :
    ∃ mode rb ra, GammaRoots shape P mode rb ra := by
  have h : CubicConvex P := ⟨hdeg, h2, h3⟩
  have hK : 0 < 2 * P.coeff 2 + 3 * P.coeff 3 := by linarith
  set K := 2 * P.coeff 2 + 3 * P.coeff 3 with hKdef
  set x0 := 1 + (|P.coeff 1| + shape) / K with hx0
  have hx1 : 1 ≤ x0 := by
    have : 0 ≤ (|P.coeff 1| + shape) / K := by positivity
    linarith
  have hKx : |P.coeff 1| + shape ≤ K * x0 := by
    rw [hx0, mul_add, mul_div_cancel₀ _ hK.ne']; linarith
  set q := fun x : ℝ => (X * P.derivative - C (shape - 1)).eval x with hq
  have hqv : ∀ x, q x = x * (P.coeff 1 + 2 * P.coeff 2 * x + 3 * P.coeff 3 * x ^ 2) - (shape - 1) := by
    intro x; simp only [hq, eval_sub, eval_mul, eval_X, eval_C, h.derivative]
  have hqc : Continuous q := by simp only [hq]; fun_prop
  have hq0 : q 0 < 0 := by rw [hqv]; linarith
  have hq1 : 0 ≤ q x0 := by
    rw [hqv]
    have := neg_abs_le (P.coeff 1)
    have hsq : x0 ≤ x0 ^ 2 := by nlinarith
    have e : shape ≤ P.coeff 1 + 2 * P.coeff 2 * x0 + 3 * P.coeff 3 * x0 ^ 2 := by nlinarith
    nlinarith
  obtain ⟨m, hm1, hm2⟩ := intermediate_value_Icc (show (0 : ℝ) ≤ x0 by linarith) hqc.continuousOn
    (show (0 : ℝ) ∈ Icc _ _ from ⟨hq0.le, hq1⟩)
  have hm0 : 0 < m := lt_of_le_of_ne hm1.1 fun hc => by rw [← hc] at hm2; linarith
  have hroot : (X * P.derivative - C (shape - 1)).eval m = 0 := hm2
  have hd : P.derivative.eval m = (shape - 1) / m := by
    simp only [eval_sub, eval_mul, eval_X, eval_C] at hroot
    rw [eq_div_iff hm0.ne']; linarith
  set g := fun x : ℝ => (shape - 1) * Real.log (1 + x / m)
      - (shiftPol P (-m) - C (P.eval m) - C (2 * Real.log 2)).eval x with hg
  have hl := log2_pos
  have hgval : ∀ x, g x = (shape - 1) * Real.log (1 + x / m) - (P.eval (x + m) - P.eval m - 2 * Real.log 2) := by
    intro x; simp only [hg, eval_sub, eval_C, C49_shift_polynomial, sub_neg_eq_add]
  have hg0 : 0 < g 0 := by rw [hgval]; simp; linarith
  set L := P.coeff 2 + P.coeff 3 with hL
  set Y := 1 + 2 * Real.log 2 / L with hY
  have hY1 : 1 ≤ Y := by have := div_nonneg hl.le hpos.le; linarith
  have hLY : 2 * Real.log 2 ≤ L * Y := by
    rw [hY, mul_add, mul_div_cancel₀ _ hpos.ne']; linarith
  have hgY : g Y ≤ 0 := by
    rw [hgval]
    have hd' := h.derivative m
    rw [hd] at hd'
    have e : P.eval (Y + m) - P.eval m = (shape - 1) / m * Y + Y ^ 2 * (P.coeff 2 + P.coeff 3 * (Y + 3 * m)) := by
      rw [h.eval, h.eval]; linear_combination (-Y) * hd'
    have hlog : Real.log (1 + Y / m) ≤ Y / m := by
      have := Real.log_le_sub_one_of_pos (show 0 < 1 + Y / m by positivity)
      linarith
    have e2 : (shape - 1) * Real.log (1 + Y / m) ≤ (shape - 1) / m * Y := by
      have := mul_le_mul_of_nonneg_left hlog (by linarith : 0 ≤ shape - 1)
      calc _ ≤ _ := this
        _ = _ := by ring
    have e3 : L * Y ≤ Y ^ 2 * (P.coeff 2 + P.coeff 3 * (Y + 3 * m)) := by
      have h5 : L ≤ P.coeff 2 + P.coeff 3 * (Y + 3 * m) := by rw [hL]; nlinarith
      have h6 : Y ≤ Y ^ 2 := by nlinarith
      nlinarith
    rw [e]; linarith
  have hgc : ContinuousOn g (Icc 0 Y) := by
    simp only [hg]
    refine ContinuousOn.sub (ContinuousOn.mul continuousOn_const (ContinuousOn.log (by fun_prop) ?_)) (by fun_prop)
    intro x hx
    have := div_nonneg hx.1 hm0.le
    linarith
  obtain ⟨ra, hra1, hra2⟩ := intermediate_value_Icc' (show (0 : ℝ) ≤ Y by linarith) hgc
    (show (0 : ℝ) ∈ Icc _ _ from ⟨hgY, hg0.le⟩)
  refine ⟨m, -(1 / 2) * m, ra, hm0, hroot, Or.inr rfl, ?_, hra2⟩
  exact lt_of_le_of_ne hra1.1 fun hc => by rw [← hc] at hra2; linarith

theorem smallShape_gamma {P : ℝ[X]} (h : P.coeff 2 = 0) (k x : ℝ) :
    smallShapeLog P k x = some (gammaLogPdf k (1 / P.coeff 1) x) := by
  have : devBranch P (some k) = .gamma := by rw [devBranch, if_pos h]
  rw [smallShapeLog, this]

theorem smallShape_genGamma {P : ℝ[X]} (h : P.coeff 2 ≠ 0) {k : ℝ} (hk : k < 1) (x : ℝ) :
    smallShapeLog P k x = some (gammaLogPdf k (1 / P.coeff 1) x + min 0 (genGammaLog P x)) := by
  have : devBranch P (some k) = .genGamma := by rw [devBranch, if_neg h, if_pos hk]
  rw [smallShapeLog, this]

theorem smallShape_trunc {P : ℝ[X]} (h : P.coeff 2 ≠ 0) (x : ℝ) :
    smallShapeLog P 1 x = some ((1 - 1) * Real.log x - P.coeff 2 * x ^ 2 + min 0 (-(P.coeff 1 * x))) := by
  have : devBranch P (some 1) = .truncGauss := by
    rw [devBranch, if_neg h, if_neg (lt_irrefl _), if_pos rfl]
  rw [smallShapeLog, this]
  simp only [normalLogPdf, truncGaussLog]
  congr 2
  · field_simp; ring
  · congr 1
    field_simp; ring

/-- **C74** The samplers used for `shape <= 1` and for affine exponents are exact when the exponent is at most quadratic (which
is the case under `sample_exact_cond=True`) with `P[1] > 0` and `P[2] >= 0`: the density of the accepted values is proportional
to `x^(shape-1) exp(-P(x))`. -/
theorem C74_small_shape_exact {P : ℝ[X]} (hdeg : P.natDegree ≤ 2) (h0 : P.coeff 0 = 0) (h1 : 0 < P.coeff 1)
    (h2 : 0 ≤ P.coeff 2) {shape x : ℝ} (hx : 0 < x) (hs : shape ≤ 1 ∨ P.coeff 2 = 0) :
    smallShapeLog P shape x = some ((shape - 1) * Real.log x - P.eval x) := by
  have hP : P.eval x = P.coeff 1 * x + P.coeff 2 * x ^ 2 := by
    rw [eval_eq_sum_range' (n := 3) (by omega)]
    simp only [Finset.sum_range_succ, Finset.sum_range_zero, h0]
    ring
  rw [hP]
  by_cases hc2 : P.coeff 2 = 0
  · rw [smallShape_gamma hc2, hc2]
    congr 1
    rw [gammaLogPdf]
    field_simp
    ring
  · have hp2 : 0 < P.coeff 2 := lt_of_le_of_ne h2 (Ne.symm hc2)
    have hs' : shape ≤ 1 := hs.resolve_right hc2
    rcases lt_or_eq_of_le hs' with hlt | heq
    · rw [smallShape_genGamma hc2 hlt, gammaLogPdf, genGammaLog, min_eq_right (by nlinarith [sq_nonneg x])]
      congr 1
      field_simp
      ring
    · subst heq
      rw [smallShape_trunc hc2, min_eq_right (by nlinarith)]
      congr 1
      ring

theorem smallShape_cubic {Q : ℝ[X]} (hdeg : Q.natDegree ≤ 3) {k : ℝ} (hk : k ≤ 1) : ∃ e1 e2 : ℝ, ∀ x : ℝ, 0 < x →
    smallShapeLog Q k x = some ((k - 1) * Real.log x - Q.eval x + (Q.coeff 3 * x ^ 3 + e2 * x ^ 2 + e1 * x + Q.coeff 0)) := by
  have hQ : ∀ x, Q.eval x = Q.coeff 0 + Q.coeff 1 * x + Q.coeff 2 * x ^ 2 + Q.coeff 3 * x ^ 3 := by
    intro x
    rw [eval_eq_sum_range' (n := 4) (by omega)]
    simp only [Finset.sum_range_succ, Finset.sum_range_zero]
    ring
  by_cases hc2 : Q.coeff 2 = 0
  · refine ⟨0, 0, fun x hx => ?_⟩
    rw [smallShape_gamma hc2, hQ, hc2, gammaLogPdf, one_div, div_inv_eq_mul]
    congr 1; ring
  · rcases lt_or_eq_of_le hk with hlt | heq
    · rcases le_total 0 (Q.coeff 2) with h | h
      · refine ⟨0, 0, fun x hx => ?_⟩
        rw [smallShape_genGamma hc2 hlt, gammaLogPdf, genGammaLog, min_eq_right (by nlinarith [sq_nonneg x]), hQ, one_div,
          div_inv_eq_mul]
        congr 1; ring
      · refine ⟨0, Q.coeff 2, fun x hx => ?_⟩
        rw [smallShape_genGamma hc2 hlt, gammaLogPdf, genGammaLog, min_eq_left (by nlinarith [sq_nonneg x]), hQ, one_div,
          div_inv_eq_mul]
        congr 1; ring
    · subst heq
      rcases le_total 0 (Q.coeff 1) with h | h
      · refine ⟨0, 0, fun x hx => ?_⟩
        rw [smallShape_trunc hc2, min_eq_right (by nlinarith), hQ]
        congr 1; ring
      · refine ⟨Q.coeff 1, 0, fun x hx => ?_⟩
        rw [smallShape_trunc hc2, min_eq_left (by nlinarith), hQ]
        congr 1; ring

theorem condB_cubic (V : ℝ[X]) (k : ℝ) (i : ℤ) (a b : List ℝ) :
    (C k * condPolyB i a b V).natDegree ≤ 3 ∧ (C k * condPolyB i a b V).coeff 3 = k * (2 * V.coeff 6) := by
  constructor
  · unfold condPolyB; compute_degree
  · unfold condPolyB
    simp only [coeff_C_mul, coeff_add, coeff_X_pow, coeff_X]
    norm_num
    left; ring

/-- **C74** refuted for potentials of degree six (allowed by the constructor; `sample_mcmc` samples the off-diagonal
coefficients with the same function): when `shape = beta/2 * (N - i) <= 1` (for instance `beta <= 2` and `i = N - 1`) the values
accepted never have the conditional law, whatever the state: the cubic term is ignored. -/
theorem C74_sextic_refuted {N : ℕ} (hN : 0 < N) {beta : ℝ} (hbeta : 0 < beta) {V : ℝ[X]} (hV : V.natDegree ≤ 6)
    (h6 : V.coeff 6 ≠ 0) (drawA drawB : ℕ → ℝ[X] → ℝ → ℝ) (hB : ∀ t P x, 0 ≤ drawB t P x) (t : ℕ)
    (hi : t % N + 1 < N) (hs : beta / 2 * ((N : ℝ) - (t % N + 1 : ℕ)) ≤ 1) :
    let i := t % N + 1
    let st := gibbsAfter beta N V drawA drawB t
    let st' := gibbsAfter beta N V drawA drawB (t + 1)
    ∃ Q : ℝ[X], st'.b = st.b.set i (drawB t Q (beta / 2 * ((N : ℝ) - i)))
      ∧ (∀ x, 0 < x → (smallShapeLog Q (beta / 2 * ((N : ℝ) - i)) x).isSome)
      ∧ ¬ ∃ c : ℝ, ∀ x, 0 < x → smallShapeLog Q (beta / 2 * ((N : ℝ) - i)) x
        = some (c + Spec.jacobiLogDensity beta N V (fun j => st'.a.getD j 0)
            (Function.update (fun j => st.b.getD j 0) i x)) := by
  intro i st st'
  have hi1 : 1 ≤ i := by omega
  have hp : Padded N st.a st.b := padded_after hN beta V drawA drawB hB t
  have hp' : Padded N st'.a st'.b := padded_after hN beta V drawA drawB hB (t + 1)
  have hpb : Padded N st'.a st.b := ⟨hp'.la, hp.lb, hp'.a0, hp.b0, hp.bN, hp'.aT, hp.bT, hp.bpos⟩
  have hst' : st' = gibbsStep beta N V (drawA t) (drawB t) i st := rfl
  have hNp : (0 : ℝ) < N := by exact_mod_cast hN
  obtain ⟨hq1, hq2⟩ := condB_cubic V (1 / 2 * beta * N) i st'.a st.b
  obtain ⟨e1, e2, he⟩ := smallShape_cubic hq1 hs
  refine ⟨C (1 / 2 * beta * N) * condPolyB i st'.a st.b V, ?_, fun x hx => ?_, ?_⟩
  · rw [hst', gibbsStep]
    simp only [if_pos (show i < N from hi)]
    rw [show (1 : ℝ) / 2 * beta * ((N : ℝ) - i) = beta / 2 * ((N : ℝ) - i) by ring]
  · rw [he x hx]; rfl
  · rintro ⟨c, hc⟩
    obtain ⟨c', hc'⟩ := condB hpb V hV hi1 hi
    have key : ∃ d, ∀ x : ℝ, 0 < x → 1 / 2 * beta * N * (2 * V.coeff 6) * x ^ 3 + e2 * x ^ 2 + e1 * x = d := by
      refine ⟨c + (∑ j ∈ (Finset.Ico 1 N).erase i, (beta / 2 * ((N : ℝ) - j) - 1) * Real.log (st.b.getD j 0))
        - beta * N / 2 * c' - (C (1 / 2 * beta * N) * condPolyB i st'.a st.b V).coeff 0, fun x hx => ?_⟩
      have h1 := hc x hx
      rw [he x hx, Option.some.injEq, hq2, Spec.jacobiLogDensity, hc' x hx.le, eval_mul, eval_C,
        ← Finset.add_sum_erase _ _ (Finset.mem_Ico.2 ⟨hi1, hi⟩), Function.update_self,
        Finset.sum_congr rfl fun j hj => by rw [Function.update_of_ne (Finset.ne_of_mem_erase hj)]] at h1
      linear_combination h1
    obtain ⟨d, hd⟩ := key
    have q1 := hd 1 (by norm_num); have q2 := hd 2 (by norm_num)
    have q3 := hd 3 (by norm_num); have q4 := hd 4 (by norm_num)
    have : 1 / 2 * beta * N * (2 * V.coeff 6) = 0 := by linarith
    have hne : 1 / 2 * beta * (N : ℝ) * (2 * V.coeff 6) ≠ 0 := by positivity
    exact hne this

/-- a concrete case: `exp(-(x^4 + x^2))`; the hypotheses are met -/
example : ∃ mode rb ra, QuarticRoots (X ^ 4 + X ^ 2 : ℝ[X]) mode rb ra := by
  refine C74_quartic_roots_exist (by compute_degree) ?_ ?_ ?_ ?_ <;> simp [coeff_X_pow]

/-- a concrete case: `x^2 exp(-(x + x^2))` on the half line -/
example : ∃ mode rb ra, GammaRoots 3 (X + X ^ 2 : ℝ[X]) mode rb ra := by
  refine C74_gamma_roots_exist (by compute_degree!) ?_ ?_ ?_ (by norm_num) <;> simp [coeff_X_pow, coeff_X]

/-- a potential accepted by `sample_exact_cond=True` -/
example : exactCondCheck (C 2 * X ^ 2 + X ^ 4 : ℝ[X]) = .ok () := by
  have hc : ∀ n, (C 2 * X ^ 2 + X ^ 4 : ℝ[X]).coeff n = (if n = 2 then 2 else 0) + (if n = 4 then 1 else 0) := by
    intro n; simp [coeff_X_pow]
  have hd : (C 2 * X ^ 2 + X ^ 4 : ℝ[X]).natDegree ≤ 4 := by compute_degree
  rw [exactCondCheck, if_neg (by rw [hc]; norm_num), if_neg (by omega), if_neg]
  push Not
  intro n _ _
  rw [hc]; positivity

end Verif.Props
