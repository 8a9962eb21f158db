import Mathlib.Analysis.SpecialFunctions.Gamma.BohrMollerup
import Mathlib.Analysis.SpecialFunctions.Log.Deriv
import Mathlib.Analysis.SpecialFunctions.Pow.Asymptotics
import Mathlib.Analysis.Calculus.Deriv.MeanValue

/-!
Inequalities for quotients of Gamma functions (Kershaw), by steps to infinity.
-/

namespace Verif.Lemmas
open Filter Topology Real

/-- log-convexity: `Γ(x+1) ≤ Γ(x+l) (x+l)^(1-l)` -/
theorem log_gamma_step {x l : ℝ} (hx : 0 < x) (h0 : 0 < l) (h1 : l ≤ 1) :
    log (Gamma (x + 1)) ≤ log (Gamma (x + l)) + (1 - l) * log (x + l) := by
  rcases h1.lt_or_eq with h1 | rfl
  · have g1 := Gamma_pos_of_pos (show 0 < x + l by linarith)
    have g2 := Gamma_pos_of_pos (show 0 < x + 1 by linarith)
    have key := Real.Gamma_mul_add_mul_le_rpow_Gamma_mul_rpow_Gamma (s := x + l) (t := x + l + 1) (a := l) (b := 1 - l) (by linarith)
      (by linarith) h0 (by linarith) (by ring)
    rw [show l * (x + l) + (1 - l) * (x + l + 1) = x + 1 by ring, Gamma_add_one (show x + l ≠ 0 by linarith)] at key
    have := log_le_log g2 key
    rw [log_mul (rpow_pos_of_pos g1 _).ne' (rpow_pos_of_pos (mul_pos (by linarith) g1) _).ne', log_rpow g1,
      log_rpow (mul_pos (by linarith) g1), log_mul (by linarith) g1.ne'] at this
    linarith
  · simp

/-- a function that increases by unit steps and is asymptotically below `0` is below `0` -/
theorem le_zero_of_steps {F U : ℝ → ℝ} {x0 : ℝ} (hs : ∀ x, x0 ≤ x → F x ≤ F (x + 1)) (hU : ∀ x, x0 ≤ x → F x ≤ U x)
    (hl : Tendsto U atTop (𝓝 0)) {x : ℝ} (hx : x0 ≤ x) : F x ≤ 0 := by
  have h1 : ∀ n : ℕ, F x ≤ F (x + n) := by
    intro n
    induction n with
    | zero => simp
    | succ n ih =>
      refine ih.trans ((hs (x + n) (by have := n.cast_nonneg (α := ℝ); linarith)).trans (le_of_eq ?_))
      push_cast; ring_nf
  have h2 : Tendsto (fun n : ℕ => U (x + n)) atTop (𝓝 0) :=
    hl.comp (tendsto_atTop_add_const_left _ x tendsto_natCast_atTop_atTop)
  refine ge_of_tendsto h2 (Eventually.of_forall fun n => (h1 n).trans (hU _ ?_))
  have := n.cast_nonneg (α := ℝ); linarith

/-- a decreasing function asymptotically above `0` is above `0` -/
theorem zero_le_of_antitone {D V D' : ℝ → ℝ} {x0 : ℝ} (hD : ∀ x, x0 < x → HasDerivAt D (D' x) x) (hn : ∀ x, x0 < x → D' x ≤ 0)
    (hV : ∀ x, x0 < x → V x ≤ D x) (hl : Tendsto V atTop (𝓝 0)) {x : ℝ} (hx : x0 < x) : 0 ≤ D x := by
  have hanti : AntitoneOn D (Set.Ioi x0) := by
    refine antitoneOn_of_deriv_nonpos (convex_Ioi x0) (fun y hy => (hD y hy).continuousAt.continuousWithinAt)
      (fun y hy => ?_) fun y hy => ?_
    · rw [interior_Ioi] at hy; exact (hD y hy).differentiableAt.differentiableWithinAt
    · rw [interior_Ioi] at hy; rw [(hD y hy).deriv]; exact hn y hy
  refine le_of_tendsto hl ?_
  filter_upwards [eventually_ge_atTop x] with y hy
  exact (hV y (hx.trans_le hy)).trans (hanti hx (hx.trans_le hy) hy)

theorem hasDerivAt_log_add {c x : ℝ} (h : 0 < x + c) : HasDerivAt (fun y => log (y + c)) (1 / (x + c)) x :=
  ((hasDerivAt_id x).add_const c).log h.ne'

theorem tendsto_log_add (c : ℝ) : Tendsto (fun x => log (x + c) - log x) atTop (𝓝 0) := tendsto_log_comp_add_sub_log c

/-- the step of the even case -/
theorem kershaw_step {x l : ℝ} (hx : 1 / 2 ≤ x) (h0 : 0 < l) (h1 : l ≤ 1) :
    0 ≤ l * (log (x + (1 / 2 + l / 2)) - log (x + (l / 2 - 1 / 2))) - (log (x + l) - log x) := by
  refine zero_le_of_antitone (x0 := (1 - l) / 2)
    (D := fun x => l * (log (x + (1 / 2 + l / 2)) - log (x + (l / 2 - 1 / 2))) - (log (x + l) - log (x + 0)))
    (D' := fun x => l * (1 / (x + (1 / 2 + l / 2)) - 1 / (x + (l / 2 - 1 / 2))) - (1 / (x + l) - 1 / (x + 0)))
    (V := fun x => l * (log (x + (1 / 2 + l / 2)) - log x - (log (x + (l / 2 - 1 / 2)) - log x)) - (log (x + l) - log x))
    ?_ ?_ ?_ ?_ (x := x) (by linarith) |>.trans (le_of_eq (by simp))
  · intro y hy
    exact (((hasDerivAt_log_add (by linarith)).sub (hasDerivAt_log_add (by linarith))).const_mul l).sub
      ((hasDerivAt_log_add (by linarith)).sub (hasDerivAt_log_add (by linarith)))
  · intro y hy
    have a1 : 0 < y + (1 / 2 + l / 2) := by linarith
    have a2 : 0 < y + (l / 2 - 1 / 2) := by linarith
    have a3 : 0 < y + l := by linarith
    have a4 : 0 < y := by linarith
    have e : l * (1 / (y + (1 / 2 + l / 2)) - 1 / (y + (l / 2 - 1 / 2))) - (1 / (y + l) - 1 / (y + 0))
        = l * (1 / (y * (y + l)) - 1 / ((y + (1 / 2 + l / 2)) * (y + (l / 2 - 1 / 2)))) := by
      have h1 := a1.ne'
      have h2 := a2.ne'
      generalize hA : y + (1 / 2 + l / 2) = A at *
      generalize hB : y + (l / 2 - 1 / 2) = B at *
      have hAB : A - B = 1 := by rw [← hA, ← hB]; ring
      rw [add_zero, div_sub_div _ _ h1 h2, div_sub_div _ _ a3.ne' a4.ne', show 1 * B - A * 1 = -1 by linarith, show 1 * y - (y + l) * 1 = -l by ring,
        mul_comm y (y + l)]
      ring
    rw [e]
    refine mul_nonpos_of_nonneg_of_nonpos h0.le (sub_nonpos.2 (one_div_le_one_div_of_le (mul_pos a1 a2) ?_))
    nlinarith
  · intro y hy
    simp
  · have := (((tendsto_log_add (1 / 2 + l / 2)).sub (tendsto_log_add (l / 2 - 1 / 2))).const_mul l).sub (tendsto_log_add l)
    simpa using this

/-- Kershaw's inequality -/
theorem kershaw {x l : ℝ} (hx : 1 / 2 ≤ x) (h0 : 0 < l) (h1 : l ≤ 1) :
    (x - 1 / 2 + l / 2) ^ l * Gamma x ≤ Gamma (x + l) := by
  have key := le_zero_of_steps (x0 := 1 / 2)
    (F := fun x => l * log (x + (l / 2 - 1 / 2)) + log (Gamma x) - log (Gamma (x + l)))
    (U := fun x => l * (log (x + (l / 2 - 1 / 2)) - log x) + (1 - l) * (log (x + l) - log x)) ?_ ?_ ?_ hx
  · have g1 := Gamma_pos_of_pos (show 0 < x by linarith)
    have g2 := Gamma_pos_of_pos (show 0 < x + l by linarith)
    have hb : 0 < x + (l / 2 - 1 / 2) := by linarith
    rw [show x - 1 / 2 + l / 2 = x + (l / 2 - 1 / 2) by ring]
    refine (log_le_log_iff (mul_pos (rpow_pos_of_pos hb _) g1) g2).1 ?_
    rw [log_mul (rpow_pos_of_pos hb _).ne' g1.ne', log_rpow hb]
    linarith
  · intro y hy
    have hs := kershaw_step hy h0 h1
    have g1 := Gamma_pos_of_pos (show 0 < y by linarith)
    have g2 := Gamma_pos_of_pos (show 0 < y + l by linarith)
    rw [Gamma_add_one (by linarith), show y + 1 + l = y + l + 1 by ring, Gamma_add_one (by linarith), log_mul (by linarith) g1.ne',
      log_mul (by linarith) g2.ne', show y + 1 + (l / 2 - 1 / 2) = y + (1 / 2 + l / 2) by ring]
    linarith
  · intro y hy
    have := log_gamma_step (show 0 < y by linarith) h0 h1
    have g1 := Gamma_pos_of_pos (show 0 < y by linarith)
    rw [Gamma_add_one (by linarith), log_mul (by linarith) g1.ne'] at this
    linarith
  · have := ((tendsto_log_add (l / 2 - 1 / 2)).const_mul l).add ((tendsto_log_add l).const_mul (1 - l))
    simpa using this

/-- the step of the odd case -/
theorem kershaw_odd_step {x l : ℝ} (hx : 1 / 2 ≤ x) (h0 : 0 < l) (h1 : l ≤ 1) :
    0 ≤ log (x + 1) - log (x + l) + l * (log (x + (l / 2 + 1)) - log (x + l / 2))
      - 1 / 2 * (log ((x + (l / 2 + 1)) ^ 2 + (l - l ^ 2) / 4) - log ((x + l / 2) ^ 2 + (l - l ^ 2) / 4)) := by
  have hd : 0 ≤ (l - l ^ 2) / 4 := by nlinarith
  have hd1 : (l - l ^ 2) / 4 ≤ 1 := by nlinarith
  have hdl : (l - l ^ 2) / 4 = l * (1 - l) / 4 := by ring
  refine zero_le_of_antitone (x0 := 0)
    (D := fun x => log (x + 1) - log (x + l) + l * (log (x + (l / 2 + 1)) - log (x + l / 2))
      - 1 / 2 * (log ((x + (l / 2 + 1)) ^ 2 + (l - l ^ 2) / 4) - log ((x + l / 2) ^ 2 + (l - l ^ 2) / 4)))
    (D' := fun x => 1 / (x + 1) - 1 / (x + l) + l * (1 / (x + (l / 2 + 1)) - 1 / (x + l / 2))
      - 1 / 2 * (2 * (x + (l / 2 + 1)) / ((x + (l / 2 + 1)) ^ 2 + (l - l ^ 2) / 4) - 2 * (x + l / 2) / ((x + l / 2) ^ 2 + (l - l ^ 2) / 4)))
    (V := fun x => (log (x + 1) - log x) - (log (x + l) - log x) + l * ((log (x + (l / 2 + 1)) - log x) - (log (x + l / 2) - log x))
      - (log (x + (l / 2 + 1 + (l - l ^ 2) / 4)) - log x))
    ?_ ?_ ?_ ?_ (x := x) (by linarith)
  · intro y hy
    have hq : ∀ c : ℝ, 0 < y + c → HasDerivAt (fun z => log ((z + c) ^ 2 + (l - l ^ 2) / 4)) (2 * (y + c) / ((y + c) ^ 2 + (l - l ^ 2) / 4)) y := by
      intro c hc
      have h := ((((hasDerivAt_id y).add_const c).pow 2).add_const ((l - l ^ 2) / 4)).log (by
        have := add_pos_of_pos_of_nonneg (pow_pos hc 2) hd
        exact this.ne')
      simpa using h
    exact (((hasDerivAt_log_add (by linarith)).sub (hasDerivAt_log_add (by linarith))).add
      (((hasDerivAt_log_add (by linarith)).sub (hasDerivAt_log_add (by linarith))).const_mul l)).sub
      (((hq _ (by linarith)).sub (hq _ (by linarith))).const_mul _)
  · intro y hy
    set c := y + l / 2 with hc
    have hcp : 0 < c := by rw [hc]; linarith
    set δ := (l - l ^ 2) / 4 with hδ
    set p := c * (c + 1) with hp
    have hpp : 0 < p := by positivity
    set e := l / 2 - l ^ 2 / 4 with he
    have hee : 0 ≤ e := by rw [he]; nlinarith
    have e1 : 1 / (y + 1) - 1 / (y + l) = -(1 - l) / (p + e) := by
      have : p + e = (y + 1) * (y + l) := by rw [hp, he, hc]; ring
      rw [this]
      field_simp [show y + 1 ≠ 0 by linarith, show y + l ≠ 0 by linarith]
      ring
    have e2 : 1 / (y + (l / 2 + 1)) - 1 / c = -1 / p := by
      rw [show y + (l / 2 + 1) = c + 1 by rw [hc]; ring, hp]
      field_simp
      ring
    have hQ : 0 < p ^ 2 + 2 * δ * p + δ + δ ^ 2 := by positivity
    have e3 : 1 / 2 * (2 * (y + (l / 2 + 1)) / ((y + (l / 2 + 1)) ^ 2 + δ) - 2 * c / (c ^ 2 + δ))
        = -(p - δ) / (p ^ 2 + 2 * δ * p + δ + δ ^ 2) := by
      have h1 : 0 < (c + 1) ^ 2 + δ := by positivity
      have h2 : 0 < c ^ 2 + δ := by positivity
      have : p ^ 2 + 2 * δ * p + δ + δ ^ 2 = ((c + 1) ^ 2 + δ) * (c ^ 2 + δ) := by rw [hp]; ring
      rw [this, show y + (l / 2 + 1) = c + 1 by rw [hc]; ring, hp]
      field_simp
      ring
    rw [e1, e2, e3]
    have hpe : 0 < p + e := by linarith
    have e4 : -(1 - l) / (p + e) + l * (-1 / p) - -(p - δ) / (p ^ 2 + 2 * δ * p + δ + δ ^ 2)
        = ((p - δ) * (p * (p + e)) - (p + l * e) * (p ^ 2 + 2 * δ * p + δ + δ ^ 2)) / (p * (p + e) * (p ^ 2 + 2 * δ * p + δ + δ ^ 2)) := by
      field_simp
      ring
    rw [e4]
    refine div_nonpos_of_nonpos_of_nonneg ?_ (by positivity)
    have hk : 0 ≤ 3 * δ + l * e - e := by
      have : 3 * δ + l * e - e = l * (1 - l) * (1 / 4 + l / 4) := by rw [hδ, he]; ring
      rw [this]
      exact mul_nonneg (mul_nonneg h0.le (by linarith)) (by linarith)
    have t1 : 0 ≤ (3 * δ + l * e - e) * p ^ 2 := mul_nonneg hk (sq_nonneg _)
    have t2 : 0 ≤ (δ + δ ^ 2 + 2 * δ * l * e + δ * e) * p := by positivity
    have t3 : 0 ≤ l * e * (δ + δ ^ 2) := by positivity
    nlinarith
  · intro y hy
    have hc : 0 < y + l / 2 := by linarith
    have a1 : log ((y + (l / 2 + 1)) ^ 2 + (l - l ^ 2) / 4) ≤ 2 * log (y + (l / 2 + 1 + (l - l ^ 2) / 4)) := by
      rw [← Real.log_rpow (by linarith), rpow_two]
      refine log_le_log (by positivity) ?_
      nlinarith
    have a2 : 2 * log (y + l / 2) ≤ log ((y + l / 2) ^ 2 + (l - l ^ 2) / 4) := by
      rw [← Real.log_rpow hc, rpow_two]
      exact log_le_log (by positivity) (by linarith)
    have a3 : log y ≤ log (y + l / 2) := log_le_log hy (by linarith)
    nlinarith
  · have := ((((tendsto_log_add 1).sub (tendsto_log_add l)).add
      (((tendsto_log_add (l / 2 + 1)).sub (tendsto_log_add (l / 2))).const_mul l))).sub (tendsto_log_add (l / 2 + 1 + (l - l ^ 2) / 4))
    simpa using this

/-- the inequality of the odd case -/
theorem kershaw_odd {x l : ℝ} (hx : 1 / 2 ≤ x) (h0 : 0 < l) (h1 : l ≤ 1) :
    ((x + l / 2) ^ l * Gamma (x + 1)) ^ 2 ≤ Gamma (x + l) ^ 2 * ((x + l / 2) ^ 2 + (l - l ^ 2) / 4) := by
  have hd : 0 ≤ (l - l ^ 2) / 4 := by nlinarith
  have key := le_zero_of_steps (x0 := 1 / 2)
    (F := fun x => log (Gamma (x + 1)) - log (Gamma (x + l)) + l * log (x + l / 2) - 1 / 2 * log ((x + l / 2) ^ 2 + (l - l ^ 2) / 4))
    (U := fun x => (1 - l) * (log (x + l) - log x) + l * (log (x + l / 2) - log x)) ?_ ?_ ?_ hx
  · have g1 := Gamma_pos_of_pos (show 0 < x + 1 by linarith)
    have g2 := Gamma_pos_of_pos (show 0 < x + l by linarith)
    have hb : 0 < x + l / 2 := by linarith
    have hQ : 0 < (x + l / 2) ^ 2 + (l - l ^ 2) / 4 := by positivity
    have hL := rpow_pos_of_pos hb l
    refine (log_le_log_iff (by positivity) (by positivity)).1 ?_
    rw [log_pow, log_mul hL.ne' g1.ne', log_rpow hb, log_mul (by positivity) hQ.ne', log_pow]
    push_cast
    linarith
  · intro y hy
    have hs := kershaw_odd_step hy h0 h1
    have g1 := Gamma_pos_of_pos (show 0 < y + 1 by linarith)
    have g2 := Gamma_pos_of_pos (show 0 < y + l by linarith)
    rw [Gamma_add_one (show y + 1 ≠ 0 by linarith), show y + 1 + l = y + l + 1 by ring, Gamma_add_one (show y + l ≠ 0 by linarith),
      log_mul (by linarith) g1.ne', log_mul (by linarith) g2.ne', show y + 1 + l / 2 = y + (l / 2 + 1) by ring]
    linarith
  · intro y hy
    have := log_gamma_step (show 0 < y by linarith) h0 h1
    have hc : 0 < y + l / 2 := by linarith
    have a2 : 2 * log y ≤ log ((y + l / 2) ^ 2 + (l - l ^ 2) / 4) := by
      rw [← Real.log_rpow (by linarith), rpow_two]
      exact log_le_log (by positivity) (by nlinarith)
    linarith
  · have := ((tendsto_log_add l).const_mul (1 - l)).add ((tendsto_log_add (l / 2)).const_mul l)
    simpa using this

end Verif.Lemmas
