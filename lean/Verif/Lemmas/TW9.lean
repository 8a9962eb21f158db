import Verif.Lemmas.TW7

/-!
Tail of the Tracy-Widom distribution function at `+∞`.
-/

namespace Verif.Lemmas.TW
open MeasureTheory Verif.Spec Filter Real

theorem twTerm_bound (s : ℝ) (n : ℕ) : |twTerm s n| ≤ (√(n : ℝ)) ^ n / (n.factorial : ℝ) * (exp (-2 * s) / 2) ^ n := by
  have hr : (volume : Measure (Fin n → ℝ)).restrict (Set.univ.pi fun _ : Fin n => Set.Ioi s)
      = Measure.pi fun _ : Fin n => volume.restrict (Set.Ioi s) := by
    rw [volume_pi, Measure.restrict_pi_pi]
  have hb : Integrable (fun x : Fin n → ℝ => ∏ a, exp (-2 * x a)) (Measure.pi fun _ : Fin n => volume.restrict (Set.Ioi s)) :=
    Integrable.fintype_prod (f := fun _ t => exp (-2 * t)) fun _ => exp2_int' s
  have hI : ∫ x : Fin n → ℝ, ∏ a, exp (-2 * x a) ∂(Measure.pi fun _ : Fin n => volume.restrict (Set.Ioi s)) = (exp (-2 * s) / 2) ^ n := by
    rw [integral_fintype_prod_eq_prod (f := fun (_ : Fin n) (t : ℝ) => exp (-2 * t))]
    rw [Finset.prod_const, Finset.card_univ, Fintype.card_fin, integral_exp_mul_Ioi (by norm_num)]
    congr 1; ring
  have h1 : |∫ x in (Set.univ.pi fun _ : Fin n => Set.Ioi s), (Matrix.of fun i j => airyKernel (x i) (x j)).det|
      ≤ (√(n : ℝ)) ^ n * (exp (-2 * s) / 2) ^ n := by
    rw [hr, ← hI, ← integral_const_mul]
    refine norm_integral_le_of_norm_le (f := fun x : Fin n → ℝ => (Matrix.of fun i j => airyKernel (x i) (x j)).det) (hb.const_mul _)
      (ae_of_all _ fun x => (det_airy_bound n x).trans ?_)
    refine mul_le_mul_of_nonneg_right ?_ (Finset.prod_nonneg fun a _ => (exp_pos _).le)
    refine pow_le_pow_left₀ (mul_nonneg (sq_nonneg _) (Real.sqrt_nonneg _)) ?_ n
    exact mul_le_of_le_one_left (Real.sqrt_nonneg _) (pow_le_one₀ aB_nonneg aB_le_one)
  unfold twTerm
  rw [abs_mul, abs_div, abs_pow, abs_neg, abs_one, one_pow, abs_of_nonneg (Nat.cast_nonneg' _)]
  refine (mul_le_mul_of_nonneg_left h1 (by positivity)).trans (le_of_eq ?_)
  ring

theorem tracyWidom_tail : Tendsto tracyWidom atTop (nhds 1) := by
  have h0 : ∀ s, twTerm s 0 = 1 := by
    intro s
    unfold twTerm
    simp [volume_pi, measureReal_def]
  have he : Tendsto (fun s : ℝ => exp (-2 * s) / 2) atTop (nhds 0) := by
    have h1 : Tendsto (fun s : ℝ => -2 * s) atTop atBot := tendsto_id.const_mul_atTop_of_neg (by norm_num)
    have := (tendsto_exp_atBot.comp h1).div_const 2
    simpa using this
  have hlim : ∀ n, Tendsto (fun s => twTerm s n) atTop (nhds (if n = 0 then 1 else 0)) := by
    intro n
    by_cases hn : n = 0
    · subst hn; simp only [h0, if_true]; exact tendsto_const_nhds
    · rw [if_neg hn]
      refine squeeze_zero_norm (fun s => twTerm_bound s n) ?_
      have := ((he.pow n).const_mul ((√(n : ℝ)) ^ n / (n.factorial : ℝ)))
      rwa [zero_pow hn, mul_zero] at this
  have hs : Summable fun n : ℕ => (√(n : ℝ)) ^ n / (n.factorial : ℝ) := by
    have := hadamard_summable 1 zero_le_one
    simpa using this
  have := tendsto_tsum_of_dominated_convergence (f := fun s n => twTerm s n) (bound := fun n : ℕ => (√(n : ℝ)) ^ n / (n.factorial : ℝ)) hs hlim
    (by
      filter_upwards [eventually_ge_atTop 0] with s hs n
      refine (twTerm_bound s n).trans (mul_le_of_le_one_right (by positivity) (pow_le_one₀ (by positivity) ?_))
      have : exp (-2 * s) ≤ 1 := exp_le_one_iff.2 (by linarith)
      linarith)
  rwa [tsum_ite_eq] at this

end Verif.Lemmas.TW
