import Verif.Discrete
import Mathlib.Data.Nat.Choose.Sum

/-!
Thinning a Poisson variable, and independent draws in two stages.
-/

namespace Verif
open scoped ENNReal NNReal

theorem binom_apply {p : ℝ} (h0 : 0 ≤ p) (h1 : p ≤ 1) : ∀ s k, binom p s k = ENNReal.ofReal ((s.choose k : ℝ) * p ^ k * (1 - p) ^ (s - k))
  | 0, 0 => by simp [binom]
  | 0, k + 1 => by simp [binom]
  | s + 1, k => by
    classical
    have hq : 0 ≤ 1 - p := by linarith
    have h2 : binom p (s + 1) k = PE (binom p (s + 1)) (fun c => if c = k then 1 else 0) := by
      unfold PE
      rw [tsum_eq_single k]
      · simp
      · intro c hc; simp [hc]
    rw [h2, binom, PE_bind, PE_coin h0 h1, PE_map, PE_map]
    have h3 : ∀ g : ℕ → ℝ≥0∞, (∀ c, g c = if c = k then 1 else 0) → PE (binom p s) g = binom p s k := by
      intro g hg
      unfold PE
      rw [tsum_eq_single k]
      · simp [hg]
      · intro c hc; simp [hg, hc]
    simp only [if_true, Bool.false_eq_true, if_false]
    rw [h3 _ (fun c => rfl), binom_apply h0 h1 s k]
    cases k with
    | zero =>
      have : PE (binom p s) (fun c => if c + 1 = 0 then 1 else 0) = 0 := by
        unfold PE; simp
      rw [this, mul_zero, zero_add, ← ENNReal.ofReal_mul hq]
      congr 1
      simp [pow_succ]; ring
    | succ k =>
      have : PE (binom p s) (fun c => if c + 1 = k + 1 then 1 else 0) = binom p s k := by
        unfold PE
        rw [tsum_eq_single k]
        · simp
        · intro c hc; simp [hc]
      rw [this, binom_apply h0 h1 s k, ← ENNReal.ofReal_mul h0, ← ENNReal.ofReal_mul hq, ← ENNReal.ofReal_add (by positivity) (by positivity)]
      congr 1
      rw [Nat.choose_succ_succ, Nat.add_sub_add_right]
      push_cast
      rcases Nat.lt_or_ge s (k + 1) with h | h
      · rw [Nat.choose_eq_zero_of_lt h]
        push_cast; ring
      · obtain ⟨d, rfl⟩ := Nat.exists_eq_add_of_le h
        rw [Nat.add_sub_cancel_left, show k + 1 + d - k = d + 1 by omega]
        ring

/-- a thinned Poisson variable is a Poisson variable -/
theorem poisson_thin (lam : ℝ≥0) {p : ℝ} (h0 : 0 ≤ p) (h1 : p ≤ 1) :
    (poisson lam).bind (binom p) = poisson (lam * p).toNNReal := by
  have hq : 0 ≤ 1 - p := by linarith
  have hlp : ((((lam:ℝ) * p).toNNReal : ℝ≥0) : ℝ) = lam * p := Real.coe_toNNReal _ (mul_nonneg lam.coe_nonneg h0)
  ext k
  rw [PMF.bind_apply]
  change ∑' s, ENNReal.ofReal (poissonW lam s) * binom p s k = ENNReal.ofReal (poissonW _ k)
  have h2 : ∀ s, ENNReal.ofReal (poissonW lam s) * binom p s k
      = ENNReal.ofReal (poissonW lam s * ((s.choose k : ℝ) * p ^ k * (1 - p) ^ (s - k))) := fun s => by
    rw [binom_apply h0 h1, ENNReal.ofReal_mul (poissonW_nonneg lam.coe_nonneg s)]
  simp_rw [h2]
  have hs : HasSum (fun s => poissonW lam s * ((s.choose k : ℝ) * p ^ k * (1 - p) ^ (s - k))) (poissonW (lam * p) k) := by
    rw [← hasSum_nat_add_iff' k]
    have hz : ∑ i ∈ Finset.range k, poissonW lam i * ((i.choose k : ℝ) * p ^ k * (1 - p) ^ (i - k)) = 0 := by
      refine Finset.sum_eq_zero fun i hi => ?_
      rw [Nat.choose_eq_zero_of_lt (Finset.mem_range.1 hi)]; simp
    rw [hz, sub_zero]
    have h := (hasSum_poissonW ((lam : ℝ) * (1 - p))).mul_left (poissonW (lam * p) k)
    rw [mul_one] at h
    refine h.congr_fun ?_ |> fun y => y
    intro i
    unfold poissonW
    have h3 : ((i + k).choose k : ℝ) * (i.factorial * k.factorial) = (i + k).factorial := by
      have := Nat.add_choose_mul_factorial_mul_factorial i k
      rw [← this]; push_cast; ring
    have h4 : Real.exp (-(lam * p)) * Real.exp (-(lam * (1 - p))) = Real.exp (-(lam:ℝ)) := by rw [← Real.exp_add]; ring_nf
    have h5 : ((i + k).factorial : ℝ) ≠ 0 := by exact_mod_cast Nat.factorial_ne_zero _
    have h6 : (i.factorial : ℝ) ≠ 0 := by exact_mod_cast Nat.factorial_ne_zero _
    have h7 : (k.factorial : ℝ) ≠ 0 := by exact_mod_cast Nat.factorial_ne_zero _
    have h8 : ((i + k).choose k : ℝ) / (i + k).factorial = 1 / (i.factorial * k.factorial) := by
      rw [← h3]
      have : ((i + k).choose k : ℝ) ≠ 0 := by
        have := Nat.choose_pos (n := i + k) (k := k) (by omega)
        exact_mod_cast this.ne'
      field_simp
    rw [Nat.add_sub_cancel, ← h4]
    calc _ = (Real.exp (-(lam * p)) * Real.exp (-(lam * (1 - p)))) * (lam:ℝ) ^ (i + k) * p ^ k * (1 - p) ^ i
          * (((i + k).choose k : ℝ) / (i + k).factorial) := by ring
      _ = _ := by rw [h8, pow_add, mul_pow, mul_pow]; field_simp
  rw [← ENNReal.ofReal_tsum_of_nonneg _ hs.summable, hs.tsum_eq, hlp]
  intro s
  exact mul_nonneg (poissonW_nonneg lam.coe_nonneg s) (by positivity)

theorem PE_swap {α β : Type*} (p : PMF α) (q : PMF β) (h : α → β → ℝ≥0∞) :
    PE p (fun a => PE q fun b => h a b) = PE q fun b => PE p fun a => h a b := by
  unfold PE
  simp_rw [← ENNReal.tsum_mul_left]
  rw [ENNReal.tsum_comm]
  refine tsum_congr fun b => tsum_congr fun a => ?_
  ring

/-- independent draws in two stages -/
theorem PE_indep_bind {α β : Type*} : ∀ {n : ℕ} (f : Fin n → PMF α) (g : Fin n → α → PMF β) (φ : (Fin n → β) → ℝ≥0∞),
    PE (indep f) (fun a => PE (indep fun i => g i (a i)) φ) = PE (indep fun i => (f i).bind (g i)) φ
  | 0, f, g, φ => by simp only [indep, PE_pure]
  | n + 1, f, g, φ => by
    simp only [indep]
    rw [PE_bind, PE_bind, PE_bind]
    refine congrArg (PE (f 0)) (funext fun a => ?_)
    rw [PE_map]
    simp only [Fin.cons_zero, Fin.cons_succ]
    simp_rw [PE_bind]
    rw [PE_swap]
    refine congrArg (PE (g 0 a)) (funext fun b => ?_)
    simp_rw [PE_map]
    exact PE_indep_bind (fun i => f i.succ) (fun i => g i.succ) fun c => φ (Fin.cons b c)

end Verif
