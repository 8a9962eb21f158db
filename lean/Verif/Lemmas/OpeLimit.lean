import Verif.Lemmas.OpeLaw
import Mathlib.Analysis.SpecificLimits.Basic

/-!
The sample converges to the determinantal law as the numbers of trials grow.
-/

namespace Verif.Lemmas
open MeasureTheory ProbabilityTheory Verif Verif.Model Verif.Spec Verif.Props Matrix Filter Topology
open scoped ENNReal

variable {d : ℕ} {par : Fin d → ℝ × ℝ} {L : List (List ℕ)}

/-- total variation distance from a lower bound -/
theorem tv_of_lower {X : Type*} [MeasurableSpace X] {μ ν : Measure X} [IsProbabilityMeasure μ] [IsProbabilityMeasure ν] {ρ : ℝ≥0∞}
    (h : ∀ A, MeasurableSet A → ρ * ν A ≤ μ A) {A : Set X} (hA : MeasurableSet A) : μ A ≤ ρ * ν A + (1 - ρ) := by
  have h1 := h Aᶜ hA.compl
  have hρ : ρ ≤ 1 := by simpa using h Set.univ MeasurableSet.univ
  have h2 : μ A + μ Aᶜ = 1 := prob_add_prob_compl hA
  have h3 : ν A + ν Aᶜ = 1 := prob_add_prob_compl hA
  have h4 : μ A + ρ * ν Aᶜ ≤ 1 := by rw [← h2]; exact add_le_add_right h1 _
  have h5 : ρ * ν A + (1 - ρ) + ρ * ν Aᶜ = 1 := by
    rw [add_right_comm, ← mul_add, h3, mul_one, add_tsub_cancel_of_le hρ]
  have hfin : ρ * ν Aᶜ ≠ ∞ := ENNReal.mul_ne_top (ne_top_of_le_ne_top ENNReal.one_ne_top hρ) (measure_ne_top _ _)
  exact (ENNReal.add_le_add_iff_right hfin).1 (h4.trans h5.ge)

/-- the constant of one point, in real numbers -/
theorem opeC_real {N n T : ℕ} (hn : n < N) {q : ℝ} (h0 : 0 ≤ q) (h1 : q ≤ 1) :
    opeC N (ENNReal.ofReal q) T n
      = ENNReal.ofReal (q * (1 - (n : ℝ) / N) * ((1 - (q * (n / N)) ^ T) / (1 - q * (n / N)))) := by
  have hN : (0 : ℝ) < N := by exact_mod_cast (Nat.zero_le n).trans_lt hn
  have hr0 : (0 : ℝ) ≤ (n : ℝ) / N := by positivity
  have hr : (n : ℝ) / N < 1 := by rw [div_lt_one hN]; exact_mod_cast hn
  have hy : q * ((n : ℝ) / N) < 1 := (mul_le_of_le_one_left hr0 h1).trans_lt hr
  have hy0 : 0 ≤ q * ((n : ℝ) / N) := mul_nonneg h0 hr0
  have e : ∑ t ∈ Finset.range T, (q * ((n : ℝ) / N)) ^ t = (1 - (q * ((n : ℝ) / N)) ^ T) / (1 - q * (n / N)) := by
    rw [eq_div_iff (by linarith), mul_comm, mul_neg_geom_sum]
  rw [opeC, ← ENNReal.ofReal_mul h0, ← e, show ((N : ℝ) - n) / N = 1 - n / N by field_simp]
  rw [ENNReal.ofReal_mul (mul_nonneg h0 (by linarith)), ENNReal.ofReal_sum_of_nonneg fun t _ => pow_nonneg hy0 t]
  congr 1
  exact Finset.sum_congr rfl fun t _ => by rw [ENNReal.ofReal_pow hy0, ENNReal.ofReal_mul h0]

theorem tendsto_opeC {ι : Type*} {l : Filter ι} {N n : ℕ} (hn : n < N) {q : ι → ℝ} {T : ι → ℕ} (h0 : ∀ i, 0 ≤ q i) (h1 : ∀ i, q i ≤ 1)
    (hq : Tendsto q l (𝓝 1)) (hT : Tendsto T l atTop) : Tendsto (fun i => opeC N (ENNReal.ofReal (q i)) (T i) n) l (𝓝 1) := by
  have hN : (0 : ℝ) < N := by exact_mod_cast (Nat.zero_le n).trans_lt hn
  have hr0 : (0 : ℝ) ≤ (n : ℝ) / N := by positivity
  have hr : (n : ℝ) / N < 1 := by rw [div_lt_one hN]; exact_mod_cast hn
  have hpow : Tendsto (fun i => (q i * ((n : ℝ) / N)) ^ T i) l (𝓝 0) := by
    refine squeeze_zero (fun i => pow_nonneg (mul_nonneg (h0 i) hr0) _)
      (fun i => pow_le_pow_left₀ (mul_nonneg (h0 i) hr0) (mul_le_of_le_one_left hr0 (h1 i)) (T i)) ?_
    exact (tendsto_pow_atTop_nhds_zero_of_lt_one hr0 hr).comp hT
  have hlim : Tendsto (fun i => q i * (1 - (n : ℝ) / N) * ((1 - (q i * (n / N)) ^ T i) / (1 - q i * (n / N)))) l
      (𝓝 (1 * (1 - (n : ℝ) / N) * ((1 - 0) / (1 - 1 * (n / N))))) := by
    refine (hq.mul_const _).mul ((hpow.const_sub 1).div ((hq.mul_const _).const_sub 1) ?_)
    rw [one_mul]; linarith
  have e : 1 * (1 - (n : ℝ) / N) * ((1 - 0) / (1 - 1 * (n / N))) = 1 := by
    have : (1 : ℝ) - n / N ≠ 0 := by linarith
    rw [one_mul, one_mul, sub_zero, mul_one_div_cancel this]
  rw [e] at hlim
  have := (ENNReal.continuous_ofReal.tendsto 1).comp hlim
  rw [ENNReal.ofReal_one] at this
  refine this.congr fun i => ?_
  rw [Function.comp_apply, ← opeC_real hn (h0 i) (h1 i)]

theorem tendsto_sample (hd : 1 ≤ d) (hpar : ∀ j, -1 < (par j).1 ∧ -1 < (par j).2) (hL : ∀ k ∈ L, k.length = d) (hnd : L.Nodup)
    (hB : OpeBoundsOK par L) {A : Set (Fin L.length → Fin d → ℝ)} (hA : MeasurableSet A) :
    Tendsto (fun p : ℕ × ℕ => (opeSample par L p.1 p.2).law A) atTop (𝓝 (opeDPP par L A)) := by
  have hDPP := opeDPP_prob hd hpar hL hnd
  choose C hC hdom using hB
  set M : ℝ := 1 + ∑ ind, C ind with hM
  have hCpos : ∀ ind, 0 < C ind := fun ind => opeBound_pos (hC ind)
  have hM1 : 1 ≤ M := by rw [hM]; linarith [Finset.sum_nonneg fun ind (_ : ind ∈ Finset.univ) => (hCpos ind).le]
  have hCM : ∀ ind, C ind ≤ M := fun ind => by
    have := Finset.single_le_sum (fun i (_ : i ∈ Finset.univ) => (hCpos i).le) (Finset.mem_univ ind)
    rw [hM]; linarith
  have hi1 : 1 / M ≤ 1 := by rw [div_le_one (by linarith)]; exact hM1
  have hi0 : 0 < 1 / M := by positivity
  set q : ℕ → ℝ := fun T0 => 1 - (1 - 1 / M) ^ T0 with hq
  have hq0 : ∀ T0, 0 ≤ q T0 := fun T0 => sub_nonneg.2 (pow_le_one₀ (by linarith) (by linarith))
  have hq1 : ∀ T0, q T0 ≤ 1 := fun T0 => sub_le_self _ (pow_nonneg (by linarith) _)
  have heff : ∀ T0, OpeEff par L T0 (ENNReal.ofReal (q T0)) := by
    intro T0 ind c hc
    rw [hC ind] at hc
    obtain rfl := Option.some.inj hc
    have hle : 1 / M ≤ 1 / C ind := one_div_le_one_div_of_le (hCpos ind) (hCM ind)
    have e : ENNReal.ofReal (q T0) = 1 - (1 - ENNReal.ofReal (1 / M)) ^ T0 := by
      rw [hq, ENNReal.ofReal_sub _ (pow_nonneg (by linarith) _), ENNReal.ofReal_pow (by linarith), ENNReal.ofReal_sub _ hi0.le,
        ENNReal.ofReal_one]
    rw [e]
    exact tsub_le_tsub_left (pow_le_pow_left₀ (by simp) (tsub_le_tsub_left (ENNReal.ofReal_le_ofReal hle) _) _) _
  have hqlim : Tendsto q atTop (𝓝 1) := by
    have := (tendsto_pow_atTop_nhds_zero_of_lt_one (r := 1 - 1 / M) (by linarith) (by linarith)).const_sub 1
    rw [sub_zero] at this
    exact this
  set ρ : ℕ × ℕ → ℝ≥0∞ := fun p => ∏ m ∈ Finset.range L.length, opeC L.length (ENNReal.ofReal (q p.1)) p.2 m with hρ
  have hfst : Tendsto (Prod.fst : ℕ × ℕ → ℕ) atTop atTop := by rw [← prod_atTop_atTop_eq]; exact tendsto_fst
  have hsnd : Tendsto (Prod.snd : ℕ × ℕ → ℕ) atTop atTop := by rw [← prod_atTop_atTop_eq]; exact tendsto_snd
  have hρlim : Tendsto ρ atTop (𝓝 1) := by
    have hne : ∀ m ∈ Finset.range L.length, Tendsto (fun p : ℕ × ℕ => opeC L.length (ENNReal.ofReal (q p.1)) p.2 m) atTop (𝓝 1) :=
      fun m hm => tendsto_opeC (Finset.mem_range.1 hm) (fun p => hq0 p.1) (fun p => hq1 p.1) (hqlim.comp hfst) hsnd
    have gen : ∀ s : Finset ℕ, s ⊆ Finset.range L.length →
        Tendsto (fun p : ℕ × ℕ => ∏ m ∈ s, opeC L.length (ENNReal.ofReal (q p.1)) p.2 m) atTop (𝓝 1) := by
      intro s
      induction s using Finset.induction_on with
      | empty => intro _; simp
      | insert a s ha ih =>
        intro hs
        have h1 := hne a (hs (Finset.mem_insert_self _ _))
        have h2 := ih fun x hx => hs (Finset.mem_insert_of_mem hx)
        have := ENNReal.Tendsto.mul h1 (Or.inl one_ne_zero) h2 (Or.inl one_ne_zero)
        rw [one_mul] at this
        exact this.congr fun p => by rw [Finset.prod_insert ha]
    exact gen _ (Finset.Subset.refl _)
  have hB' : OpeBoundsOK par L := fun ind => ⟨C ind, hC ind, hdom ind⟩
  have hev : ∀ᶠ p : ℕ × ℕ in atTop, p.1 ≠ 0 ∧ p.2 ≠ 0 := by
    filter_upwards [eventually_ge_atTop ((1, 1) : ℕ × ℕ)] with p hp
    exact ⟨by have := hp.1; simp at this; omega, by have := hp.2; simp at this; omega⟩
  have hlow : Tendsto (fun p => ρ p * opeDPP par L A) atTop (𝓝 (opeDPP par L A)) := by
    have := ENNReal.Tendsto.mul_const (b := opeDPP par L A) hρlim (Or.inl one_ne_zero)
    rwa [one_mul] at this
  have hup : Tendsto (fun p => ρ p * opeDPP par L A + (1 - ρ p)) atTop (𝓝 (opeDPP par L A)) := by
    have h1 := ENNReal.Tendsto.sub (tendsto_const_nhds (x := (1 : ℝ≥0∞))) hρlim (Or.inl ENNReal.one_ne_top)
    have := hlow.add h1
    rwa [tsub_self, add_zero] at this
  refine tendsto_of_tendsto_of_tendsto_of_le_of_le' hlow hup ?_ ?_
  · filter_upwards [hev] with p hp
    exact sample_lower hd hpar hL hnd hB' hp.1 hp.2 (heff p.1) hA
  · filter_upwards [hev] with p hp
    have := sample_prob (par := par) (L := L) hp.1 hp.2
    exact tv_of_lower (fun B hB => sample_lower hd hpar hL hnd hB' hp.1 hp.2 (heff p.1) hB) hA

end Verif.Lemmas
