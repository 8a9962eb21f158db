import Verif.Lemmas.Gin5
import Verif.Lemmas.PiDensity
import Verif.Lemmas.Circ9

/-!
# Ginibre ensemble: the law of the eigenvalues
-/

namespace Verif.Lemmas
open Finset Matrix MeasureTheory ProbabilityTheory Verif.Model Verif.Spec

variable {n : ℕ}

/-! ### Product densities -/

theorem lintegral_fin_prod {α : Type} [MeasurableSpace α] (μ : Measure α) [SigmaFinite μ] : ∀ {n : ℕ} {f : Fin n → α → ENNReal}
    (_ : ∀ i, Measurable (f i)), ∫⁻ x, ∏ i, f i (x i) ∂(Measure.pi fun _ : Fin n => μ) = ∏ i, ∫⁻ t, f i t ∂μ
  | 0, f, hf => by
    simp only [univ_eq_empty, prod_empty, lintegral_const, one_mul]
    rw [Measure.pi_of_empty]
    simp
  | n + 1, f, hf => by
    have h := (measurePreserving_piFinSuccAbove (fun _ : Fin (n + 1) => μ) 0).symm
    rw [← h.lintegral_comp (by fun_prop)]
    have hm : Measurable fun y : Fin n → α => ∏ i, f i.succ (y i) :=
      Finset.measurable_prod _ fun i _ => (hf _).comp (measurable_pi_apply i)
    have e : ∀ a : α × (Fin n → α), ∏ i, f i ((MeasurableEquiv.piFinSuccAbove (fun _ => α) (0 : Fin (n + 1))).symm a i)
        = f 0 a.1 * ∏ i, f i.succ (a.2 i) := by
      intro a
      rw [Fin.prod_univ_succ]
      rfl
    simp only [e]
    rw [lintegral_prod_mul (hf 0).aemeasurable hm.aemeasurable]
    rw [Fin.prod_univ_succ]
    congr 1
    exact lintegral_fin_prod μ (fun i => hf i.succ)

theorem lintegral_ft_prod {ι α : Type} [Fintype ι] [MeasurableSpace α] (μ : Measure α) [SigmaFinite μ] {f : ι → α → ENNReal}
    (hf : ∀ i, Measurable (f i)) : ∫⁻ x, ∏ i, f i (x i) ∂(Measure.pi fun _ : ι => μ) = ∏ i, ∫⁻ t, f i t ∂μ := by
  have e := Fintype.equivFin ι
  have h := measurePreserving_piCongrLeft (fun _ : ι => μ) e.symm
  rw [← h.lintegral_comp (by fun_prop)]
  have h2 : ∀ a : Fin (Fintype.card ι) → α, ∏ i, f i ((MeasurableEquiv.piCongrLeft (fun _ : ι => α) e.symm) a i) = ∏ k, f (e.symm k) (a k) := fun a => by
    rw [← Equiv.prod_comp e.symm]
    refine prod_congr rfl fun k _ => ?_
    congr 1
    exact Equiv.piCongrLeft_apply_apply (fun _ : ι => α) e.symm a k
  simp only [h2]
  rw [lintegral_fin_prod μ fun k => hf (e.symm k), Equiv.prod_comp e.symm fun i => ∫⁻ t, f i t ∂μ]

theorem pi_withDensity' {ι α : Type} [Fintype ι] [MeasurableSpace α] (μ : Measure α) [SigmaFinite μ] {f : α → ENNReal} (hf : Measurable f)
    [SigmaFinite (μ.withDensity f)] :
    Measure.pi (fun _ : ι => μ.withDensity f) = (Measure.pi fun _ : ι => μ).withDensity fun x => ∏ i, f (x i) := by
  refine Measure.pi_eq fun s hs => ?_
  rw [withDensity_apply _ (MeasurableSet.univ_pi hs), ← lintegral_indicator (MeasurableSet.univ_pi hs)]
  have e : ∀ x : ι → α, (Set.univ.pi s).indicator (fun x => ∏ i, f (x i)) x = ∏ i, (s i).indicator f (x i) := by
    intro x
    by_cases hx : x ∈ Set.univ.pi s
    · rw [Set.indicator_of_mem hx]
      exact prod_congr rfl fun i _ => (Set.indicator_of_mem (hx i (Set.mem_univ i)) _).symm
    · rw [Set.indicator_of_notMem hx]
      have : ∃ i, x i ∉ s i := by simpa [Set.mem_pi] using hx
      obtain ⟨i, hi⟩ := this
      exact (prod_eq_zero (mem_univ i) (Set.indicator_of_notMem hi _)).symm
  simp only [e]
  rw [lintegral_ft_prod μ fun i => hf.indicator (hs i)]
  refine prod_congr rfl fun i _ => ?_
  rw [withDensity_apply _ (hs i), lintegral_indicator (hs i)]

/-! ### Gaussian matrices -/

/-- the Gaussian weight -/
noncomputable def gw (N : ℕ) : Measure (Fin N × Fin N → ℂ) := (volume : Measure (Fin N × Fin N → ℂ)).withDensity fun x => ee (fro (mat x))

theorem measurable_gwd (N : ℕ) : Measurable fun x : Fin N × Fin N → ℂ => ee (fro (mat x)) := measurable_ee.comp (measurable_fro measurable_mat)

/-- the law of the entries of the matrix, divided by the square root of two -/
noncomputable def gam3 : Measure ℂ := gam2.map fun z => z / ((√2 : ℝ) : ℂ)

theorem prob_gam3 : IsProbabilityMeasure gam3 := by
  have := prob_gam2
  exact Measure.isProbabilityMeasure_map (by fun_prop)

theorem gam3_density : ∃ k : ENNReal, k ≠ 0 ∧ k ≠ ⊤ ∧ gam3 = volume.withDensity fun z : ℂ => k * ee (‖z‖ ^ 2) := by
  have h2 : (0 : ℝ) < √2 := by positivity
  have hne : ((√2 : ℝ) : ℂ) ≠ 0 := by exact_mod_cast h2.ne'
  let L : ℂ →ₗ[ℝ] ℂ :=
    { toFun := fun z => z / ((√2 : ℝ) : ℂ)
      map_add' := fun a b => add_div a b _
      map_smul' := fun c a => by simp [mul_div_assoc] }
  have hL : Function.Injective L := fun a b h => by
    have h1 : a / ((√2 : ℝ) : ℂ) = b / ((√2 : ℝ) : ℂ) := h
    exact (div_left_inj' hne).1 h1
  obtain ⟨κ, h0, ht, hκ⟩ := lin_const (volume : Measure ℂ) L hL
  obtain ⟨k, hk⟩ : ∃ k : ENNReal, k = ENNReal.ofReal ((√(2 * Real.pi))⁻¹ ^ 2) := ⟨_, rfl⟩
  have hk0 : k ≠ 0 := by rw [hk]; exact (ENNReal.ofReal_pos.2 (by positivity)).ne'
  have hkt : k ≠ ⊤ := by rw [hk]; exact ENNReal.ofReal_ne_top
  refine ⟨κ * k, mul_ne_zero h0 hk0, ENNReal.mul_ne_top ht hkt, ?_⟩
  have hm : Measurable fun z : ℂ => z / ((√2 : ℝ) : ℂ) := by fun_prop
  ext S hS
  rw [gam3, Measure.map_apply hm hS, gam2_density, withDensity_apply _ (hm hS), withDensity_apply _ hS, ← lintegral_indicator (hm hS),
    ← lintegral_indicator hS]
  have hf : Measurable (S.indicator fun z : ℂ => k * ee (‖z‖ ^ 2)) :=
    ((measurable_ee.comp (measurable_norm.pow_const 2)).const_mul k).indicator hS
  have e1 := hκ _ hf
  have e2 : ∫⁻ z, S.indicator (fun z : ℂ => κ * k * ee (‖z‖ ^ 2)) z = κ * ∫⁻ z, S.indicator (fun z : ℂ => k * ee (‖z‖ ^ 2)) z := by
    rw [← lintegral_const_mul _ hf]
    refine lintegral_congr fun z => ?_
    by_cases hz : z ∈ S
    · rw [Set.indicator_of_mem hz, Set.indicator_of_mem hz, mul_assoc]
    · rw [Set.indicator_of_notMem hz, Set.indicator_of_notMem hz, mul_zero]
  rw [e2, ← e1]
  refine lintegral_congr fun z => ?_
  have e3 : L z = z / ((√2 : ℝ) : ℂ) := rfl
  rw [e3]
  by_cases hz : z / ((√2 : ℝ) : ℂ) ∈ S
  · rw [Set.indicator_of_mem hz, Set.indicator_of_mem (show z ∈ (fun z : ℂ => z / ((√2 : ℝ) : ℂ)) ⁻¹' S from hz)]
    rw [hk, ee, ← ENNReal.ofReal_mul (by positivity)]
    congr 3
    rw [norm_div, Complex.norm_real, Real.norm_eq_abs, abs_of_pos h2, div_pow, Real.sq_sqrt (by norm_num)]
    ring
  · rw [Set.indicator_of_notMem hz, Set.indicator_of_notMem (show z ∉ (fun z : ℂ => z / ((√2 : ℝ) : ℂ)) ⁻¹' S from hz)]

theorem prod_ee {ι : Type} [Fintype ι] (f : ι → ℝ) : ∏ i, ee (f i) = ee (∑ i, f i) := by
  simp only [ee]
  rw [← ENNReal.ofReal_prod_of_nonneg fun i _ => (Real.exp_pos _).le, ← Real.exp_sum, sum_neg_distrib]

theorem gam3_pi (N : ℕ) : ∃ k : ENNReal, k ≠ 0 ∧ k ≠ ⊤ ∧ (Measure.pi fun _ : Fin N × Fin N => gam3) = k • gw N := by
  obtain ⟨k, h0, ht, hk⟩ := gam3_density
  have hm : Measurable fun z : ℂ => k * ee (‖z‖ ^ 2) := (measurable_ee.comp (measurable_norm.pow_const 2)).const_mul k
  have hp := prob_gam3
  have : IsProbabilityMeasure (volume.withDensity fun z : ℂ => k * ee (‖z‖ ^ 2)) := by rw [← hk]; exact hp
  refine ⟨∏ _p : Fin N × Fin N, k, prod_ne_zero_iff.2 fun _ _ => h0, ENNReal.prod_ne_top fun _ _ => ht, ?_⟩
  rw [hk, pi_withDensity' volume hm, gw]
  simp only [prod_mul_distrib, prod_ee]
  have e : ∀ x : Fin N × Fin N → ℂ, ∑ i, ‖x i‖ ^ 2 = fro (mat x) := fun x => by
    rw [fro, Fintype.sum_prod_type]; rfl
  simp only [e]
  exact withDensity_smul _ (measurable_gwd N)

theorem gw_finite (N : ℕ) : gw N Set.univ ≠ ⊤ := by
  obtain ⟨k, h0, ht, hk⟩ := gam3_pi N
  have hp := prob_gam3
  have h1 : (Measure.pi fun _ : Fin N × Fin N => gam3) Set.univ = 1 := measure_univ
  rw [hk, Measure.smul_apply, smul_eq_mul] at h1
  intro h
  rw [h, ENNReal.mul_top h0] at h1
  exact ENNReal.top_ne_one h1

/-! ### The law of the eigenvalues -/

/-- the claimed law, up to a constant -/
noncomputable def ginM (N : ℕ) : Measure (Fin N → ℂ) :=
  (volume.restrict {z : Fin N → ℂ | LexStrict z}).withDensity fun z => ENNReal.ofReal (ginibreDensity z)

theorem measurable_ginD (N : ℕ) : Measurable fun z : Fin N → ℂ => ENNReal.ofReal (ginibreDensity z) := by
  unfold ginibreDensity
  fun_prop

theorem measurable_evm (N : ℕ) : Measurable fun x : Fin N × Fin N → ℂ => evs (mat x) := measurable_evs measurable_mat

theorem gin_zero : (gw 0).map (fun x => evs (mat x)) = (1 : ENNReal) • ginM 0 := by
  rw [one_smul]
  have hu : ∀ S : Set (Fin 0 → ℂ), S = ∅ ∨ S = Set.univ := fun S => (Set.eq_empty_or_nonempty S).imp_right fun hS => Subsingleton.eq_univ_of_nonempty hS
  ext S hS
  rcases hu S with rfl | rfl
  · simp
  · rw [Measure.map_apply (measurable_evm 0) MeasurableSet.univ, Set.preimage_univ, gw, withDensity_apply _ MeasurableSet.univ, ginM,
      withDensity_apply _ MeasurableSet.univ, Measure.restrict_univ, Measure.restrict_univ]
    have e1 : {z : Fin 0 → ℂ | LexStrict z} = Set.univ := Set.eq_univ_of_forall fun z => by
      intro i; exact Fin.elim0 i
    have e2 : ∀ x : Fin 0 × Fin 0 → ℂ, ee (fro (mat x)) = 1 := fun x => by simp [fro, ee]
    have e3 : ∀ x : Fin 0 → ℂ, ENNReal.ofReal (ginibreDensity x) = 1 := fun x => by simp [ginibreDensity]
    simp only [e1, e2, e3, Measure.restrict_univ, lintegral_const, one_mul]
    rw [volume_pi, volume_pi, Measure.pi_of_empty, Measure.pi_of_empty]
    simp

theorem ae_simple {N : ℕ} {K : ENNReal} (h : (gw N).map (fun x => evs (mat x)) = K • ginM N) :
    ∀ᵐ x : Fin N × Fin N → ℂ, Function.Injective (evs (mat x)) := by
  have h1 : ∀ᵐ z ∂(K • ginM N), LexStrict z := by
    refine Measure.ae_smul_measure ?_ K
    have h2 : ∀ᵐ z ∂(volume.restrict {z : Fin N → ℂ | LexStrict z}), LexStrict z := ae_restrict_mem (measurableSet_lexStrict N)
    exact (withDensity_absolutelyContinuous _ _).ae_le h2
  rw [← h] at h1
  have h3 := ae_of_ae_map (measurable_evm N).aemeasurable h1
  have h4 : (volume : Measure (Fin N × Fin N → ℂ)) ≪ gw N :=
    withDensity_absolutelyContinuous' (measurable_gwd N).aemeasurable (Filter.Eventually.of_forall fun x => ee_ne _)
  filter_upwards [h4.ae_le h3] with x hx i j hij
  exact hx.injective (congrArg lexKey hij)

theorem ginD_cons (t : ℂ) (z : Fin n → ℂ) : ginibreDensity (Fin.cons t z : Fin (n + 1) → ℂ) = ‖∏ i, (t - z i)‖ ^ 2 * Real.exp (-‖t‖ ^ 2) * ginibreDensity z := by
  rw [ginibreDensity, ginibreDensity, Fin.prod_univ_succ, Fin.prod_univ_succ]
  simp only [Fin.cons_zero, Fin.cons_succ]
  have e0 : ∏ j ∈ Ioi (0 : Fin (n + 1)), ‖t - (Fin.cons t z : Fin (n + 1) → ℂ) j‖ ^ 2 = ‖∏ i, (t - z i)‖ ^ 2 := by
    rw [Fin.Ioi_zero_eq_map, prod_map, norm_prod, ← prod_pow]
    rfl
  have e1 : ∀ i : Fin n, ∏ j ∈ Ioi i.succ, ‖z i - (Fin.cons t z : Fin (n + 1) → ℂ) j‖ ^ 2 = ∏ j ∈ Ioi i, ‖z i - z j‖ ^ 2 := fun i => by
    rw [Fin.Ioi_succ, prod_map]
    rfl
  rw [e0, prod_congr rfl fun i _ => e1 i]
  ring

theorem lexStrict_cons {t : ℂ} {z : Fin n → ℂ} : LexStrict (Fin.cons t z : Fin (n + 1) → ℂ) ↔ (∀ i, lexKey t < lexKey (z i)) ∧ LexStrict z := by
  constructor
  · intro h
    exact ⟨fun i => h (Fin.succ_pos i), fun i j hij => h (Fin.succ_lt_succ_iff.2 hij)⟩
  · rintro ⟨h1, h2⟩ i j hij
    induction i using Fin.cases with
    | zero => induction j using Fin.cases with
      | zero => exact absurd hij (lt_irrefl _)
      | succ j => exact h1 j
    | succ i => induction j using Fin.cases with
      | zero => exact absurd hij (by simp [Fin.lt_def])
      | succ j => exact h2 (Fin.succ_lt_succ_iff.1 hij)

open Classical in
/-- the integrand as a function of the eigenvalues -/
noncomputable def gvec (F : (Fin (n + 1) → ℂ) → ENNReal) (t : ℂ) (z : Fin n → ℂ) : ENNReal :=
  ENNReal.ofReal (‖∏ i, (t - z i)‖ ^ 2) * if ∀ i, lexKey t ≤ lexKey (z i) then F (Fin.cons t z) else 0

theorem measurable_gvec {F : (Fin (n + 1) → ℂ) → ENNReal} (hF : Measurable F) (t : ℂ) : Measurable (gvec F t) := by
  unfold gvec
  refine Measurable.mul (by fun_prop) (Measurable.ite ?_ (hF.comp (measurable_cons measurable_const measurable_id)) measurable_const)
  have : {x : Fin n → ℂ | ∀ i, lexKey t ≤ lexKey (x i)} = ⋂ i, {x | lexKey t ≤ lexKey (x i)} := by ext x; simp
  rw [this]
  exact MeasurableSet.iInter fun i => measurableSet_lexle measurable_const (measurable_pi_apply i)

theorem gfun_eq (F : (Fin (n + 1) → ℂ) → ENNReal) (t : ℂ) (B : Matrix (Fin n) (Fin n) ℂ) : gfun F t B = gvec F t (evs B) := by
  unfold gfun gvec
  rw [evs_det]

theorem II_eq {K : ENNReal} (h : (gw n).map (fun x => evs (mat x)) = K • ginM n) {F : (Fin (n + 1) → ℂ) → ENNReal} (hF : Measurable F) :
    II F = K * ∫⁻ y, F y ∂(ginM (n + 1)) := by
  classical
  have h1 : ∀ t : ℂ, ∫⁻ b : Fin n × Fin n → ℂ, gfun F t (mat b) * (ee (‖t‖ ^ 2) * ee (fro (mat b)))
      = K * ∫⁻ z : Fin n → ℂ, {y : Fin (n + 1) → ℂ | LexStrict y}.indicator (fun y => ENNReal.ofReal (ginibreDensity y) * F y) (Fin.cons t z) := fun t => by
    have m1 := measurable_gvec hF t
    have e1 : ∫⁻ b : Fin n × Fin n → ℂ, gfun F t (mat b) * (ee (‖t‖ ^ 2) * ee (fro (mat b)))
        = ee (‖t‖ ^ 2) * ∫⁻ z, gvec F t z ∂((gw n).map fun x => evs (mat x)) := by
      have m2 : Measurable fun x : Fin n × Fin n → ℂ => gvec F t (evs (mat x)) := m1.comp (measurable_evm n)
      rw [lintegral_map m1 (measurable_evm n), gw, lintegral_withDensity_eq_lintegral_mul _ (measurable_gwd n) m2, ← lintegral_const_mul _ ((measurable_gwd n).mul m2)]
      refine lintegral_congr fun b => ?_
      rw [gfun_eq, Pi.mul_apply]
      ring
    rw [e1, h, lintegral_smul_measure, ginM, lintegral_withDensity_eq_lintegral_mul _ (measurable_ginD n) m1, smul_eq_mul, mul_left_comm,
      ← lintegral_indicator (measurableSet_lexStrict n), ← lintegral_const_mul _ (((measurable_ginD n).mul m1).indicator (measurableSet_lexStrict n))]
    congr 1
    refine lintegral_congr fun z => ?_
    simp only [Set.indicator_apply, Set.mem_ofPred_eq, lexStrict_cons, Pi.mul_apply]
    by_cases hz : LexStrict z
    · by_cases hle : ∀ i, lexKey t ≤ lexKey (z i)
      · by_cases hlt : ∀ i, lexKey t < lexKey (z i)
        · rw [if_pos hz, if_pos ⟨hlt, hz⟩, gvec, if_pos hle, ginD_cons, ee, ENNReal.ofReal_mul (by positivity), ENNReal.ofReal_mul (by positivity)]
          ring
        · rw [if_pos hz, if_neg fun h => hlt h.1]
          push Not at hlt
          obtain ⟨i, hi⟩ := hlt
          have : t = z i := lexKey_inj (le_antisymm (hle i) hi)
          have h0 : ∏ i, (t - z i) = 0 := prod_eq_zero (mem_univ i) (sub_eq_zero.2 this)
          rw [gvec, h0]
          simp
      · rw [if_pos hz, if_neg fun h => hle fun i => (h.1 i).le, gvec, if_neg hle]
        simp
    · rw [if_neg hz, if_neg fun h => hz h.2, mul_zero]
  have hmI : Measurable ({y : Fin (n + 1) → ℂ | LexStrict y}.indicator (fun y => ENNReal.ofReal (ginibreDensity y) * F y)) :=
    ((measurable_ginD (n + 1)).mul hF).indicator (measurableSet_lexStrict (n + 1))
  have hv := (volume_preserving_piFinSuccAbove (fun _ : Fin (n + 1) => ℂ) 0).symm
  rw [II, ginM, lintegral_withDensity_eq_lintegral_mul _ (measurable_ginD (n + 1)) hF, ← lintegral_indicator (measurableSet_lexStrict (n + 1))]
  have e2 : ∫⁻ y, {y : Fin (n + 1) → ℂ | LexStrict y}.indicator ((fun y => ENNReal.ofReal (ginibreDensity y)) * F) y
      = ∫⁻ t : ℂ, ∫⁻ z : Fin n → ℂ, {y : Fin (n + 1) → ℂ | LexStrict y}.indicator (fun y => ENNReal.ofReal (ginibreDensity y) * F y) (Fin.cons t z) := by
    have m3 : Measurable fun p : ℂ × (Fin n → ℂ) =>
        {y : Fin (n + 1) → ℂ | LexStrict y}.indicator (fun y => ENNReal.ofReal (ginibreDensity y) * F y) (Fin.cons p.1 p.2) :=
      hmI.comp (measurable_cons measurable_fst measurable_snd)
    rw [← lintegral_prod (μ := (volume : Measure ℂ)) (ν := (volume : Measure (Fin n → ℂ))) _ m3.aemeasurable]
    refine (hv.lintegral_comp hmI).symm.trans ?_
    refine lintegral_congr fun a => congrArg _ ?_
    funext i
    refine Fin.cases ?_ (fun j => ?_) i
    · rfl
    · rfl
  rw [e2, ← lintegral_const_mul]
  · exact lintegral_congr fun t => h1 t
  · have m3 : Measurable fun p : ℂ × (Fin n → ℂ) =>
        {y : Fin (n + 1) → ℂ | LexStrict y}.indicator (fun y => ENNReal.ofReal (ginibreDensity y) * F y) (Fin.cons p.1 p.2) :=
      hmI.comp (measurable_cons measurable_fst measurable_snd)
    exact m3.lintegral_prod_right'

theorem gin_step {K : ENNReal} (h : (gw n).map (fun x => evs (mat x)) = K • ginM n) :
    ∃ K' : ENNReal, (gw (n + 1)).map (fun x => evs (mat x)) = K' • ginM (n + 1) := by
  choose κ hκ0 hκ using inner_integral (n := n)
  have hs := ae_simple h
  have key : ∀ F : (Fin (n + 1) → ℂ) → ENNReal, Measurable F → ∫⁻ y, F y ∂((gw (n + 1)).map fun x => evs (mat x)) = ∫⁻ u, κ u * II F := fun F hF => by
    have m : MeasM fun A : Matrix (Fin (n + 1)) (Fin (n + 1)) ℂ => F (evs A) * ee (fro A) := (hF.comp (measurable_evm (n + 1))).mul (measurable_gwd (n + 1))
    have m2 : Measurable fun x : Fin (n + 1) × Fin (n + 1) → ℂ => F (evs (mat x)) := hF.comp (measurable_evm (n + 1))
    have := step_change hs m
    rw [lintegral_map hF (measurable_evm (n + 1)), gw, lintegral_withDensity_eq_lintegral_mul _ (measurable_gwd (n + 1)) m2]
    simp only [Pi.mul_apply]
    rw [show ∫⁻ x : Fin (n + 1) × Fin (n + 1) → ℂ, ee (fro (mat x)) * F (evs (mat x)) = ∫⁻ x : Fin (n + 1) × Fin (n + 1) → ℂ, F (evs (mat x)) * ee (fro (mat x))
      from lintegral_congr fun x => mul_comm _ _, this]
    exact lintegral_congr fun u => hκ u F hF
  have hfin : II (n := n) (fun _ => 1) ≠ ⊤ := fun h0 => by
    have h1 := key (fun _ => 1) measurable_const
    rw [h0, lintegral_const, one_mul, Measure.map_apply (measurable_evm (n + 1)) MeasurableSet.univ, Set.preimage_univ] at h1
    have h2 : ∫⁻ u : Fin n → ℂ, κ u * ⊤ = ⊤ := by
      simp only [fun u => ENNReal.mul_top (hκ0 u), lintegral_const]
      exact ENNReal.top_mul (Measure.measure_univ_ne_zero.2 (NeZero.ne (volume : Measure (Fin n → ℂ))))
    exact gw_finite (n + 1) (h1.trans h2)
  refine ⟨(∫⁻ u, κ u) * K, ?_⟩
  ext S hS
  have hF : Measurable (S.indicator (fun _ => (1 : ENNReal))) := measurable_const.indicator hS
  have h1 := key _ hF
  have hle : II (n := n) (S.indicator fun _ => 1) ≤ II (n := n) fun _ => 1 := by
    refine lintegral_mono fun t => lintegral_mono fun b => ?_
    refine mul_le_mul' ?_ le_rfl
    unfold gfun
    refine mul_le_mul' le_rfl ?_
    split_ifs
    · exact Set.indicator_le_self' (fun _ _ => zero_le) _
    · exact le_rfl
  have hne : II (n := n) (S.indicator fun _ => 1) ≠ ⊤ := ne_top_of_le_ne_top hfin hle
  rw [lintegral_mul_const' _ _ hne, II_eq h hF, lintegral_indicator_const hS, lintegral_indicator_const hS, one_mul, one_mul] at h1
  rw [h1, Measure.smul_apply, smul_eq_mul, mul_assoc]

theorem gin_law : ∀ N : ℕ, ∃ K : ENNReal, (gw N).map (fun x => evs (mat x)) = K • ginM N
  | 0 => ⟨1, gin_zero⟩
  | N + 1 => by
    obtain ⟨K, hK⟩ := gin_law N
    exact gin_step hK

end Verif.Lemmas
