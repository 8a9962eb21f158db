import Verif.Lemmas.ZonoLaw
import Verif.Lemmas.ChiSquare
import Verif.Spec.ZonoDraws

/-!
One iteration of the zonotope sampler reaches every part of the zonotope.
-/

namespace Verif.Lemmas.ZonoTiles
open Verif Verif.Spec Verif.Model Verif.Props Matrix MeasureTheory Verif.Lemmas.ZonoRev
open scoped ENNReal

variable {N r : ℕ} {A : Matrix (Fin r) (Fin N) ℝ} {c : Fin N → ℝ} {L : Lp N r}

/-- directions of length between 1/2 and 1 -/
def Ann (r : ℕ) : Set (Fin r → ℝ) := {d | 1 / 2 ≤ ‖d‖ ∧ ‖d‖ ≤ 1}

theorem Ann_meas : MeasurableSet (Ann r) :=
  (measurableSet_le measurable_const measurable_norm).inter (measurableSet_le measurable_norm measurable_const)

/-- change of variable from the direction to the point reached -/
theorem reach_swap (x : Fin r → ℝ) (M : ℝ) {F : (Fin r → ℝ) → ℝ≥0∞} (hF : Measurable F) :
    ∫⁻ d in Ann r, ∫⁻ t in Set.Ioc 0 M, F (pt x d t) = ∫⁻ y, F y * ∫⁻ t in Set.Ioc 0 M,
      ENNReal.ofReal ((t ^ r)⁻¹) * (Ann r).indicator 1 (t⁻¹ • (y - x)) := by
  have hind : Measurable ((Ann r).indicator (1 : (Fin r → ℝ) → ℝ≥0∞)) := measurable_one.indicator Ann_meas
  have hp : Measurable fun p : (Fin r → ℝ) × ℝ => pt x p.1 p.2 := by simp only [pt_eq]; fun_prop
  have h1 : ∫⁻ d in Ann r, ∫⁻ t in Set.Ioc 0 M, F (pt x d t) = ∫⁻ t in Set.Ioc 0 M, ∫⁻ d, (Ann r).indicator 1 d * F (pt x d t) := by
    rw [lintegral_lintegral_swap (f := fun d t => F (pt x d t)) (hF.comp hp).aemeasurable]
    refine lintegral_congr fun t => ?_
    rw [← lintegral_indicator Ann_meas]
    refine lintegral_congr fun d => ?_
    by_cases h : d ∈ Ann r
    · rw [Set.indicator_of_mem h, Set.indicator_of_mem h]; simp
    · rw [Set.indicator_of_notMem h, Set.indicator_of_notMem h, zero_mul]
  have h2 : ∀ t ∈ Set.Ioc 0 M, ∫⁻ d, (Ann r).indicator 1 d * F (pt x d t)
      = ∫⁻ y, F y * (ENNReal.ofReal ((t ^ r)⁻¹) * (Ann r).indicator 1 (t⁻¹ • (y - x))) := by
    intro t ht
    have ht0 : t ≠ 0 := ht.1.ne'
    obtain ⟨G, hG⟩ : ∃ G : (Fin r → ℝ) → ℝ≥0∞, G = fun z => (Ann r).indicator 1 (t⁻¹ • z) * F (x + z) := ⟨_, rfl⟩
    have hGm : Measurable G := by
      rw [hG]
      exact (hind.comp (measurable_const_smul t⁻¹)).mul (hF.comp (measurable_const.add measurable_id))
    have e1 : ∀ d, (Ann r).indicator 1 d * F (pt x d t) = G (t • d) := by
      intro d
      rw [hG]
      simp only
      rw [smul_smul, inv_mul_cancel₀ ht0, one_smul, pt_eq]
    have e2 : ∫⁻ d, G (t • d) = ENNReal.ofReal ((t ^ r)⁻¹) * ∫⁻ z, G z := by
      have := Measure.map_addHaar_smul (volume : Measure (Fin r → ℝ)) ht0
      rw [← lintegral_map hGm (measurable_const_smul t), this, lintegral_smul_measure, Module.finrank_fin_fun,
        abs_of_pos (inv_pos.2 (pow_pos ht.1 r))]
      rfl
    have e3 : ∫⁻ z, G z = ∫⁻ y, G (y - x) := (lintegral_sub_right_eq_self G x).symm
    have hym : Measurable fun y : Fin r → ℝ => G (y - x) := hGm.comp (measurable_id.sub measurable_const)
    simp only [e1]
    rw [e2, e3, ← lintegral_const_mul _ hym]
    refine lintegral_congr fun y => ?_
    rw [hG]
    simp only
    rw [add_sub_cancel]
    ring
  rw [h1, setLIntegral_congr_fun measurableSet_Ioc h2]
  have hk : Measurable fun p : ℝ × (Fin r → ℝ) => ENNReal.ofReal ((p.1 ^ r)⁻¹) * (Ann r).indicator 1 (p.1⁻¹ • (p.2 - x)) := by
    refine Measurable.mul (by fun_prop) (hind.comp ?_)
    fun_prop
  rw [lintegral_lintegral_swap]
  · refine lintegral_congr fun y => ?_
    rw [lintegral_const_mul]
    exact hk.comp (measurable_id.prodMk measurable_const)
  · exact ((hF.comp measurable_snd).mul hk).aemeasurable

/-- the density of the points reached -/
theorem reach_lower (hr : 0 < r) {x y : Fin r → ℝ} {M : ℝ} (hxy : y ≠ x) (hM : 2 * ‖y - x‖ ≤ M) :
    ENNReal.ofReal ((2 ^ r * M ^ (r - 1))⁻¹) ≤ ∫⁻ t in Set.Ioc 0 M, ENNReal.ofReal ((t ^ r)⁻¹) * (Ann r).indicator 1 (t⁻¹ • (y - x)) := by
  obtain ⟨ρ, hρ⟩ : ∃ ρ, ρ = ‖y - x‖ := ⟨_, rfl⟩
  have hρ0 : 0 < ρ := by rw [hρ]; exact norm_pos_iff.2 (sub_ne_zero.2 hxy)
  rw [← hρ] at hM
  have hsub : Set.Icc ρ (2 * ρ) ⊆ Set.Ioc 0 M := fun t ht => ⟨lt_of_lt_of_le hρ0 ht.1, ht.2.trans hM⟩
  refine le_trans ?_ (lintegral_mono_set hsub)
  have h1 : ∀ t ∈ Set.Icc ρ (2 * ρ), ENNReal.ofReal (((2 * ρ) ^ r)⁻¹) ≤ ENNReal.ofReal ((t ^ r)⁻¹) * (Ann r).indicator 1 (t⁻¹ • (y - x)) := by
    intro t ht
    have ht0 : 0 < t := lt_of_lt_of_le hρ0 ht.1
    have hmem : t⁻¹ • (y - x) ∈ Ann r := by
      have hn : ‖t⁻¹ • (y - x)‖ = ρ / t := by
        rw [norm_smul, ← hρ, Real.norm_eq_abs, abs_of_pos (inv_pos.2 ht0), div_eq_mul_inv, mul_comm]
      constructor
      · rw [hn, div_le_div_iff₀ two_pos ht0]; linarith [ht.2]
      · rw [hn, div_le_one ht0]; exact ht.1
    rw [Set.indicator_of_mem hmem, Pi.one_apply, mul_one]
    refine ENNReal.ofReal_le_ofReal ?_
    have h2 : t ^ r ≤ (2 * ρ) ^ r := pow_le_pow_left₀ ht0.le ht.2 r
    exact inv_anti₀ (pow_pos ht0 r) h2
  have h3 := setLIntegral_mono' (μ := volume) measurableSet_Icc h1
  refine le_trans ?_ h3
  rw [setLIntegral_const, Real.volume_Icc, ← ENNReal.ofReal_mul (by positivity)]
  refine ENNReal.ofReal_le_ofReal ?_
  obtain ⟨q, rfl⟩ : ∃ q, r = q + 1 := ⟨r - 1, by omega⟩
  have h4 : ((2 * ρ) ^ (q + 1))⁻¹ * (2 * ρ - ρ) = (2 ^ (q + 1) * ρ ^ q)⁻¹ := by
    have := hρ0.ne'
    field_simp
    ring
  rw [h4, Nat.add_sub_cancel]
  refine inv_anti₀ (by positivity) ?_
  have h5 : ρ ^ q ≤ M ^ q := pow_le_pow_left₀ hρ0.le (by linarith) q
  exact mul_le_mul_of_nonneg_left h5 (by positivity)

/-- bound of the weight -/
noncomputable def wMax (A : Matrix (Fin r) (Fin N) ℝ) : ℝ := 1 + ∑ T : Finset (Fin N), |detCols A (tl T)|

theorem wMax_pos : 0 < wMax A := by
  unfold wMax
  have : 0 ≤ ∑ T : Finset (Fin N), |detCols A (tl T)| := Finset.sum_nonneg fun _ _ => abs_nonneg _
  linarith

theorem wR_le (x : Fin r → ℝ) : wR A L x ≤ wMax A := by
  unfold wR
  split
  · rw [extract_eq_tl, wMax]
    have := Finset.single_le_sum (f := fun T : Finset (Fin N) => |detCols A (tl T)|) (fun _ _ => abs_nonneg _)
      (Finset.mem_univ (extractBasis zEps (L.lp x)).toFinset)
    linarith
  · exact wMax_pos.le

theorem len_le (hL : LpExact A c L) {R : ℝ} (hR : ∀ x ∈ Zono A, ‖x‖ ≤ R) {x d : Fin r → ℝ} (hx : x ∈ Zono A) (hd : d ∈ Ann r) :
    len (Zono A) x d ≤ ENNReal.ofReal (4 * R) := by
  have hd0 : d ≠ 0 := by
    rintro rfl
    have := hd.1
    rw [norm_zero] at this
    norm_num at this
  rw [len_eq hL hd0 hx]
  refine ENNReal.ofReal_le_ofReal ?_
  have h1 := hR (pt x d (L.seg x d).1) (hL.least x d hd0 hx).1
  have h2 := hR (pt x d (L.seg x d).2) (hL.greatest x d hd0 hx).1
  have h3 : pt x d (L.seg x d).2 - pt x d (L.seg x d).1 = ((L.seg x d).2 - (L.seg x d).1) • d := by
    rw [pt_eq, pt_eq, sub_smul]; abel
  have h4 := norm_sub_le (pt x d (L.seg x d).2) (pt x d (L.seg x d).1)
  rw [h3, norm_smul, Real.norm_eq_abs] at h4
  have h5 := le_abs_self ((L.seg x d).2 - (L.seg x d).1)
  have h6 := mul_le_mul_of_nonneg_left hd.1 (abs_nonneg ((L.seg x d).2 - (L.seg x d).1))
  linarith

/-- the lower bound of the kernel -/
noncomputable def kap (A : Matrix (Fin r) (Fin N) ℝ) (R : ℝ) : ℝ :=
  ((√(2 * Real.pi))⁻¹ ^ r * Real.exp (-(r : ℝ) / 2)) * ((4 * R)⁻¹ * ((wMax A)⁻¹ * (2 ^ r * (4 * R) ^ (r - 1))⁻¹))

theorem kap_pos {R : ℝ} (hR : 0 < R) : 0 < kap A R := by
  have := wMax_pos (A := A)
  unfold kap; positivity

theorem minorize (hr : 0 < r) (hu : UniqueOptimum A c) (hL : LpExact A c L) {R : ℝ} (hR0 : 0 < R) (hR : ∀ x ∈ Zono A, ‖x‖ ≤ R)
    {Φ : (Fin r → ℝ) → ℝ≥0∞} (hΦ : Measurable Φ) {x : Fin r → ℝ} (hw : 0 < wR A L x) :
    ENNReal.ofReal (kap A R) * ∫⁻ y, wE A L y * Φ y ≤ ∫⁻ d, hop (Zono A) (acc A L) Φ x d ∂(gaussDir r) := by
  have hx := ((wR_pos_iff hu hL).1 hw).1
  obtain ⟨g, hg⟩ : ∃ g : ℝ, g = (√(2 * Real.pi))⁻¹ ^ r * Real.exp (-(r : ℝ) / 2) := ⟨_, rfl⟩
  have hg0 : 0 < g := by rw [hg]; positivity
  have hWm := wMax_pos (A := A)
  obtain ⟨F, hF⟩ : ∃ F : (Fin r → ℝ) → ℝ≥0∞, F = fun y => wE A L y * Φ y := ⟨_, rfl⟩
  have hFm : Measurable F := by rw [hF]; exact (wE_meas hu hL).mul hΦ
  -- one direction
  have h1 : ∀ d ∈ Ann r, ENNReal.ofReal ((4 * R)⁻¹ * (wMax A)⁻¹) * ∫⁻ t in Set.Ioc 0 (4 * R), F (pt x d t)
      ≤ hop (Zono A) (acc A L) Φ x d := by
    intro d hd
    have e1 : ENNReal.ofReal ((4 * R)⁻¹) ≤ (len (Zono A) x d)⁻¹ := by
      rw [ENNReal.ofReal_inv_of_pos (by positivity)]
      exact ENNReal.inv_le_inv.2 (len_le hL hR hx hd)
    rw [ENNReal.ofReal_mul (by positivity), mul_assoc, hop]
    refine mul_le_mul' e1 ?_
    have hm0 : Measurable fun t : ℝ => x + t • d := by fun_prop
    have hm : Measurable fun t => F (pt x d t) := hFm.comp hm0
    rw [← lintegral_const_mul _ hm]
    refine (setLIntegral_le_lintegral _ _).trans (lintegral_mono fun t => ?_)
    obtain ⟨y, hy⟩ : ∃ y, y = pt x d t := ⟨_, rfl⟩
    rw [← hy, hF]
    simp only
    by_cases hwy : 0 < wR A L y
    · have hyZ := ((wR_pos_iff hu hL).1 hwy).1
      rw [Set.indicator_of_mem hyZ, Pi.one_apply, one_mul]
      refine le_trans ?_ le_self_add
      rw [← mul_assoc]
      refine mul_le_mul' ?_ le_rfl
      rw [acc, wE, wE, ← ENNReal.ofReal_div_of_pos hw, ← ENNReal.ofReal_mul (by positivity)]
      refine le_min ?_ ?_
      · rw [← ENNReal.ofReal_one]
        refine ENNReal.ofReal_le_ofReal ?_
        rw [inv_mul_eq_div, div_le_one hWm]
        exact wR_le y
      · refine ENNReal.ofReal_le_ofReal ?_
        rw [inv_mul_eq_div]
        exact div_le_div_of_nonneg_left hwy.le hw (wR_le x)
    · have : wE A L y = 0 := not_not.1 fun h => hwy (wE_ne_zero.1 h)
      rw [this, zero_mul, mul_zero]
      exact bot_le
  have hhm : Measurable fun d => hop (Zono A) (acc A L) Φ x d :=
    hop_meas_dir zono_meas (acc_meas hu hL) hΦ x
  have h2 : ∀ d ∈ Ann r, ENNReal.ofReal g ≤ ENNReal.ofReal ((√(2 * Real.pi))⁻¹ ^ r * Real.exp (-(∑ i, d i ^ 2) / 2)) := by
    intro d hd
    refine ENNReal.ofReal_le_ofReal ?_
    rw [hg]
    refine mul_le_mul_of_nonneg_left (Real.exp_le_exp.2 ?_) (by positivity)
    have : ∑ i, d i ^ 2 ≤ ∑ _i : Fin r, (1 : ℝ) := Finset.sum_le_sum fun i _ => by
      have h := (norm_le_pi_norm d i).trans hd.2
      rw [Real.norm_eq_abs] at h
      exact (sq_le_one_iff_abs_le_one _).2 h
    simp at this
    linarith
  have hin : Measurable fun d => ∫⁻ t in Set.Ioc 0 (4 * R), F (pt x d t) := by
    refine Measurable.lintegral_prod_right' (f := fun p : (Fin r → ℝ) × ℝ => F (pt x p.1 p.2)) (hFm.comp ?_)
    simp only [pt_eq]; fun_prop
  calc ENNReal.ofReal (kap A R) * ∫⁻ y, wE A L y * Φ y
      = ENNReal.ofReal (g * ((4 * R)⁻¹ * (wMax A)⁻¹)) * ∫⁻ y, F y * ENNReal.ofReal ((2 ^ r * (4 * R) ^ (r - 1))⁻¹) := by
        rw [lintegral_mul_const _ hFm, mul_comm (∫⁻ y, F y), ← mul_assoc, ← ENNReal.ofReal_mul (by positivity), hF, kap, hg]
        congr 2
        ring
    _ ≤ ENNReal.ofReal (g * ((4 * R)⁻¹ * (wMax A)⁻¹)) * ∫⁻ y, F y * ∫⁻ t in Set.Ioc 0 (4 * R),
          ENNReal.ofReal ((t ^ r)⁻¹) * (Ann r).indicator 1 (t⁻¹ • (y - x)) := by
        refine mul_le_mul' le_rfl (lintegral_mono_ae ?_)
        have hne : ∀ᵐ y : Fin r → ℝ, y ≠ x := by
          have : Nonempty (Fin r) := ⟨⟨0, hr⟩⟩
          rw [ae_iff]; simp
        filter_upwards [hne] with y hy
        by_cases hwy : 0 < wR A L y
        · refine mul_le_mul' le_rfl (reach_lower hr hy ?_)
          have hyZ := ((wR_pos_iff hu hL).1 hwy).1
          have := norm_sub_le y x
          linarith [hR y hyZ, hR x hx]
        · have : wE A L y = 0 := not_not.1 fun h => hwy (wE_ne_zero.1 h)
          rw [hF]
          simp only
          rw [this, zero_mul, zero_mul, zero_mul]
    _ = ENNReal.ofReal g * ∫⁻ d in Ann r, ENNReal.ofReal ((4 * R)⁻¹ * (wMax A)⁻¹) * ∫⁻ t in Set.Ioc 0 (4 * R), F (pt x d t) := by
        rw [lintegral_const_mul _ hin, reach_swap x (4 * R) hFm, ← mul_assoc (ENNReal.ofReal g), ← ENNReal.ofReal_mul hg0.le]
    _ ≤ ENNReal.ofReal g * ∫⁻ d in Ann r, hop (Zono A) (acc A L) Φ x d :=
        mul_le_mul' le_rfl (setLIntegral_mono' Ann_meas h1)
    _ = ∫⁻ d in Ann r, ENNReal.ofReal g * hop (Zono A) (acc A L) Φ x d := (lintegral_const_mul _ hhm).symm
    _ ≤ ∫⁻ d in Ann r, ENNReal.ofReal ((√(2 * Real.pi))⁻¹ ^ r * Real.exp (-(∑ i, d i ^ 2) / 2)) * hop (Zono A) (acc A L) Φ x d :=
        setLIntegral_mono' Ann_meas fun d hd => mul_le_mul' (h2 d hd) le_rfl
    _ ≤ ∫⁻ d, ENNReal.ofReal ((√(2 * Real.pi))⁻¹ ^ r * Real.exp (-(∑ i, d i ^ 2) / 2)) * hop (Zono A) (acc A L) Φ x d :=
        setLIntegral_le_lintegral _ _
    _ = ∫⁻ d, hop (Zono A) (acc A L) Φ x d ∂(gaussDir r) := by
        rw [gaussDir, gauss_pi_density, lintegral_withDensity_eq_lintegral_mul _ _ hhm]
        · rfl
        · fun_prop

end Verif.Lemmas.ZonoTiles
