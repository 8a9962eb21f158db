import Verif.Lemmas.OpeBase

/-!
Law of `sample_chain_rule_proposal`.
-/

namespace Verif.Lemmas
open MeasureTheory ProbabilityTheory Verif Verif.Model Verif.Spec Verif.Props
open scoped ENNReal

variable {d : ℕ}

theorem measurable_opePoint : Measurable (opePoint (d := d)) := by
  unfold opePoint
  exact measurable_pi_iff.2 fun j => by fun_prop

theorem measurable_opeP (par : Fin d → ℝ × ℝ) (k : ℕ) (j : Fin d) : Measurable (opeP par k j) :=
  (continuous_jacobiPoly _ _ _).measurable

theorem measurable_opeTarget (par : Fin d → ℝ × ℝ) (L : List (List ℕ)) (ind : Fin L.length) : Measurable (opeTarget par L ind) := by
  have h1 : Measurable fun x : Fin d → ℝ => ∏ j : Fin d, opeP par (entry2 L ind j) j (x j) :=
    Finset.measurable_prod _ fun j _ => (measurable_opeP par _ j).comp (measurable_pi_apply j)
  have h2 : Measurable fun x : Fin d → ℝ => ∏ j : Fin d, ((1 - x j) ^ ((par j).1 + 0.5) * (1 + x j) ^ ((par j).2 + 0.5)) :=
    Finset.measurable_prod _ fun j _ => (by fun_prop : Measurable fun u : ℝ => (1 - u) ^ ((par j).1 + 0.5) * (1 + u) ^ ((par j).2 + 0.5)).comp
      (measurable_pi_apply j)
  exact ((h1.pow_const 2).div_const _).mul (h2.const_mul _)

theorem measurable_opePhi (par : Fin d → ℝ × ℝ) (L : List (List ℕ)) : Measurable (opePhi par L) :=
  measurable_pi_iff.2 fun n => by
    unfold opePhi evalMulti
    exact Finset.measurable_prod _ fun j _ => ((measurable_opeP par _ j).comp (measurable_pi_apply j)).div_const _

/-- law of `1 - 2 * rng.beta(0.5, 0.5, size=d)` -/
noncomputable def arcPi (d : ℕ) : Measure (Fin d → ℝ) := Measure.pi fun _ => arcM

instance : IsProbabilityMeasure arcM := by
  rw [← map_beta_half]
  have := isProbabilityMeasureBeta (α := 1 / 2) (β := 1 / 2) (by norm_num) (by norm_num)
  exact Measure.isProbabilityMeasure_map (by fun_prop)

instance : IsProbabilityMeasure (arcPi d) := by unfold arcPi; infer_instance

theorem map_opePoint : (Measure.pi fun _ : Fin d => betaMeasure (1 / 2) (1 / 2)).map opePoint = arcPi d := by
  have := isProbabilityMeasureBeta (α := 1 / 2) (β := 1 / 2) (by norm_num) (by norm_num)
  have h2 : IsProbabilityMeasure ((betaMeasure (1 / 2) (1 / 2)).map fun y : ℝ => 1 - 2 * y) :=
    Measure.isProbabilityMeasure_map (by fun_prop)
  have := Measure.pi_map_pi (μ := fun _ : Fin d => betaMeasure (1 / 2) (1 / 2)) (f := fun _ y => 1 - 2 * y)
    (fun _ => (by fun_prop : Measurable fun y : ℝ => 1 - 2 * y).aemeasurable)
  rw [show opePoint (d := d) = fun x i => (fun y : ℝ => 1 - 2 * y) (x i) from rfl, this, arcPi]
  simp only [map_beta_half]

/-- the open box -/
def opeBox (d : ℕ) : Set (Fin d → ℝ) := Set.univ.pi fun _ => Set.Ioo (-1 : ℝ) 1

theorem measurableSet_opeBox : MeasurableSet (opeBox d) := MeasurableSet.univ_pi fun _ => measurableSet_Ioo

instance : SigmaFinite arcM := inferInstance

theorem arcPi_eq : arcPi d = (volume.restrict (opeBox d)).withDensity fun x => ∏ j, ENNReal.ofReal (arcD (x j)) := by
  unfold arcPi
  have h : ∀ i : Fin d, SigmaFinite ((volume.restrict (Set.Ioo (-1 : ℝ) 1)).withDensity fun x => ENNReal.ofReal (arcD x)) :=
    fun _ => (inferInstance : SigmaFinite arcM)
  have := pi_withDensity (fun _ : Fin d => volume.restrict (Set.Ioo (-1 : ℝ) 1)) (f := fun _ x => ENNReal.ofReal (arcD x))
    (fun _ => measurable_arcD.ennreal_ofReal)
  rw [← Measure.restrict_pi_pi] at this
  exact this

theorem opeMu_eq (par : Fin d → ℝ × ℝ) : opeMu par = (volume.restrict (opeBox d)).withDensity fun x =>
    ∏ j, ENNReal.ofReal ((1 - x j) ^ (par j).1 * (1 + x j) ^ (par j).2) := by
  unfold opeMu
  have h : ∀ i : Fin d, SigmaFinite ((volume.restrict (Set.Ioo (-1 : ℝ) 1)).withDensity
    fun u => ENNReal.ofReal ((1 - u) ^ (par i).1 * (1 + u) ^ (par i).2)) :=
    fun i => (inferInstance : SigmaFinite (jacobiMeasure (par i).1 (par i).2))
  have := pi_withDensity (fun _ : Fin d => volume.restrict (Set.Ioo (-1 : ℝ) 1))
    (f := fun j u => ENNReal.ofReal ((1 - u) ^ (par j).1 * (1 + u) ^ (par j).2))
    (fun _ => by fun_prop)
  rw [← Measure.restrict_pi_pi] at this
  exact this

theorem ae_box_arc : ∀ᵐ x ∂(arcPi d), x ∈ opeBox d := by
  rw [arcPi_eq]
  exact (withDensity_absolutelyContinuous _ _) (ae_restrict_mem measurableSet_opeBox)

theorem target_nonneg (par : Fin d → ℝ × ℝ) (L : List (List ℕ)) (ind : Fin L.length) {x : Fin d → ℝ} (hx : x ∈ opeBox d) :
    0 ≤ opeTarget par L ind x := by
  have h : 0 ≤ opeSqNorm par L ind := Finset.prod_nonneg fun j _ => sq_nonneg _
  refine mul_nonneg (div_nonneg (sq_nonneg _) h) (mul_nonneg (by positivity) (Finset.prod_nonneg fun j _ => ?_))
  exact weight_nonneg (hx j (Set.mem_univ j))

/-- the numerator of the acceptance test times the arcsine density is the squared feature times the Jacobi weight -/
theorem target_arc (hd : 1 ≤ d) (par : Fin d → ℝ × ℝ) {L : List (List ℕ)} (hL : ∀ k ∈ L, k.length = d) (ind : Fin L.length)
    {x : Fin d → ℝ} (hx : x ∈ opeBox d) :
    opeTarget par L ind x * ∏ j, arcD (x j)
      = opePhi par L x ind ^ 2 * ∏ j, ((1 - x j) ^ (par j).1 * (1 + x j) ^ (par j).2) := by
  rw [opePhi_eq hd par hL, opeTarget, opeSqNorm, Finset.prod_div_distrib, div_pow, Finset.prod_pow, mul_assoc]
  congr 1
  rw [← Fin.prod_const d Real.pi, ← Finset.prod_mul_distrib, ← Finset.prod_mul_distrib]
  refine Finset.prod_congr rfl fun j _ => ?_
  have hj := hx j (Set.mem_univ j)
  have h1 : 0 < 1 - x j := by linarith [hj.2]
  have h2 : 0 < 1 + x j := by linarith [hj.1]
  rw [arcD]
  have e1 : (1 - x j) ^ ((par j).1 + 0.5) * (1 - x j) ^ (-(1 / 2) : ℝ) = (1 - x j) ^ (par j).1 := by
    rw [← Real.rpow_add h1]; congr 1; norm_num
  have e2 : (1 + x j) ^ ((par j).2 + 0.5) * (1 + x j) ^ (-(1 / 2) : ℝ) = (1 + x j) ^ (par j).2 := by
    rw [← Real.rpow_add h2]; congr 1; norm_num
  rw [← e1, ← e2]
  field_simp

/-- integrating against the accepted proposals -/
theorem core_identity (hd : 1 ≤ d) (par : Fin d → ℝ × ℝ) {L : List (List ℕ)} (hL : ∀ k ∈ L, k.length = d) (ind : Fin L.length)
    {C : ℝ} (hC : 0 < C) {g : (Fin d → ℝ) → ℝ≥0∞} (hg : Measurable g) :
    ∫⁻ x, ENNReal.ofReal (opeTarget par L ind x / C) * g x ∂(arcPi d)
      = ENNReal.ofReal (1 / C) * ∫⁻ x, ENNReal.ofReal (opePhi par L x ind ^ 2) * g x ∂(opeMu par) := by
  have hT := measurable_opeTarget par L ind
  have hphi : Measurable fun x => opePhi par L x ind := (measurable_pi_apply ind).comp (measurable_opePhi par L)
  have hw : Measurable fun x : Fin d → ℝ => ∏ j, ENNReal.ofReal ((1 - x j) ^ (par j).1 * (1 + x j) ^ (par j).2) :=
    Finset.measurable_prod _ fun j _ => (by fun_prop : Measurable fun u : ℝ => ENNReal.ofReal ((1 - u) ^ (par j).1 * (1 + u) ^ (par j).2)).comp
      (measurable_pi_apply j)
  have ha : Measurable fun x : Fin d → ℝ => ∏ j, ENNReal.ofReal (arcD (x j)) :=
    Finset.measurable_prod _ fun j _ => measurable_arcD.ennreal_ofReal.comp (measurable_pi_apply j)
  rw [arcPi_eq, opeMu_eq, lintegral_withDensity_eq_lintegral_mul _ ha (by fun_prop),
    lintegral_withDensity_eq_lintegral_mul _ hw (by fun_prop), ← lintegral_const_mul _ (by fun_prop)]
  refine lintegral_congr_ae ?_
  refine (ae_restrict_iff' measurableSet_opeBox).2 (Filter.Eventually.of_forall fun x hx => ?_)
  simp only [Pi.mul_apply]
  have h0 : ∀ j ∈ Finset.univ, 0 ≤ arcD (x j) := fun j _ =>
    mul_nonneg (by positivity) (weight_nonneg (hx j (Set.mem_univ j)))
  have h1 : ∀ j ∈ Finset.univ, 0 ≤ (1 - x j) ^ (par j).1 * (1 + x j) ^ (par j).2 := fun j _ =>
    weight_nonneg (hx j (Set.mem_univ j))
  rw [← ENNReal.ofReal_prod_of_nonneg h0, ← ENNReal.ofReal_prod_of_nonneg h1, ← mul_assoc, ← mul_assoc, ← mul_assoc]
  congr 1
  rw [← ENNReal.ofReal_mul (Finset.prod_nonneg h0), ← ENNReal.ofReal_mul (by positivity),
    ← ENNReal.ofReal_mul (mul_nonneg (by positivity) (Finset.prod_nonneg h1))]
  congr 1
  have := target_arc hd par hL ind hx
  rw [mul_comm] at this
  rw [mul_div_assoc', this]
  ring

/-- the feature has norm one -/
theorem phi_sq_lintegral (hd : 1 ≤ d) {par : Fin d → ℝ × ℝ} (h : ∀ j, -1 < (par j).1 ∧ -1 < (par j).2) {L : List (List ℕ)}
    (hL : ∀ k ∈ L, k.length = d) (hnd : L.Nodup) (ind : Fin L.length) :
    ∫⁻ x, ENNReal.ofReal (opePhi par L x ind ^ 2) ∂(opeMu par) = 1 := by
  have ho := ope_orthonormal hd h hL hnd
  rw [← ofReal_integral_eq_lintegral_ofReal]
  · have := ho.integral ind ind
    simp only [← sq] at this
    rw [this, if_pos trivial, ENNReal.ofReal_one]
  · have := ho.integrable ind ind
    simpa only [← sq] using this
  · exact Filter.Eventually.of_forall fun x => sq_nonneg _

/-! ### The loop of one proposal -/

/-- probability that the proposal `x` is accepted -/
noncomputable def opeR (par : Fin d → ℝ × ℝ) (L : List (List ℕ)) (ind : Fin L.length) (C : ℝ) (x : Fin d → ℝ) : ℝ≥0∞ :=
  ENNReal.ofReal (min 1 (max 0 (opeTarget par L ind x / C)))

theorem measurable_opeR (par : Fin d → ℝ × ℝ) (L : List (List ℕ)) (ind : Fin L.length) (C : ℝ) : Measurable (opeR par L ind C) :=
  (measurable_const.min (measurable_const.max ((measurable_opeTarget par L ind).div_const _))).ennreal_ofReal

theorem opeR_le_one (par : Fin d → ℝ × ℝ) (L : List (List ℕ)) (ind : Fin L.length) (C : ℝ) (x : Fin d → ℝ) : opeR par L ind C x ≤ 1 := by
  rw [opeR, ← ENNReal.ofReal_one]
  exact ENNReal.ofReal_le_ofReal (min_le_left _ _)

theorem measurableSet_accepts (par : Fin d → ℝ × ℝ) (L : List (List ℕ)) (ind : Fin L.length) :
    MeasurableSet {p : (Fin d → ℝ) × (Fin 1 → ℝ) | opeAccepts (opeBound par L ind) (p.2 0) (opeTarget par L ind (opePoint p.1))} := by
  have hT := (measurable_opeTarget par L ind).comp measurable_opePoint
  rcases opeBound par L ind with _ | C
  · simp only [opeAccepts]; simp
  · simp only [opeAccepts]
    refine measurableSet_lt ?_ (hT.comp measurable_fst)
    exact (show Measurable fun p : (Fin d → ℝ) × (Fin 1 → ℝ) => p.2 0 from (measurable_pi_apply (0 : Fin 1)).comp measurable_snd).mul_const C

theorem propLoop_meas (par : Fin d → ℝ × ℝ) (L : List (List ℕ)) (ind : Fin L.length) (T : ℕ) :
    (Measurable fun x => (opePropLoop par L ind T x).law) ∧ ∀ x, RPMeas (opePropLoop par L ind T x) := by
  induction T with
  | zero => exact ⟨Measure.measurable_dirac, fun _ => trivial⟩
  | succ T ih =>
    refine ⟨measurable_const, fun _ => ?_⟩
    have hu : Measurable (Function.uncurry fun (y : Fin d → ℝ) (u : Fin 1 → ℝ) =>
        (open Classical in if opeAccepts (opeBound par L ind) (u 0) (opeTarget par L ind (opePoint y)) then RP.ret (opePoint y)
          else opePropLoop par L ind T (opePoint y)).law) := by
      classical
      have : (Function.uncurry fun (y : Fin d → ℝ) (u : Fin 1 → ℝ) =>
        (open Classical in if opeAccepts (opeBound par L ind) (u 0) (opeTarget par L ind (opePoint y)) then RP.ret (opePoint y)
          else opePropLoop par L ind T (opePoint y)).law) = fun p : (Fin d → ℝ) × (Fin 1 → ℝ) =>
          if opeAccepts (opeBound par L ind) (p.2 0) (opeTarget par L ind (opePoint p.1)) then Measure.dirac (opePoint p.1)
          else (opePropLoop par L ind T (opePoint p.1)).law := by
        funext p
        simp only [Function.uncurry]
        split_ifs <;> rfl
      rw [this]
      refine Measurable.ite (measurableSet_accepts par L ind) ?_ ?_
      · exact Measure.measurable_dirac.comp (measurable_opePoint.comp measurable_fst)
      · exact ih.1.comp (measurable_opePoint.comp measurable_fst)
    refine ⟨?_, fun y => ⟨hu.comp measurable_prodMk_left, fun u => ?_⟩⟩
    · exact measurable_bind_param hu
    · beta_reduce
      split_ifs
      · trivial
      · exact ih.2 _

/-- one more trial -/
theorem propLoop_succ (par : Fin d → ℝ × ℝ) {L : List (List ℕ)} (ind : Fin L.length) {C : ℝ} (hC : 0 < C)
    (hb : opeBound par L ind = some C) (T : ℕ) (x : Fin d → ℝ) {g : (Fin d → ℝ) → ℝ≥0∞} (hg : Measurable g) :
    ∫⁻ z, g z ∂(opePropLoop par L ind (T + 1) x).law
      = ∫⁻ y, (opeR par L ind C y * g y + (1 - opeR par L ind C y) * ∫⁻ z, g z ∂(opePropLoop par L ind T y).law) ∂(arcPi d) := by
  have hm := (propLoop_meas par L ind (T + 1)).2 x
  have hV : Measurable fun y => ∫⁻ z, g z ∂(opePropLoop par L ind T y).law :=
    (Measure.measurable_lintegral hg).comp (propLoop_meas par L ind T).1
  have hr := measurable_opeR par L ind C
  rw [opePropLoop] at hm ⊢
  have hm1 := hm.1
  simp only [RP.law] at hm1
  rw [← map_opePoint, lintegral_map (by fun_prop) measurable_opePoint]
  simp only [RP.law]
  rw [if_neg (by rintro ⟨i, h | h⟩ <;> norm_num at h), Measure.lintegral_bind hm1.aemeasurable hg.aemeasurable]
  refine lintegral_congr fun y => ?_
  classical
  have hc : MeasurableSet {u : Fin 1 → ℝ | opeAccepts (opeBound par L ind) (u 0) (opeTarget par L ind (opePoint y))} :=
    measurable_prodMk_left (measurableSet_accepts par L ind)
  have := lintegral_unif_ite (c := fun u => opeAccepts (opeBound par L ind) (u 0) (opeTarget par L ind (opePoint y)))
    hc (opePoint y) (opePropLoop par L ind T (opePoint y)) hg
  simp only [RP.law] at this
  have hp : unifM {u : Fin 1 → ℝ | opeAccepts (opeBound par L ind) (u 0) (opeTarget par L ind (opePoint y))} = opeR par L ind C (opePoint y) := by
    rw [opeR, ← unifM_lt, hb]
    congr 1
    ext u
    simp only [opeAccepts, Set.mem_setOf_eq]
    rw [lt_div_iff₀ hC]
  rw [hp] at this
  exact this

/-- the value `C` bounds the quotient of the densities -/
def OpeDom (par : Fin d → ℝ × ℝ) (L : List (List ℕ)) (ind : Fin L.length) (C : ℝ) : Prop :=
  ∀ x ∈ opeBox d, opeTarget par L ind x ≤ C

theorem opeR_dom {par : Fin d → ℝ × ℝ} {L : List (List ℕ)} {ind : Fin L.length} {C : ℝ} (hC : 0 < C) (hdom : OpeDom par L ind C)
    {x : Fin d → ℝ} (hx : x ∈ opeBox d) : opeR par L ind C x = ENNReal.ofReal (opeTarget par L ind x / C) := by
  rw [opeR, max_eq_right (div_nonneg (target_nonneg par L ind hx) hC.le), min_eq_right ((div_le_one hC).2 (hdom x hx))]

theorem lintegral_opeR (hd : 1 ≤ d) {par : Fin d → ℝ × ℝ} {L : List (List ℕ)}
    (hL : ∀ k ∈ L, k.length = d) {ind : Fin L.length} {C : ℝ} (hC : 0 < C)
    (hdom : OpeDom par L ind C) {g : (Fin d → ℝ) → ℝ≥0∞} (hg : Measurable g) :
    ∫⁻ x, opeR par L ind C x * g x ∂(arcPi d)
      = ENNReal.ofReal (1 / C) * ∫⁻ x, ENNReal.ofReal (opePhi par L x ind ^ 2) * g x ∂(opeMu par) := by
  rw [← core_identity hd par hL ind hC hg]
  refine lintegral_congr_ae ?_
  filter_upwards [ae_box_arc] with x hx
  rw [opeR_dom hC hdom hx]

theorem lintegral_opeR_one (hd : 1 ≤ d) {par : Fin d → ℝ × ℝ} (h : ∀ j, -1 < (par j).1 ∧ -1 < (par j).2) {L : List (List ℕ)}
    (hL : ∀ k ∈ L, k.length = d) (hnd : L.Nodup) {ind : Fin L.length} {C : ℝ} (hC : 0 < C)
    (hdom : OpeDom par L ind C) : ∫⁻ x, opeR par L ind C x ∂(arcPi d) = ENNReal.ofReal (1 / C) := by
  have := lintegral_opeR hd hL hC hdom (g := fun _ => 1) measurable_const
  simp only [mul_one] at this
  rw [this, phi_sq_lintegral hd h hL hnd, mul_one]

/-- the accepted part of the law of the loop -/
theorem propLoop_lower (hd : 1 ≤ d) {par : Fin d → ℝ × ℝ} (h : ∀ j, -1 < (par j).1 ∧ -1 < (par j).2) {L : List (List ℕ)}
    (hL : ∀ k ∈ L, k.length = d) (hnd : L.Nodup) {ind : Fin L.length} {C : ℝ} (hC : 0 < C)
    (hb : opeBound par L ind = some C) (hdom : OpeDom par L ind C) (T : ℕ) (x : Fin d → ℝ) {g : (Fin d → ℝ) → ℝ≥0∞} (hg : Measurable g) :
    (1 - (1 - ENNReal.ofReal (1 / C)) ^ T) * ∫⁻ x, ENNReal.ofReal (opePhi par L x ind ^ 2) * g x ∂(opeMu par)
      ≤ ∫⁻ z, g z ∂(opePropLoop par L ind T x).law := by
  have key := reject_lower (ν := arcPi d) (measurable_opeR par L ind C) (opeR_le_one par L ind C) hg
    (V := fun T x => ∫⁻ z, g z ∂(opePropLoop par L ind T x).law)
    (fun T x => (propLoop_succ par ind hC hb T x hg).ge) T x
  have h1 := lintegral_opeR_one hd h hL hnd hC hdom
  rw [lintegral_opeR hd hL hC hdom hg, h1, ← mul_assoc, geom_enn] at key
  · exact key
  · rw [← h1]
    exact (lintegral_mono (opeR_le_one par L ind C)).trans (by simp)

end Verif.Lemmas
