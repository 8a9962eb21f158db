import Mathlib.MeasureTheory.Constructions.Pi
import Mathlib.MeasureTheory.Measure.Lebesgue.Basic
import Mathlib.MeasureTheory.Measure.Lebesgue.EqHaar
import Mathlib.MeasureTheory.Group.LIntegral
import Mathlib.MeasureTheory.Measure.Prod
import Mathlib.MeasureTheory.Measure.Haar.Unique

/-!
Hit-and-run proposals with a Metropolis acceptance leave the density invariant.
-/

namespace Verif.Lemmas.ZonoRev
open MeasureTheory
open scoped ENNReal

variable {r : ℕ} {Z : Set (Fin r → ℝ)} {W : (Fin r → ℝ) → ℝ≥0∞} {a : (Fin r → ℝ) → (Fin r → ℝ) → ℝ≥0∞}

/-- the point `x + t d` -/
def pt (x d : Fin r → ℝ) (t : ℝ) : Fin r → ℝ := fun i => x i + t * d i

theorem pt_eq (x d : Fin r → ℝ) (t : ℝ) : pt x d t = x + t • d := rfl

theorem pt_meas : Measurable fun p : ((Fin r → ℝ) × (Fin r → ℝ)) × ℝ => pt p.1.1 p.1.2 p.2 := by
  simp only [pt_eq]
  fun_prop

/-- length of the section -/
noncomputable def len (Z : Set (Fin r → ℝ)) (x d : Fin r → ℝ) : ℝ≥0∞ := ∫⁻ t, Z.indicator 1 (pt x d t)

theorem len_move (x d : Fin r → ℝ) (t : ℝ) : len Z (pt x d t) d = len Z x d := by
  have : ∀ s, pt (pt x d t) d s = pt x d (s + t) := by
    intro s; funext i; simp only [pt]; ring
  simp only [len, this]
  exact lintegral_add_right_eq_self (fun s => Z.indicator 1 (pt x d s)) t

theorem len_meas (hZ : MeasurableSet Z) : Measurable fun p : (Fin r → ℝ) × (Fin r → ℝ) => len Z p.1 p.2 :=
  Measurable.lintegral_prod_right' (f := fun p : ((Fin r → ℝ) × (Fin r → ℝ)) × ℝ => Z.indicator 1 (pt p.1.1 p.1.2 p.2))
    ((measurable_one.indicator hZ).comp pt_meas)

/-- one iteration with direction `d` -/
noncomputable def hop (Z : Set (Fin r → ℝ)) (a : (Fin r → ℝ) → (Fin r → ℝ) → ℝ≥0∞) (Φ : (Fin r → ℝ) → ℝ≥0∞)
    (x d : Fin r → ℝ) : ℝ≥0∞ :=
  (len Z x d)⁻¹ * ∫⁻ t, Z.indicator 1 (pt x d t) * (a x (pt x d t) * Φ (pt x d t) + (1 - a x (pt x d t)) * Φ x)

theorem hop_meas (hZ : MeasurableSet Z) (ha : Measurable (Function.uncurry a)) {Φ : (Fin r → ℝ) → ℝ≥0∞} (hΦ : Measurable Φ) :
    Measurable fun p : (Fin r → ℝ) × (Fin r → ℝ) => hop Z a Φ p.1 p.2 := by
  refine (len_meas hZ).inv.mul (Measurable.lintegral_prod_right'
    (f := fun p : ((Fin r → ℝ) × (Fin r → ℝ)) × ℝ => Z.indicator 1 (pt p.1.1 p.1.2 p.2) *
      (a p.1.1 (pt p.1.1 p.1.2 p.2) * Φ (pt p.1.1 p.1.2 p.2) + (1 - a p.1.1 (pt p.1.1 p.1.2 p.2)) * Φ p.1.1)) ?_)
  have h1 : Measurable fun p : ((Fin r → ℝ) × (Fin r → ℝ)) × ℝ => Z.indicator (1 : (Fin r → ℝ) → ℝ≥0∞) (pt p.1.1 p.1.2 p.2) :=
    (measurable_one.indicator hZ).comp pt_meas
  have h2 : Measurable fun p : ((Fin r → ℝ) × (Fin r → ℝ)) × ℝ => a p.1.1 (pt p.1.1 p.1.2 p.2) :=
    ha.comp ((measurable_fst.comp measurable_fst).prodMk pt_meas)
  exact h1.mul ((h2.mul (hΦ.comp pt_meas)).add ((measurable_const.sub h2).mul (hΦ.comp (measurable_fst.comp measurable_fst))))

theorem hop_meas_dir (hZ : MeasurableSet Z) (ha : Measurable (Function.uncurry a)) {Φ : (Fin r → ℝ) → ℝ≥0∞} (hΦ : Measurable Φ)
    (x : Fin r → ℝ) : Measurable fun d => hop Z a Φ x d :=
  Measurable.comp (g := fun p : (Fin r → ℝ) × (Fin r → ℝ) => hop Z a Φ p.1 p.2) (f := fun d => (x, d)) (hop_meas hZ ha hΦ)
    (measurable_const.prodMk measurable_id)

/-- additivity -/
theorem hop_add (hZ : MeasurableSet Z) (ha : Measurable (Function.uncurry a)) {Φ Φ' : (Fin r → ℝ) → ℝ≥0∞} (hΦ : Measurable Φ)
    (x d : Fin r → ℝ) : hop Z a (fun y => Φ y + Φ' y) x d = hop Z a Φ x d + hop Z a Φ' x d := by
  have hm : Measurable fun t : ℝ => pt x d t := by simp only [pt_eq]; fun_prop
  have h1 : Measurable fun t : ℝ => Z.indicator (1 : (Fin r → ℝ) → ℝ≥0∞) (pt x d t) := (measurable_one.indicator hZ).comp hm
  have h2 : Measurable fun t : ℝ => a x (pt x d t) := ha.comp (measurable_const.prodMk hm)
  rw [hop, hop, hop, ← mul_add, ← lintegral_add_left]
  · congr 1
    exact lintegral_congr fun t => by ring
  · have h3 : Measurable fun t : ℝ => Φ (pt x d t) := hΦ.comp hm
    exact h1.mul ((h2.mul h3).add ((measurable_const.sub h2).mul measurable_const))

/-- exchange of the two ends of the move -/
theorem swap (k : (Fin r → ℝ) → (Fin r → ℝ) → ℝ≥0∞) (hk : Measurable (Function.uncurry k))
    (d : Fin r → ℝ) : ∫⁻ x, ∫⁻ t, k x (pt x d t) = ∫⁻ x, ∫⁻ t, k (pt x d t) x := by
  have hm : Measurable fun p : (Fin r → ℝ) × ℝ => pt p.1 d p.2 := by
    simp only [pt_eq]; fun_prop
  have h1 : Measurable (Function.uncurry fun (x : Fin r → ℝ) (t : ℝ) => k x (pt x d t)) := hk.comp (measurable_fst.prodMk hm)
  have h2 : Measurable (Function.uncurry fun (x : Fin r → ℝ) (t : ℝ) => k (pt x d t) x) := hk.comp (hm.prodMk measurable_fst)
  rw [lintegral_lintegral_swap h1.aemeasurable, lintegral_lintegral_swap h2.aemeasurable]
  have h3 : ∀ t : ℝ, ∫⁻ x, k x (pt x d t) = ∫⁻ x, k (pt x d (-t)) x := by
    intro t
    have := lintegral_add_right_eq_self (μ := (volume : Measure (Fin r → ℝ))) (fun x => k x (pt x d t)) (-(t • d))
    rw [← this]
    refine lintegral_congr fun x => ?_
    congr 1
    · rw [pt_eq, neg_smul]
    · rw [pt_eq, neg_add_cancel_right]
  simp only [h3]
  exact lintegral_neg_eq_self (fun t : ℝ => ∫⁻ x, k (pt x d t) x)

theorem hop_inv (hZ : MeasurableSet Z) (hW : Measurable W) (hWZ : ∀ x, W x ≠ 0 → x ∈ Z)
    (ha : Measurable (Function.uncurry a)) (ha1 : ∀ x y, a x y ≤ 1) (hab : ∀ x y, W x * a x y = min (W x) (W y))
    {Φ : (Fin r → ℝ) → ℝ≥0∞} (hΦ : Measurable Φ) {d : Fin r → ℝ}
    (hl : ∀ x, W x ≠ 0 → len Z x d ≠ 0 ∧ len Z x d ≠ ⊤) :
    ∫⁻ x, W x * hop Z a Φ x d = ∫⁻ x, W x * Φ x := by
  have hm : Measurable fun p : (Fin r → ℝ) × ℝ => pt p.1 d p.2 := by
    simp only [pt_eq]; fun_prop
  have hlm : Measurable fun x => len Z x d := (len_meas hZ).comp (measurable_id.prodMk measurable_const)
  have hI : Measurable (Z.indicator (1 : (Fin r → ℝ) → ℝ≥0∞)) := measurable_one.indicator hZ
  obtain ⟨k, hk⟩ : ∃ k : (Fin r → ℝ) → (Fin r → ℝ) → ℝ≥0∞, k = fun x y => (len Z x d)⁻¹ * (Z.indicator 1 y * min (W x) (W y)) * Φ y :=
    ⟨_, rfl⟩
  have hkm : Measurable (Function.uncurry k) := by
    rw [hk]
    exact (((hlm.comp measurable_fst).inv.mul ((hI.comp measurable_snd).mul
      ((hW.comp measurable_fst).min (hW.comp measurable_snd)))).mul (hΦ.comp measurable_snd))
  -- the two parts
  have hm2 : ∀ x, Measurable fun t : ℝ => pt x d t := fun x => hm.comp (measurable_const.prodMk measurable_id)
  have ham : ∀ x, Measurable fun t : ℝ => a x (pt x d t) := fun x => ha.comp (measurable_const.prodMk (hm2 x))
  have e1 : ∀ x, W x * hop Z a Φ x d = (∫⁻ t, k x (pt x d t)) +
      ∫⁻ t, (len Z x d)⁻¹ * (Z.indicator 1 (pt x d t) * (W x * (1 - a x (pt x d t)))) * Φ x := by
    intro x
    have g1 : Measurable fun t : ℝ => k x (pt x d t) := hkm.comp (measurable_const.prodMk (hm2 x))
    rw [← lintegral_add_left g1, hop, ← mul_assoc, ← lintegral_const_mul]
    · refine lintegral_congr fun t => ?_
      rw [hk]
      simp only
      rw [← hab]
      ring
    · exact (hI.comp (hm2 x)).mul (((ham x).mul (hΦ.comp (hm2 x))).add ((measurable_const.sub (ham x)).mul measurable_const))
  have e2 : ∀ x t, k (pt x d t) x = (len Z x d)⁻¹ * (Z.indicator 1 (pt x d t) * (W x * a x (pt x d t))) * Φ x := by
    intro x t
    rw [hk]
    simp only
    rw [len_move, hab, min_comm]
    congr 2
    by_cases h0 : min (W x) (W (pt x d t)) = 0
    · rw [h0, mul_zero, mul_zero]
    · have h1 : W x ≠ 0 := fun h => h0 (by rw [h]; exact min_eq_left bot_le)
      have h2 : W (pt x d t) ≠ 0 := fun h => h0 (by rw [h]; exact min_eq_right bot_le)
      rw [Set.indicator_of_mem (hWZ _ h1), Set.indicator_of_mem (hWZ _ h2)]
      rfl
  have hkm1 : Measurable fun x => ∫⁻ t, k x (pt x d t) :=
    Measurable.lintegral_prod_right' (f := fun p : (Fin r → ℝ) × ℝ => k p.1 (pt p.1 d p.2)) (hkm.comp (measurable_fst.prodMk hm))
  simp only [e1]
  rw [lintegral_add_left hkm1, swap k hkm d]
  have hkm2 : Measurable fun x => ∫⁻ t, k (pt x d t) x :=
    Measurable.lintegral_prod_right' (f := fun p : (Fin r → ℝ) × ℝ => k (pt p.1 d p.2) p.1) (hkm.comp (hm.prodMk measurable_fst))
  rw [← lintegral_add_left hkm2]
  refine lintegral_congr fun x => ?_
  have g2 : Measurable fun t : ℝ => k (pt x d t) x := hkm.comp ((hm2 x).prodMk measurable_const)
  rw [← lintegral_add_left g2]
  have e3 : ∀ t, k (pt x d t) x + (len Z x d)⁻¹ * (Z.indicator 1 (pt x d t) * (W x * (1 - a x (pt x d t)))) * Φ x
      = ((len Z x d)⁻¹ * (W x * Φ x)) * Z.indicator 1 (pt x d t) := by
    intro t
    rw [e2, ← add_mul, ← mul_add, ← mul_add, ← mul_add, add_tsub_cancel_of_le (ha1 _ _), mul_one]
    ring
  simp only [e3]
  have hi : Measurable fun t : ℝ => Z.indicator (1 : (Fin r → ℝ) → ℝ≥0∞) (pt x d t) := hI.comp (hm2 x)
  rw [lintegral_const_mul _ hi]
  change _ * len Z x d = _
  by_cases h0 : W x = 0
  · rw [h0]; simp
  · rw [mul_comm (len Z x d)⁻¹, mul_assoc, ENNReal.inv_mul_cancel (hl x h0).1 (hl x h0).2, mul_one]

/-- the same with a random direction -/
theorem hop_inv_random (hZ : MeasurableSet Z) (hW : Measurable W) (hWZ : ∀ x, W x ≠ 0 → x ∈ Z)
    (ha : Measurable (Function.uncurry a)) (ha1 : ∀ x y, a x y ≤ 1) (hab : ∀ x y, W x * a x y = min (W x) (W y))
    {Φ : (Fin r → ℝ) → ℝ≥0∞} (hΦ : Measurable Φ) {γ : Measure (Fin r → ℝ)} [IsProbabilityMeasure γ]
    (hl : ∀ᵐ d ∂γ, ∀ x, W x ≠ 0 → len Z x d ≠ 0 ∧ len Z x d ≠ ⊤) :
    ∫⁻ x, W x * ∫⁻ d, hop Z a Φ x d ∂γ = ∫⁻ x, W x * Φ x := by
  have hh := hop_meas hZ ha hΦ
  have h1 : ∀ x, W x * ∫⁻ d, hop Z a Φ x d ∂γ = ∫⁻ d, W x * hop Z a Φ x d ∂γ := fun x =>
    (lintegral_const_mul _ (hh.comp (measurable_const.prodMk measurable_id))).symm
  simp only [h1]
  rw [lintegral_lintegral_swap ((hW.comp measurable_fst).mul hh).aemeasurable]
  rw [lintegral_congr_ae (hl.mono fun d hd => hop_inv hZ hW hWZ ha ha1 hab hΦ hd)]
  simp

theorem hop_random_meas (hZ : MeasurableSet Z) (ha : Measurable (Function.uncurry a))
    {Φ : (Fin r → ℝ) → ℝ≥0∞} (hΦ : Measurable Φ) {γ : Measure (Fin r → ℝ)} [SFinite γ] :
    Measurable fun x => ∫⁻ d, hop Z a Φ x d ∂γ :=
  Measurable.lintegral_prod_right' (hop_meas hZ ha hΦ)

end Verif.Lemmas.ZonoRev
