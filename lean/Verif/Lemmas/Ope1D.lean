import Verif.Lemmas.OpeChain3
import Verif.Lemmas.OpeLaw
import Verif.Lemmas.OpeArc
import Verif.Props.JacobiLaw
import Verif.Lemmas.PiDensity
import Verif.Lemmas.Ultra2
import Mathlib.Data.Fin.Tuple.Sort

/-!
# One dimension: the tridiagonal model and the determinantal process
-/

namespace Verif.Lemmas
open Finset MeasureTheory ProbabilityTheory Verif.Model Verif.Spec
open scoped ENNReal

variable {N : ℕ}

/-! ## Symmetric functions -/

theorem sum_perm_ordS {F : (Fin N → ℝ) → ℝ≥0∞} (hs : ∀ (σ : Equiv.Perm (Fin N)) y, F (y ∘ σ) = F y)
    (h0 : ∀ y, ¬ Function.Injective y → F y = 0) (y : Fin N → ℝ) :
    F y = ∑ σ : Equiv.Perm (Fin N), (ordS N).indicator F (y ∘ σ) := by
  classical
  by_cases hy : Function.Injective y
  · have hm : StrictMono (y ∘ Tuple.sort y) := (Tuple.monotone_sort y).strictMono_of_injective (hy.comp (Tuple.sort y).injective)
    rw [sum_eq_single (Tuple.sort y)]
    · rw [Set.indicator_of_mem hm, hs]
    · intro σ _ hne
      refine Set.indicator_of_notMem (fun hσ : StrictMono (y ∘ σ) => hne ?_) _
      have : y ∘ σ = y ∘ Tuple.sort y := by
        rw [← StrictMono.range_inj hσ hm, Set.range_comp, Set.range_comp, σ.surjective.range_eq, (Tuple.sort y).surjective.range_eq]
      ext i
      exact congrArg Fin.val (hy (congrFun this i))
    · intro h; exact absurd (mem_univ _) h
  · rw [h0 y hy]
    symm
    refine sum_eq_zero fun σ _ => ?_
    have : F (y ∘ σ) = 0 := by rw [hs, h0 y hy]
    by_cases hm : y ∘ σ ∈ ordS N
    · rw [Set.indicator_of_mem hm, this]
    · rw [Set.indicator_of_notMem hm]

theorem lintegral_comp_perm {F : (Fin N → ℝ) → ℝ≥0∞} (hF : Measurable F) (σ : Equiv.Perm (Fin N)) :
    ∫⁻ y : Fin N → ℝ, F (y ∘ σ) = ∫⁻ y, F y := by
  have h := volume_measurePreserving_piCongrLeft (fun _ : Fin N => ℝ) σ.symm
  rw [← h.lintegral_comp hF]
  refine lintegral_congr fun y => ?_
  congr 1
  funext i
  have := MeasurableEquiv.piCongrLeft_apply_apply (β := fun _ : Fin N => ℝ) σ.symm y (σ i)
  rw [Equiv.symm_apply_apply] at this
  rw [this]; rfl

theorem lintegral_symm {F : (Fin N → ℝ) → ℝ≥0∞} (hF : Measurable F) (hs : ∀ (σ : Equiv.Perm (Fin N)) y, F (y ∘ σ) = F y)
    (h0 : ∀ y, ¬ Function.Injective y → F y = 0) : ∫⁻ y, F y = N.factorial * ∫⁻ y in ordS N, F y := by
  have hi : Measurable ((ordS N).indicator F) := hF.indicator measurableSet_ordS
  calc ∫⁻ y, F y = ∫⁻ y, ∑ σ : Equiv.Perm (Fin N), (ordS N).indicator F (y ∘ σ) := lintegral_congr fun y => sum_perm_ordS hs h0 y
    _ = ∑ σ : Equiv.Perm (Fin N), ∫⁻ y : Fin N → ℝ, (ordS N).indicator F (y ∘ σ) := by
        refine lintegral_finsetSum _ fun σ _ => hi.comp ?_
        exact measurable_pi_lambda _ fun i => measurable_pi_apply _
    _ = ∑ _σ : Equiv.Perm (Fin N), ∫⁻ y in ordS N, F y := by
        refine sum_congr rfl fun σ _ => ?_
        rw [lintegral_comp_perm hi, lintegral_indicator measurableSet_ordS]
    _ = _ := by rw [sum_const, card_univ, Fintype.card_perm, Fintype.card_fin, nsmul_eq_mul]

/-! ## The Vandermonde density -/

theorem vdm_eq_det (v : Fin N → ℝ) : vdm v = (Matrix.vandermonde v).det := (Matrix.det_vandermonde v).symm

theorem vdm_sq_perm (v : Fin N → ℝ) (σ : Equiv.Perm (Fin N)) : vdm (v ∘ σ) ^ 2 = vdm v ^ 2 := by
  rw [vdm_eq_det, vdm_eq_det, show Matrix.vandermonde (v ∘ σ) = (Matrix.vandermonde v).submatrix σ id from rfl, Matrix.det_permute,
    mul_pow]
  rcases Int.units_eq_one_or (Equiv.Perm.sign σ) with h | h <;> rw [h] <;> simp

theorem vdm_noninj {v : Fin N → ℝ} (h : ¬ Function.Injective v) : vdm v = 0 := by
  rw [vdm_eq_det]
  by_contra hne
  exact h (Matrix.det_vandermonde_ne_zero_iff.1 hne)

theorem ensemble_two (w : ℝ → ℝ) (v : Fin N → ℝ) : ensembleDensity 2 w v = vdm v ^ 2 * ∏ i, w (v i) := by
  rw [ensembleDensity, vdm, ← prod_pow]
  congr 1
  refine prod_congr rfl fun i _ => ?_
  rw [← prod_pow]
  refine prod_congr rfl fun j _ => ?_
  rw [Real.rpow_two, sq_abs]; ring

/-! ## The kernel of the ensemble in one dimension -/

theorem jacobiCoeff_top_ne {a b : ℝ} (ha : -1 < a) (hb : -1 < b) (n : ℕ) : jacobiCoeff n a b n ≠ 0 := by
  rw [jacobiCoeff, Nat.choose_self, Nat.sub_self]
  have h1 : poch (n + a + b + 1) n ≠ 0 := by
    rw [poch]
    refine prod_ne_zero_iff.2 fun i hi => ?_
    have : (1 : ℝ) ≤ n := by
      have := mem_range.1 hi
      exact_mod_cast (by omega : 1 ≤ n)
    have h2 : (0 : ℝ) ≤ i := by positivity
    have : 0 < n + a + b + 1 + (i : ℝ) := by linarith
    exact this.ne'
  have h3 : poch (a + n + 1) 0 = 1 := by simp [poch]
  have h4 : (n.factorial : ℝ) ≠ 0 := by positivity
  rw [h3]
  refine div_ne_zero (mul_ne_zero (mul_ne_zero (mul_ne_zero (pow_ne_zero _ (by norm_num)) (by norm_num)) h1) one_ne_zero) h4

/-- leading coefficients of the orthonormal polynomials in `t = (1 - x) / 2` -/
noncomputable def leadT (a b : ℝ) (n : ℕ) : ℝ := jacobiCoeff n a b n / √(squareNorm1D a b n)

theorem leadT_ne {a b : ℝ} (ha : -1 < a) (hb : -1 < b) (n : ℕ) : leadT a b n ≠ 0 :=
  div_ne_zero (jacobiCoeff_top_ne ha hb n) (Real.sqrt_pos.2 (squareNorm1D_pos ha hb n)).ne'

theorem det_features {a b : ℝ} (ha : -1 < a) (hb : -1 < b) (t : Fin N → ℝ) :
    (Matrix.of fun (i k : Fin N) => jacobiPoly k a b (1 - 2 * t i) / √(squareNorm1D a b k)).det
      = (∏ k : Fin N, leadT a b k) * vdm t := by
  have hmon : ∀ k : Fin N, (Polynomial.C (jacobiCoeff k a b k)⁻¹ * jpT k a b).Monic := fun k => by
    refine Polynomial.monic_of_natDegree_le_of_coeff_eq_one (k : ℕ) ?_ ?_
    · exact (Polynomial.natDegree_C_mul_le _ _).trans (jpT_natDegree_le _ _ _)
    · rw [Polynomial.coeff_C_mul, jpT_coeff, inv_mul_cancel₀ (jacobiCoeff_top_ne ha hb _)]
  have hdeg : ∀ k : Fin N, (Polynomial.C (jacobiCoeff k a b k)⁻¹ * jpT k a b).natDegree = k := fun k => by
    refine Polynomial.natDegree_eq_of_le_of_coeff_ne_zero ?_ ?_
    · exact (Polynomial.natDegree_C_mul_le _ _).trans (jpT_natDegree_le _ _ _)
    · rw [Polynomial.coeff_C_mul, jpT_coeff, inv_mul_cancel₀ (jacobiCoeff_top_ne ha hb _)]; exact one_ne_zero
  rw [vdm_eq_det, Matrix.det_eval_matrixOfPolynomials_eq_det_vandermonde t _ hdeg hmon, ← Matrix.det_mul_row]
  congr 1
  ext i k
  simp only [Matrix.of_apply]
  rw [Polynomial.eval_mul, Polynomial.eval_C, jacobiPoly_eq, show (1 - (1 - 2 * t i)) / 2 = t i by ring, leadT]
  have := jacobiCoeff_top_ne ha hb (k : ℕ)
  field_simp

/-! ## The base measure -/

/-- density of `t = (1 - x) / 2` under the base measure -/
noncomputable def tDens (a b t : ℝ) : ℝ := 2 * 2 ^ a * 2 ^ b * jacW (a + 1) (b + 1) t

theorem measurable_tDens (a b : ℝ) : Measurable (tDens a b) := (measurable_jacW _ _).const_mul _

theorem tDens_eq {a b : ℝ} (t : ℝ) : ENNReal.ofReal (tDens a b t)
    = (Set.Ioo (-1 : ℝ) 1).indicator (fun u => ENNReal.ofReal (2 * ((1 - u) ^ a * (1 + u) ^ b))) (1 - 2 * t) := by
  rw [tDens, jacW]
  by_cases h : 0 < t ∧ t < 1
  · rw [if_pos h, Set.indicator_of_mem (by constructor <;> linarith [h.1, h.2])]
    congr 1
    rw [show 1 - (1 - 2 * t) = 2 * t by ring, show 1 + (1 - 2 * t) = 2 * (1 - t) by ring, Real.mul_rpow (by norm_num) h.1.le,
      Real.mul_rpow (by norm_num) (by linarith [h.2]), add_sub_cancel_right, add_sub_cancel_right]
    ring
  · rw [if_neg h, mul_zero, ENNReal.ofReal_zero, Set.indicator_of_notMem]
    rintro ⟨h1, h2⟩
    exact h ⟨by linarith, by linarith⟩

theorem map_tDens (a b : ℝ) :
    (volume.withDensity fun t => ENNReal.ofReal (tDens a b t)).map (fun t => 1 - 2 * t) = jacobiMeasure a b := by
  ext s hs
  have hf : Measurable fun y : ℝ => 1 - 2 * y := by fun_prop
  have hw : Measurable fun u : ℝ => ENNReal.ofReal (2 * ((1 - u) ^ a * (1 + u) ^ b)) := by fun_prop
  have hm : Measurable ((s ∩ Set.Ioo (-1 : ℝ) 1).indicator fun u => ENNReal.ofReal (2 * ((1 - u) ^ a * (1 + u) ^ b))) :=
    hw.indicator (hs.inter measurableSet_Ioo)
  rw [Measure.map_apply hf hs, withDensity_apply _ (hf hs), ← lintegral_indicator (hf hs), jacobiMeasure, withDensity_apply _ hs,
    Measure.restrict_restrict hs]
  have e : ∀ t : ℝ, ((fun y : ℝ => 1 - 2 * y) ⁻¹' s).indicator (fun t => ENNReal.ofReal (tDens a b t)) t
      = (s ∩ Set.Ioo (-1 : ℝ) 1).indicator (fun u => ENNReal.ofReal (2 * ((1 - u) ^ a * (1 + u) ^ b))) (1 - 2 * t) := by
    intro t
    by_cases ht : 1 - 2 * t ∈ s
    · rw [Set.indicator_of_mem (show t ∈ (fun y : ℝ => 1 - 2 * y) ⁻¹' s from ht), tDens_eq]
      by_cases h2 : 1 - 2 * t ∈ Set.Ioo (-1 : ℝ) 1
      · rw [Set.indicator_of_mem h2, Set.indicator_of_mem (show 1 - 2 * t ∈ s ∩ Set.Ioo (-1 : ℝ) 1 from ⟨ht, h2⟩)]
      · rw [Set.indicator_of_notMem h2, Set.indicator_of_notMem fun h => h2 h.2]
    · rw [Set.indicator_of_notMem (show t ∉ (fun y : ℝ => 1 - 2 * y) ⁻¹' s from ht), Set.indicator_of_notMem fun h => ht h.1]
  rw [lintegral_congr e, ← lintegral_map hm hf, map_volume_affine, lintegral_smul_measure, lintegral_indicator (hs.inter measurableSet_Ioo),
    smul_eq_mul, ← lintegral_const_mul _ hw]
  refine lintegral_congr fun u => ?_
  rw [← ENNReal.ofReal_mul (by norm_num)]
  congr 1; ring

/-- the points of `[-1, 1]`, as rows, from the coordinates `t` -/
def rowsOf (N : ℕ) (t : Fin N → ℝ) : Fin N → Fin 1 → ℝ := fun i _ => 1 - 2 * t i

theorem measurable_rowsOf : Measurable (rowsOf N) := by unfold rowsOf; fun_prop

instance (a b : ℝ) : SigmaFinite (volume.withDensity fun t => ENNReal.ofReal (tDens a b t)) :=
  SigmaFinite.withDensity_ofReal _

theorem opeMu_one (a b : ℝ) : opeMu (fun _ : Fin 1 => (a, b))
    = (volume.withDensity fun t => ENNReal.ofReal (tDens a b t)).map (fun t (_ : Fin 1) => 1 - 2 * t) := by
  rw [show (fun (t : ℝ) (_ : Fin 1) => 1 - 2 * t) = (fun u (_ : Fin 1) => u) ∘ fun t => 1 - 2 * t from rfl,
    ← Measure.map_map (by fun_prop) (by fun_prop), map_tDens, opeMu]
  refine Measure.pi_eq fun s hs => ?_
  rw [Measure.map_apply (by fun_prop) (MeasurableSet.univ_pi hs)]
  simp [Set.preimage]

theorem pi_opeMu_one (a b : ℝ) : (Measure.pi fun _ : Fin N => opeMu (fun _ : Fin 1 => (a, b)))
    = (volume.withDensity fun t : Fin N → ℝ => ∏ i, ENNReal.ofReal (tDens a b (t i))).map (rowsOf N) := by
  have hsf : SigmaFinite ((volume.withDensity fun t => ENNReal.ofReal (tDens a b t)).map (fun t (_ : Fin 1) => 1 - 2 * t)) := by
    rw [← opeMu_one]; unfold opeMu; infer_instance
  rw [show (volume : Measure (Fin N → ℝ)) = Measure.pi fun _ => volume from rfl,
    ← pi_withDensity (fun _ : Fin N => (volume : Measure ℝ)) (fun _ => (measurable_tDens a b).ennreal_ofReal)]
  simp only [opeMu_one]
  exact (Measure.pi_map_pi (μ := fun _ : Fin N => volume.withDensity fun t => ENNReal.ofReal (tDens a b t))
    (f := fun _ t (_ : Fin 1) => 1 - 2 * t) (fun _ => (by fun_prop))).symm

/-! ## The determinantal process -/

/-- the unnormalised weight of an event -/
noncomputable def tMass (a b : ℝ) (A : Set (Fin N → Fin 1 → ℝ)) (t : Fin N → ℝ) : ℝ≥0∞ :=
  (rowsOf N ⁻¹' A).indicator (fun t => ENNReal.ofReal (vdm t ^ 2 * ∏ i, jacW (a + 1) (b + 1) (t i))) t

theorem measurable_vdm : Measurable (vdm (N := N)) := by
  unfold vdm
  refine Finset.measurable_prod _ fun i _ => Finset.measurable_prod _ fun j _ => ?_
  exact (measurable_pi_apply j).sub (measurable_pi_apply i)

theorem measurable_tMass {a b : ℝ} {A : Set (Fin N → Fin 1 → ℝ)} (hA : MeasurableSet A) : Measurable (tMass a b A) := by
  refine Measurable.indicator ?_ (measurable_rowsOf hA)
  refine ((measurable_vdm.pow_const 2).mul (Finset.measurable_prod _ fun i _ => ?_)).ennreal_ofReal
  exact (measurable_jacW _ _).comp (measurable_pi_apply i)

theorem tMass_perm {a b : ℝ} {A : Set (Fin N → Fin 1 → ℝ)} (hs : ∀ (σ : Equiv.Perm (Fin N)) x, x ∘ σ ∈ A ↔ x ∈ A)
    (σ : Equiv.Perm (Fin N)) (t : Fin N → ℝ) : tMass a b A (t ∘ σ) = tMass a b A t := by
  have e : rowsOf N (t ∘ σ) = rowsOf N t ∘ σ := rfl
  have hp : ∏ i, jacW (a + 1) (b + 1) ((t ∘ σ) i) = ∏ i, jacW (a + 1) (b + 1) (t i) :=
    Equiv.prod_comp σ fun i => jacW (a + 1) (b + 1) (t i)
  by_cases h : rowsOf N t ∈ A
  · rw [tMass, tMass, Set.indicator_of_mem (show t ∘ σ ∈ rowsOf N ⁻¹' A by rw [Set.mem_preimage, e]; exact (hs σ _).2 h),
      Set.indicator_of_mem (show t ∈ rowsOf N ⁻¹' A from h), vdm_sq_perm, hp]
  · rw [tMass, tMass, Set.indicator_of_notMem (show t ∘ σ ∉ rowsOf N ⁻¹' A by rw [Set.mem_preimage, e]; exact fun h' => h ((hs σ _).1 h')),
      Set.indicator_of_notMem (show t ∉ rowsOf N ⁻¹' A from h)]

theorem tMass_noninj {a b : ℝ} {A : Set (Fin N → Fin 1 → ℝ)} {t : Fin N → ℝ} (h : ¬ Function.Injective t) : tMass a b A t = 0 := by
  refine Set.indicator_apply_eq_zero.2 fun _ => ?_
  rw [vdm_noninj h]; simp

/-- `ordering` in one dimension: `[0], [1], ..., [N-1]` -/
theorem ordering_one {L : List (List ℕ)} (hlen : ∀ k ∈ L, k.length = 1) (hs : L.Pairwise Before)
    (hd : ∀ k ∈ L, ∀ l : List ℕ, l.length = 1 → Before l k → l ∈ L) (n : Fin L.length) : L.get n = [(n : ℕ)] := by
  have hb : ∀ i j : ℕ, Before [i] [j] ↔ i < j := by
    intro i j
    simp only [Before, maxDeg, List.foldr_cons, List.foldr_nil, Nat.max_zero, List.cons_lt_cons_iff]
    constructor
    · rintro (h | ⟨h, h' | ⟨-, h'⟩⟩)
      · exact h
      · exact h'
      · exact absurd h' (lt_irrefl _)
    · exact Or.inl
  have hh : ∀ n : Fin L.length, ∃ m, L.get n = [m] := fun n => List.length_eq_one_iff.1 (hlen _ (List.get_mem L n))
  choose f hf using hh
  have hmono : ∀ i j : Fin L.length, i < j → f i < f j := fun i j hij => by
    have := List.pairwise_iff_get.1 hs i j hij
    rwa [hf, hf, hb] at this
  rw [hf]
  congr 1
  obtain ⟨n, hn⟩ := n
  induction n using Nat.strong_induction_on with
  | _ n ih =>
    have hge : ∀ m (hm : m < L.length), m ≤ f ⟨m, hm⟩ := by
      intro m
      induction m with
      | zero => intro _; exact Nat.zero_le _
      | succ m im => intro hm; exact lt_of_le_of_lt (im (by omega)) (hmono ⟨m, by omega⟩ ⟨m + 1, hm⟩ (Nat.lt_succ_self m))
    by_contra hne
    have hlt : n < f ⟨n, hn⟩ := lt_of_le_of_ne (hge n hn) (Ne.symm hne)
    have hmem := hd _ (List.get_mem L ⟨n, hn⟩) [n] rfl (by rw [hf]; exact (hb _ _).2 hlt)
    obtain ⟨j, hj⟩ := List.get_of_mem hmem
    have hfj : f j = n := by rw [hf] at hj; simpa using hj
    have hjn : j.1 < n := by
      by_contra hc
      rcases (not_lt.1 hc).lt_or_eq with h | h
      · have := hmono ⟨n, hn⟩ j h; omega
      · have : j = ⟨n, hn⟩ := Fin.ext h.symm
        rw [this] at hfj; omega
    have := ih j.1 hjn j.2
    simp only [Fin.eta] at this
    omega

theorem opeDPP_one {a b : ℝ} (ha : -1 < a) (hb : -1 < b) {L : List (List ℕ)} (hL : ∀ n : Fin L.length, L.get n = [(n : ℕ)])
    (hlen : ∀ k ∈ L, k.length = 1) :
    ∃ c : ℝ≥0∞, ∀ A, MeasurableSet A → opeDPP (fun _ : Fin 1 => (a, b)) L A = c * ∫⁻ t, tMass a b A t := by
  set lead : ℝ := ∏ k : Fin L.length, leadT a b k
  refine ⟨ENNReal.ofReal (lead ^ 2 / L.length.factorial * (2 * 2 ^ a * 2 ^ b) ^ L.length), fun A hA => ?_⟩
  have hphi : ∀ (x : Fin 1 → ℝ) (n : Fin L.length), opePhi (fun _ : Fin 1 => (a, b)) L x n
      = jacobiPoly n a b (x 0) / √(squareNorm1D a b n) := fun x n => by
    rw [opePhi, Verif.Props.C10_features le_rfl hlen]
    simp only [univ_unique, prod_singleton, hL n]
    rfl
  have hdet : ∀ t : Fin L.length → ℝ, (Matrix.of fun i j => featKernel (opePhi (fun _ : Fin 1 => (a, b)) L) (rowsOf _ t i)
      (rowsOf _ t j)).det = lead ^ 2 * vdm t ^ 2 := fun t => by
    rw [← mul_pow, ← det_features ha hb t, sq]
    nth_rewrite 3 [← Matrix.det_transpose]
    rw [← Matrix.det_mul]
    congr 1
    ext i j
    rw [Matrix.mul_apply, Matrix.of_apply, featKernel]
    simp only [hphi, Matrix.of_apply, Matrix.transpose_apply, rowsOf]
  have hm : Measurable fun x : Fin L.length → Fin 1 → ℝ => ENNReal.ofReal
      ((Matrix.of fun i j => featKernel (opePhi (fun _ : Fin 1 => (a, b)) L) (x i) (x j)).det / (L.length.factorial : ℝ)) := by
    have := (measurable_preDet (par := fun _ : Fin 1 => (a, b)) (L := L)).div_const (L.length.factorial : ℝ)
    simp only [preDet_full] at this
    exact this.ennreal_ofReal
  have hd : Measurable fun t : Fin L.length → ℝ => ∏ i, ENNReal.ofReal (tDens a b (t i)) :=
    Finset.measurable_prod _ fun i _ => ((measurable_tDens a b).comp (measurable_pi_apply i)).ennreal_ofReal
  rw [opeDPP, withDensity_apply _ hA, pi_opeMu_one, setLIntegral_map hA hm measurable_rowsOf,
    setLIntegral_withDensity_eq_setLIntegral_mul _ hd
      (show Measurable fun t : Fin L.length → ℝ => ENNReal.ofReal ((Matrix.of fun i j => featKernel (opePhi (fun _ : Fin 1 => (a, b)) L)
        (rowsOf _ t i) (rowsOf _ t j)).det / (L.length.factorial : ℝ)) from hm.comp measurable_rowsOf) (measurable_rowsOf hA),
    ← lintegral_indicator (measurable_rowsOf hA), ← lintegral_const_mul _ (measurable_tMass hA)]
  refine lintegral_congr fun t => ?_
  rw [tMass]
  by_cases ht : t ∈ rowsOf L.length ⁻¹' A
  · rw [Set.indicator_of_mem ht, Set.indicator_of_mem ht, Pi.mul_apply, hdet]
    have hT : ∀ i, 0 ≤ tDens a b (t i) := fun i => mul_nonneg (by positivity) (jacW_nonneg _ _ _)
    rw [← ENNReal.ofReal_prod_of_nonneg fun i _ => hT i, ← ENNReal.ofReal_mul (prod_nonneg fun i _ => hT i),
      ← ENNReal.ofReal_mul (by positivity)]
    congr 1
    simp only [tDens, prod_mul_distrib, prod_const, card_univ, Fintype.card_fin, mul_pow]
    ring
  · rw [Set.indicator_of_notMem ht, Set.indicator_of_notMem ht, mul_zero]

theorem ensemble_one {a b : ℝ} {μ : Measure (Fin N → ℝ)}
    (h : IsBetaEnsemble μ 2 fun x => if 0 < x ∧ x < 1 then x ^ (a + 1 - 1) * (1 - x) ^ (b + 1 - 1) else 0) :
    ∃ c : ℝ≥0∞, ∀ A, MeasurableSet A → (∀ (σ : Equiv.Perm (Fin N)) x, x ∘ σ ∈ A ↔ x ∈ A) →
      μ.map (rowsOf N) A = c * ∫⁻ t, tMass a b A t := by
  obtain ⟨-, K, hK, hμ⟩ := h
  refine ⟨ENNReal.ofReal K / N.factorial, fun A hA hs => ?_⟩
  have hf : (N.factorial : ℝ≥0∞) ≠ 0 := by exact_mod_cast N.factorial_ne_zero
  have hf' : (N.factorial : ℝ≥0∞) ≠ ⊤ := ENNReal.natCast_ne_top _
  rw [lintegral_symm (measurable_tMass hA) (tMass_perm hs) (fun _ h => tMass_noninj h), ← mul_assoc, ENNReal.div_mul_cancel hf hf',
    Measure.map_apply measurable_rowsOf hA, hμ, withDensity_apply _ (measurable_rowsOf hA), ← lintegral_const_mul _ (measurable_tMass hA),
    ← lintegral_indicator (measurable_rowsOf hA)]
  refine lintegral_congr fun t => ?_
  rw [tMass]
  by_cases ht : t ∈ rowsOf N ⁻¹' A
  · rw [Set.indicator_of_mem ht, Set.indicator_of_mem ht, ensemble_two, ← ENNReal.ofReal_mul hK.le]
    rfl
  · rw [Set.indicator_of_notMem ht, Set.indicator_of_notMem ht, mul_zero]

/-- two probabilities proportional to the same measure agree -/
theorem one_dim_agree {a b : ℝ} (ha : -1 < a) (hb : -1 < b) {L : List (List ℕ)} (hL : ∀ n : Fin L.length, L.get n = [(n : ℕ)])
    (hlen : ∀ k ∈ L, k.length = 1) (hp : IsProbabilityMeasure (opeDPP (fun _ : Fin 1 => (a, b)) L)) {μ : Measure (Fin L.length → ℝ)}
    (h : IsBetaEnsemble μ 2 fun x => if 0 < x ∧ x < 1 then x ^ (a + 1 - 1) * (1 - x) ^ (b + 1 - 1) else 0)
    {A : Set (Fin L.length → Fin 1 → ℝ)} (hA : MeasurableSet A) (hs : ∀ (σ : Equiv.Perm (Fin L.length)) x, x ∘ σ ∈ A ↔ x ∈ A) :
    μ.map (rowsOf L.length) A = opeDPP (fun _ : Fin 1 => (a, b)) L A := by
  obtain ⟨c1, h1⟩ := opeDPP_one ha hb hL hlen
  obtain ⟨c2, h2⟩ := ensemble_one h
  have hpμ := h.1
  have u1 := h1 Set.univ MeasurableSet.univ
  have u2 := h2 Set.univ MeasurableSet.univ fun _ _ => Iff.rfl
  have hpm : IsProbabilityMeasure (μ.map (rowsOf L.length)) := Measure.isProbabilityMeasure_map measurable_rowsOf.aemeasurable
  rw [measure_univ] at u1 u2
  have : c1 = c2 := by
    rw [ENNReal.eq_inv_of_mul_eq_one_left u1.symm, ENNReal.eq_inv_of_mul_eq_one_left u2.symm]
  rw [h1 A hA, h2 A hA hs, this]

end Verif.Lemmas
