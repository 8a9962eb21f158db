import Verif.Lemmas.JacTri

/-!
# Adding the auxiliary mass
-/

namespace Verif.Lemmas
open Finset Matrix MeasureTheory Verif.Model ProbabilityTheory

variable {n : ℕ}

/-- density of the draws and of the auxiliary mass -/
noncomputable def drawD (a0 : ℝ) (f : Fin (n + 1) → ℝ → ENNReal) (g : Fin n → ℝ → ENNReal) (y : Cd (n + 1)) : ENNReal :=
  (∏ i, f i (y (.inl i))) * (gamD a0 1 (y (.inr 0)) * ∏ i : Fin n, g i (y (.inr i.succ)))

/-- the draws, read from the coordinates -/
def drawOf (y : Cd (n + 1)) : (Fin (n + 1) → ℝ) × (Fin n → ℝ) := (fun i => y (.inl i), fun i => y (.inr i.succ))

/-- a function of the two vectors of draws has the same law under the measure with the auxiliary mass -/
theorem add_mass {Z : Type} [MeasurableSpace Z] (μ : Fin (n + 1) → Measure ℝ) (ν : Fin n → Measure ℝ)
    [∀ i, IsProbabilityMeasure (μ i)] [∀ i, IsProbabilityMeasure (ν i)]
    {f : Fin (n + 1) → ℝ → ENNReal} {g : Fin n → ℝ → ENNReal} (hf : ∀ i, Measurable (f i)) (hg : ∀ i, Measurable (g i))
    (hμ : ∀ i, μ i = volume.withDensity (f i)) (hν : ∀ i, ν i = volume.withDensity (g i)) {a0 : ℝ} (ha0 : 0 < a0)
    {Ψ : (Fin (n + 1) → ℝ) × (Fin n → ℝ) → Z} (hΨ : Measurable Ψ) :
    ((Measure.pi μ).prod (Measure.pi ν)).map Ψ = (volume.withDensity (drawD a0 f g)).map (fun y => Ψ (drawOf y)) := by
  set ν' : Fin (n + 1) → Measure ℝ := Fin.cons (gammaMeasure a0 1) ν with hν'
  set g' : Fin (n + 1) → ℝ → ENNReal := Fin.cons (gamD a0 1) g with hg'
  have hg'm : ∀ i, Measurable (g' i) := by
    intro i; refine Fin.cases ?_ (fun i => ?_) i
    · exact measurable_gamD _ _
    · exact hg i
  have hν'd : ∀ i, ν' i = volume.withDensity (g' i) := by
    intro i; refine Fin.cases ?_ (fun i => ?_) i
    · exact gammaMeasure_eq _ _
    · exact hν i
  have hν'p : ∀ i, IsProbabilityMeasure (ν' i) := by
    intro i; refine Fin.cases ?_ (fun i => ?_) i
    · exact isProbabilityMeasure_gammaMeasure ha0 one_pos
    · exact (inferInstance : IsProbabilityMeasure (ν i))
  have hpi : Measure.pi ν' = volume.withDensity fun x => ∏ i, g' i (x i) := by
    have e : ν' = fun i => (volume : Measure ℝ).withDensity (g' i) := funext hν'd
    have : ∀ i, IsProbabilityMeasure ((volume : Measure ℝ).withDensity (g' i)) := fun i => by rw [← hν'd i]; exact hν'p i
    rw [e, pi_withDensity (fun _ : Fin (n + 1) => (volume : Measure ℝ)) hg'm]
    rfl
  have hpiμ : Measure.pi μ = volume.withDensity fun x => ∏ i, f i (x i) := by
    have e : μ = fun i => (volume : Measure ℝ).withDensity (f i) := funext hμ
    have : ∀ i, IsProbabilityMeasure ((volume : Measure ℝ).withDensity (f i)) := fun i => by
      rw [← hμ i]; exact (inferInstance : IsProbabilityMeasure (μ i))
    rw [e, pi_withDensity (fun _ : Fin (n + 1) => (volume : Measure ℝ)) hf]
    rfl
  have hpres : MeasurePreserving (Prod.map id (tailV (n := n))) ((Measure.pi μ).prod (Measure.pi ν'))
      ((Measure.pi μ).prod (Measure.pi ν)) :=
    (MeasurePreserving.id (Measure.pi μ)).prod (tail_preserving ν')
  have hg'pm : Measurable fun x : Fin (n + 1) → ℝ => ∏ i, g' i (x i) :=
    Finset.measurable_prod _ fun i _ => (hg'm i).comp (measurable_pi_apply i)
  have hfpm : Measurable fun x : Fin (n + 1) → ℝ => ∏ i, f i (x i) :=
    Finset.measurable_prod _ fun i _ => (hf i).comp (measurable_pi_apply i)
  have hprod : (Measure.pi μ).prod (Measure.pi ν') = ((volume : Measure (Fin (n + 1) → ℝ)).prod volume).withDensity
      fun z : (Fin (n + 1) → ℝ) × (Fin (n + 1) → ℝ) => (∏ i, f i (z.1 i)) * ∏ i, g' i (z.2 i) := by
    have h1 : SFinite ((volume : Measure (Fin (n + 1) → ℝ)).withDensity fun x => ∏ i, f i (x i)) := by
      rw [← hpiμ]; infer_instance
    rw [hpi, hpiμ]
    exact prod_withDensity hfpm hg'pm
  have hdm : Measurable (drawOf (n := n)) := by
    unfold drawOf
    fun_prop
  rw [← hpres.map_eq, Measure.map_map hΨ hpres.measurable, hprod]
  ext A hA
  have hc := hΨ.comp hpres.measurable
  have hd2 : Measurable fun y => Ψ (drawOf (n := n) y) := hΨ.comp hdm
  rw [Measure.map_apply hc hA, Measure.map_apply hd2 hA, withDensity_apply _ (hc hA),
    withDensity_apply _ (hd2 hA), ← lintegral_indicator (hc hA), ← lintegral_indicator (hd2 hA)]
  have hvol := volume_measurePreserving_sumPiEquivProdPi (fun _ : Fin (n + 1) ⊕ Fin (n + 1) => ℝ)
  rw [← Measure.volume_eq_prod, ← hvol.lintegral_comp_emb (MeasurableEquiv.measurableEmbedding _)]
  refine lintegral_congr fun y => ?_
  have hd : (∏ i, f i (y (.inl i))) * ∏ i, g' i (y (.inr i)) = drawD a0 f g y := by
    rw [drawD, Fin.prod_univ_succ (fun i => g' i (y (.inr i)))]; rfl
  by_cases hy : drawOf y ∈ Ψ ⁻¹' A
  · rw [Set.indicator_of_mem (s := (fun y => Ψ (drawOf y)) ⁻¹' A) hy]
    exact (Set.indicator_of_mem (s := Ψ ∘ Prod.map id (tailV (n := n)) ⁻¹' A) hy _).trans hd
  · rw [Set.indicator_of_notMem (s := (fun y => Ψ (drawOf y)) ⁻¹' A) hy]
    exact (Set.indicator_of_notMem (s := Ψ ∘ Prod.map id (tailV (n := n)) ⁻¹' A) hy _)

end Verif.Lemmas

namespace Verif.Lemmas
open Finset Matrix MeasureTheory Verif.Model ProbabilityTheory

variable {n : ℕ}

/-- coordinates from the draws, with mass one -/
def unitM (p : (Fin (n + 1) → ℝ) × (Fin n → ℝ)) : Cd (n + 1) := Sum.elim p.1 (Fin.cons 1 p.2)

theorem measurable_unitM : Measurable (unitM (n := n)) := by
  refine measurable_pi_lambda _ fun c => ?_
  rcases c with i | i
  · exact (measurable_pi_apply i).comp measurable_fst
  · refine Fin.cases ?_ (fun i => ?_) i
    · exact measurable_const
    · exact (measurable_pi_apply i).comp measurable_snd

/-- law of the eigenvalues as a function of the draws -/
theorem law_pipeline (μ : Fin (n + 1) → Measure ℝ) (ν : Fin n → Measure ℝ)
    [∀ i, IsProbabilityMeasure (μ i)] [∀ i, IsProbabilityMeasure (ν i)]
    {f : Fin (n + 1) → ℝ → ENNReal} {g : Fin n → ℝ → ENNReal} (hf : ∀ i, Measurable (f i)) (hg : ∀ i, Measurable (g i))
    (hμ : ∀ i, μ i = volume.withDensity (f i)) (hν : ∀ i, ν i = volume.withDensity (g i)) {beta : ℝ} (hb : 0 < beta)
    {O : Set (Cd (n + 1))} (hO : MeasurableSet O) (hd0 : ∀ z, z ∉ O → drawD (beta / 2 * (n + 1)) f g z = 0)
    {q : Cd (n + 1) → Cd (n + 1)} (hq : Differentiable ℝ q) (hinj : Set.InjOn q O) (hqR : ∀ z ∈ O, q z ∈ specR (n + 1))
    (hmass : ∀ z ∈ O, unitM (drawOf z) ∈ O ∧ jacT (q (unitM (drawOf z))) = jacT (q z))
    {G : (Fin (n + 1) → ℝ) → ENNReal} (hG : Measurable G)
    (hG0 : ∀ y ∈ specR (n + 1), y ∉ q '' O → G (fun j => specMap y (.inl j)) = 0)
    (h : ∀ z ∈ O, drawD (beta / 2 * (n + 1)) f g z = ENNReal.ofReal |(fderiv ℝ q z).det|
      * (ENNReal.ofReal (Real.Gamma (beta / 2 * (n + 1)))⁻¹ * (ENNReal.ofReal (coefD beta (q z) * Real.exp (-(q z (.inr 0))))
        * G (fun j => specMap (q z) (.inl j))))) :
    ((Measure.pi μ).prod (Measure.pi ν)).map (fun p => fun j => specMap (q (unitM p)) (.inl j))
      = (volume.restrict (ordS (n + 1))).withDensity fun l =>
        ENNReal.ofReal (massK n beta) * (ENNReal.ofReal (vdm l ^ beta) * G l) := by
  have ha0pos : 0 < beta / 2 * ((n : ℝ) + 1) := by positivity
  have hlam : Measurable fun y : Cd (n + 1) => fun j => specMap y (.inl j) :=
    measurable_pi_lambda _ fun j => (measurable_pi_apply _).comp measurable_specMap
  have hΨ : Measurable (fun p : (Fin (n + 1) → ℝ) × (Fin n → ℝ) => fun j => specMap (q (unitM p)) (.inl j)) :=
    hlam.comp (hq.continuous.measurable.comp measurable_unitM)
  rw [add_mass μ ν hf hg hμ hν ha0pos hΨ, ← law_general rfl hO hd0 hq hinj hqR hb hG hG0 h]
  refine Measure.map_congr ?_
  have hdm : Measurable (drawD (beta / 2 * (n + 1)) f g) := by
    unfold drawD
    refine Measurable.mul (Finset.measurable_prod _ fun i _ => (hf i).comp (measurable_pi_apply _)) (Measurable.mul ?_ ?_)
    · exact (measurable_gamD _ _).comp (measurable_pi_apply _)
    · exact Finset.measurable_prod _ fun i _ => (hg i).comp (measurable_pi_apply _)
  refine (ae_withDensity_iff hdm).2 (Filter.Eventually.of_forall fun z hz => ?_)
  have hzO : z ∈ O := by by_contra hc; exact hz (hd0 z hc)
  obtain ⟨h1, h2⟩ := hmass z hzO
  funext j
  exact specMap_congr (hqR _ h1) (hqR _ hzO) h2 j

/-- all coordinates positive -/
def posO (N : ℕ) : Set (Cd N) := {y | ∀ c, 0 < y c}

theorem measurableSet_posO {N : ℕ} : MeasurableSet (posO N) := by
  have : posO N = ⋂ c : Fin N ⊕ Fin N, {y | 0 < y c} := by ext y; simp [posO]
  rw [this]
  exact MeasurableSet.iInter fun j => measurableSet_lt measurable_const (measurable_pi_apply _)

theorem roots_nonneg {N : ℕ} {M : Matrix (Fin N) (Fin N) ℝ} (hM : M.PosSemidef) {lam : Fin N → ℝ}
    (h : M.charpoly = ∏ j, (Polynomial.X - Polynomial.C (lam j))) (j : Fin N) : 0 ≤ lam j := by
  have hH := hM.isHermitian
  have h1 : M.charpoly.eval (lam j) = 0 := by
    rw [h, Polynomial.eval_prod]
    exact prod_eq_zero (mem_univ j) (by simp)
  rw [hH.charpoly_eq, Polynomial.eval_prod] at h1
  obtain ⟨i, _, hi⟩ := prod_eq_zero_iff.1 h1
  simp only [Polynomial.eval_sub, Polynomial.eval_X, Polynomial.eval_C, sub_eq_zero] at hi
  rw [hi]; exact (hH.posSemidef_iff_eigenvalues_nonneg.1 hM) i

theorem det_eq_prod_roots {N : ℕ} {M : Matrix (Fin N) (Fin N) ℝ} {lam : Fin N → ℝ}
    (h : M.charpoly = ∏ j, (Polynomial.X - Polynomial.C (lam j))) : M.det = ∏ j, lam j := by
  have h1 := det_of_char h 0
  rw [zero_smul, zero_sub, Matrix.det_neg, Fintype.card_fin] at h1
  simp only [zero_sub] at h1
  rw [prod_neg, card_univ, Fintype.card_fin] at h1
  exact mul_left_cancel₀ (pow_ne_zero _ (by norm_num)) h1

theorem det_bidiag {N : ℕ} (f g : ℕ → ℝ) : (bidiag N f g).det = ∏ i : Fin N, f i := by
  rw [Matrix.det_of_isLowerTriangular]
  · refine prod_congr rfl fun i _ => ?_
    simp [bidiag]
  · intro i j hij
    have hij' : i < j := hij
    have h1 : ¬ j = i := hij'.ne'
    have h2 : ¬ (j : ℕ) + 1 = i := by have : (i : ℕ) < j := hij'; omega
    simp [bidiag, h1, h2]

end Verif.Lemmas
