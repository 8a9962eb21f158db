import Verif.Lemmas.Jaco9
import Verif.Lemmas.Haar7
import Verif.Spec.SortedVec
import Verif.Props.BetaEnsembles3
import Verif.Props.HermiteFull

/-!
# The full Jacobi model: law of the points
-/

namespace Verif.Lemmas
open Finset Matrix MeasureTheory ProbabilityTheory Verif.Model Verif.Spec
open scoped ComplexConjugate ComplexOrder

variable {N M M1 M2 : ℕ} {γ : Measure ℂ} {K : StarSubalgebra ℝ ℂ} {beta : ℝ}

/-! ### Nested draws -/

theorem bind_prod {X Y Z : Type} [MeasurableSpace X] [MeasurableSpace Y] [MeasurableSpace Z] (μ : Measure X) (ν : Measure Y) [SFinite μ] [SFinite ν]
    {L : X × Y → Measure Z} (hL : Measurable L) : μ.bind (fun x => ν.bind fun y => L (x, y)) = (μ.prod ν).bind L := by
  have h1 : ∀ x, Measurable fun y => L (x, y) := fun x => hL.comp measurable_prodMk_left
  have hs' : ∀ s, MeasurableSet s → Measurable fun p => L p s := fun s hs => (Measure.measurable_coe hs).comp hL
  have hm : Measurable fun x => ν.bind fun y => L (x, y) := by
    refine Measure.measurable_of_measurable_coe _ fun s hs => ?_
    have : (fun x => (ν.bind fun y => L (x, y)) s) = fun x => ∫⁻ y, L (x, y) s ∂ν := by
      funext x
      rw [Measure.bind_apply hs (h1 x).aemeasurable]
    rw [this]
    exact (hs' s hs).lintegral_prod_right'
  ext s hs
  rw [Measure.bind_apply hs hm.aemeasurable, Measure.bind_apply hs hL.aemeasurable, lintegral_prod _ (hs' s hs).aemeasurable]
  refine lintegral_congr fun x => ?_
  rw [Measure.bind_apply hs (h1 x).aemeasurable]

theorem measurable_map_right {X Y Z : Type} [MeasurableSpace X] [MeasurableSpace Y] [MeasurableSpace Z] (ν : Measure Y) [SFinite ν] {F : X × Y → Z}
    (hF : Measurable F) : Measurable fun x => ν.map fun y => F (x, y) := by
  refine Measure.measurable_of_measurable_coe _ fun s hs => ?_
  have : (fun x => (ν.map fun y => F (x, y)) s) = fun x => ν (Prod.mk x ⁻¹' (F ⁻¹' s)) := by
    funext x
    rw [Measure.map_apply (f := fun y => F (x, y)) (hF.comp measurable_prodMk_left) hs]; rfl
  rw [this]
  exact measurable_measure_prodMk_left (hF hs)

theorem bind_four_law {X1 X2 X3 X4 Z : Type} [MeasurableSpace X1] [MeasurableSpace X2] [MeasurableSpace X3] [MeasurableSpace X4] [MeasurableSpace Z]
    (μ1 : Measure X1) (μ2 : Measure X2) (μ3 : Measure X3) (μ4 : Measure X4) [SFinite μ1] [SFinite μ2] [SFinite μ3] [SFinite μ4]
    {L : X1 → X2 → X3 → X4 → Measure Z} {F : (X1 × X2) × (X3 × X4) → Z} (hF : Measurable F)
    (h : ∀ᵐ p ∂((μ1.prod μ2).prod (μ3.prod μ4)), L p.1.1 p.1.2 p.2.1 p.2.2 = Measure.dirac (F p)) :
    μ1.bind (fun x => μ2.bind fun y => μ3.bind fun z => μ4.bind fun w => L x y z w) = ((μ1.prod μ2).prod (μ3.prod μ4)).map F := by
  have hk : ∀ᵐ p ∂(μ1.prod μ2), (μ3.bind fun z => μ4.bind fun w => L p.1 p.2 z w) = (μ3.prod μ4).map fun q => F (p, q) := by
    filter_upwards [Measure.ae_ae_of_ae_prod h] with p hp
    exact bind_two_law μ3 μ4 (F := fun q => F (p, q)) (hF.comp measurable_prodMk_left) hp
  have hKm := measurable_map_right (μ3.prod μ4) hF
  have e1 : μ1.bind (fun x => μ2.bind fun y => μ3.bind fun z => μ4.bind fun w => L x y z w)
      = μ1.bind fun x => μ2.bind fun y => (μ3.prod μ4).map fun q => F ((x, y), q) := by
    rw [Measure.bind, Measure.bind]
    congr 1
    refine Measure.map_congr ?_
    filter_upwards [Measure.ae_ae_of_ae_prod hk] with x hx
    rw [Measure.bind, Measure.bind]
    congr 1
    exact Measure.map_congr hx
  rw [e1, bind_prod μ1 μ2 (L := fun p => (μ3.prod μ4).map fun q => F (p, q)) hKm]
  ext s hs
  rw [Measure.bind_apply hs hKm.aemeasurable, Measure.map_apply hF hs, Measure.prod_apply (hF hs)]
  refine lintegral_congr fun p => ?_
  rw [Measure.map_apply (f := fun q => F (p, q)) (hF.comp measurable_prodMk_left) hs]
  rfl

/-! ### The returned points -/

open Classical in
/-- the points returned for the matrices `X` and `Y`, sorted -/
noncomputable def jacPts (la : LA) {κ₁ κ₂ : Type} [Fintype κ₁] [Fintype κ₂] (X : Matrix (Fin N) κ₁ ℂ) (Y : Matrix (Fin N) κ₂ ℂ) : Fin N → ℝ :=
  if (X * Xᴴ + Y * Yᴴ).det = 0 then 0 else sortedVec N ((la.eigvals (jrat X Y)).map Complex.re)

theorem jacPts_spec {la : LA} (hla : LAOK la) {κ₁ κ₂ : Type} [Fintype κ₁] [Fintype κ₂] (X : Matrix (Fin N) κ₁ ℂ) (Y : Matrix (Fin N) κ₂ ℂ) :
    Monotone (jacPts la X Y) ∧ ((X * Xᴴ + Y * Yᴴ).det = 0 → ∀ t : ℕ, prodT (jacPts la X Y) t = (t : ℝ) ^ N) ∧
      ((X * Xᴴ + Y * Yᴴ).det ≠ 0 → prodT (jacPts la X Y) = ch1 (jrat X Y)) := by
  by_cases hd : (X * Xᴴ + Y * Yᴴ).det = 0
  · refine ⟨?_, fun _ t => ?_, fun h => absurd hd h⟩
    · rw [jacPts, if_pos hd]
      exact fun i j _ => le_rfl
    · rw [jacPts, if_pos hd, prodT]
      simp
  · rw [jacPts, if_neg hd]
    have he := eigen_eigvals hla (jrat X Y)
    have hch := hla.eigvals_char (jrat X Y)
    have hre : ∀ z ∈ la.eigvals (jrat X Y), z = (z.re : ℂ) := fun z hz => by
      obtain ⟨v, hv, h⟩ := he.2 z hz
      exact (Verif.Props.jacobi_eigen (Matrix.posSemidef_self_mul_conjTranspose X) (Matrix.posSemidef_self_mul_conjTranspose Y) hd hv h).1
    have hlen := he.1
    rw [Fintype.card_fin] at hlen
    generalize la.eigvals (jrat X Y) = l at hre hch hlen
    have hl : ((l.map Complex.re).insertionSort (· ≤ ·)).length = N := by rw [List.length_insertionSort, List.length_map, hlen]
    refine ⟨toVec_mono hl (List.pairwise_insertionSort _ _), fun h => absurd h hd, fun _ => funext fun t => ?_⟩
    rw [prodT, sortedVec, prod_toVec hl fun x => (t : ℝ) - x, ch1, ← eval_charpoly', ← hch, Polynomial.eval_list_prod, List.map_map,
      ((List.perm_insertionSort (· ≤ ·) (l.map Complex.re)).map _).prod_eq, List.map_map]
    have e : l.map (Polynomial.eval (t : ℂ) ∘ fun z => Polynomial.X - Polynomial.C z) = (l.map ((fun x => (t : ℝ) - x) ∘ Complex.re)).map fun x : ℝ => (x : ℂ) := by
      rw [List.map_map]
      refine List.map_congr_left fun z hz => ?_
      simp only [Function.comp_apply, Polynomial.eval_sub, Polynomial.eval_X, Polynomial.eval_C]
      conv_lhs => rw [hre z hz]
      push_cast
      rfl
    rw [e]
    have e2 : ∀ l : List ℝ, ((l.map fun x : ℝ => (x : ℂ)).prod) = ((l.prod : ℝ) : ℂ) := fun l => (map_list_prod Complex.ofRealHom l).symm
    rw [e2, Complex.ofReal_re]

theorem measurable_inv {X : Type} [MeasurableSpace X] {A : X → Matrix (Fin N) (Fin N) ℂ} (hA : ∀ i j, Measurable fun x => A x i j) (i j : Fin N) :
    Measurable fun x => (A x)⁻¹ i j := by
  simp only [Matrix.inv_def, Matrix.smul_apply, smul_eq_mul, Ring.inverse_eq_inv', Matrix.adjugate_apply]
  refine (measurable_det hA).inv.mul (measurable_det fun k l => ?_)
  by_cases hk : k = j
  · subst hk
    simp only [Matrix.updateRow_self]
    exact measurable_const
  · simp only [Matrix.updateRow_ne hk]
    exact hA k l

theorem measurable_gramS : ∀ i j, Measurable fun p : (Fin N × Fin M1 → ℂ) × (Fin N × Fin M2 → ℂ) =>
    (mat p.1 * (mat p.1)ᴴ + mat p.2 * (mat p.2)ᴴ) i j := by
  have hX : ∀ i j, Measurable fun p : (Fin N × Fin M1 → ℂ) × (Fin N × Fin M2 → ℂ) => mat p.1 i j := fun i j => by
    simp only [mat, Matrix.of_apply]; fun_prop
  have hY : ∀ i j, Measurable fun p : (Fin N × Fin M1 → ℂ) × (Fin N × Fin M2 → ℂ) => mat p.2 i j := fun i j => by
    simp only [mat, Matrix.of_apply]; fun_prop
  have hXH : ∀ i j, Measurable fun p : (Fin N × Fin M1 → ℂ) × (Fin N × Fin M2 → ℂ) => (mat p.1)ᴴ i j := fun i j =>
    Complex.continuous_conj.measurable.comp (hX j i)
  have hYH : ∀ i j, Measurable fun p : (Fin N × Fin M1 → ℂ) × (Fin N × Fin M2 → ℂ) => (mat p.2)ᴴ i j := fun i j =>
    Complex.continuous_conj.measurable.comp (hY j i)
  exact fun i j => (measurable_matmul hX hXH i j).add (measurable_matmul hY hYH i j)

theorem measurable_gramX' : ∀ i j, Measurable fun p : (Fin N × Fin M1 → ℂ) × (Fin N × Fin M2 → ℂ) => (mat p.1 * (mat p.1)ᴴ) i j := by
  have hX : ∀ i j, Measurable fun p : (Fin N × Fin M1 → ℂ) × (Fin N × Fin M2 → ℂ) => mat p.1 i j := fun i j => by
    simp only [mat, Matrix.of_apply]; fun_prop
  have hXH : ∀ i j, Measurable fun p : (Fin N × Fin M1 → ℂ) × (Fin N × Fin M2 → ℂ) => (mat p.1)ᴴ i j := fun i j =>
    Complex.continuous_conj.measurable.comp (hX j i)
  exact measurable_matmul hX hXH

theorem measurableSet_good : MeasurableSet {p : (Fin N × Fin M1 → ℂ) × (Fin N × Fin M2 → ℂ) |
    (mat p.1 * (mat p.1)ᴴ + mat p.2 * (mat p.2)ᴴ).det = 0} :=
  measurableSet_eq_fun (measurable_det measurable_gramS) measurable_const

theorem measurable_prod_jacPts {la : LA} (hla : LAOK la) :
    Measurable fun p : (Fin N × Fin M1 → ℂ) × (Fin N × Fin M2 → ℂ) => prodT (jacPts la (mat p.1) (mat p.2)) := by
  classical
  have hJ : ∀ i j, Measurable fun p : (Fin N × Fin M1 → ℂ) × (Fin N × Fin M2 → ℂ) => jrat (mat p.1) (mat p.2) i j :=
    measurable_matmul measurable_gramX' (measurable_inv measurable_gramS)
  have hm : Measurable fun p : (Fin N × Fin M1 → ℂ) × (Fin N × Fin M2 → ℂ) => ch1 (jrat (mat p.1) (mat p.2)) := measurable_ch1 hJ
  have e : (fun p : (Fin N × Fin M1 → ℂ) × (Fin N × Fin M2 → ℂ) => prodT (jacPts la (mat p.1) (mat p.2)))
      = fun p => if (mat p.1 * (mat p.1)ᴴ + mat p.2 * (mat p.2)ᴴ).det = 0 then (fun t : ℕ => (t : ℝ) ^ N) else ch1 (jrat (mat p.1) (mat p.2)) := by
    funext p
    obtain ⟨-, h1, h2⟩ := jacPts_spec hla (mat p.1) (mat p.2)
    split_ifs with h
    · exact funext (h1 h)
    · exact h2 h
  rw [e]
  exact Measurable.ite measurableSet_good measurable_const hm

/-- a shifted version of `sorted_law` -/
theorem sorted_law_shift {X Y : Type} [MeasurableSpace X] [MeasurableSpace Y] {μ : Measure X} {ν : Measure Y} {N : ℕ} {e : X → Fin N → ℝ}
    {e' : Y → Fin N → ℝ} (he : ∀ x, Monotone (e x)) (he' : ∀ y, Monotone (e' y)) (hm : Measurable fun x => prodT (e x))
    (hm' : Measurable fun y => prodT (e' y)) (h : μ.map (fun x (t : ℕ) => prodT (e x) (t + 1)) = ν.map fun y (t : ℕ) => prodT (e' y) (t + 1)) :
    μ.map e = ν.map e' := by
  have hs : ∀ f : Fin N → ℝ, (prodT fun i => f i - 1) = fun t : ℕ => prodT f (t + 1) := fun f => by
    funext t
    simp only [prodT]
    refine Finset.prod_congr rfl fun i _ => ?_
    push_cast; ring
  have hsh : Measurable fun (F : ℕ → ℝ) t => F (t + 1) := by fun_prop
  have hadd : Measurable fun (f : Fin N → ℝ) i => f i + 1 := by fun_prop
  have m1 : Measurable fun x i => e x i - 1 := measurable_pi_lambda _ fun i => ((measurable_pi_apply i).comp (measurable_sorted he hm)).sub_const 1
  have m2 : Measurable fun x i => e' x i - 1 := measurable_pi_lambda _ fun i => ((measurable_pi_apply i).comp (measurable_sorted he' hm')).sub_const 1
  have key : μ.map (fun x i => e x i - 1) = ν.map fun y i => e' y i - 1 := by
    refine sorted_law (fun x i j hij => sub_le_sub_right (he x hij) 1) (fun x i j hij => sub_le_sub_right (he' x hij) 1) ?_ ?_ ?_
    · simp only [hs]; exact hsh.comp hm
    · simp only [hs]; exact hsh.comp hm'
    · simp only [hs]; exact h
  have h2 := congrArg (fun μ => μ.map fun (f : Fin N → ℝ) i => f i + 1) key
  rw [Measure.map_map hadd m1, Measure.map_map hadd m2] at h2
  have f1 : (fun (f : Fin N → ℝ) i => f i + 1) ∘ (fun x i => e x i - 1) = e := by funext x i; simp
  have f2 : (fun (f : Fin N → ℝ) i => f i + 1) ∘ (fun x i => e' x i - 1) = e' := by funext x i; simp
  rwa [f1, f2] at h2

/-- points of the banded model -/
noncomputable def bandPtsJ (la : LA) (n : ℕ) (co : Fin (n + 1) → ℝ) (ce : Fin n → ℝ) : Fin (n + 1) → ℝ :=
  toVec (n + 1) (eigTridiag la (n + 1) (xiAlpha (betaXiOdd (vget co) (shiftZero ce)) (betaXiEven (vget co) (shiftZero ce)))
    (fun i => √(xiBeta (betaXiOdd (vget co) (shiftZero ce)) (betaXiEven (vget co) (shiftZero ce)) i)))

/-- the points of the full and of the banded models have the same law -/
theorem jacobi_pts_law {la : LA} (hla : LAOK la) (hγ : GaussK γ K beta) (hc : γ.map (fun z => conj z) = γ) {n : ℕ} (h1 : n + 1 ≤ M1) (h2 : n + 1 ≤ M2) :
    Measurable (fun p : (Fin (n + 1) × Fin M1 → ℂ) × (Fin (n + 1) × Fin M2 → ℂ) => jacPts la (mat p.1) (mat p.2)) ∧
    Measurable (fun p : (Fin (n + 1) → ℝ) × (Fin n → ℝ) => bandPtsJ la n p.1 p.2) ∧
    (∀ᵐ p ∂((Measure.pi fun _ : Fin (n + 1) × Fin M1 => γ).prod (Measure.pi fun _ : Fin (n + 1) × Fin M2 => γ)),
      (mat p.1 * (mat p.1)ᴴ + mat p.2 * (mat p.2)ᴴ).det ≠ 0) ∧
    ((Measure.pi fun _ : Fin (n + 1) × Fin M1 => γ).prod (Measure.pi fun _ : Fin (n + 1) × Fin M2 => γ)).map (fun p => jacPts la (mat p.1) (mat p.2))
      = ((Measure.pi fun i : Fin (n + 1) => betaMeasure (beta / 2 * ((M1 : ℝ) - (i : ℕ))) (beta / 2 * ((M2 : ℝ) - (i : ℕ)))).prod
      (Measure.pi fun i : Fin n => betaMeasure (beta / 2 * ((n : ℝ) - (i : ℕ))) (beta / 2 * ((M1 : ℝ) + M2 - (n + 1) - (i : ℕ))))).map
        (fun p => bandPtsJ la n p.1 p.2) := by
  have := hγ.ok.prob
  have hle : n + 1 ≤ M1 + M2 := by omega
  have hm1 := measurable_prod_jacPts (N := n + 1) (M1 := M1) (M2 := M2) hla
  have hm2 := measurable_cpp_triJ n
  have e2 : (fun p : (Fin (n + 1) → ℝ) × (Fin n → ℝ) => prodT (bandPtsJ la n p.1 p.2))
      = (fun (F : ℕ → ℝ × ℝ) t => (F t).1) ∘ fun p => cpp (triJ n p.1 p.2) := funext fun x => eigTri_prod hla _ _ _
  have hb2 : Measurable fun p : (Fin (n + 1) → ℝ) × (Fin n → ℝ) => prodT (bandPtsJ la n p.1 p.2) := by
    rw [e2]; exact measurable_fst_proc.comp hm2
  have hmo1 : ∀ p : (Fin (n + 1) × Fin M1 → ℂ) × (Fin (n + 1) × Fin M2 → ℂ), Monotone (jacPts la (mat p.1) (mat p.2)) := fun p => (jacPts_spec hla _ _).1
  have hmo2 : ∀ p : (Fin (n + 1) → ℝ) × (Fin n → ℝ), Monotone (bandPtsJ la n p.1 p.2) := fun p => eigTri_mono hla _ _ _
  have hXY := law_XY hγ hc hle
  have hmX : Measurable fun x : Fin (M1 + M2) × Fin (M1 + M2) → ℂ => (matX (M1 := M1) (M2 := M2) hle x, matY hle x) := by
    have hcm : Measurable fun z : ℂ => conj z := Complex.continuous_conj.measurable
    exact (measurable_pi_lambda _ fun a => hcm.comp (measurable_pi_apply _)).prodMk (measurable_pi_lambda _ fun a => hcm.comp (measurable_pi_apply _))
  have hgood := ae_good_gs hγ (M1 + M2)
  refine ⟨measurable_sorted hmo1 hm1, measurable_sorted hmo2 hb2, ?_, sorted_law_shift hmo1 hmo2 hm1 hb2 ?_⟩
  · rw [← hXY]
    refine (ae_map_iff hmX.aemeasurable measurableSet_good.compl).2 ?_
    filter_upwards [hgood] with x hx
    exact (jac_link hle hx.spec.1).1
  · have hsh : Measurable fun (F : ℕ → ℝ) (t : ℕ) => F (t + 1) := by fun_prop
    have hL1 : Measurable fun p : (Fin (n + 1) × Fin M1 → ℂ) × (Fin (n + 1) × Fin M2 → ℂ) => fun t : ℕ => prodT (jacPts la (mat p.1) (mat p.2)) (t + 1) :=
      hsh.comp hm1
    have hdiv : Measurable fun (F : ℕ → ℝ) (t : ℕ) => (((t + 1 : ℕ) : ℝ) ^ (M1 + M2 - (n + 1)))⁻¹ * F (t + 1) := by fun_prop
    have hH : Measurable fun u : Fin (M1 + M2) × Fin (M1 + M2) → ℂ => ch1 (Hm (fst0 (M1 + M2) (n + 1)) (fst0 (M1 + M2) M1) (mat u)) :=
      measurable_ch1 (measurable_Hm _ _ measurable_mat)
    have hf : Measurable fun (F : ℕ → ℝ × ℝ) (t : ℕ) => (t : ℝ) ^ (M1 + M2 - (n + 1)) * (F t).1 := by fun_prop
    have hf' : Measurable fun (F : ℕ → ℝ × ℝ) (t : ℕ) => (F (t + 1)).1 := by fun_prop
    have step1 : ((Measure.pi fun _ : Fin (n + 1) × Fin M1 => γ).prod (Measure.pi fun _ : Fin (n + 1) × Fin M2 => γ)).map
        (fun p (t : ℕ) => prodT (jacPts la (mat p.1) (mat p.2)) (t + 1))
        = (haarM γ (M1 + M2)).map ((fun (F : ℕ → ℝ) (t : ℕ) => (((t + 1 : ℕ) : ℝ) ^ (M1 + M2 - (n + 1)))⁻¹ * F (t + 1)) ∘
            fun u => ch1 (Hm (fst0 (M1 + M2) (n + 1)) (fst0 (M1 + M2) M1) (mat u))) := by
      rw [← hXY, Measure.map_map hL1 hmX, haarM, Measure.map_map (hdiv.comp hH) measurable_gsU]
      refine Measure.map_congr ?_
      filter_upwards [hgood] with x hx
      obtain ⟨hd, hch⟩ := jac_link hle hx.spec.1
      funext t
      have hpos : ((t + 1 : ℕ) : ℝ) ^ (M1 + M2 - (n + 1)) ≠ 0 := pow_ne_zero _ (by positivity)
      simp only [Function.comp_apply]
      rw [(jacPts_spec hla _ _).2.2 hd, ch1_of_charpoly (charpoly_Hm hle _ _), ← mul_assoc, inv_mul_cancel₀ hpos, one_mul, ch1, ch1,
        ← eval_charpoly', ← eval_charpoly', hch]
    have step2 : (haarM γ (M1 + M2)).map ((fun (F : ℕ → ℝ) (t : ℕ) => (((t + 1 : ℕ) : ℝ) ^ (M1 + M2 - (n + 1)))⁻¹ * F (t + 1)) ∘
            fun u => ch1 (Hm (fst0 (M1 + M2) (n + 1)) (fst0 (M1 + M2) M1) (mat u))) = (lawJ beta n M1 M2).map fun F (t : ℕ) => (F (t + 1)).1 := by
      rw [← Measure.map_map hdiv hH, law_corner hγ rfl h1 h2 (cnt_fst0 hle) (cnt_fst0 (by omega)), Measure.map_map hdiv hf]
      congr 1
      funext F t
      have hpos : ((t + 1 : ℕ) : ℝ) ^ (M1 + M2 - (n + 1)) ≠ 0 := pow_ne_zero _ (by positivity)
      simp only [Function.comp_apply]
      rw [← mul_assoc, inv_mul_cancel₀ hpos, one_mul]
    rw [step1, step2, ← band_lawJ hγ.beta_pos n M1 M2 h1 h2, Measure.map_map hf' hm2]
    congr 1
    funext p t
    exact (congrFun (congrFun e2 p) (t + 1)).symm

end Verif.Lemmas
