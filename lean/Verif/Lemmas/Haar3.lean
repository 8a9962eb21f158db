import Verif.Lemmas.Haar2
import Verif.Lemmas.GaussLaguerre

/-!
# The Haar measure from Gaussian matrices, and its first column
-/

namespace Verif.Lemmas
open Finset Matrix MeasureTheory ProbabilityTheory Verif.Model

variable {γ : Measure ℂ} {K : StarSubalgebra ℝ ℂ} {beta : ℝ} {n : ℕ}

/-- a first column on the left of a matrix -/
def consCol {n m : ℕ} (a : Fin n → ℂ) (B : Matrix (Fin n) (Fin m) ℂ) : Matrix (Fin n) (Fin (m + 1)) ℂ :=
  Matrix.of fun i => (Fin.cons (a i) (B i) : Fin (m + 1) → ℂ)

@[simp] theorem consCol_zero {n m : ℕ} (a : Fin n → ℂ) (B : Matrix (Fin n) (Fin m) ℂ) (i : Fin n) : consCol a B i 0 = a i := rfl
@[simp] theorem consCol_succ {n m : ℕ} (a : Fin n → ℂ) (B : Matrix (Fin n) (Fin m) ℂ) (i : Fin n) (j : Fin m) :
    consCol a B i j.succ = B i j := rfl

theorem mul_consCol {n m k : ℕ} (M : Matrix (Fin k) (Fin n) ℂ) (a : Fin n → ℂ) (B : Matrix (Fin n) (Fin m) ℂ) :
    M * consCol a B = consCol (M *ᵥ a) (M * B) := by
  ext i j
  induction j using Fin.cases with
  | zero => rfl
  | succ j => rfl

/-- without the first row -/
def tailRows {n m : ℕ} (B : Matrix (Fin (n + 1)) (Fin m) ℂ) : Matrix (Fin n) (Fin m) ℂ := B.submatrix Fin.succ id

theorem consCol_single {n m : ℕ} (r : ℂ) (B : Matrix (Fin (n + 1)) (Fin m) ℂ) :
    consCol (Pi.single 0 r) B = bord r (B 0) 0 (tailRows B) := by
  apply bord_ext <;> intros <;> simp [tailRows]

theorem gs_bord {B U : Matrix (Fin n) (Fin n) ℂ} (h : IsGS B U) {r : ℝ} (hr : 0 < r) (w : Fin n → ℂ) :
    IsGS (bord (r : ℂ) w 0 B) (oneAdd U) := by
  have e : (oneAdd U)ᴴ * bord (r : ℂ) w 0 B = bord (r : ℂ) w 0 (Uᴴ * B) := by
    rw [oneAdd_conj, oneAdd, bord_mul]
    congr 1 <;> funext <;> simp
  refine ⟨uni_of ?_, ?_, fun i => ?_⟩
  · rw [oneAdd_conj, ← oneAdd_mul, uni_conj_mul h.uni, oneAdd_one]
  · rw [e]
    intro i j hij
    induction i using Fin.cases with
    | zero => exact absurd hij (by simp)
    | succ i => induction j using Fin.cases with
      | zero => rfl
      | succ j =>
        rw [bord_ss]
        exact h.upper (show id j < id i from by simpa using hij)
  · rw [e]
    induction i using Fin.cases with
    | zero => exact ⟨r, hr, rfl⟩
    | succ i =>
      rw [bord_ss]; exact h.pos i

/-- the factor when the first column is rotated onto the first coordinate -/
theorem gs_col {a : Fin (n + 1) → ℂ} {M : Matrix (Fin (n + 1)) (Fin (n + 1)) ℂ} {r : ℝ} (hM : InG K M) (hr : 0 < r)
    (ha : M *ᵥ (Pi.single 0 (r : ℂ)) = a) {B : Matrix (Fin (n + 1)) (Fin n) ℂ} {U : Matrix (Fin n) (Fin n) ℂ} (h : IsGS (tailRows B) U) :
    IsGS (consCol a (M * B)) (M * oneAdd U) := by
  rw [← ha, ← mul_consCol, consCol_single]
  exact (gs_bord h hr _).left hM.uni

/-- the factor exists and has its entries in `K` -/
def GoodX (K : StarSubalgebra ℝ ℂ) (x : Fin n × Fin n → ℂ) : Prop := x ∈ gsMul '' gsSet n ∧ ∀ p, gsU x p ∈ K

theorem goodX_of {x : Fin n × Fin n → ℂ} {U : Matrix (Fin n) (Fin n) ℂ} (h : IsGS (mat x) U) (hU : InG K U) : GoodX K x :=
  ⟨(gsMul_range x).2 ⟨U, h⟩, fun p => by rw [gsU_eq h]; exact hU.mem _ _⟩

theorem GoodX.spec {x : Fin n × Fin n → ℂ} (h : GoodX K x) : IsGS (mat x) (mat (gsU x)) ∧ InG K (mat (gsU x)) := by
  obtain ⟨U, hU⟩ := (gsMul_range x).1 h.1
  have h2 := h.2
  rw [gsU_eq hU] at h2 ⊢
  exact ⟨hU, hU.uni, fun i j => h2 (i, j)⟩

theorem measurableSet_goodX (hK : MeasurableSet {z : ℂ | z ∈ K}) : MeasurableSet {x : Fin n × Fin n → ℂ | GoodX K x} := by
  refine MeasurableSet.inter (measurableSet_gsSet.image_of_measurable_injOn measurable_gsMul gsMul_inj) ?_
  have e : {x : Fin n × Fin n → ℂ | ∀ p, gsU x p ∈ K} = ⋂ p, {x | gsU x p ∈ K} := by ext; simp
  change MeasurableSet {x : Fin n × Fin n → ℂ | ∀ p, gsU x p ∈ K}
  rw [e]
  exact MeasurableSet.iInter fun p => ((measurable_pi_apply p).comp measurable_gsU) hK

theorem measurable_consCol {X : Type} [MeasurableSpace X] {n m : ℕ} {a : X → Fin n → ℂ} {B : X → Matrix (Fin n) (Fin m) ℂ}
    (ha : ∀ i, Measurable fun x => a x i) (hB : ∀ i j, Measurable fun x => B x i j) (i : Fin n) (j : Fin (m + 1)) :
    Measurable fun x => consCol (a x) (B x) i j := by
  induction j using Fin.cases with
  | zero => exact ha i
  | succ j => exact hB i j

/-- a law on matrices from the law of the first column and of the other columns -/
theorem map_col [IsProbabilityMeasure γ] {Z : Type} [MeasurableSpace Z] {n m : ℕ} {F : (Fin n × Fin (m + 1) → ℂ) → Z} (hF : Measurable F) :
    (Measure.pi fun _ : Fin n × Fin (m + 1) => γ).map F
      = ((Measure.pi fun _ : Fin n => γ).prod (Measure.pi fun _ : Fin n × Fin m => γ)).map fun p => F (unmat (consCol p.1 (mat p.2))) := by
  have h := map_splitCol γ n m
  have hc : Measurable fun p : (Fin n → ℂ) × (Fin n × Fin m → ℂ) => unmat (consCol p.1 (mat p.2)) :=
    measurable_unmat (measurable_consCol (fun i => (measurable_pi_apply i).comp measurable_fst) fun i j => (measurable_mat i j).comp measurable_snd)
  have hFc : Measurable fun p : (Fin n → ℂ) × (Fin n × Fin m → ℂ) => F (unmat (consCol p.1 (mat p.2))) := hF.comp hc
  rw [← h.map_eq, Measure.map_map hFc h.measurable]
  congr 1
  funext x
  simp only [Function.comp_apply]
  congr 1
  funext p
  obtain ⟨i, j⟩ := p
  induction j using Fin.cases with
  | zero => rfl
  | succ j => rfl

theorem sum_pos_of_ne {n : ℕ} {v : Fin (n + 1) → ℂ} (h : v 0 ≠ 0) : 0 < √(∑ i, Complex.normSq (v i)) := by
  refine Real.sqrt_pos.2 (lt_of_lt_of_le (Complex.normSq_pos.2 h) ?_)
  exact Finset.single_le_sum (f := fun i => Complex.normSq (v i)) (fun i _ => Complex.normSq_nonneg _) (mem_univ 0)

/-- almost every vector is a multiple of the first column of a matrix of the group -/
theorem GaussK.rot' (hγ : GaussK γ K beta) (n : ℕ) : ∀ᵐ v ∂(Measure.pi fun _ : Fin (n + 1) => γ),
    0 < √(∑ i, Complex.normSq (v i)) ∧ ∃ U : Matrix (Fin (n + 1)) (Fin (n + 1)) ℂ,
    InG K U ∧ U *ᵥ (Pi.single 0 ((√(∑ i, Complex.normSq (v i)) : ℝ) : ℂ)) = v := by
  have := hγ.ok.prob
  have hp := measurePreserving_eval (fun _ : Fin (n + 1) => γ) 0
  have h0 := hγ.nz
  rw [← hp.map_eq] at h0
  filter_upwards [hγ.rot n, ae_of_ae_map hp.measurable.aemeasurable h0] with v hv h
  exact ⟨sum_pos_of_ne h, hv⟩

theorem map_tailRows [IsProbabilityMeasure γ] (n m : ℕ) : (Measure.pi fun _ : Fin (n + 1) × Fin m => γ).map (fun x => unmat (tailRows (mat x)))
    = Measure.pi fun _ : Fin n × Fin m => γ := by
  have h := map_splitRow γ n m
  have e : (fun x : Fin (n + 1) × Fin m → ℂ => unmat (tailRows (mat x)))
      = Prod.snd ∘ fun x : Fin (n + 1) × Fin m → ℂ => ((fun j => x (0, j)), fun p : Fin n × Fin m => x (p.1.succ, p.2)) := rfl
  rw [e, ← Measure.map_map measurable_snd h.measurable, h.map_eq, Measure.map_snd_prod]
  simp

theorem measurable_tailRows (n m : ℕ) : Measurable fun x : Fin (n + 1) × Fin m → ℂ => unmat (tailRows (mat x)) :=
  measurable_unmat fun i j => measurable_mat i.succ j

/-- almost every Gaussian matrix has a factor -/
theorem ae_good_gs (hγ : GaussK γ K beta) : ∀ n : ℕ, ∀ᵐ x ∂(Measure.pi fun _ : Fin n × Fin n => γ), GoodX K x
  | 0 => by
    refine Filter.Eventually.of_forall fun x => goodX_of (U := 1) ⟨one_mem _, fun i => i.elim0, fun i => i.elim0⟩ InG.one
  | n + 1 => by
    have := hγ.ok.prob
    have ih := ae_good_gs hγ n
    have hc : Measurable fun p : (Fin (n + 1) → ℂ) × (Fin (n + 1) × Fin n → ℂ) => unmat (consCol p.1 (mat p.2)) :=
      measurable_unmat (measurable_consCol (fun i => (measurable_pi_apply i).comp measurable_fst) fun i j => (measurable_mat i j).comp measurable_snd)
    have hid := map_col (γ := γ) (n := n + 1) (m := n) (F := id) measurable_id
    rw [Measure.map_id] at hid
    rw [hid]
    have hset := measurableSet_goodX (n := n + 1) hγ.meas
    refine (ae_map_iff hc.aemeasurable hset).2 ?_
    refine (Measure.ae_prod_iff_ae_ae (hc hset)).2 ?_
    filter_upwards [hγ.rot' n] with a ha
    obtain ⟨hr, M, hM, hMa⟩ := ha
    have ih2 : ∀ᵐ B ∂(Measure.pi fun _ : Fin (n + 1) × Fin n => γ), GoodX K (unmat (tailRows (mat B))) := by
      rw [← map_tailRows (γ := γ) n n] at ih
      exact ae_of_ae_map (measurable_tailRows n n).aemeasurable ih
    have hl := left_inv (m := n) (hγ.pres _ _ hM.star)
    have hml : Measurable fun x : Fin (n + 1) × Fin n → ℂ => unmat (Mᴴ * mat x) :=
      measurable_unmat (measurable_matmul (fun i j => measurable_const) measurable_mat)
    rw [← hl] at ih2
    filter_upwards [ae_of_ae_map hml.aemeasurable ih2] with B hB
    have h3 := hB.spec
    have h4 := gs_col (B := Mᴴ * mat B) hM hr hMa h3.1
    rw [← Matrix.mul_assoc, hM.mul_conj, Matrix.one_mul] at h4
    exact goodX_of h4 (hM.mul h3.2.oneAdd)

/-- the law of the unitary factor of a Gaussian matrix -/
noncomputable def haarM (γ : Measure ℂ) (n : ℕ) : Measure (Fin n × Fin n → ℂ) := (Measure.pi fun _ : Fin n × Fin n => γ).map gsU

/-- it is the Haar measure -/
theorem haarM_isHaar (hγ : GaussK γ K beta) (n : ℕ) : IsHaar K n (haarM γ n) := by
  have := hγ.ok.prob
  refine ⟨Measure.isProbabilityMeasure_map measurable_gsU.aemeasurable, ?_, fun V hV => ?_⟩
  · have hset : MeasurableSet {x : Fin n × Fin n → ℂ | InG K (mat x)} := by
      have e : {x : Fin n × Fin n → ℂ | InG K (mat x)} = {x | ∀ i j, ((mat x)ᴴ * mat x) i j = (1 : Matrix (Fin n) (Fin n) ℂ) i j} ∩
          {x | ∀ p, x p ∈ K} := by
        ext x
        constructor
        · rintro ⟨h1, h2⟩
          exact ⟨fun i j => by rw [uni_conj_mul h1], fun p => h2 p.1 p.2⟩
        · rintro ⟨h1, h2⟩
          exact ⟨uni_of (by ext i j; exact h1 i j), fun i j => h2 (i, j)⟩
      rw [e]
      refine MeasurableSet.inter ?_ ?_
      · simp only [Set.setOf_forall]
        refine MeasurableSet.iInter fun i => MeasurableSet.iInter fun j => ?_
        exact measurableSet_eq_fun (measurable_matmul (measurable_conjT measurable_mat) measurable_mat i j) measurable_const
      · simp only [Set.setOf_forall]
        exact MeasurableSet.iInter fun p => (measurable_pi_apply p) hγ.meas
    refine (ae_map_iff measurable_gsU.aemeasurable hset).2 ?_
    filter_upwards [ae_good_gs hγ n] with x hx
    exact hx.spec.2
  · have hm : Measurable fun x : Fin n × Fin n → ℂ => unmat (V * mat x) :=
      measurable_unmat (measurable_matmul (fun i j => measurable_const) measurable_mat)
    have hl := left_inv (m := n) (hγ.pres _ _ hV)
    rw [haarM, Measure.map_map hm measurable_gsU]
    conv_rhs => rw [← hl, Measure.map_map measurable_gsU hm]
    refine Measure.map_congr ?_
    filter_upwards [ae_good_gs hγ n] with x hx
    simp only [Function.comp_apply]
    rw [gsU_eq (x := unmat (V * mat x)) (hx.spec.1.left hV.uni)]

/-- the first column of a Haar matrix is uniform on the sphere, and the rest is a Haar matrix of its orthogonal -/
theorem haar_col (hγ : GaussK γ K beta) {Z : Type} [MeasurableSpace Z] {G : (Fin (n + 1) × Fin (n + 1) → ℂ) → Z} (hG : Measurable G)
    {F : (Fin (n + 1) → ℂ) × (Fin n × Fin n → ℂ) → Z} (hF : Measurable F)
    (h : ∀ᵐ a ∂(Measure.pi fun _ : Fin (n + 1) => γ), ∃ (M : Matrix (Fin (n + 1)) (Fin (n + 1)) ℂ) (r : ℝ), InG K M ∧ 0 < r ∧
      M *ᵥ (Pi.single 0 (r : ℂ)) = a ∧
      (haarM γ n).map (fun u => G (unmat (M * oneAdd (mat u)))) = (haarM γ n).map fun u => F (a, u)) :
    (haarM γ (n + 1)).map G = ((Measure.pi fun _ : Fin (n + 1) => γ).prod (haarM γ n)).map F := by
  have := hγ.ok.prob
  have htg : Measurable fun x : Fin (n + 1) × Fin n → ℂ => gsU (unmat (tailRows (mat x))) := measurable_gsU.comp (measurable_tailRows n n)
  have hh : haarM γ n = (Measure.pi fun _ : Fin (n + 1) × Fin n => γ).map fun x => gsU (unmat (tailRows (mat x))) := by
    rw [haarM, ← map_tailRows (γ := γ) n n, Measure.map_map measurable_gsU (measurable_tailRows n n)]
    rfl
  have hc : Measurable fun p : (Fin (n + 1) → ℂ) × (Fin (n + 1) × Fin n → ℂ) => unmat (consCol p.1 (mat p.2)) :=
    measurable_unmat (measurable_consCol (fun i => (measurable_pi_apply i).comp measurable_fst) fun i j => (measurable_mat i j).comp measurable_snd)
  have hGm : Measurable fun p : (Fin (n + 1) → ℂ) × (Fin (n + 1) × Fin n → ℂ) => G (gsU (unmat (consCol p.1 (mat p.2)))) :=
    hG.comp (measurable_gsU.comp hc)
  have hFm : Measurable fun p : (Fin (n + 1) → ℂ) × (Fin (n + 1) × Fin n → ℂ) => F (p.1, gsU (unmat (tailRows (mat p.2)))) :=
    hF.comp (measurable_fst.prodMk (htg.comp measurable_snd))
  have h1 : (haarM γ (n + 1)).map G = ((Measure.pi fun _ : Fin (n + 1) => γ).prod (Measure.pi fun _ : Fin (n + 1) × Fin n => γ)).map
      fun p => G (gsU (unmat (consCol p.1 (mat p.2)))) := by
    rw [haarM, Measure.map_map hG measurable_gsU, map_col (hG.comp measurable_gsU)]
    rfl
  have h2 : ((Measure.pi fun _ : Fin (n + 1) => γ).prod (haarM γ n)).map F
      = ((Measure.pi fun _ : Fin (n + 1) => γ).prod (Measure.pi fun _ : Fin (n + 1) × Fin n => γ)).map
        fun p => F (p.1, gsU (unmat (tailRows (mat p.2)))) := by
    have e : (Measure.pi fun _ : Fin (n + 1) => γ).prod (haarM γ n)
        = ((Measure.pi fun _ : Fin (n + 1) => γ).prod (Measure.pi fun _ : Fin (n + 1) × Fin n => γ)).map
          (Prod.map id fun x => gsU (unmat (tailRows (mat x)))) := by
      rw [← Measure.map_prod_map _ _ measurable_id htg, Measure.map_id, ← hh]
    rw [e, Measure.map_map hF (measurable_id.prodMap htg)]
    rfl
  rw [h1, h2]
  refine map_ae_congr hGm hFm ?_
  filter_upwards [h] with a ha
  obtain ⟨M, r, hM, hr, hMa, hlaw⟩ := ha
  have hF1 : Measurable fun u : Fin n × Fin n → ℂ => F (a, u) := hF.comp measurable_prodMk_left
  have hMu : Measurable fun u : Fin n × Fin n → ℂ => G (unmat (M * oneAdd (mat u))) := by
    refine hG.comp (measurable_unmat (measurable_matmul (fun i j => measurable_const) fun i j => ?_))
    induction i using Fin.cases with
    | zero => induction j using Fin.cases with
      | zero => exact measurable_const
      | succ j => exact measurable_const
    | succ i => induction j using Fin.cases with
      | zero => exact measurable_const
      | succ j => exact measurable_mat i j
  have h3 : (Measure.pi fun _ : Fin (n + 1) × Fin n => γ).map (fun y => F (a, gsU (unmat (tailRows (mat y)))))
      = (haarM γ n).map fun u => F (a, u) := by
    rw [hh, Measure.map_map hF1 htg]
    rfl
  have hmM : Measurable fun x : Fin (n + 1) × Fin n → ℂ => unmat (M * mat x) :=
    measurable_unmat (measurable_matmul (fun i j => measurable_const) measurable_mat)
  have hGa : Measurable fun y : Fin (n + 1) × Fin n → ℂ => G (gsU (unmat (consCol a (mat y)))) := hGm.comp measurable_prodMk_left
  have h4 : (Measure.pi fun _ : Fin (n + 1) × Fin n => γ).map (fun y => G (gsU (unmat (consCol a (mat y)))))
      = (haarM γ n).map fun u => G (unmat (M * oneAdd (mat u))) := by
    conv_lhs => rw [← left_inv (m := n) (hγ.pres _ _ hM)]
    rw [Measure.map_map hGa hmM, hh, Measure.map_map hMu htg]
    refine Measure.map_congr ?_
    have ih := ae_good_gs hγ n
    rw [← map_tailRows (γ := γ) n n] at ih
    filter_upwards [ae_of_ae_map (measurable_tailRows n n).aemeasurable ih] with B hB
    simp only [Function.comp_apply, mat_unmat]
    have h5 := gs_col (B := mat B) hM hr hMa hB.spec.1
    rw [gsU_eq (x := unmat (consCol a (M * mat B))) h5]
  rw [h3, h4, hlaw]

end Verif.Lemmas
