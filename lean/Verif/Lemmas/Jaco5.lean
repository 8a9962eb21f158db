import Verif.Lemmas.Jaco4

/-!
# Law of the compression of a projection on a random subspace: one step
-/

namespace Verif.Lemmas
open Finset Matrix MeasureTheory ProbabilityTheory Verif.Model
open scoped ComplexConjugate

variable {n m : ℕ} {γ : Measure ℂ} {K : StarSubalgebra ℝ ℂ} {beta : ℝ}

theorem selN_add (q : Fin n → Bool) (a : Fin n → ℂ) : selN q a + selN (fun i => !q i) a = ∑ i, Complex.normSq (a i) := by
  rw [selN, selN, ← Finset.sum_add_distrib]
  refine sum_congr rfl fun i _ => ?_
  cases q i <;> simp

theorem share_mem (q : Fin n → Bool) (a : Fin n → ℂ) : 0 ≤ share q a ∧ share q a ≤ 1 := by
  have h1 := selN_nonneg q a
  have h2 := selN_nonneg (fun i => !q i) a
  exact ⟨div_nonneg h1 (add_nonneg h1 h2), div_le_one_of_le₀ (by linarith) (add_nonneg h1 h2)⟩

theorem ae_good_vec (hγ : GaussK γ K beta) (n : ℕ) : ∀ᵐ a ∂(Measure.pi fun _ : Fin (n + 1) => γ), (∀ i, a i ∈ K) ∧ (∀ i, a i ≠ 0) := by
  have := hγ.ok.prob
  have h1 : ∀ᵐ a ∂(Measure.pi fun _ : Fin (n + 1) => γ), ∀ i, a i ≠ 0 := by
    refine ae_all_iff.2 fun i => ?_
    have hp := measurePreserving_eval (fun _ : Fin (n + 1) => γ) i
    have h0 := hγ.nz
    rw [← hp.map_eq] at h0
    exact ae_of_ae_map hp.measurable.aemeasurable h0
  filter_upwards [h1, hγ.rot n] with a ha hr
  refine ⟨fun i => ?_, ha⟩
  obtain ⟨U, hU, e⟩ := hr
  have := congrFun e i
  rw [Matrix.mulVec_single] at this
  simp only [MulOpposite.smul_eq_mul_unop, MulOpposite.unop_op, Pi.smul_apply, Matrix.col_apply] at this
  rw [← this]
  exact mul_mem (hU.mem i 0) (real_mem _)

theorem theta_gather {S1 S2 : ℝ} (h1 : 0 ≤ S1) (h2 : 0 ≤ S2) (h : 0 < S1 + S2) :
    thetaM n ((√(S1 / (S1 + S2)) : ℝ) : ℂ) *ᵥ (Pi.single 0 ((√(S1 + S2) : ℝ) : ℂ))
      = Pi.single 0 ((√S1 : ℝ) : ℂ) + Pi.single 1 ((√S2 : ℝ) : ℂ) := by
  have hc : 0 ≤ S1 / (S1 + S2) := div_nonneg h1 h.le
  have hrho : rhoC ((√(S1 / (S1 + S2)) : ℝ) : ℂ) = ((√(S2 / (S1 + S2)) : ℝ) : ℂ) := by
    rw [rhoC, Complex.norm_real, Real.norm_eq_abs, sq_abs, Real.sq_sqrt hc]
    congr 3
    field_simp; ring
  have e1 : ((√(S1 / (S1 + S2)) : ℝ) : ℂ) * ((√(S1 + S2) : ℝ) : ℂ) = ((√S1 : ℝ) : ℂ) := by
    rw [← Complex.ofReal_mul, ← Real.sqrt_mul hc, div_mul_cancel₀ _ h.ne']
  have e2 : ((√(S2 / (S1 + S2)) : ℝ) : ℂ) * ((√(S1 + S2) : ℝ) : ℂ) = ((√S2 : ℝ) : ℂ) := by
    rw [← Complex.ofReal_mul, ← Real.sqrt_mul (div_nonneg h2 h.le), div_mul_cancel₀ _ h.ne']
  funext i
  rw [Matrix.mulVec_single]
  simp only [MulOpposite.smul_eq_mul_unop, MulOpposite.unop_op, Pi.smul_apply, Matrix.col_apply, Pi.add_apply]
  have h10 : (1 : Fin (n + 2)) = Fin.succ 0 := rfl
  induction i using Fin.cases with
  | zero =>
    rw [thetaM, bord_00, Complex.conj_ofReal, e1, Pi.single_eq_same, h10, Pi.single_eq_of_ne (Fin.succ_ne_zero 0).symm, add_zero]
  | succ i =>
    rw [thetaM, bord_s0, hrho, Pi.single_eq_of_ne (Fin.succ_ne_zero i), zero_add, h10]
    by_cases hi : i = 0
    · subst hi
      rw [Pi.single_eq_same, Pi.single_eq_same, e2]
    · rw [Pi.single_eq_of_ne hi, Pi.single_eq_of_ne (fun h => hi (Fin.succ_injective _ h)), zero_mul]

theorem theta_InG {c : ℝ} (h0 : 0 ≤ c) (h1 : c ≤ 1) : InG K (thetaM n ((√c : ℝ) : ℂ)) := by
  refine ⟨uni_of (thetaM_unitary ?_), fun i j => ?_⟩
  · rw [Complex.norm_real, Real.norm_eq_abs, abs_of_nonneg (Real.sqrt_nonneg _)]
    exact Real.sqrt_le_one.2 h1
  · have hc : (conj ((√c : ℝ) : ℂ)) ∈ K := by rw [Complex.conj_ofReal]; exact real_mem _
    have hr : rhoC ((√c : ℝ) : ℂ) ∈ K := real_mem _
    rw [thetaM]
    induction i using Fin.cases with
    | zero => induction j using Fin.cases with
      | zero => exact hc
      | succ j => exact single_mem hr j
    | succ i => induction j using Fin.cases with
      | zero => exact single_mem hr i
      | succ j =>
        rw [bord_ss, lowB]
        induction i using Fin.cases with
        | zero => induction j using Fin.cases with
          | zero => exact neg_mem (real_mem _)
          | succ j => exact zero_mem K
        | succ i => induction j using Fin.cases with
          | zero => exact zero_mem K
          | succ j => exact InG.one.mem i j

/-- a matrix whose first column is a given vector, split along the selected coordinates -/
theorem exists_frame {a : Fin (n + 2) → ℂ} (ha : ∀ i, a i ∈ K) (h : ∀ i, a i ≠ 0) (q : Fin n → Bool) :
    ∃ R : Matrix (Fin (n + 2)) (Fin (n + 2)) ℂ, InG K R ∧
      R * dg (Fin.cons true (Fin.cons false q : Fin (n + 1) → Bool) : Fin (n + 2) → Bool)
        = dg (Fin.cons true (Fin.cons false q : Fin (n + 1) → Bool) : Fin (n + 2) → Bool) * R ∧
      0 < √(∑ i, Complex.normSq (a i)) ∧
      (R * thetaM n ((√(share (Fin.cons true (Fin.cons false q : Fin (n + 1) → Bool) : Fin (n + 2) → Bool) a) : ℝ) : ℂ))
        *ᵥ (Pi.single 0 ((√(∑ i, Complex.normSq (a i)) : ℝ) : ℂ)) = a := by
  have hpos := sum_pos_of_ne (h 0)
  obtain ⟨R, hR, hc, e⟩ := exists_gather ha (q := (Fin.cons true (Fin.cons false q : Fin (n + 1) → Bool) : Fin (n + 2) → Bool)) (i0 := 0) (i1 := 1)
    rfl rfl (h 0) (h 1)
  refine ⟨R, hR, hc, hpos, ?_⟩
  rw [← Matrix.mulVec_mulVec, share, ← selN_add (Fin.cons true (Fin.cons false q : Fin (n + 1) → Bool) : Fin (n + 2) → Bool), theta_gather, e]
  · exact selN_nonneg _ _
  · exact selN_nonneg _ _
  · rw [selN_add]
    exact Real.sqrt_pos.1 hpos

/-! ### Measurability -/

theorem measurable_Hm {X : Type} [MeasurableSpace X] {M : ℕ} (p q : Fin M → Bool) {U : X → Matrix (Fin M) (Fin M) ℂ}
    (hU : ∀ i j, Measurable fun x => U x i j) (i j : Fin M) : Measurable fun x => Hm p q (U x) i j := by
  have h0 : ∀ (q : Fin M → Bool) (i j : Fin M), Measurable fun _ : X => dg q i j := fun _ _ _ => measurable_const
  have h1 : ∀ i j, Measurable fun x => ((U x)ᴴ * dg q) i j := measurable_matmul (measurable_conjT hU) (h0 q)
  have h2 : ∀ i j, Measurable fun x => ((U x)ᴴ * dg q * U x) i j := measurable_matmul h1 hU
  have h3 : ∀ i j, Measurable fun x => (dg p * ((U x)ᴴ * dg q * U x)) i j := measurable_matmul (h0 p) h2
  exact measurable_matmul h3 (h0 p) i j

theorem measurable_HA {X : Type} [MeasurableSpace X] {k : ℕ} {c : X → ℝ} (hc : Measurable c) (pb : Fin k → Bool) {x : X → Fin k → ℂ}
    (hx : ∀ i, Measurable fun y => x y i) {B0 W : X → Matrix (Fin k) (Fin k) ℂ} (hB : ∀ i j, Measurable fun y => B0 y i j)
    (hW : ∀ i j, Measurable fun y => W y i j) (i j : Fin (k + 1)) : Measurable fun y => HA (c y) pb (x y) (B0 y) (W y) i j := by
  have h0 : ∀ (q : Fin k → Bool) (i j : Fin k), Measurable fun _ : X => dg q i j := fun _ _ _ => measurable_const
  have h1 : ∀ i j, Measurable fun y => ((W y)ᴴ * dg pb) i j := measurable_matmul (measurable_conjT hW) (h0 pb)
  have h2 : ∀ i j, Measurable fun y => (dg pb * W y) i j := measurable_matmul (h0 pb) hW
  have h3 : ∀ i j, Measurable fun y => (dg pb * W y * B0 y) i j := measurable_matmul h2 hB
  have h4 : ∀ i j, Measurable fun y => (dg pb * W y * B0 y * ((W y)ᴴ * dg pb)) i j := measurable_matmul h3 h1
  have h5 : ∀ j, Measurable fun y => (x y ᵥ* ((W y)ᴴ * dg pb)) j := fun j => by
    simp only [Matrix.vecMul, dotProduct]
    exact Finset.measurable_sum _ fun l _ => (hx l).mul (h1 l j)
  have h6 : ∀ i, Measurable fun y => ((dg pb * W y) *ᵥ x y) i := fun i => by
    simp only [Matrix.mulVec, dotProduct]
    exact Finset.measurable_sum _ fun l _ => (h2 i l).mul (hx l)
  have h7 : Measurable fun y => ((c y : ℝ) : ℂ) := Complex.measurable_ofReal.comp hc
  unfold HA
  exact measurable_bord (a := fun y => ((c y : ℝ) : ℂ)) (w := fun y => x y ᵥ* ((W y)ᴴ * dg pb)) (v := fun y => (dg pb * W y) *ᵥ x y)
    (B := fun y => dg pb * W y * B0 y * ((W y)ᴴ * dg pb)) h7 h5 h6 h4 i j

theorem prod_map_congr_ae {X Y Y' Z : Type} [MeasurableSpace X] [MeasurableSpace Y] [MeasurableSpace Y'] [MeasurableSpace Z] {μ : Measure X}
    {ν : Measure Y} {ν' : Measure Y'} [SFinite ν] [SFinite ν'] {F : X × Y → Z} {F' : X × Y' → Z} (hF : Measurable F) (hF' : Measurable F')
    (h : ∀ᵐ x ∂μ, ν.map (fun y => F (x, y)) = ν'.map fun y => F' (x, y)) : (μ.prod ν).map F = (μ.prod ν').map F' := by
  ext s hs
  rw [Measure.map_apply hF hs, Measure.map_apply hF' hs, Measure.prod_apply (hF hs), Measure.prod_apply (hF' hs)]
  refine lintegral_congr_ae ?_
  filter_upwards [h] with x hx
  have h1 : ν.map (fun y => F (x, y)) s = ν'.map (fun y => F' (x, y)) s := by rw [hx]
  rw [Measure.map_apply (f := fun y => F (x, y)) (hF.comp measurable_prodMk_left) hs,
    Measure.map_apply (f := fun y => F' (x, y)) (hF'.comp measurable_prodMk_left) hs] at h1
  exact h1

theorem measurable_star_mat (n : ℕ) : Measurable fun x : Fin n × Fin n → ℂ => unmat (mat x)ᴴ := measurable_unmat (measurable_conjT measurable_mat)

/-- the conjugate transpose of a Haar matrix is a Haar matrix -/
theorem haar_star {Z : Type} [MeasurableSpace Z] (hγ : GaussK γ K beta) {G : (Fin n × Fin n → ℂ) → Z} (hG : Measurable G) :
    (haarM γ n).map (fun u => G (unmat (mat u)ᴴ)) = (haarM γ n).map G := by
  have h := haarM_isHaar hγ n
  conv_rhs => rw [h.star_eq h]
  rw [Measure.map_map hG (measurable_star_mat n)]
  rfl

end Verif.Lemmas
