import Verif.Lemmas.Jaco5

/-!
# Law of the compression of a projection on a random subspace
-/

namespace Verif.Lemmas
open Finset Matrix MeasureTheory ProbabilityTheory Verif.Model
open scoped ComplexConjugate

variable {n m : ℕ} {γ : Measure ℂ} {K : StarSubalgebra ℝ ℂ} {beta : ℝ}

/-! ### Counts -/

theorem cnt_cons (b : Bool) (q : Fin n → Bool) : cnt (Fin.cons b q : Fin (n + 1) → Bool) = (if b then 1 else 0) + cnt q := by
  have h : ∀ {k : ℕ} (q : Fin k → Bool), cnt q = ∑ i, if q i then 1 else 0 := fun q => by rw [cnt, Finset.card_filter]
  rw [h, h, Fin.sum_univ_succ]
  simp

theorem not_cons (b : Bool) (q : Fin n → Bool) :
    (fun i => !(Fin.cons b q : Fin (n + 1) → Bool) i) = (Fin.cons (!b) (fun i => !q i) : Fin (n + 1) → Bool) := by
  funext i
  induction i using Fin.cases with
  | zero => rfl
  | succ i => rfl

theorem cnt_pos {q : Fin n → Bool} {i : Fin n} (h : q i = true) : 1 ≤ cnt q :=
  Finset.card_pos.2 ⟨i, by simp [h]⟩

/-- prefix of a sequence of coordinates -/
def tf (q : Fin n → Bool) : Fin (n + 2) → Bool := Fin.cons true (Fin.cons false q : Fin (n + 1) → Bool)

theorem cnt_tf (q : Fin n → Bool) : cnt (tf q) = cnt q + 1 := by rw [tf, cnt_cons, cnt_cons]; simp; ring

theorem cnt_tf_not (q : Fin n → Bool) : (cnt fun i => !tf q i) = (cnt fun i => !q i) + 1 := by
  rw [tf, not_cons, not_cons, cnt_cons, cnt_cons]; simp; ring

theorem tf_zero (q : Fin n → Bool) : tf q 0 = true := rfl
theorem tf_one (q : Fin n → Bool) : tf q 1 = false := rfl

theorem one_le_cnt_tf (q : Fin n → Bool) : 1 ≤ cnt (tf q) := cnt_pos (tf_zero q)
theorem one_le_cnt_tf_not (q : Fin n → Bool) : 1 ≤ cnt fun i => !tf q i := cnt_pos (i := 1) (by rw [tf_one]; rfl)

/-! ### First column -/

/-- the matrix after the first column has been rotated -/
noncomputable def HAc (c : ℝ) (pb : Fin (n + 1) → Bool) (q : Fin n → Bool) (W : Matrix (Fin (n + 1)) (Fin (n + 1)) ℂ) :
    Matrix (Fin (n + 2)) (Fin (n + 2)) ℂ :=
  HA c pb (Pi.single 0 ((√c * √(1 - c) : ℝ) : ℂ)) (bord ((1 - c : ℝ) : ℂ) 0 0 (dg q)) W

theorem measurable_HAc {X : Type} [MeasurableSpace X] {c : X → ℝ} (hc : Measurable c) (pb : Fin (n + 1) → Bool) (q : Fin n → Bool)
    {W : X → Matrix (Fin (n + 1)) (Fin (n + 1)) ℂ} (hW : ∀ i j, Measurable fun y => W y i j) :
    Measurable fun y => cpp (HAc (c y) pb q (W y)) := by
  refine measurable_cpp fun i j => ?_
  have h1 : Measurable fun y => ((√(c y) * √(1 - c y) : ℝ) : ℂ) := Complex.measurable_ofReal.comp (hc.sqrt.mul (measurable_const.sub hc).sqrt)
  have h2 : Measurable fun y => ((1 - c y : ℝ) : ℂ) := Complex.measurable_ofReal.comp (measurable_const.sub hc)
  have h3 : ∀ i j : Fin (n + 1), Measurable fun y => bord ((1 - c y : ℝ) : ℂ) (0 : Fin n → ℂ) 0 (dg q) i j :=
    measurable_bord (a := fun y => ((1 - c y : ℝ) : ℂ)) (w := fun _ => 0) (v := fun _ => 0) (B := fun _ => dg q) h2 (fun _ => measurable_const)
      (fun _ => measurable_const) (fun _ _ => measurable_const)
  unfold HAc
  exact measurable_HA hc pb (measurable_single h1) h3 hW i j

theorem stageA (hγ : GaussK γ K beta) (pb : Fin (n + 1) → Bool) (q : Fin n → Bool) :
    (haarM γ (n + 2)).map (fun u => cpp (Hm (Fin.cons true pb : Fin (n + 2) → Bool) (tf q) (mat u)))
      = ((betaMeasure (beta / 2 * cnt (tf q)) (beta / 2 * cnt fun i => !tf q i)).prod (haarM γ (n + 1))).map
        fun p => cpp (HAc p.1 pb q (mat p.2)) := by
  have := hγ.ok.prob
  have hH := haarM_isHaar hγ (n + 1)
  have := hH.prob
  have hG : Measurable fun u : Fin (n + 2) × Fin (n + 2) → ℂ => cpp (Hm (Fin.cons true pb : Fin (n + 2) → Bool) (tf q) (mat u)) :=
    measurable_cpp (measurable_Hm _ _ measurable_mat)
  have hP : Measurable fun p : ℝ × (Fin (n + 1) × Fin (n + 1) → ℂ) => cpp (HAc p.1 pb q (mat p.2)) :=
    measurable_HAc measurable_fst pb q fun i j => (measurable_mat i j).comp measurable_snd
  have hPs : Measurable fun p : (Fin (n + 2) → ℂ) × (Fin (n + 1) × Fin (n + 1) → ℂ) => cpp (HAc (share (tf q) p.1) pb q (mat p.2)) :=
    measurable_HAc ((measurable_share _).comp measurable_fst) pb q fun i j => (measurable_mat i j).comp measurable_snd
  have hc : ∀ i j, Measurable fun p : (Fin (n + 2) → ℂ) × (Fin (n + 1) × Fin (n + 1) → ℂ) => (mat p.2)ᴴ i j :=
    measurable_conjT fun i j => (measurable_mat i j).comp measurable_snd
  have hF : Measurable fun p : (Fin (n + 2) → ℂ) × (Fin (n + 1) × Fin (n + 1) → ℂ) => cpp (HAc (share (tf q) p.1) pb q (mat p.2)ᴴ) :=
    measurable_HAc ((measurable_share _).comp measurable_fst) pb q hc
  rw [haar_col hγ hG hF]
  · have e1 : ((Measure.pi fun _ : Fin (n + 2) => γ).prod (haarM γ (n + 1))).map
          (fun p : (Fin (n + 2) → ℂ) × (Fin (n + 1) × Fin (n + 1) → ℂ) => cpp (HAc (share (tf q) p.1) pb q (mat p.2)ᴴ))
        = ((Measure.pi fun _ : Fin (n + 2) => γ).prod (haarM γ (n + 1))).map
          fun p : (Fin (n + 2) → ℂ) × (Fin (n + 1) × Fin (n + 1) → ℂ) => cpp (HAc (share (tf q) p.1) pb q (mat p.2)) := by
      refine prod_map_congr hF hPs fun a => ?_
      have hGa : Measurable fun u : Fin (n + 1) × Fin (n + 1) → ℂ => cpp (HAc (share (tf q) a) pb q (mat u)) :=
        measurable_HAc measurable_const pb q measurable_mat
      exact haar_star hγ hGa
    have hp : (betaMeasure (beta / 2 * cnt (tf q)) (beta / 2 * cnt fun i => !tf q i)).prod (haarM γ (n + 1))
        = ((Measure.pi fun _ : Fin (n + 2) => γ).prod (haarM γ (n + 1))).map (Prod.map (share (tf q)) id) := by
      rw [← Measure.map_prod_map _ _ (measurable_share _) measurable_id, law_share hγ _ (one_le_cnt_tf q) (one_le_cnt_tf_not q), Measure.map_id]
    rw [e1, hp, Measure.map_map hP ((measurable_share _).prodMap measurable_id)]
    rfl
  · filter_upwards [ae_good_vec hγ (n + 1)] with a ha
    obtain ⟨R, hR, hc, hr, e⟩ := exists_frame ha.1 ha.2 q
    have hs := share_mem (tf q) a
    refine ⟨_, _, hR.mul (theta_InG hs.1 hs.2), hr, e, ?_⟩
    congr 1
    funext u
    rw [mat_unmat, HAc]
    exact congrArg cpp (Hm_col hs.1 hs.2 pb q hR hc (mat u))

/-! ### Second column -/

theorem Hm_star (p q : Fin n → Bool) (W : Matrix (Fin n) (Fin n) ℂ) : Hm p q Wᴴ = dg p * (W * dg q * Wᴴ) * dg p := by
  rw [Hm, conjTranspose_conjTranspose]

theorem measurable_stepJ {X : Type} [MeasurableSpace X] {a b : X → ℝ} {F : X → ℕ → ℝ × ℝ} (ha : Measurable a) (hb : Measurable b) (hF : Measurable F) :
    Measurable fun x => stepJ (a x) (b x) (F x) := by
  refine measurable_pi_lambda _ fun t => ?_
  have h1 : Measurable fun x => (F x t).1 := measurable_fst.comp ((measurable_pi_apply t).comp hF)
  have h2 : Measurable fun x => (F x t).2 := measurable_snd.comp ((measurable_pi_apply t).comp hF)
  simp only [stepJ, stepH, bump, scalF]
  fun_prop

theorem measurable_tm : Measurable tm := by
  refine measurable_pi_lambda _ fun t => ?_
  simp only [tm]
  fun_prop

theorem measurable_tmP (e : ℕ) : Measurable (tmP e) := by
  refine measurable_pi_lambda _ fun t => ?_
  simp only [tmP]
  fun_prop

theorem stageB (hγ : GaussK γ K beta) {c1 : ℝ} (h0 : 0 ≤ c1) (h1 : c1 ≤ 1) (p : Fin m → Bool) (q : Fin (m + 1) → Bool) :
    (haarM γ (m + 2)).map (fun w => cpp (HAc c1 (tf p) q (mat w)))
      = ((betaMeasure (beta / 2 * cnt (tf p)) (beta / 2 * cnt fun i => !tf p i)).prod (haarM γ (m + 1))).map
        fun z => tm (stepJ c1 z.1 (cpp (Hm (Fin.cons true p : Fin (m + 1) → Bool) q (mat z.2)))) := by
  have := hγ.ok.prob
  have hH := haarM_isHaar hγ (m + 1)
  have := hH.prob
  have hG : Measurable fun w : Fin (m + 2) × Fin (m + 2) → ℂ => cpp (HAc c1 (tf p) q (mat w)) := measurable_HAc measurable_const _ _ measurable_mat
  have hHm : Measurable fun u : Fin (m + 1) × Fin (m + 1) → ℂ => cpp (Hm (Fin.cons true p : Fin (m + 1) → Bool) q (mat u)) :=
    measurable_cpp (measurable_Hm _ _ measurable_mat)
  have hP : Measurable fun z : ℝ × (Fin (m + 1) × Fin (m + 1) → ℂ) => tm (stepJ c1 z.1 (cpp (Hm (Fin.cons true p : Fin (m + 1) → Bool) q (mat z.2)))) :=
    measurable_tm.comp (measurable_stepJ measurable_const measurable_fst (hHm.comp measurable_snd))
  have hPs : Measurable fun z : (Fin (m + 2) → ℂ) × (Fin (m + 1) × Fin (m + 1) → ℂ) =>
      tm (stepJ c1 (share (tf p) z.1) (cpp (Hm (Fin.cons true p : Fin (m + 1) → Bool) q (mat z.2)))) :=
    measurable_tm.comp (measurable_stepJ measurable_const ((measurable_share _).comp measurable_fst) (hHm.comp measurable_snd))
  have hF : Measurable fun z : (Fin (m + 2) → ℂ) × (Fin (m + 1) × Fin (m + 1) → ℂ) =>
      tm (stepJ c1 (share (tf p) z.1) (cpp (Hm (Fin.cons true p : Fin (m + 1) → Bool) q (mat z.2)ᴴ))) :=
    measurable_tm.comp (measurable_stepJ measurable_const ((measurable_share _).comp measurable_fst)
      ((hHm.comp (measurable_star_mat _)).comp measurable_snd))
  rw [haar_col hγ hG hF]
  · have e1 : ((Measure.pi fun _ : Fin (m + 2) => γ).prod (haarM γ (m + 1))).map
          (fun z : (Fin (m + 2) → ℂ) × (Fin (m + 1) × Fin (m + 1) → ℂ) =>
            tm (stepJ c1 (share (tf p) z.1) (cpp (Hm (Fin.cons true p : Fin (m + 1) → Bool) q (mat z.2)ᴴ))))
        = ((Measure.pi fun _ : Fin (m + 2) => γ).prod (haarM γ (m + 1))).map
          fun z : (Fin (m + 2) → ℂ) × (Fin (m + 1) × Fin (m + 1) → ℂ) =>
            tm (stepJ c1 (share (tf p) z.1) (cpp (Hm (Fin.cons true p : Fin (m + 1) → Bool) q (mat z.2)))) := by
      refine prod_map_congr hF hPs fun a => ?_
      have hGa : Measurable fun u : Fin (m + 1) × Fin (m + 1) → ℂ =>
          tm (stepJ c1 (share (tf p) a) (cpp (Hm (Fin.cons true p : Fin (m + 1) → Bool) q (mat u)))) :=
        measurable_tm.comp (measurable_stepJ measurable_const measurable_const hHm)
      exact haar_star hγ hGa
    have hp : (betaMeasure (beta / 2 * cnt (tf p)) (beta / 2 * cnt fun i => !tf p i)).prod (haarM γ (m + 1))
        = ((Measure.pi fun _ : Fin (m + 2) => γ).prod (haarM γ (m + 1))).map (Prod.map (share (tf p)) id) := by
      rw [← Measure.map_prod_map _ _ (measurable_share _) measurable_id, law_share hγ _ (one_le_cnt_tf p) (one_le_cnt_tf_not p), Measure.map_id]
    rw [e1, hp, Measure.map_map hP ((measurable_share _).prodMap measurable_id)]
    rfl
  · filter_upwards [ae_good_vec hγ (m + 1)] with b hb
    obtain ⟨R, hR, hc, hr, e⟩ := exists_frame hb.1 hb.2 p
    have hs := share_mem (tf p) b
    refine ⟨_, _, hR.mul (theta_InG hs.1 hs.2), hr, e, ?_⟩
    congr 1
    funext u
    have hsq : (√c1 * √(1 - c1)) ^ 2 = c1 * (1 - c1) := by
      rw [mul_pow, Real.sq_sqrt h0, Real.sq_sqrt (by linarith)]
    rw [mat_unmat, HAc, Matrix.mul_assoc, Hm_star]
    refine (HA_left c1 (pb := tf p) _ _ _ hR.uni hc).trans ?_
    exact HA_theta hs.1 hs.2 hsq p (dg q) (mat u)

/-! ### The recursion -/

theorem ae_beta01 (a b : ℝ) : ∀ᵐ x ∂(betaMeasure a b), 0 < x ∧ x < 1 := by
  rw [betaMeasure, ae_withDensity_iff (measurable_betaPDF' a b)]
  refine Filter.Eventually.of_forall fun x hx => ?_
  by_contra hc
  refine hx ?_
  rw [betaPDF, betaPDFReal, if_neg hc, ENNReal.ofReal_zero]


theorem step_full (hγ : GaussK γ K beta) (p : Fin m → Bool) (q : Fin (m + 1) → Bool) :
    (haarM γ (m + 3)).map (fun u => cpp (Hm (Fin.cons true (tf p) : Fin (m + 3) → Bool) (tf q) (mat u)))
      = ((betaMeasure (beta / 2 * cnt (tf q)) (beta / 2 * cnt fun i => !tf q i)).prod
          ((betaMeasure (beta / 2 * cnt (tf p)) (beta / 2 * cnt fun i => !tf p i)).prod
          ((haarM γ (m + 1)).map fun u => cpp (Hm (Fin.cons true p : Fin (m + 1) → Bool) q (mat u))))).map
        fun z => tm (stepJ z.1 z.2.1 z.2.2) := by
  have hb := hγ.beta_pos
  have hH := haarM_isHaar hγ (m + 1)
  have := hH.prob
  have hH2 := haarM_isHaar hγ (m + 2)
  have := hH2.prob
  have hpos : ∀ k : ℕ, 1 ≤ k → 0 < beta / 2 * k := fun k hk => by
    have : (0 : ℝ) < k := by exact_mod_cast hk
    positivity
  have hB2 : IsProbabilityMeasure (betaMeasure (beta / 2 * cnt (tf p)) (beta / 2 * cnt fun i => !tf p i)) :=
    isProbabilityMeasureBeta (hpos _ (one_le_cnt_tf p)) (hpos _ (one_le_cnt_tf_not p))
  have hHm : Measurable fun u : Fin (m + 1) × Fin (m + 1) → ℂ => cpp (Hm (Fin.cons true p : Fin (m + 1) → Bool) q (mat u)) :=
    measurable_cpp (measurable_Hm _ _ measurable_mat)
  have hprob : IsProbabilityMeasure ((haarM γ (m + 1)).map fun u => cpp (Hm (Fin.cons true p : Fin (m + 1) → Bool) q (mat u))) :=
    Measure.isProbabilityMeasure_map hHm.aemeasurable
  rw [stageA hγ (tf p) q]
  have hm1 : Measurable fun p' : ℝ × (Fin (m + 2) × Fin (m + 2) → ℂ) => cpp (HAc p'.1 (tf p) q (mat p'.2)) :=
    measurable_HAc measurable_fst _ q fun i j => (measurable_mat i j).comp measurable_snd
  have hst : Measurable fun z : ℝ × ℝ × (ℕ → ℝ × ℝ) => tm (stepJ z.1 z.2.1 z.2.2) :=
    measurable_tm.comp (measurable_stepJ measurable_fst (measurable_fst.comp measurable_snd) (measurable_snd.comp measurable_snd))
  refine prod_map_congr_ae hm1 hst ?_
  filter_upwards [ae_beta01 _ _] with c1 hc1
  rw [stageB hγ hc1.1.le hc1.2.le p q]
  have e : (betaMeasure (beta / 2 * cnt (tf p)) (beta / 2 * cnt fun i => !tf p i)).prod
      ((haarM γ (m + 1)).map fun u => cpp (Hm (Fin.cons true p : Fin (m + 1) → Bool) q (mat u)))
      = ((betaMeasure (beta / 2 * cnt (tf p)) (beta / 2 * cnt fun i => !tf p i)).prod (haarM γ (m + 1))).map
        (Prod.map id fun u => cpp (Hm (Fin.cons true p : Fin (m + 1) → Bool) q (mat u))) := by
    rw [← Measure.map_prod_map _ _ measurable_id hHm, Measure.map_id]
  have hst1 : Measurable fun z : ℝ × (ℕ → ℝ × ℝ) => tm (stepJ c1 z.1 z.2) :=
    measurable_tm.comp (measurable_stepJ measurable_const measurable_fst measurable_snd)
  rw [e, Measure.map_map hst1 (measurable_id.prodMap hHm)]
  rfl

end Verif.Lemmas
