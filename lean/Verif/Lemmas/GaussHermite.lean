import Verif.Lemmas.GaussMat2
import Verif.Lemmas.JacHermite2

/-!
# Characteristic polynomial of the full and of the tridiagonal Hermite models: the same recursion
-/

namespace Verif.Lemmas
open Finset Matrix MeasureTheory ProbabilityTheory Verif.Model Verif.Spec

theorem measurable_det {X : Type} [MeasurableSpace X] {n : ℕ} {A : X → Matrix (Fin n) (Fin n) ℂ} (h : ∀ i j, Measurable fun x => A x i j) :
    Measurable fun x => (A x).det := by
  simp only [Matrix.det_apply]
  refine Finset.measurable_sum _ fun σ _ => ?_
  have : Measurable fun x => ∏ i, A x (σ i) i := Finset.measurable_prod _ fun i _ => h _ _
  exact this.const_smul _

theorem measurable_cpp {X : Type} [MeasurableSpace X] {n : ℕ} {A : X → Matrix (Fin (n + 1)) (Fin (n + 1)) ℂ}
    (h : ∀ i j, Measurable fun x => A x i j) : Measurable fun x => cpp (A x) := by
  refine measurable_pi_lambda _ fun t => ?_
  refine Measurable.prodMk ?_ ?_
  · refine Complex.measurable_re.comp (measurable_det fun i j => ?_)
    simp only [Matrix.sub_apply]
    exact measurable_const.sub (h i j)
  · refine Complex.measurable_re.comp (measurable_det fun i j => ?_)
    simp only [Matrix.sub_apply, Matrix.submatrix_apply]
    exact measurable_const.sub (h _ _)

theorem measurable_stepH : Measurable fun p : (ℝ × ℝ) × (ℕ → ℝ × ℝ) => stepH p.1.1 p.1.2 p.2 := by
  refine measurable_pi_lambda _ fun t => ?_
  simp only [stepH]
  fun_prop

/-- exchange the middle factors -/
theorem prod4_comm {A B C D : Type} [MeasurableSpace A] [MeasurableSpace B] [MeasurableSpace C] [MeasurableSpace D] (a : Measure A)
    (b : Measure B) (c : Measure C) (d : Measure D) [SFinite a] [SFinite b] [SFinite c] [SFinite d] :
    MeasurePreserving (fun p : (A × B) × (C × D) => ((p.1.1, p.2.1), (p.1.2, p.2.2))) ((a.prod b).prod (c.prod d)) ((a.prod c).prod (b.prod d)) := by
  have h1 := measurePreserving_prodAssoc a b (c.prod d)
  have h2 : MeasurePreserving _ (a.prod (b.prod (c.prod d))) (a.prod ((b.prod c).prod d)) :=
    (MeasurePreserving.id a).prod (measurePreserving_prodAssoc b c d).symm
  have h3 : MeasurePreserving _ (a.prod ((b.prod c).prod d)) (a.prod ((c.prod b).prod d)) :=
    (MeasurePreserving.id a).prod ((Measure.measurePreserving_swap (μ := b) (ν := c)).prod (MeasurePreserving.id d))
  have h4 : MeasurePreserving _ (a.prod ((c.prod b).prod d)) (a.prod (c.prod (b.prod d))) :=
    (MeasurePreserving.id a).prod (measurePreserving_prodAssoc c b d)
  have h5 := (measurePreserving_prodAssoc a c (b.prod d)).symm
  exact h5.comp (h4.comp (h3.comp (h2.comp h1)))

/-! ### The recursion -/

/-- law of the pair of characteristic polynomials -/
noncomputable def lawH (beta : ℝ) : ℕ → Measure (ℕ → ℝ × ℝ)
  | 0 => (gaussianReal 0 (Real.toNNReal 2)).map fun a t => ((t : ℝ) - a, 1)
  | n + 1 => (((gaussianReal 0 (Real.toNNReal 2)).prod (RP.gammaLaw (beta / 2 * ((n + 1 : ℕ) : ℝ)) 2)).prod (lawH beta n)).map
      fun p => stepH p.1.1 p.1.2 p.2

/-- `(A + A*) / sqrt(2)` -/
noncomputable def herm {n : ℕ} (A : Matrix (Fin n) (Fin n) ℂ) : Matrix (Fin n) (Fin n) ℂ := ((√2 : ℝ) : ℂ)⁻¹ • (A + Aᴴ)

theorem herm_isHermitian {n : ℕ} (A : Matrix (Fin n) (Fin n) ℂ) : (herm A).IsHermitian := by
  rw [Matrix.IsHermitian, herm, Matrix.conjTranspose_smul, Matrix.conjTranspose_add, Matrix.conjTranspose_conjTranspose, add_comm Aᴴ A]
  congr 1
  rw [star_inv₀]
  simp

theorem herm_conj {n : ℕ} (A U : Matrix (Fin n) (Fin n) ℂ) : Uᴴ * herm A * U = herm (Uᴴ * (A * U)) := by
  simp only [herm, Matrix.conjTranspose_mul, Matrix.conjTranspose_conjTranspose, Matrix.mul_smul, Matrix.smul_mul, Matrix.mul_add,
    Matrix.add_mul, Matrix.mul_assoc]

theorem herm_apply {n : ℕ} (A : Matrix (Fin n) (Fin n) ℂ) (i j : Fin n) :
    herm A i j = (A i j + (starRingEnd ℂ) (A j i)) / ((√2 : ℝ) : ℂ) := by
  simp only [herm, Matrix.smul_apply, Matrix.add_apply, Matrix.conjTranspose_apply, smul_eq_mul, div_eq_inv_mul]
  rfl

theorem herm_diag {n : ℕ} (A : Matrix (Fin n) (Fin n) ℂ) (i : Fin n) : herm A i i = ((√2 * (A i i).re : ℝ) : ℂ) := by
  rw [herm_apply, Complex.add_conj]
  have : (√2 : ℝ) ≠ 0 := by positivity
  have h2 : (2 : ℝ) = √2 * √2 := (Real.mul_self_sqrt (by norm_num)).symm
  have h3 : ((√2 : ℝ) : ℂ) ≠ 0 := by exact_mod_cast this
  rw [div_eq_iff h3, ← Complex.ofReal_mul]
  congr 1
  linear_combination (A i i).re * h2

/-- the border of the symmetrised matrix -/
noncomputable def bvec {n : ℕ} (d c : Fin n → ℂ) (i : Fin n) : ℂ := (c i + (starRingEnd ℂ) (d i)) / ((√2 : ℝ) : ℂ)

theorem herm_bord {n : ℕ} (x : Fin (n + 1) × Fin (n + 1) → ℂ) :
    herm (mat x) = bord ((√2 * (split4 x).1.1.re : ℝ) : ℂ) (star (bvec (split4 x).1.2 (split4 x).2.1)) (bvec (split4 x).1.2 (split4 x).2.1)
      (herm (mat (split4 x).2.2)) := by
  apply bord_ext
  · rw [herm_diag]; rfl
  · intro j
    rw [herm_apply, bord_0s, Pi.star_apply, bvec]
    simp only [mat, Matrix.of_apply, split4]
    rw [← starRingEnd_apply, map_div₀, map_add, Complex.conj_conj, Complex.conj_ofReal, add_comm]
  · intro i
    rw [herm_apply, bord_s0, bvec]
    rfl
  · intro i j
    rw [herm_apply, bord_ss, herm_apply]
    rfl

variable {γ : Measure ℂ} {beta : ℝ}

theorem law_bvec (hγ : GaussOK γ beta) (n : ℕ) :
    MeasurePreserving (fun p : (Fin n → ℂ) × (Fin n → ℂ) => bvec p.1 p.2) ((Measure.pi fun _ : Fin n => γ).prod (Measure.pi fun _ : Fin n => γ))
      (Measure.pi fun _ : Fin n => γ) := by
  have := hγ.prob
  have hm : Measurable fun p : ℂ × ℂ => (p.2 + (starRingEnd ℂ) p.1) / ((√2 : ℝ) : ℂ) := by fun_prop
  refine ⟨measurable_pi_lambda _ fun i => ?_, ?_⟩
  · simp only [bvec]; fun_prop
  · refine pi_pair (γ := γ) (γ' := γ) (fun _ p => (p.2 + (starRingEnd ℂ) p.1) / ((√2 : ℝ) : ℂ)) (fun _ => hm) fun _ => ?_
    have h := hγ.sym
    rw [← Measure.prod_swap, Measure.map_map (by fun_prop) measurable_swap] at h
    exact h

/-- the full model -/
theorem full_lawH (hγ : GaussOK γ beta) (n : ℕ) :
    (Measure.pi fun _ : Fin (n + 1) × Fin (n + 1) => γ).map (fun x => cpp (herm (mat x))) = lawH beta n := by
  have := hγ.prob
  have hmh : ∀ k, Measurable fun x : Fin (k + 1) × Fin (k + 1) → ℂ => cpp (herm (mat x)) := fun k => by
    refine measurable_cpp fun i j => ?_
    simp only [herm_apply, mat, Matrix.of_apply]
    fun_prop
  induction n with
  | zero =>
    have h := measurePreserving_eval (fun _ : Fin 1 × Fin 1 => γ) (0, 0)
    have h2 : (fun x : Fin (0 + 1) × Fin (0 + 1) → ℂ => cpp (herm (mat x)))
        = (fun (a : ℝ) (t : ℕ) => ((t : ℝ) - a, (1 : ℝ))) ∘ (fun z : ℂ => √2 * z.re) ∘ Function.eval (0, 0) := by
      funext x t
      simp only [cpp, Function.comp_apply]
      refine Prod.ext ?_ (by simp)
      rw [Matrix.det_fin_one, Matrix.sub_apply, herm_diag]
      simp [mat]
    rw [h2, ← Measure.map_map (by fun_prop) (by fun_prop), ← Measure.map_map (by fun_prop) h.measurable, h.map_eq, hγ.diag]
    rfl
  | succ n ih =>
    set π := Measure.pi fun _ : Fin (n + 1) => γ with hπ
    set M := Measure.pi fun _ : Fin (n + 1) × Fin (n + 1) => γ with hM
    set F : (ℂ × (Fin (n + 1) → ℂ)) × (Fin (n + 1) × Fin (n + 1) → ℂ) → ℕ → ℝ × ℝ := fun q =>
      cpp (bord ((√2 * q.1.1.re : ℝ) : ℂ) (star q.1.2) q.1.2 (herm (mat q.2))) with hF
    set F' : (ℂ × (Fin (n + 1) → ℂ)) × (Fin (n + 1) × Fin (n + 1) → ℂ) → ℕ → ℝ × ℝ := fun q =>
      stepH (√2 * q.1.1.re) (∑ i, Complex.normSq (q.1.2 i)) (cpp (herm (mat q.2))) with hF'
    have hFm : Measurable F := by
      refine measurable_cpp fun i j => ?_
      induction i using Fin.cases with
      | zero => induction j using Fin.cases with
        | zero => simp only [bord_00]; fun_prop
        | succ j =>
          simp only [bord_0s, Pi.star_apply]
          exact (continuous_star.measurable).comp ((measurable_pi_apply j).comp (measurable_snd.comp measurable_fst))
      | succ i => induction j using Fin.cases with
        | zero => simp only [bord_s0]; fun_prop
        | succ j => simp only [bord_ss, herm_apply, mat, Matrix.of_apply]; fun_prop
    have hF'e : F' = (fun p : (ℝ × ℝ) × (ℕ → ℝ × ℝ) => stepH p.1.1 p.1.2 p.2) ∘
        Prod.map (Prod.map (fun z : ℂ => √2 * z.re) (fun v : Fin (n + 1) → ℂ => ∑ i, Complex.normSq (v i))) (fun x => cpp (herm (mat x))) := rfl
    have hmz : Measurable fun z : ℂ => √2 * z.re := by fun_prop
    have hmp := (hmz.prodMap (measurable_sumNormSq (n + 1))).prodMap (hmh n)
    have hF'm : Measurable F' := by rw [hF'e]; exact measurable_stepH.comp hmp
    -- the law of the border and of the rest
    have h1 : MeasurePreserving split4 (Measure.pi fun _ : Fin (n + 1 + 1) × Fin (n + 1 + 1) => γ) ((γ.prod π).prod (π.prod M)) :=
      ⟨measurable_split4, map_split4 γ (n + 1) (n + 1)⟩
    have h2 := measurePreserving_prodAssoc γ π (π.prod M)
    have h3 : MeasurePreserving _ (γ.prod (π.prod (π.prod M))) (γ.prod ((π.prod π).prod M)) :=
      (MeasurePreserving.id γ).prod (measurePreserving_prodAssoc π π M).symm
    have h4 : MeasurePreserving _ (γ.prod ((π.prod π).prod M)) (γ.prod (π.prod M)) :=
      (MeasurePreserving.id γ).prod ((law_bvec hγ (n + 1)).prod (MeasurePreserving.id M))
    have h5 := (measurePreserving_prodAssoc γ π M).symm
    have hall : MeasurePreserving (fun x : Fin (n + 1 + 1) × Fin (n + 1 + 1) → ℂ =>
        (((split4 x).1.1, bvec (split4 x).1.2 (split4 x).2.1), (split4 x).2.2)) (Measure.pi fun _ : Fin (n + 1 + 1) × Fin (n + 1 + 1) => γ)
        ((γ.prod π).prod M) := h5.comp (h4.comp (h3.comp (h2.comp h1)))
    have he : (fun x : Fin (n + 1 + 1) × Fin (n + 1 + 1) → ℂ => cpp (herm (mat x))) = F ∘ fun x =>
        (((split4 x).1.1, bvec (split4 x).1.2 (split4 x).2.1), (split4 x).2.2) := by
      funext x
      rw [herm_bord x]
      rfl
    rw [he, ← Measure.map_map hFm hall.measurable, hall.map_eq]
    -- rotate
    have hrot : ((γ.prod π).prod M).map F = ((γ.prod π).prod M).map F' := by
      refine map_ae_congr hFm hF'm ?_
      have hr : ∀ᵐ q ∂(γ.prod π), ∃ U : Matrix (Fin (n + 1)) (Fin (n + 1)) ℂ, U ∈ unitaryGroup (Fin (n + 1)) ℂ ∧
          U *ᵥ (Pi.single 0 ((√(∑ i, Complex.normSq (q.2 i)) : ℝ) : ℂ)) = q.2 ∧ Pres γ Uᴴ ∧ Pres γ Uᵀ :=
        Measure.quasiMeasurePreserving_snd.ae (hγ.rot n)
      filter_upwards [hr] with q hq
      obtain ⟨U, hU, hv, hp1, hp2⟩ := hq
      have hsq : (√(∑ i, Complex.normSq (q.2 i))) ^ 2 = ∑ i, Complex.normSq (q.2 i) :=
        Real.sq_sqrt (sum_nonneg fun i _ => Complex.normSq_nonneg _)
      have e1 : (fun y => F (q, y)) = (fun y => F' (q, y)) ∘ (fun x => unmat (Uᴴ * mat x)) ∘ fun x => unmat (mat x * U) := by
        funext y
        simp only [hF, hF', Function.comp_apply, mat_unmat]
        rw [cpp_rot _ _ _ hU hv, herm_conj, hsq]
      have m1 : Measurable fun x : Fin (n + 1) × Fin (n + 1) → ℂ => unmat (Uᴴ * mat x) := by
        refine measurable_pi_lambda _ fun p => ?_
        simp only [unmat, Matrix.mul_apply, mat, Matrix.of_apply]
        fun_prop
      have m2 : Measurable fun x : Fin (n + 1) × Fin (n + 1) → ℂ => unmat (mat x * U) := by
        refine measurable_pi_lambda _ fun p => ?_
        simp only [unmat, Matrix.mul_apply, mat, Matrix.of_apply]
        fun_prop
      have m3 : Measurable fun y => F' (q, y) := hF'm.comp measurable_prodMk_left
      rw [e1, ← Measure.map_map m3 (m1.comp m2), ← Measure.map_map m1 m2, hM, right_inv hp2, left_inv hp1]
    rw [hrot, hF'e, ← Measure.map_map measurable_stepH hmp, ← Measure.map_prod_map _ _ (hmz.prodMap (measurable_sumNormSq (n + 1))) (hmh n),
      ← Measure.map_prod_map _ _ hmz (measurable_sumNormSq (n + 1)), ih, hγ.diag, hπ, hγ.norm (n + 1)]
    rfl

/-! ### The tridiagonal model -/

/-- the tridiagonal matrix of the banded model, with complex entries -/
noncomputable def triC (n : ℕ) (a : Fin (n + 1) → ℝ) (b : Fin n → ℝ) : Matrix (Fin (n + 1)) (Fin (n + 1)) ℂ :=
  (tridiag (n + 1) (vget a) (fun i => √(vget b i))).map (fun x : ℝ => (x : ℂ))

theorem vget_succ {n : ℕ} (x : Fin (n + 1) → ℝ) (i : ℕ) : vget x (i + 1) = vget (fun k : Fin n => x k.succ) i := by
  simp only [vget, Nat.add_lt_add_iff_right]
  rfl

theorem tridiag_bord (n : ℕ) (d e : ℕ → ℝ) : (tridiag (n + 2) d e).map (fun x : ℝ => (x : ℂ))
    = bord ((d 0 : ℝ) : ℂ) (Pi.single 0 ((e 0 : ℝ) : ℂ)) (Pi.single 0 ((e 0 : ℝ) : ℂ))
      ((tridiag (n + 1) (fun i => d (i + 1)) (fun i => e (i + 1))).map (fun x : ℝ => (x : ℂ))) := by
  apply bord_ext
  · simp [tridiag]
  · intro j
    rw [bord_0s]
    by_cases hj : j = 0
    · subst hj; simp [tridiag]
    · have : (j : ℕ) ≠ 0 := fun h => hj (Fin.ext h)
      simp [tridiag, Pi.single_apply, hj, (Fin.succ_ne_zero _).symm, this]
  · intro j
    rw [bord_s0]
    by_cases hj : j = 0
    · subst hj; simp [tridiag]
    · have : (j : ℕ) ≠ 0 := fun h => hj (Fin.ext h)
      simp [tridiag, Pi.single_apply, hj, Fin.succ_ne_zero, this]
  · intro i j
    rw [bord_ss]
    simp [tridiag]

theorem cpp_triC {n : ℕ} (a : Fin (n + 2) → ℝ) (b : Fin (n + 1) → ℝ) (hb : 0 ≤ b 0) :
    cpp (triC (n + 1) a b) = stepH (a 0) (b 0) (cpp (triC n (fun i => a i.succ) (fun i => b i.succ))) := by
  have h : triC (n + 1) a b = bord ((a 0 : ℝ) : ℂ) (Pi.single 0 ((√(b 0) : ℝ) : ℂ)) (Pi.single 0 ((√(b 0) : ℝ) : ℂ))
      (triC n (fun i => a i.succ) (fun i => b i.succ)) := by
    rw [triC, tridiag_bord]
    simp only [vget_succ]
    rfl
  rw [h, cpp_bord, Real.sq_sqrt hb]

theorem measurable_tridiag {X : Type} [MeasurableSpace X] {n : ℕ} {d e : X → ℕ → ℝ} (hd : ∀ i, Measurable fun x => d x i)
    (he : ∀ i, Measurable fun x => e x i) (i j : Fin n) : Measurable fun x => (tridiag n (d x) (e x)).map (fun x : ℝ => (x : ℂ)) i j := by
  simp only [tridiag, Matrix.map_apply, Matrix.of_apply]
  refine Complex.measurable_ofReal.comp ?_
  split_ifs
  exacts [hd _, he _, he _, measurable_const]

theorem measurable_vget {n : ℕ} (i : ℕ) : Measurable fun x : Fin n → ℝ => vget x i := by
  simp only [vget]
  split_ifs
  · fun_prop
  · fun_prop

theorem measurable_cpp_triC (n : ℕ) : Measurable fun p : (Fin (n + 1) → ℝ) × (Fin n → ℝ) => cpp (triC n p.1 p.2) := by
  refine measurable_cpp fun i j => measurable_tridiag (fun i => ?_) (fun i => ?_) i j
  · exact (measurable_vget i).comp measurable_fst
  · exact Real.continuous_sqrt.measurable.comp ((measurable_vget i).comp measurable_snd)

theorem ae_gammaLaw_nonneg (sh sc : ℝ) : ∀ᵐ x ∂(RP.gammaLaw sh sc), 0 ≤ x := by
  rw [RP.gammaLaw]
  split_ifs with h
  · rw [ae_dirac_iff measurableSet_Ici]
  · rw [gammaMeasure_eq, ae_withDensity_iff (measurable_gamD _ _)]
    refine Filter.Eventually.of_forall fun x hx => ?_
    by_contra h0
    exact hx (if_neg fun h => h0 h.le)

theorem prob_gammaLaw {sh sc : ℝ} (h1 : 0 ≤ sh) (h2 : 0 < sc) : IsProbabilityMeasure (RP.gammaLaw sh sc) := by
  rw [RP.gammaLaw]
  split_ifs with h
  · infer_instance
  · push Not at h
    exact isProbabilityMeasure_gammaMeasure (lt_of_le_of_ne h1 (Ne.symm h.1)) (by positivity)

/-- the banded model -/
theorem band_lawH (hb : 0 ≤ beta) (n : ℕ) :
    ((Measure.pi fun _ : Fin (n + 1) => gaussianReal 0 (Real.toNNReal 2)).prod
      (Measure.pi fun i : Fin n => RP.gammaLaw (beta / 2 * ((n : ℝ) - (i : ℕ))) 2)).map (fun p => cpp (triC n p.1 p.2)) = lawH beta n := by
  have hpr : ∀ (k : ℕ) (i : Fin k), IsProbabilityMeasure (RP.gammaLaw (beta / 2 * ((k : ℝ) - (i : ℕ))) 2) := fun k i => by
    refine prob_gammaLaw ?_ two_pos
    have : ((i : ℕ) : ℝ) ≤ k := by exact_mod_cast i.2.le
    have : 0 ≤ (k : ℝ) - (i : ℕ) := by linarith
    positivity
  induction n with
  | zero =>
    have h0 : IsProbabilityMeasure (Measure.pi fun i : Fin 0 => RP.gammaLaw (beta / 2 * (((0 : ℕ) : ℝ) - (i : ℕ))) 2) := inferInstance
    have h := measurePreserving_eval (fun _ : Fin 1 => gaussianReal 0 (Real.toNNReal 2)) 0
    have h2 : (fun p : (Fin (0 + 1) → ℝ) × (Fin 0 → ℝ) => cpp (triC 0 p.1 p.2))
        = (fun (a : ℝ) (t : ℕ) => ((t : ℝ) - a, (1 : ℝ))) ∘ Function.eval 0 ∘ Prod.fst := by
      funext x t
      simp only [cpp, Function.comp_apply]
      refine Prod.ext ?_ (by simp)
      rw [Matrix.det_fin_one, Matrix.sub_apply]
      simp [triC, tridiag, vget]
    rw [h2, ← Measure.map_map (by fun_prop) (by fun_prop), ← Measure.map_map (by fun_prop) measurable_fst, Measure.map_fst_prod]
    simp only [measure_univ, one_smul]
    rw [h.map_eq]
    rfl
  | succ n ih =>
    set N2 := gaussianReal 0 (Real.toNNReal 2) with hN2
    have h1 := measurePreserving_piFinSuccAbove (fun _ : Fin (n + 1 + 1) => N2) 0
    have h2 := measurePreserving_piFinSuccAbove (fun i : Fin (n + 1) => RP.gammaLaw (beta / 2 * (((n + 1 : ℕ) : ℝ) - (i : ℕ))) 2) 0
    have e2 : (fun j : Fin n => RP.gammaLaw (beta / 2 * (((n + 1 : ℕ) : ℝ) - ((Fin.succAbove 0 j : Fin (n + 1)) : ℕ))) 2)
        = fun j : Fin n => RP.gammaLaw (beta / 2 * ((n : ℝ) - (j : ℕ))) 2 := by
      funext j
      congr 2
      simp
    have h0 : IsProbabilityMeasure (RP.gammaLaw (beta / 2 * ((n + 1 : ℕ) : ℝ)) 2) := by
      have := hpr (n + 1) 0; simpa using this
    have e3 : RP.gammaLaw (beta / 2 * (((n + 1 : ℕ) : ℝ) - ((0 : Fin (n + 1)) : ℕ))) 2 = RP.gammaLaw (beta / 2 * ((n + 1 : ℕ) : ℝ)) 2 := by
      simp
    rw [e2, e3] at h2
    have h3 := h1.prod h2
    have h4 := prod4_comm N2 (Measure.pi fun _ : Fin (n + 1) => N2) (RP.gammaLaw (beta / 2 * ((n + 1 : ℕ) : ℝ)) 2)
      (Measure.pi fun j : Fin n => RP.gammaLaw (beta / 2 * ((n : ℝ) - (j : ℕ))) 2)
    have h5 := h4.comp h3
    have hm := measurable_cpp_triC n
    have hmp : Measurable (Prod.map (id : ℝ × ℝ → ℝ × ℝ) fun p : (Fin (n + 1) → ℝ) × (Fin n → ℝ) => cpp (triC n p.1 p.2)) := measurable_id.prodMap hm
    have hae : (fun p : (Fin (n + 1 + 1) → ℝ) × (Fin (n + 1) → ℝ) => cpp (triC (n + 1) p.1 p.2))
        =ᵐ[(Measure.pi fun _ : Fin (n + 1 + 1) => N2).prod
          (Measure.pi fun i : Fin (n + 1) => RP.gammaLaw (beta / 2 * (((n + 1 : ℕ) : ℝ) - (i : ℕ))) 2)]
        (fun q : (ℝ × ℝ) × (ℕ → ℝ × ℝ) => stepH q.1.1 q.1.2 q.2) ∘ (Prod.map id (fun p : (Fin (n + 1) → ℝ) × (Fin n → ℝ) => cpp (triC n p.1 p.2))) ∘
          fun p : (Fin (n + 1 + 1) → ℝ) × (Fin (n + 1) → ℝ) => ((p.1 0, p.2 0), ((fun i => p.1 i.succ), (fun i => p.2 i.succ))) := by
      have hnn : ∀ᵐ p ∂((Measure.pi fun _ : Fin (n + 1 + 1) => N2).prod
          (Measure.pi fun i : Fin (n + 1) => RP.gammaLaw (beta / 2 * (((n + 1 : ℕ) : ℝ) - (i : ℕ))) 2)), 0 ≤ p.2 0 :=
        Measure.quasiMeasurePreserving_snd.ae ((Measure.quasiMeasurePreserving_eval
          (fun i : Fin (n + 1) => RP.gammaLaw (beta / 2 * (((n + 1 : ℕ) : ℝ) - (i : ℕ))) 2) 0).ae (ae_gammaLaw_nonneg _ _))
      filter_upwards [hnn] with p hp
      exact cpp_triC p.1 p.2 hp
    rw [Measure.map_congr hae]
    have h6 : MeasurePreserving (fun p : (Fin (n + 1 + 1) → ℝ) × (Fin (n + 1) → ℝ) =>
        ((p.1 0, p.2 0), ((fun i : Fin (n + 1) => p.1 i.succ), (fun i : Fin n => p.2 i.succ)))) _ _ := h5
    rw [← Measure.map_map measurable_stepH (hmp.comp h6.measurable), ← Measure.map_map hmp h6.measurable, h6.map_eq,
      ← Measure.map_prod_map _ _ measurable_id hm, Measure.map_id, ih]
    rfl

end Verif.Lemmas
