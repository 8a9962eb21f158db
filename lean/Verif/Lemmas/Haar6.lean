import Verif.Lemmas.Haar5
import Verif.Lemmas.Circ13
import Verif.Lemmas.GaussMat2

/-!
# Law of the Hessenberg form of a Haar unitary matrix
-/

namespace Verif.Lemmas
open Finset Matrix MeasureTheory ProbabilityTheory Verif.Model Verif.Spec
open scoped ComplexConjugate

local notation "g₀" => gaussianReal 0 1

variable {n : ℕ}

/-! ### Law of a coefficient -/

/-- conjugate of the first coordinate of a normalised vector -/
noncomputable def colCoef {n : ℕ} (a : Fin (n + 1) → ℂ) : ℂ := conj (a 0) / ((√(∑ i, Complex.normSq (a i)) : ℝ) : ℂ)

theorem measurable_colCoef : Measurable (colCoef (n := n)) := by
  unfold colCoef
  refine Measurable.div (Complex.continuous_conj.measurable.comp (measurable_pi_apply 0)) ?_
  exact Complex.measurable_ofReal.comp ((measurable_sumNormSq (n + 1)).sqrt)

theorem gam2_conj : gam2.map (fun z => conj z) = gam2 := by
  have hc : Measurable fun z : ℂ => conj z := Complex.continuous_conj.measurable
  let T : (Fin 2 → ℝ) →ₗ[ℝ] (Fin 2 → ℝ) :=
    { toFun := fun x => ![x 0, -x 1]
      map_add' := fun x y => by ext i; fin_cases i <;> simp; ring
      map_smul' := fun c x => by ext i; fin_cases i <;> simp }
  have hT : Measurable T := (T.continuous_of_finiteDimensional).measurable
  have h := gauss_iso T (fun x => by simp [T, Fin.sum_univ_two])
  rw [gam2, Measure.map_map hc measurable_toCx]
  conv_rhs => rw [← h]
  rw [Measure.map_map measurable_toCx hT]
  congr 1

theorem law_colCoef (n : ℕ) : (Measure.pi fun _ : Fin (n + 1) => gam2).map colCoef = nuC (1 + 2 * n + 1) := by
  have := prob_gam2
  have hs : ∀ _ : Fin (n + 1), SigmaFinite (gam2.map fun z => conj z) := fun _ => by rw [gam2_conj]; infer_instance
  have hc : Measurable fun z : ℂ => conj z := Complex.continuous_conj.measurable
  have h1 := Measure.pi_map_pi (μ := fun _ : Fin (n + 1) => gam2) (f := fun _ z => conj z) (fun _ => hc.aemeasurable)
  rw [gam2_conj] at h1
  have hm1 : Measurable fun (x : Fin (n + 1) → ℂ) i => conj (x i) := measurable_pi_lambda _ fun i => hc.comp (measurable_pi_apply i)
  rw [← h1, Measure.map_map measurable_colCoef hm1, pi_gam2]
  have hd : 1 + 2 * n + 1 = (n + 1) * 2 := by ring
  rw [hd, nuC, ← pi_reindex g₀ (finProdFinEquiv (m := n + 1) (n := 2)), Measure.map_map measurable_toCxV (by fun_prop),
    Measure.map_map (measurable_colCoef.comp hm1) (measurable_toCxV.comp (by fun_prop))]
  congr 1
  funext z
  have e0 : vget z 0 = z (finProdFinEquiv ((0 : Fin (n + 1)), (0 : Fin 2))) := by
    have := vget_prod (n := n + 1) (m := 2) z (0, 0)
    simpa using this
  have e1 : vget z 1 = z (finProdFinEquiv ((0 : Fin (n + 1)), (1 : Fin 2))) := by
    have := vget_prod (n := n + 1) (m := 2) z (0, 1)
    simpa using this
  have e2 : ∑ k : Fin ((n + 1) * 2), z k ^ 2 = ∑ p : Fin (n + 1) × Fin 2, z (finProdFinEquiv p) ^ 2 :=
    (Equiv.sum_comp finProdFinEquiv fun k => z k ^ 2).symm
  simp only [Function.comp_apply, colCoef, coefOf]
  rw [e0, e1, e2]
  simp only [Complex.conj_conj, Complex.normSq_conj]
  rw [sum_toCxV]
  congr 1
  exact Complex.ext (by simp [toCxV]) (by simp [toCxV])

/-! ### One step -/

theorem measurable_rhoC {X : Type} [MeasurableSpace X] {c : X → ℂ} (hc : Measurable c) : Measurable fun x => rhoC (c x) := by
  unfold rhoC
  exact Complex.measurable_ofReal.comp ((measurable_const.sub (hc.norm.pow_const 2)).sqrt)

theorem measurable_bord {X : Type} [MeasurableSpace X] {n m : ℕ} {a : X → ℂ} {w : X → Fin m → ℂ} {v : X → Fin n → ℂ}
    {B : X → Matrix (Fin n) (Fin m) ℂ} (ha : Measurable a) (hw : ∀ j, Measurable fun x => w x j) (hv : ∀ i, Measurable fun x => v x i)
    (hB : ∀ i j, Measurable fun x => B x i j) (i : Fin (n + 1)) (j : Fin (m + 1)) :
    Measurable fun x => bord (a x) (w x) (v x) (B x) i j := by
  induction i using Fin.cases with
  | zero => induction j using Fin.cases with
    | zero => exact ha
    | succ j => exact hw j
  | succ i => induction j using Fin.cases with
    | zero => exact hv i
    | succ j => exact hB i j

theorem measurable_oneAdd {X : Type} [MeasurableSpace X] {n : ℕ} {B : X → Matrix (Fin n) (Fin n) ℂ}
    (hB : ∀ i j, Measurable fun x => B x i j) (i j : Fin (n + 1)) : Measurable fun x => oneAdd (B x) i j :=
  measurable_bord measurable_const (fun _ => measurable_const) (fun _ => measurable_const) hB i j

theorem measurable_single {X : Type} [MeasurableSpace X] {n : ℕ} {c : X → ℂ} (hc : Measurable c) (j : Fin (n + 1)) :
    Measurable fun x => (Pi.single 0 (c x) : Fin (n + 1) → ℂ) j := by
  by_cases hj : j = 0
  · subst hj; simpa using hc
  · simp [hj]

theorem measurable_lowB {X : Type} [MeasurableSpace X] {c : X → ℂ} (hc : Measurable c) (i j : Fin (n + 1)) :
    Measurable fun x => lowB n (c x) i j := by
  unfold lowB
  exact measurable_bord (w := fun _ => 0) (v := fun _ => 0) (B := fun _ => 1) hc.neg (fun _ => measurable_const) (fun _ => measurable_const)
    (fun _ _ => measurable_const) i j

theorem measurable_thetaM {X : Type} [MeasurableSpace X] {c : X → ℂ} (hc : Measurable c) (i j : Fin (n + 2)) :
    Measurable fun x => thetaM n (c x) i j := by
  unfold thetaM
  exact measurable_bord (a := fun x => conj (c x)) (w := fun x => Pi.single 0 (rhoC (c x))) (v := fun x => Pi.single 0 (rhoC (c x)))
    (B := fun x => lowB n (c x)) (Complex.continuous_conj.measurable.comp hc) (measurable_single (measurable_rhoC hc))
    (measurable_single (measurable_rhoC hc)) (measurable_lowB hc) i j

/-- functions of a matrix that do not change when the coordinates after the first one are rotated -/
def ConjInv {Z : Type} (G : (Fin (n + 1) × Fin (n + 1) → ℂ) → Z) : Prop :=
  ∀ W X, W ∈ unitaryGroup (Fin n) ℂ → G (unmat (oneAdd W * X * (oneAdd W)ᴴ)) = G (unmat X)

theorem norm_colCoef_le {a : Fin (n + 1) → ℂ} (h : 0 < √(∑ i, Complex.normSq (a i))) : ‖colCoef a‖ ≤ 1 := by
  rw [colCoef, norm_div, Complex.norm_conj, Complex.norm_real, Real.norm_eq_abs, abs_of_pos h, div_le_one h]
  refine Real.le_sqrt_of_sq_le ?_
  rw [← Complex.normSq_eq_norm_sq]
  exact Finset.single_le_sum (f := fun i => Complex.normSq (a i)) (fun i _ => Complex.normSq_nonneg _) (mem_univ 0)

theorem theta_col {a : Fin (n + 2) → ℂ} (h : 0 < √(∑ i, Complex.normSq (a i))) :
    thetaM n (colCoef a) *ᵥ (Pi.single 0 ((√(∑ i, Complex.normSq (a i)) : ℝ) : ℂ))
      = Fin.cons (a 0) (Pi.single 0 ((√(∑ i : Fin (n + 1), Complex.normSq (a i.succ)) : ℝ) : ℂ) : Fin (n + 1) → ℂ) := by
  have hs : (0 : ℝ) < ∑ i, Complex.normSq (a i) := Real.sqrt_pos.1 h
  have hne : (((√(∑ i, Complex.normSq (a i)) : ℝ)) : ℂ) ≠ 0 := by exact_mod_cast h.ne'
  have hmul : rhoC (colCoef a) * ((√(∑ i, Complex.normSq (a i)) : ℝ) : ℂ) = ((√(∑ i : Fin (n + 1), Complex.normSq (a i.succ)) : ℝ) : ℂ) := by
    rw [rhoC, ← Complex.ofReal_mul, ← Real.sqrt_mul' _ hs.le]
    congr 2
    rw [colCoef, norm_div, Complex.norm_conj, Complex.norm_real, Real.norm_eq_abs, abs_of_pos h, div_pow, Real.sq_sqrt hs.le,
      ← Complex.normSq_eq_norm_sq, sub_mul, div_mul_cancel₀ _ hs.ne', one_mul, Fin.sum_univ_succ]
    ring
  funext i
  rw [Matrix.mulVec_single]
  simp only [MulOpposite.smul_eq_mul_unop, MulOpposite.unop_op, Pi.smul_apply, Matrix.col_apply]
  induction i using Fin.cases with
  | zero =>
    rw [Fin.cons_zero, thetaM, bord_00, colCoef, map_div₀, Complex.conj_conj, Complex.conj_ofReal]
    exact div_mul_cancel₀ _ hne
  | succ i =>
    rw [Fin.cons_succ, thetaM, bord_s0]
    by_cases hi : i = 0
    · subst hi
      simp only [Pi.single_eq_same]
      exact hmul
    · simp [hi]

theorem haar_step {Z : Type} [MeasurableSpace Z] {G : (Fin (n + 2) × Fin (n + 2) → ℂ) → Z} (hG : Measurable G) (hinv : ConjInv G) :
    (haarM gam2 (n + 2)).map G = ((nuC (1 + 2 * (n + 1) + 1)).prod (haarM gam2 (n + 1))).map
      fun p => G (unmat (thetaM n p.1 * oneAdd (mat p.2))) := by
  have hH := haarM_isHaar gaussK_two (n + 1)
  have := hH.prob
  have hm : Measurable fun p : ℂ × (Fin (n + 1) × Fin (n + 1) → ℂ) => G (unmat (thetaM n p.1 * oneAdd (mat p.2))) :=
    hG.comp (measurable_unmat (measurable_matmul (measurable_thetaM measurable_fst)
      (measurable_oneAdd fun i j => (measurable_mat i j).comp measurable_snd)))
  have hF : Measurable fun p : (Fin (n + 2) → ℂ) × (Fin (n + 1) × Fin (n + 1) → ℂ) => G (unmat (thetaM n (colCoef p.1) * oneAdd (mat p.2))) :=
    hG.comp (measurable_unmat (measurable_matmul (measurable_thetaM (measurable_colCoef.comp measurable_fst))
      (measurable_oneAdd fun i j => (measurable_mat i j).comp measurable_snd)))
  rw [haar_col gaussK_two hG hF]
  · have hp : (nuC (1 + 2 * (n + 1) + 1)).prod (haarM gam2 (n + 1))
        = ((Measure.pi fun _ : Fin (n + 2) => gam2).prod (haarM gam2 (n + 1))).map (Prod.map colCoef id) := by
      have := prob_gam2
      rw [← Measure.map_prod_map _ _ measurable_colCoef measurable_id, law_colCoef, Measure.map_id]
    rw [hp, Measure.map_map hm (measurable_colCoef.prodMap measurable_id)]
    rfl
  · filter_upwards [gaussK_two.rot' (n + 1)] with a ha
    obtain ⟨hr, -⟩ := ha
    obtain ⟨W, hW, hWa⟩ := exists_unitary (fun i : Fin (n + 1) => a i.succ)
    have hWu : W ∈ unitaryGroup (Fin (n + 1)) ℂ := uni_of hW
    have hWG : InG (⊤ : StarSubalgebra ℝ ℂ) W := ⟨hWu, fun i j => by simp⟩
    have hn := norm_colCoef_le hr
    have hth : InG (⊤ : StarSubalgebra ℝ ℂ) (thetaM n (colCoef a)) := ⟨uni_of (thetaM_unitary hn), fun i j => by simp⟩
    refine ⟨oneAdd W * thetaM n (colCoef a) * (oneAdd W)ᴴ, √(∑ i, Complex.normSq (a i)), (hWG.oneAdd.mul hth).mul hWG.oneAdd.star, hr, ?_, ?_⟩
    · have e1 : (oneAdd W)ᴴ *ᵥ (Pi.single 0 ((√(∑ i, Complex.normSq (a i)) : ℝ) : ℂ)) = Pi.single 0 ((√(∑ i, Complex.normSq (a i)) : ℝ) : ℂ) := by
        rw [oneAdd_conj, oneAdd_mulVec]
        funext i
        induction i using Fin.cases with
        | zero => simp
        | succ i => simp [Matrix.mulVec, dotProduct, Fin.succ_ne_zero]
      rw [← Matrix.mulVec_mulVec, e1, ← Matrix.mulVec_mulVec, theta_col hr, oneAdd_mulVec]
      simp only [Fin.cons_zero, Fin.cons_succ]
      simp only [← Complex.normSq_eq_norm_sq] at hWa
      have h2 : W *ᵥ (fun i : Fin (n + 1) => (Pi.single 0 ((√(∑ i : Fin (n + 1), Complex.normSq (a i.succ)) : ℝ) : ℂ) : Fin (n + 1) → ℂ) i)
          = fun i => a i.succ := hWa
      rw [h2]
      funext i
      induction i using Fin.cases with
      | zero => rfl
      | succ i => rfl
    · have hGt : Measurable fun u : Fin (n + 1) × Fin (n + 1) → ℂ => G (unmat (thetaM n (colCoef a) * oneAdd (mat u))) :=
        hG.comp (measurable_unmat (measurable_matmul (fun i j => measurable_const) (measurable_oneAdd measurable_mat)))
      have hmc : Measurable fun x : Fin (n + 1) × Fin (n + 1) → ℂ => unmat (Wᴴ * mat x * W) :=
        measurable_unmat (measurable_matmul (measurable_matmul (fun i j => measurable_const) measurable_mat) fun i j => measurable_const)
      conv_rhs => rw [← hH.conj hWG]
      rw [Measure.map_map hGt hmc]
      congr 1
      funext u
      simp only [Function.comp_apply, mat_unmat]
      rw [← hinv W (thetaM n (colCoef a) * oneAdd (Wᴴ * mat u * W)) hWu, oneAdd_mul, oneAdd_mul, ← oneAdd_conj]
      congr 2
      have h3 : oneAdd W * (oneAdd W)ᴴ = 1 := by
        rw [oneAdd_conj, ← oneAdd_mul, hWG.mul_conj, oneAdd_one]
      simp only [Matrix.mul_assoc]
      rw [h3, Matrix.mul_one]

theorem haar_base {Z : Type} [MeasurableSpace Z] {G : (Fin 1 × Fin 1 → ℂ) → Z} (hG : Measurable G) :
    (haarM gam2 1).map G = (nuC 2).map fun z => G (unmat (Matrix.of fun _ _ => conj z)) := by
  have := prob_gam2
  have hm : Measurable fun z : ℂ => G (unmat (Matrix.of fun _ _ => conj z)) :=
    hG.comp (measurable_unmat fun i j => Complex.continuous_conj.measurable)
  have hF : Measurable fun p : (Fin 1 → ℂ) × (Fin 0 × Fin 0 → ℂ) => G (unmat (Matrix.of fun _ _ => conj (colCoef p.1))) :=
    hm.comp (measurable_colCoef.comp measurable_fst)
  have hH := (haarM_isHaar gaussK_two 0).prob
  rw [haar_col gaussK_two hG hF]
  · have hp : nuC 2 = (((Measure.pi fun _ : Fin 1 => gam2).prod (haarM gam2 0)).map Prod.fst).map colCoef := by
      rw [Measure.map_fst_prod]
      simp only [measure_univ, one_smul]
      exact (law_colCoef 0).symm
    rw [hp, Measure.map_map hm measurable_colCoef, Measure.map_map (hm.comp measurable_colCoef) measurable_fst]
    rfl
  · filter_upwards [gaussK_two.rot' 0] with a ha
    obtain ⟨hr, M, hM, hMa⟩ := ha
    refine ⟨M, _, hM, hr, hMa, ?_⟩
    congr 1
    funext u
    have h0 := congrFun hMa 0
    rw [Matrix.mulVec_single] at h0
    simp only [MulOpposite.smul_eq_mul_unop, MulOpposite.unop_op, Pi.smul_apply, Matrix.col_apply] at h0
    have hne : ((√(∑ i, Complex.normSq (a i)) : ℝ) : ℂ) ≠ 0 := by exact_mod_cast hr.ne'
    have e1 : oneAdd (mat u) = 1 := by
      have : mat u = 1 := by ext i; exact i.elim0
      rw [this, oneAdd_one]
    rw [e1, Matrix.mul_one]
    congr 2
    ext i j
    have hi : i = 0 := Fin.ext (by have := i.2; omega)
    have hj : j = 0 := Fin.ext (by have := j.2; omega)
    subst hi; subst hj
    rw [Matrix.of_apply, colCoef, map_div₀, Complex.conj_conj, Complex.conj_ofReal]
    exact (eq_div_iff hne).2 h0

/-- two laws that agree in the second variable -/
theorem prod_map_congr {X Y Y' Z : Type} [MeasurableSpace X] [MeasurableSpace Y] [MeasurableSpace Y'] [MeasurableSpace Z] {μ : Measure X}
    {ν : Measure Y} {ν' : Measure Y'} [SFinite ν] [SFinite ν'] {F : X × Y → Z} {F' : X × Y' → Z} (hF : Measurable F) (hF' : Measurable F')
    (h : ∀ x, ν.map (fun y => F (x, y)) = ν'.map fun y => F' (x, y)) : (μ.prod ν).map F = (μ.prod ν').map F' := by
  ext s hs
  rw [Measure.map_apply hF hs, Measure.map_apply hF' hs, Measure.prod_apply (hF hs), Measure.prod_apply (hF' hs)]
  refine lintegral_congr fun x => ?_
  have h1 : ν.map (fun y => F (x, y)) s = ν'.map (fun y => F' (x, y)) s := by rw [h x]
  rw [Measure.map_apply (f := fun y => F (x, y)) (hF.comp measurable_prodMk_left) hs,
    Measure.map_apply (f := fun y => F' (x, y)) (hF'.comp measurable_prodMk_left) hs] at h1
  exact h1

theorem measurable_hess {X : Type} [MeasurableSpace X] : ∀ (n : ℕ) {a : X → Fin (n + 1) → ℂ}, (∀ i, Measurable fun x => a x i) →
    ∀ i j, Measurable fun x => hess n (a x) i j
  | 0, a, ha, i, j => Complex.continuous_conj.measurable.comp (ha 0)
  | n + 1, a, ha, i, j => measurable_matmul (measurable_thetaM (ha 0)) (measurable_oneAdd (measurable_hess n fun i => ha i.succ)) i j

/-- the law of a function of a Haar matrix, through independent coefficients -/
theorem haar_hess : ∀ (n : ℕ) {Z : Type} [MeasurableSpace Z] {G : (Fin (n + 1) × Fin (n + 1) → ℂ) → Z}, Measurable G → ConjInv G →
    (haarM gam2 (n + 1)).map G = (Measure.pi (nuV 2 (n + 1))).map fun a => G (unmat (hess n a))
  | 0, Z, _, G, hG, _ => by
    rw [haar_base hG]
    have hp := measurePreserving_eval (nuV 2 1) 0
    have hm : Measurable fun z : ℂ => G (unmat (Matrix.of fun _ _ => conj z)) :=
      hG.comp (measurable_unmat fun i j => Complex.continuous_conj.measurable)
    rw [show nuC 2 = nuV 2 1 0 from rfl, ← hp.map_eq, Measure.map_map hm hp.measurable]
    rfl
  | n + 1, Z, _, G, hG, hinv => by
    have := (haarM_isHaar gaussK_two (n + 1)).prob
    have hm1 : Measurable fun p : ℂ × (Fin (n + 1) × Fin (n + 1) → ℂ) => G (unmat (thetaM n p.1 * oneAdd (mat p.2))) :=
      hG.comp (measurable_unmat (measurable_matmul (measurable_thetaM measurable_fst)
        (measurable_oneAdd fun i j => (measurable_mat i j).comp measurable_snd)))
    have hm2 : Measurable fun p : ℂ × (Fin (n + 1) → ℂ) => G (unmat (thetaM n p.1 * oneAdd (hess n p.2))) :=
      hG.comp (measurable_unmat (measurable_matmul (measurable_thetaM measurable_fst)
        (measurable_oneAdd (measurable_hess n fun i => (measurable_pi_apply i).comp measurable_snd))))
    have hm3 : Measurable fun a : Fin (n + 2) → ℂ => G (unmat (hess (n + 1) a)) :=
      hG.comp (measurable_unmat (measurable_hess (n + 1) fun i => measurable_pi_apply i))
    rw [haar_step hG hinv, ← pi_cons_eq, Measure.map_map hm3 measurable_consC]
    -- replace the Haar matrix by its Hessenberg form
    have key : ∀ z : ℂ, (haarM gam2 (n + 1)).map (fun u => G (unmat (thetaM n z * oneAdd (mat u))))
        = (Measure.pi (nuV 2 (n + 1))).map fun a => G (unmat (thetaM n z * oneAdd (hess n a))) := by
      intro z
      have hGz : Measurable fun u : Fin (n + 1) × Fin (n + 1) → ℂ => G (unmat (thetaM n z * oneAdd (mat u))) :=
        hG.comp (measurable_unmat (measurable_matmul (fun i j => measurable_const) (measurable_oneAdd measurable_mat)))
      refine haar_hess n hGz ?_
      intro W X hW
      have hW1 : oneAdd W ∈ unitaryGroup (Fin (n + 1)) ℂ := uni_of (by rw [oneAdd_conj, ← oneAdd_mul, uni_conj_mul hW, oneAdd_one])
      simp only [mat_unmat]
      rw [← hinv (oneAdd W) (thetaM n z * oneAdd X) hW1]
      congr 2
      have hcomm : oneAdd (oneAdd W) * thetaM n z = thetaM n z * oneAdd (oneAdd W) := by
        rw [thetaM, lowB, oneAdd, oneAdd, bord_mul, bord_mul, bord_mul, bord_mul]
        congr 1
        · simp
        · funext j
          induction j using Fin.cases with
          | zero => simp [Matrix.vecMul, dotProduct, Fin.sum_univ_succ, Fin.succ_ne_zero]
          | succ j => simp [Matrix.vecMul, dotProduct, Fin.sum_univ_succ, Fin.succ_ne_zero]
        · funext j
          induction j using Fin.cases with
          | zero => simp [Matrix.mulVec, dotProduct, Fin.sum_univ_succ, Fin.succ_ne_zero]
          | succ j => simp [Matrix.mulVec, dotProduct, Fin.sum_univ_succ, Fin.succ_ne_zero]
        · ext i j
          simp
      rw [oneAdd_mul, oneAdd_mul, ← oneAdd_conj (oneAdd W)]
      simp only [← Matrix.mul_assoc]
      rw [hcomm]
    have h1 : ((nuC (1 + 2 * (n + 1) + 1)).prod (haarM gam2 (n + 1))).map (fun p => G (unmat (thetaM n p.1 * oneAdd (mat p.2))))
        = ((nuC (1 + 2 * (n + 1) + 1)).prod (Measure.pi (nuV 2 (n + 1)))).map fun p => G (unmat (thetaM n p.1 * oneAdd (hess n p.2))) := by
      exact prod_map_congr hm1 hm2 key
    rw [h1]
    congr 1

end Verif.Lemmas
