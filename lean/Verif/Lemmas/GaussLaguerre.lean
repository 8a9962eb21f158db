import Verif.Lemmas.GaussHermite

/-!
# Characteristic polynomial of the full and of the tridiagonal Laguerre models: the same recursion
-/

namespace Verif.Lemmas
open Finset Matrix MeasureTheory ProbabilityTheory Verif.Model Verif.Spec

/-! ### Determinants -/

/-- the matrix with `s` in its first entry -/
def e00 {n : ℕ} (s : ℂ) : Matrix (Fin (n + 1)) (Fin (n + 1)) ℂ := bord s 0 0 0

theorem det_sub_e00 {n : ℕ} (A : Matrix (Fin (n + 1)) (Fin (n + 1)) ℂ) (s : ℂ) :
    (A - e00 s).det = A.det - s * (A.submatrix Fin.succ Fin.succ).det := by
  have hs : ∀ f : Fin n → Fin (n + 1), (A - e00 s).submatrix Fin.succ f = A.submatrix Fin.succ f := fun f => by
    ext i j
    simp only [Matrix.submatrix_apply, Matrix.sub_apply]
    have : (e00 s : Matrix (Fin (n + 1)) (Fin (n + 1)) ℂ) i.succ (f j) = 0 := by
      generalize f j = k
      induction k using Fin.cases with
      | zero => rfl
      | succ k => rfl
    rw [this, sub_zero]
  rw [Matrix.det_succ_row_zero, Matrix.det_succ_row_zero A, Fin.sum_univ_succ, Fin.sum_univ_succ]
  simp only [hs]
  have h0 : (A - e00 s : Matrix (Fin (n + 1)) (Fin (n + 1)) ℂ) 0 0 = A 0 0 - s := rfl
  have h1 : ∀ j : Fin n, (A - e00 s : Matrix (Fin (n + 1)) (Fin (n + 1)) ℂ) 0 j.succ = A 0 j.succ := fun j => by
    rw [Matrix.sub_apply, e00, bord_0s, Pi.zero_apply, sub_zero]
  simp only [h0, h1, Fin.succAbove_zero, Fin.val_zero, pow_zero, one_mul]
  ring

/-- adding `s` in the first entry -/
noncomputable def bump (s : ℝ) (F : ℕ → ℝ × ℝ) (t : ℕ) : ℝ × ℝ := ((F t).1 - s * (F t).2, (F t).2)

theorem cpp_e00 {n : ℕ} (H : Matrix (Fin (n + 1)) (Fin (n + 1)) ℂ) (s : ℝ) : cpp (H + e00 (s : ℂ)) = bump s (cpp H) := by
  funext t
  simp only [cpp, bump]
  refine Prod.ext ?_ ?_
  · simp only
    rw [← sub_sub, det_sub_e00, Complex.sub_re, Complex.re_ofReal_mul]
    congr 4
    ext i j
    simp [Matrix.one_apply]
  · simp only
    congr 3
    ext i j
    simp [e00]

/-- the step of the recursion -/
noncomputable def stepL (r s : ℝ) (F : ℕ → ℝ × ℝ) (t : ℕ) : ℝ × ℝ :=
  ((t - r) * (F t).1 - s * t * (F t).2, (F t).1 - s * (F t).2)

theorem stepH_bump (r s : ℝ) (F : ℕ → ℝ × ℝ) : stepH r (r * s) (bump s F) = stepL r s F := by
  funext t
  simp only [stepH, bump, stepL]
  refine Prod.ext ?_ rfl
  simp only
  ring

theorem measurable_stepL : Measurable fun p : (ℝ × ℝ) × (ℕ → ℝ × ℝ) => stepL p.1.1 p.1.2 p.2 := by
  refine measurable_pi_lambda _ fun t => ?_
  simp only [stepL]
  fun_prop

/-- law of the pair of characteristic polynomials, `n + 1` rows and `m + 1` columns -/
noncomputable def lawL (beta : ℝ) : ℕ → ℕ → Measure (ℕ → ℝ × ℝ)
  | 0, m => (RP.gammaLaw (beta / 2 * ((m + 1 : ℕ) : ℝ)) 2).map fun r t => ((t : ℝ) - r, 1)
  | n + 1, m + 1 => (((RP.gammaLaw (beta / 2 * ((m + 2 : ℕ) : ℝ)) 2).prod (RP.gammaLaw (beta / 2 * ((n + 1 : ℕ) : ℝ)) 2)).prod
      (lawL beta n m)).map fun p => stepL p.1.1 p.1.2 p.2
  | _ + 1, 0 => 0

/-! ### Rows and columns -/

/-- a first row on top of a matrix -/
def consRow {n m : ℕ} (g : Fin m → ℂ) (R : Matrix (Fin n) (Fin m) ℂ) : Matrix (Fin (n + 1)) (Fin m) ℂ :=
  Matrix.of (Fin.cons g fun i => R i)

theorem consRow_mul {n m : ℕ} (g : Fin m → ℂ) (R : Matrix (Fin n) (Fin m) ℂ) (V : Matrix (Fin m) (Fin m) ℂ) :
    consRow g R * V = consRow (g ᵥ* V) (R * V) := by
  ext i j
  induction i using Fin.cases with
  | zero => rfl
  | succ i => rfl

theorem map_splitRow {α : Type} [MeasurableSpace α] (γ : Measure α) [IsProbabilityMeasure γ] (n m : ℕ) :
    MeasurePreserving (fun x : Fin (n + 1) × Fin m → α => ((fun j => x (0, j)), fun p : Fin n × Fin m => x (p.1.succ, p.2)))
      (Measure.pi fun _ : Fin (n + 1) × Fin m => γ) ((Measure.pi fun _ : Fin m => γ).prod (Measure.pi fun _ : Fin n × Fin m => γ)) := by
  set jn : (Fin m → α) × (Fin n × Fin m → α) → Fin (n + 1) × Fin m → α :=
    fun y p => (Fin.cons (y.1 p.2) (fun i => y.2 (i, p.2)) : Fin (n + 1) → α) p.1 with hjn
  have hjm : Measurable jn := by
    refine measurable_pi_lambda _ fun p => ?_
    obtain ⟨i, j⟩ := p
    induction i using Fin.cases with
    | zero => simp only [hjn, Fin.cons_zero]; fun_prop
    | succ i => simp only [hjn, Fin.cons_succ]; fun_prop
  have h : ((Measure.pi fun _ : Fin m => γ).prod (Measure.pi fun _ : Fin n × Fin m => γ)).map jn = Measure.pi fun _ : Fin (n + 1) × Fin m => γ := by
    symm
    refine Measure.pi_eq fun s hs => ?_
    rw [Measure.map_apply hjm (MeasurableSet.univ_pi hs)]
    have e : jn ⁻¹' (Set.pi Set.univ s) = (Set.pi Set.univ fun j : Fin m => s (0, j)) ×ˢ
        Set.pi Set.univ fun p : Fin n × Fin m => s (p.1.succ, p.2) := by
      ext y
      simp only [Set.mem_preimage, Set.mem_pi, Set.mem_univ, true_implies, Set.mem_prod, Prod.forall, hjn]
      constructor
      · intro h
        exact ⟨fun j => h 0 j, fun i j => h i.succ j⟩
      · rintro ⟨h1, h2⟩ i j
        induction i using Fin.cases with
        | zero => exact h1 j
        | succ i => exact h2 i j
    rw [e, Measure.prod_prod, Measure.pi_pi, Measure.pi_pi, Fintype.prod_prod_type, Fintype.prod_prod_type, Fin.prod_univ_succ]
  refine ⟨by fun_prop, ?_⟩
  rw [← h, Measure.map_map (by fun_prop) hjm]
  exact Measure.map_id

theorem map_splitCol {α : Type} [MeasurableSpace α] (γ : Measure α) [IsProbabilityMeasure γ] (n m : ℕ) :
    MeasurePreserving (fun x : Fin n × Fin (m + 1) → α => ((fun i => x (i, 0)), fun p : Fin n × Fin m => x (p.1, p.2.succ)))
      (Measure.pi fun _ : Fin n × Fin (m + 1) => γ) ((Measure.pi fun _ : Fin n => γ).prod (Measure.pi fun _ : Fin n × Fin m => γ)) := by
  set jn : (Fin n → α) × (Fin n × Fin m → α) → Fin n × Fin (m + 1) → α :=
    fun y p => (Fin.cons (y.1 p.1) (fun j => y.2 (p.1, j)) : Fin (m + 1) → α) p.2 with hjn
  have hjm : Measurable jn := by
    refine measurable_pi_lambda _ fun p => ?_
    obtain ⟨i, j⟩ := p
    induction j using Fin.cases with
    | zero => simp only [hjn, Fin.cons_zero]; fun_prop
    | succ j => simp only [hjn, Fin.cons_succ]; fun_prop
  have h : ((Measure.pi fun _ : Fin n => γ).prod (Measure.pi fun _ : Fin n × Fin m => γ)).map jn = Measure.pi fun _ : Fin n × Fin (m + 1) => γ := by
    symm
    refine Measure.pi_eq fun s hs => ?_
    rw [Measure.map_apply hjm (MeasurableSet.univ_pi hs)]
    have e : jn ⁻¹' (Set.pi Set.univ s) = (Set.pi Set.univ fun i : Fin n => s (i, 0)) ×ˢ
        Set.pi Set.univ fun p : Fin n × Fin m => s (p.1, p.2.succ) := by
      ext y
      simp only [Set.mem_preimage, Set.mem_pi, Set.mem_univ, true_implies, Set.mem_prod, Prod.forall, hjn]
      constructor
      · intro h
        exact ⟨fun i => h i 0, fun i j => h i j.succ⟩
      · rintro ⟨h1, h2⟩ i j
        induction j using Fin.cases with
        | zero => exact h1 i
        | succ j => exact h2 i j
    rw [e, Measure.prod_prod, Measure.pi_pi, Measure.pi_pi, Fintype.prod_prod_type, Fintype.prod_prod_type]
    simp only [Fin.prod_univ_succ (n := m), prod_mul_distrib]
  refine ⟨by fun_prop, ?_⟩
  rw [← h, Measure.map_map (by fun_prop) hjm]
  exact Measure.map_id

/-! ### One step -/

/-- product with its adjoint -/
noncomputable def gram {n m : ℕ} (A : Matrix (Fin n) (Fin m) ℂ) : Matrix (Fin n) (Fin n) ℂ := A * Aᴴ

theorem gram_right {n m : ℕ} (A : Matrix (Fin n) (Fin m) ℂ) {V : Matrix (Fin m) (Fin m) ℂ} (hV : V * Vᴴ = 1) : gram (A * V) = gram A := by
  rw [gram, gram, Matrix.conjTranspose_mul, Matrix.mul_assoc, ← Matrix.mul_assoc V, hV, Matrix.one_mul]

theorem gram_left {n m : ℕ} (A : Matrix (Fin n) (Fin m) ℂ) (U : Matrix (Fin n) (Fin n) ℂ) : Uᴴ * gram A * U = gram (Uᴴ * A) := by
  rw [gram, gram, Matrix.conjTranspose_mul, Matrix.conjTranspose_conjTranspose]
  simp only [Matrix.mul_assoc]

theorem measurable_gram {X : Type} [MeasurableSpace X] {n m : ℕ} {A : X → Matrix (Fin n) (Fin m) ℂ} (h : ∀ i j, Measurable fun x => A x i j)
    (i k : Fin n) : Measurable fun x => gram (A x) i k := by
  simp only [gram, Matrix.mul_apply, Matrix.conjTranspose_apply]
  exact Finset.measurable_sum _ fun j _ => (h i j).mul (continuous_star.measurable.comp (h k j))

/-- first row `(r, 0, ..., 0)`, first column `c` below it -/
theorem cpp_gram_bord {n m : ℕ} (r s : ℝ) {c : Fin (n + 1) → ℂ} (G : Matrix (Fin (n + 1)) (Fin m) ℂ)
    {U : Matrix (Fin (n + 1)) (Fin (n + 1)) ℂ} (hU : U ∈ unitaryGroup (Fin (n + 1)) ℂ) (hc : U *ᵥ Pi.single 0 (s : ℂ) = c) :
    cpp (gram (bord (r : ℂ) 0 c G)) = stepL (r ^ 2) (s ^ 2) (cpp (gram (Uᴴ * G))) := by
  have h1 : Uᴴ * U = 1 := by simpa [star_eq_conjTranspose] using mem_unitaryGroup_iff'.1 hU
  have hUc : Uᴴ *ᵥ c = Pi.single 0 (s : ℂ) := by
    rw [← hc, Matrix.mulVec_mulVec, h1, Matrix.one_mulVec]
  have e1 : gram (bord (r : ℂ) 0 c G) = bord ((r ^ 2 : ℝ) : ℂ) (star ((r : ℂ) • c)) ((r : ℂ) • c) (vecMulVec c (star c) + gram G) := by
    rw [gram, bord_conj, bord_mul]
    apply bord_ext
    · simp [sq]
    · intro j; simp
    · intro i; simp [mul_comm]
    · intro i j; simp [vecMulVec_apply, gram]
  have hv : U *ᵥ Pi.single 0 ((r * s : ℝ) : ℂ) = (r : ℂ) • c := by
    rw [← hc, ← Matrix.mulVec_smul]
    congr 1
    funext i
    by_cases hi : i = 0
    · subst hi; simp
    · simp [hi]
  have hs : star c ᵥ* U = Pi.single 0 (s : ℂ) := by
    have := congrArg star hUc
    rw [Matrix.star_mulVec, Matrix.conjTranspose_conjTranspose] at this
    rw [this]
    funext i
    by_cases hi : i = 0
    · subst hi; simp
    · simp [hi]
  have e2 : Uᴴ * (vecMulVec c (star c) + gram G) * U = gram (Uᴴ * G) + e00 ((s ^ 2 : ℝ) : ℂ) := by
    rw [Matrix.mul_add, Matrix.add_mul, gram_left, Matrix.mul_vecMulVec, hUc, Matrix.vecMulVec_mul, hs, add_comm (vecMulVec _ _)]
    congr 1
    apply bord_ext
    · simp [vecMulVec_apply, e00, sq]
    · intro j; simp [vecMulVec_apply, e00]
    · intro i; simp [vecMulVec_apply, e00]
    · intro i j; simp [vecMulVec_apply, e00]
  rw [e1, cpp_rot _ _ _ hU hv, e2, cpp_e00, mul_pow, stepH_bump]

variable {γ : Measure ℂ} {beta : ℝ}

theorem consRow_bord {n m : ℕ} (r : ℂ) (x : Fin n × Fin (m + 1) → ℂ) :
    consRow (Pi.single 0 r) (mat x) = bord r 0 (fun i => x (i, 0)) (mat fun p => x (p.1, p.2.succ)) := by
  apply bord_ext
  · simp [consRow]
  · intro j; simp [consRow, Fin.succ_ne_zero]
  · intro i; rfl
  · intro i j; rfl

theorem measurable_cpp_gram (n m : ℕ) : Measurable fun x : Fin (n + 1) × Fin m → ℂ => cpp (gram (mat x)) := by
  refine measurable_cpp fun i j => measurable_gram (fun i j => ?_) i j
  simp only [mat, Matrix.of_apply]
  fun_prop

/-- the full model -/
theorem full_lawL (hγ : GaussOK γ beta) (n m : ℕ) (hnm : n ≤ m) :
    (Measure.pi fun _ : Fin (n + 1) × Fin (m + 1) => γ).map (fun x => cpp (gram (mat x))) = lawL beta n m := by
  have := hγ.prob
  induction n generalizing m with
  | zero =>
    have h := map_splitRow γ 0 (m + 1)
    have h2 : (fun x : Fin (0 + 1) × Fin (m + 1) → ℂ => cpp (gram (mat x)))
        = (fun (a : ℝ) (t : ℕ) => ((t : ℝ) - a, (1 : ℝ))) ∘ (fun z : Fin (m + 1) → ℂ => ∑ i, Complex.normSq (z i)) ∘ Prod.fst ∘
          fun x : Fin (0 + 1) × Fin (m + 1) → ℂ => ((fun j => x (0, j)), fun p : Fin 0 × Fin (m + 1) => x (p.1.succ, p.2)) := by
      funext x t
      simp only [cpp, Function.comp_apply]
      refine Prod.ext ?_ (by simp)
      rw [Matrix.det_fin_one, Matrix.sub_apply]
      simp [mat, gram, Matrix.mul_apply, Complex.normSq_apply]
    have hn := measurable_sumNormSq (m + 1)
    rw [h2, ← Measure.map_map (by fun_prop) (by fun_prop), ← Measure.map_map hn (by fun_prop), ← Measure.map_map (by fun_prop) (by fun_prop),
      h.map_eq, Measure.map_fst_prod]
    simp only [measure_univ, one_smul]
    rw [hγ.norm (m + 1)]
    rfl
  | succ n ih =>
    obtain ⟨m, rfl⟩ : ∃ k, m = k + 1 := ⟨m - 1, by omega⟩
    specialize ih m (by omega)
    set π := Measure.pi fun _ : Fin (m + 1 + 1) => γ with hπ
    set M := Measure.pi fun _ : Fin (n + 1) × Fin (m + 1 + 1) => γ with hM
    -- first row
    set F : (Fin (m + 1 + 1) → ℂ) × (Fin (n + 1) × Fin (m + 1 + 1) → ℂ) → ℕ → ℝ × ℝ := fun q =>
      cpp (gram (consRow q.1 (mat q.2))) with hF
    set F' : (Fin (m + 1 + 1) → ℂ) × (Fin (n + 1) × Fin (m + 1 + 1) → ℂ) → ℕ → ℝ × ℝ := fun q =>
      cpp (gram (consRow (Pi.single 0 ((√(∑ i, Complex.normSq (q.1 i)) : ℝ) : ℂ)) (mat q.2))) with hF'
    have hFm : Measurable F := by
      refine measurable_cpp fun i j => measurable_gram (fun i j => ?_) i j
      induction i using Fin.cases with
      | zero => simp only [consRow, Matrix.of_apply, Fin.cons_zero]; fun_prop
      | succ i => simp only [consRow, Matrix.of_apply, Fin.cons_succ, mat]; fun_prop
    have hF'm : Measurable F' := by
      refine measurable_cpp fun i j => measurable_gram (fun i j => ?_) i j
      induction i using Fin.cases with
      | zero =>
        simp only [consRow, Matrix.of_apply, Fin.cons_zero]
        have hs : Measurable fun q : (Fin (m + 1 + 1) → ℂ) × (Fin (n + 1) × Fin (m + 1 + 1) → ℂ) => ((√(∑ i, Complex.normSq (q.1 i)) : ℝ) : ℂ) :=
          Complex.measurable_ofReal.comp (Real.continuous_sqrt.measurable.comp ((measurable_sumNormSq _).comp measurable_fst))
        by_cases hj : j = 0
        · subst hj; simpa using hs
        · simp [hj]
      | succ i => simp only [consRow, Matrix.of_apply, Fin.cons_succ, mat]; fun_prop
    have h1 := map_splitRow γ (n + 1) (m + 1 + 1)
    have he : (fun x : Fin (n + 1 + 1) × Fin (m + 1 + 1) → ℂ => cpp (gram (mat x))) = F ∘ fun x =>
        ((fun j => x (0, j)), fun p : Fin (n + 1) × Fin (m + 1 + 1) => x (p.1.succ, p.2)) := by
      funext x
      have : mat x = consRow (fun j => x (0, j)) (mat fun p : Fin (n + 1) × Fin (m + 1 + 1) => x (p.1.succ, p.2)) := by
        ext i j
        induction i using Fin.cases with
        | zero => rfl
        | succ i => rfl
      rw [this]
      rfl
    rw [he, ← Measure.map_map hFm h1.measurable, h1.map_eq]
    have hrot : (π.prod M).map F = (π.prod M).map F' := by
      refine map_ae_congr hFm hF'm ?_
      filter_upwards [hγ.rot (m + 1)] with q hq
      obtain ⟨U, hU, hv, hp1, hp2⟩ := hq
      have hUU : Uᴴ * U = 1 := by simpa [star_eq_conjTranspose] using mem_unitaryGroup_iff'.1 hU
      have hq0 : q ᵥ* (Uᴴ)ᵀ = Pi.single 0 ((√(∑ i, Complex.normSq (q i)) : ℝ) : ℂ) := by
        rw [Matrix.vecMul_transpose]
        conv_lhs => rw [← hv]
        rw [Matrix.mulVec_mulVec, hUU, Matrix.one_mulVec]
      have hVV : (Uᴴ)ᵀ * ((Uᴴ)ᵀ)ᴴ = 1 := by
        have h5 : ((Uᴴ)ᵀ)ᴴ = Uᵀ := by ext i j; simp
        rw [h5, ← Matrix.transpose_mul, mul_eq_one_comm.1 hUU, Matrix.transpose_one]
      have e1 : (fun y => F (q, y)) = (fun y => F' (q, y)) ∘ fun x => unmat (mat x * (Uᴴ)ᵀ) := by
        funext y
        simp only [hF, hF', Function.comp_apply, mat_unmat]
        rw [← gram_right _ hVV, consRow_mul, hq0]
      have m2 : Measurable fun x : Fin (n + 1) × Fin (m + 1 + 1) → ℂ => unmat (mat x * (Uᴴ)ᵀ) := by
        refine measurable_pi_lambda _ fun p => ?_
        simp only [unmat, Matrix.mul_apply, mat, Matrix.of_apply]
        fun_prop
      have m3 : Measurable fun y => F' (q, y) := hF'm.comp measurable_prodMk_left
      rw [e1, ← Measure.map_map m3 m2, hM, right_inv (by rw [Matrix.transpose_transpose]; exact hp1)]
    rw [hrot]
    -- first column of the rest
    set π' := Measure.pi fun _ : Fin (n + 1) => γ with hπ'
    set M' := Measure.pi fun _ : Fin (n + 1) × Fin (m + 1) => γ with hM'
    set E : ((Fin (m + 1 + 1) → ℂ) × (Fin (n + 1) → ℂ)) × (Fin (n + 1) × Fin (m + 1) → ℂ) → ℕ → ℝ × ℝ := fun q =>
      cpp (gram (bord ((√(∑ i, Complex.normSq (q.1.1 i)) : ℝ) : ℂ) 0 q.1.2 (mat q.2))) with hE
    set E' : ((Fin (m + 1 + 1) → ℂ) × (Fin (n + 1) → ℂ)) × (Fin (n + 1) × Fin (m + 1) → ℂ) → ℕ → ℝ × ℝ := fun q =>
      stepL (∑ i, Complex.normSq (q.1.1 i)) (∑ i, Complex.normSq (q.1.2 i)) (cpp (gram (mat q.2))) with hE'
    have hEm : Measurable E := by
      refine measurable_cpp fun i j => measurable_gram (fun i j => ?_) i j
      induction i using Fin.cases with
      | zero => induction j using Fin.cases with
        | zero =>
          simp only [bord_00]
          exact Complex.measurable_ofReal.comp (Real.continuous_sqrt.measurable.comp ((measurable_sumNormSq _).comp (measurable_fst.comp measurable_fst)))
        | succ j => simp only [bord_0s]; exact measurable_const
      | succ i => induction j using Fin.cases with
        | zero => simp only [bord_s0]; fun_prop
        | succ j => simp only [bord_ss, mat, Matrix.of_apply]; fun_prop
    have hE'e : E' = (fun p : (ℝ × ℝ) × (ℕ → ℝ × ℝ) => stepL p.1.1 p.1.2 p.2) ∘
        Prod.map (Prod.map (fun v : Fin (m + 1 + 1) → ℂ => ∑ i, Complex.normSq (v i)) (fun v : Fin (n + 1) → ℂ => ∑ i, Complex.normSq (v i)))
          (fun x => cpp (gram (mat x))) := rfl
    have hm1 := measurable_sumNormSq (m + 1 + 1)
    have hm2 := measurable_sumNormSq (n + 1)
    have hm3 := measurable_cpp_gram n (m + 1)
    have hmp := (hm1.prodMap hm2).prodMap hm3
    have hE'm : Measurable E' := by rw [hE'e]; exact measurable_stepL.comp hmp
    have h2 : MeasurePreserving _ (π.prod M) (π.prod (π'.prod M')) := (MeasurePreserving.id π).prod (map_splitCol γ (n + 1) (m + 1))
    have h3 := (measurePreserving_prodAssoc π π' M').symm
    have h4 : MeasurePreserving (fun q : (Fin (m + 1 + 1) → ℂ) × (Fin (n + 1) × Fin (m + 1 + 1) → ℂ) =>
        ((q.1, fun i => q.2 (i, 0)), fun p : Fin (n + 1) × Fin (m + 1) => q.2 (p.1, p.2.succ))) (π.prod M) ((π.prod π').prod M') := h3.comp h2
    have he2 : F' = E ∘ fun q : (Fin (m + 1 + 1) → ℂ) × (Fin (n + 1) × Fin (m + 1 + 1) → ℂ) =>
        ((q.1, fun i => q.2 (i, 0)), fun p : Fin (n + 1) × Fin (m + 1) => q.2 (p.1, p.2.succ)) := by
      funext q
      simp only [hF', hE, Function.comp_apply]
      rw [consRow_bord]
    rw [he2, ← Measure.map_map hEm h4.measurable, h4.map_eq]
    have hrot2 : ((π.prod π').prod M').map E = ((π.prod π').prod M').map E' := by
      refine map_ae_congr hEm hE'm ?_
      have hr : ∀ᵐ q ∂(π.prod π'), ∃ U : Matrix (Fin (n + 1)) (Fin (n + 1)) ℂ, U ∈ unitaryGroup (Fin (n + 1)) ℂ ∧
          U *ᵥ (Pi.single 0 ((√(∑ i, Complex.normSq (q.2 i)) : ℝ) : ℂ)) = q.2 ∧ Pres γ Uᴴ ∧ Pres γ Uᵀ :=
        Measure.quasiMeasurePreserving_snd.ae (hγ.rot n)
      filter_upwards [hr] with q hq
      obtain ⟨U, hU, hv, hp1, hp2⟩ := hq
      have hsq : (√(∑ i, Complex.normSq (q.2 i))) ^ 2 = ∑ i, Complex.normSq (q.2 i) :=
        Real.sq_sqrt (sum_nonneg fun i _ => Complex.normSq_nonneg _)
      have hsq1 : (√(∑ i, Complex.normSq (q.1 i))) ^ 2 = ∑ i, Complex.normSq (q.1 i) :=
        Real.sq_sqrt (sum_nonneg fun i _ => Complex.normSq_nonneg _)
      have e1 : (fun y => E (q, y)) = (fun y => E' (q, y)) ∘ (fun x => unmat (Uᴴ * mat x)) := by
        funext y
        simp only [hE, hE', Function.comp_apply, mat_unmat]
        rw [cpp_gram_bord _ _ _ hU hv, hsq, hsq1]
      have m1 : Measurable fun x : Fin (n + 1) × Fin (m + 1) → ℂ => unmat (Uᴴ * mat x) := by
        refine measurable_pi_lambda _ fun p => ?_
        simp only [unmat, Matrix.mul_apply, mat, Matrix.of_apply]
        fun_prop
      have m3 : Measurable fun y => E' (q, y) := hE'm.comp measurable_prodMk_left
      rw [e1, ← Measure.map_map m3 m1, hM', left_inv hp1]
    rw [hrot2, hE'e, ← Measure.map_map measurable_stepL hmp, ← Measure.map_prod_map _ _ (hm1.prodMap hm2) hm3,
      ← Measure.map_prod_map _ _ hm1 hm2, ih, hπ, hγ.norm, hπ', hγ.norm]
    rfl

/-! ### The tridiagonal model -/

/-- the tridiagonal matrix of the banded model, with complex entries -/
noncomputable def triL (n : ℕ) (xo : Fin (n + 1) → ℝ) (xe : Fin n → ℝ) : Matrix (Fin (n + 1)) (Fin (n + 1)) ℂ :=
  (tridiag (n + 1) (xiAlpha (vget xo) (shiftZero xe)) (fun i => √(xiBeta (vget xo) (shiftZero xe) i))).map (fun x : ℝ => (x : ℂ))

theorem cpp_triL {n : ℕ} (xo : Fin (n + 2) → ℝ) (xe : Fin (n + 1) → ℝ) (h1 : 0 ≤ xo 0) (h2 : 0 ≤ xe 0) :
    cpp (triL (n + 1) xo xe) = stepL (xo 0) (xe 0) (cpp (triL n (fun i => xo i.succ) (fun i => xe i.succ))) := by
  have hz : xiAlpha (vget xo) (shiftZero xe) 0 = xo 0 := by simp [xiAlpha, shiftZero, vget]
  have hb0 : xiBeta (vget xo) (shiftZero xe) 0 = xo 0 * xe 0 := by simp [xiBeta, shiftZero, vget]
  have hb : ∀ i, xiBeta (vget xo) (shiftZero xe) (i + 1) = xiBeta (vget fun i => xo i.succ) (shiftZero fun i => xe i.succ) i := fun i => by
    simp only [xiBeta, shiftZero, Nat.add_eq_zero_iff, one_ne_zero, and_false, if_false, Nat.add_sub_cancel]
    rw [vget_succ, vget_succ]
  have ha0 : xiAlpha (vget xo) (shiftZero xe) 1 = xiAlpha (vget fun i => xo i.succ) (shiftZero fun i => xe i.succ) 0 + xe 0 := by
    simp only [xiAlpha, shiftZero]
    rw [vget_succ]
    simp [vget, add_comm]
  have ha : ∀ i, xiAlpha (vget xo) (shiftZero xe) (i + 1 + 1) = xiAlpha (vget fun i => xo i.succ) (shiftZero fun i => xe i.succ) (i + 1) := fun i => by
    simp only [xiAlpha, shiftZero, Nat.add_eq_zero_iff, one_ne_zero, and_false, if_false, Nat.add_sub_cancel]
    rw [vget_succ, vget_succ]
  have h : triL (n + 1) xo xe = bord ((xo 0 : ℝ) : ℂ) (Pi.single 0 ((√(xo 0 * xe 0) : ℝ) : ℂ)) (Pi.single 0 ((√(xo 0 * xe 0) : ℝ) : ℂ))
      (triL n (fun i => xo i.succ) (fun i => xe i.succ) + e00 ((xe 0 : ℝ) : ℂ)) := by
    rw [triL, tridiag_bord, hz, hb0]
    congr 1
    apply bord_ext
    · simp [triL, tridiag, e00, ha0]
    · intro j; simp [triL, tridiag, e00, hb, (Fin.succ_ne_zero j).symm]
    · intro j; simp [triL, tridiag, e00, hb]
    · intro i j; simp [triL, tridiag, e00, hb, ha]
  rw [h, cpp_bord, Real.sq_sqrt (mul_nonneg h1 h2), cpp_e00, stepH_bump]

theorem measurable_cpp_triL (n : ℕ) : Measurable fun p : (Fin (n + 1) → ℝ) × (Fin n → ℝ) => cpp (triL n p.1 p.2) := by
  have hs : ∀ i, Measurable fun p : (Fin (n + 1) → ℝ) × (Fin n → ℝ) => shiftZero p.2 i := fun i => by
    simp only [shiftZero]
    split_ifs
    · exact measurable_const
    · exact (measurable_vget _).comp measurable_snd
  have hv : ∀ i, Measurable fun p : (Fin (n + 1) → ℝ) × (Fin n → ℝ) => vget p.1 i := fun i => (measurable_vget i).comp measurable_fst
  refine measurable_cpp fun i j => measurable_tridiag (fun i => ?_) (fun i => ?_) i j
  · exact (hs i).add (hv i)
  · exact Real.continuous_sqrt.measurable.comp ((hv i).mul (hs (i + 1)))

/-- the banded model -/
theorem band_lawL (hb : 0 ≤ beta) (n m : ℕ) (hnm : n ≤ m) :
    ((Measure.pi fun i : Fin (n + 1) => RP.gammaLaw (beta / 2 * (((m + 1 : ℕ) : ℝ) - (i : ℕ))) 2).prod
      (Measure.pi fun i : Fin n => RP.gammaLaw (beta / 2 * ((n : ℝ) - (i : ℕ))) 2)).map (fun p => cpp (triL n p.1 p.2)) = lawL beta n m := by
  have hpr : ∀ (k k' : ℕ) (i : Fin k), k ≤ k' → IsProbabilityMeasure (RP.gammaLaw (beta / 2 * ((k' : ℝ) - (i : ℕ))) 2) := fun k k' i hk => by
    refine prob_gammaLaw ?_ two_pos
    have : ((i : ℕ) : ℝ) ≤ k' := by exact_mod_cast i.2.le.trans hk
    have : 0 ≤ (k' : ℝ) - (i : ℕ) := by linarith
    positivity
  induction n generalizing m with
  | zero =>
    have h0 : IsProbabilityMeasure (Measure.pi fun i : Fin 0 => RP.gammaLaw (beta / 2 * (((0 : ℕ) : ℝ) - (i : ℕ))) 2) := by
      have : ∀ i : Fin 0, IsProbabilityMeasure (RP.gammaLaw (beta / 2 * (((0 : ℕ) : ℝ) - (i : ℕ))) 2) := fun i => i.elim0
      infer_instance
    have hp : ∀ i : Fin (0 + 1), IsProbabilityMeasure (RP.gammaLaw (beta / 2 * (((m + 1 : ℕ) : ℝ) - (i : ℕ))) 2) := fun i => hpr 1 (m + 1) i (by omega)
    have h := measurePreserving_eval (fun i : Fin (0 + 1) => RP.gammaLaw (beta / 2 * (((m + 1 : ℕ) : ℝ) - (i : ℕ))) 2) 0
    have h2 : (fun p : (Fin (0 + 1) → ℝ) × (Fin 0 → ℝ) => cpp (triL 0 p.1 p.2))
        = (fun (a : ℝ) (t : ℕ) => ((t : ℝ) - a, (1 : ℝ))) ∘ Function.eval 0 ∘ Prod.fst := by
      funext x t
      simp only [cpp, Function.comp_apply]
      refine Prod.ext ?_ (by simp)
      rw [Matrix.det_fin_one, Matrix.sub_apply]
      simp [triL, tridiag, vget, xiAlpha, shiftZero]
    rw [h2, ← Measure.map_map (by fun_prop) (by fun_prop), ← Measure.map_map (by fun_prop) measurable_fst, Measure.map_fst_prod]
    simp only [measure_univ, one_smul]
    rw [h.map_eq, lawL]
    simp
  | succ n ih =>
    obtain ⟨m, rfl⟩ : ∃ k, m = k + 1 := ⟨m - 1, by omega⟩
    specialize ih m (by omega)
    have hp1 : ∀ i : Fin (n + 1 + 1), IsProbabilityMeasure (RP.gammaLaw (beta / 2 * (((m + 1 + 1 : ℕ) : ℝ) - (i : ℕ))) 2) :=
      fun i => hpr (n + 2) (m + 2) i (by omega)
    have hp2 : ∀ i : Fin (n + 1), IsProbabilityMeasure (RP.gammaLaw (beta / 2 * (((n + 1 : ℕ) : ℝ) - (i : ℕ))) 2) := fun i => hpr _ _ i le_rfl
    have hp3 : ∀ i : Fin (n + 1), IsProbabilityMeasure (RP.gammaLaw (beta / 2 * (((m + 1 : ℕ) : ℝ) - (i : ℕ))) 2) := fun i => hpr _ _ i (by omega)
    have hp4 : ∀ i : Fin n, IsProbabilityMeasure (RP.gammaLaw (beta / 2 * ((n : ℝ) - (i : ℕ))) 2) := fun i => hpr _ _ i le_rfl
    set μ := fun i : Fin (n + 1 + 1) => RP.gammaLaw (beta / 2 * (((m + 1 + 1 : ℕ) : ℝ) - (i : ℕ))) 2 with hμ
    set ν := fun i : Fin (n + 1) => RP.gammaLaw (beta / 2 * (((n + 1 : ℕ) : ℝ) - (i : ℕ))) 2 with hν
    have h1 := measurePreserving_piFinSuccAbove μ 0
    have h2 := measurePreserving_piFinSuccAbove ν 0
    have e1 : (fun j : Fin (n + 1) => μ (Fin.succAbove 0 j)) = fun j : Fin (n + 1) => RP.gammaLaw (beta / 2 * (((m + 1 : ℕ) : ℝ) - (j : ℕ))) 2 := by
      funext j
      simp only [hμ]
      congr 2
      simp
    have e2 : (fun j : Fin n => ν (Fin.succAbove 0 j)) = fun j : Fin n => RP.gammaLaw (beta / 2 * ((n : ℝ) - (j : ℕ))) 2 := by
      funext j
      simp only [hν]
      congr 2
      simp
    have e3 : μ 0 = RP.gammaLaw (beta / 2 * ((m + 2 : ℕ) : ℝ)) 2 := by
      simp only [hμ]
      congr 2
      push_cast
      simp
      ring
    have e4 : ν 0 = RP.gammaLaw (beta / 2 * ((n + 1 : ℕ) : ℝ)) 2 := by
      simp only [hν]
      congr 2
      simp
    rw [e1] at h1
    rw [e2] at h2
    have h3 := h1.prod h2
    have h4 := prod4_comm (μ 0) (Measure.pi fun j : Fin (n + 1) => RP.gammaLaw (beta / 2 * (((m + 1 : ℕ) : ℝ) - (j : ℕ))) 2) (ν 0)
      (Measure.pi fun j : Fin n => RP.gammaLaw (beta / 2 * ((n : ℝ) - (j : ℕ))) 2)
    have h5 := h4.comp h3
    have hm := measurable_cpp_triL n
    have hmp : Measurable (Prod.map (id : ℝ × ℝ → ℝ × ℝ) fun p : (Fin (n + 1) → ℝ) × (Fin n → ℝ) => cpp (triL n p.1 p.2)) := measurable_id.prodMap hm
    have hae : (fun p : (Fin (n + 1 + 1) → ℝ) × (Fin (n + 1) → ℝ) => cpp (triL (n + 1) p.1 p.2)) =ᵐ[(Measure.pi μ).prod (Measure.pi ν)]
        (fun q : (ℝ × ℝ) × (ℕ → ℝ × ℝ) => stepL q.1.1 q.1.2 q.2) ∘ (Prod.map id (fun p : (Fin (n + 1) → ℝ) × (Fin n → ℝ) => cpp (triL n p.1 p.2))) ∘
          fun p : (Fin (n + 1 + 1) → ℝ) × (Fin (n + 1) → ℝ) => ((p.1 0, p.2 0), ((fun i => p.1 i.succ), (fun i => p.2 i.succ))) := by
      have hn1 : ∀ᵐ p ∂((Measure.pi μ).prod (Measure.pi ν)), 0 ≤ p.1 0 :=
        Measure.quasiMeasurePreserving_fst.ae ((Measure.quasiMeasurePreserving_eval μ 0).ae (ae_gammaLaw_nonneg _ _))
      have hn2 : ∀ᵐ p ∂((Measure.pi μ).prod (Measure.pi ν)), 0 ≤ p.2 0 :=
        Measure.quasiMeasurePreserving_snd.ae ((Measure.quasiMeasurePreserving_eval ν 0).ae (ae_gammaLaw_nonneg _ _))
      filter_upwards [hn1, hn2] with p hp hp'
      exact cpp_triL p.1 p.2 hp hp'
    rw [Measure.map_congr hae]
    have h6 : MeasurePreserving (fun p : (Fin (n + 1 + 1) → ℝ) × (Fin (n + 1) → ℝ) =>
        ((p.1 0, p.2 0), ((fun i : Fin (n + 1) => p.1 i.succ), (fun i : Fin n => p.2 i.succ)))) _ _ := h5
    rw [← Measure.map_map measurable_stepL (hmp.comp h6.measurable), ← Measure.map_map hmp h6.measurable, h6.map_eq,
      ← Measure.map_prod_map _ _ measurable_id hm, Measure.map_id, ih, e3, e4]
    rfl

end Verif.Lemmas
