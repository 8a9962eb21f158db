import Verif.Lemmas.Jaco8
import Mathlib.LinearAlgebra.Matrix.Charpoly.Basic
import Mathlib.LinearAlgebra.Matrix.NonsingularInverse

/-!
# The full Jacobi model: two Gaussian matrices and a Haar matrix
-/

namespace Verif.Lemmas
open Finset Matrix MeasureTheory ProbabilityTheory Verif.Model
open scoped ComplexConjugate

variable {N M M1 M2 : ℕ} {γ : Measure ℂ} {K : StarSubalgebra ℝ ℂ} {beta : ℝ}

/-- the first `N` coordinates among `M` -/
def emb (M N : ℕ) : Matrix (Fin M) (Fin N) ℂ := Matrix.of fun i j => if (i : ℕ) = j then 1 else 0

/-- indicator of the first `N` coordinates -/
def fst0 (M N : ℕ) (i : Fin M) : Bool := decide ((i : ℕ) < N)

theorem mul_emb (h : N ≤ M) {ι : Type} (A : Matrix ι (Fin M) ℂ) (i : ι) (j : Fin N) : (A * emb M N) i j = A i (Fin.castLE h j) := by
  rw [Matrix.mul_apply, Finset.sum_eq_single (Fin.castLE h j)]
  · simp [emb]
  · intro k _ hk
    have : ¬ (k : ℕ) = j := fun e => hk (Fin.ext e)
    simp [emb, this]
  · simp

theorem embH_mul (h : N ≤ M) {ι : Type} (A : Matrix (Fin M) ι ℂ) (i : Fin N) (j : ι) : ((emb M N)ᴴ * A) i j = A (Fin.castLE h i) j := by
  have := mul_emb h Aᴴ j i
  have e : (emb M N)ᴴ * A = (Aᴴ * emb M N)ᴴ := by rw [conjTranspose_mul, conjTranspose_conjTranspose]
  rw [e, conjTranspose_apply, this, conjTranspose_apply, star_star]

theorem embH_emb (h : N ≤ M) : (emb M N)ᴴ * emb M N = 1 := by
  ext i j
  rw [embH_mul h, emb, Matrix.of_apply, Matrix.one_apply]
  simp [Fin.ext_iff]

theorem emb_embH (h : N ≤ M) : emb M N * (emb M N)ᴴ = dg (fst0 M N) := by
  ext i j
  rw [dg_apply]
  by_cases hj : (j : ℕ) < N
  · rw [Matrix.mul_apply, Finset.sum_eq_single ⟨j, hj⟩]
    · by_cases hij : i = j
      · subst hij; simp [emb, fst0, hj]
      · have : ¬ (i : ℕ) = j := fun e => hij (Fin.ext e)
        simp [emb, hij, this]
    · intro k _ hk
      have : ¬ (j : ℕ) = k := fun e => hk (Fin.ext e.symm)
      simp [emb, this]
    · simp
  · rw [Matrix.mul_apply, Finset.sum_eq_zero]
    · by_cases hij : i = j
      · subst hij; simp [fst0, hj]
      · simp [hij]
    · intro k _
      have : ¬ (j : ℕ) = k := fun e => hj (e ▸ k.2)
      simp [emb, this]

theorem cnt_fst0 (h : N ≤ M) : cnt (fst0 M N) = N := by
  rw [cnt]
  simp [fst0, Fin.card_filter_val_lt, h]

/-- the corner -/
noncomputable def corner (N : ℕ) (q : Fin M → Bool) (U : Matrix (Fin M) (Fin M) ℂ) : Matrix (Fin N) (Fin N) ℂ :=
  (emb M N)ᴴ * (Uᴴ * dg q * U) * emb M N

theorem Hm_corner (h : N ≤ M) (q : Fin M → Bool) (U : Matrix (Fin M) (Fin M) ℂ) :
    Hm (fst0 M N) q U = emb M N * corner N q U * (emb M N)ᴴ := by
  rw [Hm, ← emb_embH h, corner]
  simp only [Matrix.mul_assoc]

theorem charpoly_Hm (h : N ≤ M) (q : Fin M → Bool) (U : Matrix (Fin M) (Fin M) ℂ) :
    (Hm (fst0 M N) q U).charpoly = Polynomial.X ^ (M - N) * (corner N q U).charpoly := by
  rw [Hm_corner h, Matrix.charpoly_mul_comm_of_le _ _ (by simpa using h), Fintype.card_fin, Fintype.card_fin, ← Matrix.mul_assoc,
    embH_emb h, Matrix.one_mul]

theorem eval_charpoly' (A : Matrix (Fin N) (Fin N) ℂ) (t : ℂ) : A.charpoly.eval t = (t • (1 : Matrix (Fin N) (Fin N) ℂ) - A).det := by
  rw [Matrix.eval_charpoly, Matrix.scalar_apply, ← Matrix.smul_one_eq_diagonal]

theorem ch1_of_charpoly {N' : ℕ} {A : Matrix (Fin N) (Fin N) ℂ} {B : Matrix (Fin N') (Fin N') ℂ} {e : ℕ}
    (h : A.charpoly = Polynomial.X ^ e * B.charpoly) (t : ℕ) : ch1 A t = (t : ℝ) ^ e * ch1 B t := by
  rw [ch1, ch1, ← eval_charpoly', ← eval_charpoly', h, Polynomial.eval_mul, Polynomial.eval_pow, Polynomial.eval_X]
  have : ((t : ℂ)) ^ e = (((t : ℝ) ^ e : ℝ) : ℂ) := by push_cast; rfl
  rw [this, Complex.re_ofReal_mul]

/-! ### The two Gaussian matrices inside a square one -/

/-- position of the entries of the two matrices in the square matrix -/
def place (h : N ≤ M1 + M2) : (Fin N × Fin M1) ⊕ (Fin N × Fin M2) → Fin (M1 + M2) × Fin (M1 + M2) :=
  Sum.elim (fun a => (Fin.castAdd M2 a.2, Fin.castLE h a.1)) (fun a => (Fin.natAdd M1 a.2, Fin.castLE h a.1))

theorem place_inj (h : N ≤ M1 + M2) : Function.Injective (place (M1 := M1) (M2 := M2) h) := by
  rintro (⟨i, j⟩ | ⟨i, j⟩) (⟨i', j'⟩ | ⟨i', j'⟩) e
  all_goals
    simp only [place, Sum.elim_inl, Sum.elim_inr, Prod.mk.injEq, Fin.ext_iff, Fin.val_castAdd, Fin.val_natAdd, Fin.val_castLE] at e
    simp only [Sum.inl.injEq, Sum.inr.injEq, Prod.mk.injEq, Fin.ext_iff, reduceCtorEq]
    have := j.2
    have := j'.2
    omega

theorem pi_inj {ι κ α : Type} [Fintype ι] [Fintype κ] [MeasurableSpace α] (γ : Measure α) [IsProbabilityMeasure γ] {f : ι → κ}
    (hf : Function.Injective f) : (Measure.pi fun _ : κ => γ).map (fun x i => x (f i)) = Measure.pi fun _ : ι => γ := by
  classical
  symm
  refine Measure.pi_eq fun s hs => ?_
  rw [Measure.map_apply (by fun_prop) (MeasurableSet.univ_pi hs)]
  obtain ⟨s', hs'⟩ : ∃ s' : κ → Set α, s' = fun k => if h : ∃ i, f i = k then s h.choose else Set.univ := ⟨_, rfl⟩
  have h1 : ∀ i, s' (f i) = s i := fun i => by
    have h : ∃ j, f j = f i := ⟨i, rfl⟩
    rw [hs']
    simp only [dif_pos h]
    rw [hf h.choose_spec]
  have h2 : ∀ k, k ∉ Set.range f → s' k = Set.univ := fun k hk => by
    rw [hs']
    simp only
    rw [dif_neg]
    rintro ⟨i, hi⟩
    exact hk ⟨i, hi⟩
  have : (fun (x : κ → α) i => x (f i)) ⁻¹' (Set.pi Set.univ s) = Set.pi Set.univ s' := by
    ext x
    simp only [Set.mem_preimage, Set.mem_pi, Set.mem_univ, true_implies]
    refine ⟨fun h k => ?_, fun h i => by rw [← h1]; exact h (f i)⟩
    by_cases hk : k ∈ Set.range f
    · obtain ⟨i, rfl⟩ := hk
      rw [h1]; exact h i
    · rw [h2 k hk]; trivial
  rw [this, Measure.pi_pi]
  exact (Fintype.prod_of_injective f hf _ _ (fun k hk => by rw [h2 k hk]; simp) fun i => by rw [h1]).symm

/-- the two matrices -/
noncomputable def matX (h : N ≤ M1 + M2) (x : Fin (M1 + M2) × Fin (M1 + M2) → ℂ) : Fin N × Fin M1 → ℂ := fun a => conj (x (place h (.inl a)))

noncomputable def matY (h : N ≤ M1 + M2) (x : Fin (M1 + M2) × Fin (M1 + M2) → ℂ) : Fin N × Fin M2 → ℂ := fun a => conj (x (place h (.inr a)))

theorem law_XY (hγ : GaussK γ K beta) (hc : γ.map (fun z => conj z) = γ) (h : N ≤ M1 + M2) :
    (Measure.pi fun _ : Fin (M1 + M2) × Fin (M1 + M2) => γ).map (fun x => (matX (M1 := M1) (M2 := M2) h x, matY h x))
      = (Measure.pi fun _ : Fin N × Fin M1 => γ).prod (Measure.pi fun _ : Fin N × Fin M2 => γ) := by
  have := hγ.ok.prob
  have h1 := pi_inj γ (place_inj h (M1 := M1) (M2 := M2))
  have hcm : Measurable fun z : ℂ => conj z := Complex.continuous_conj.measurable
  have hsf : ∀ _ : (Fin N × Fin M1) ⊕ (Fin N × Fin M2), SigmaFinite (γ.map fun z => conj z) := fun _ => by rw [hc]; infer_instance
  have h2 := Measure.pi_map_pi (μ := fun _ : (Fin N × Fin M1) ⊕ (Fin N × Fin M2) => γ) (f := fun _ z => conj z) (fun _ => hcm.aemeasurable)
  rw [hc] at h2
  have h3 := (measurePreserving_sumPiEquivProdPi (X := fun _ : (Fin N × Fin M1) ⊕ (Fin N × Fin M2) => ℂ) (fun _ => γ))
  have hm1 : Measurable fun (x : (Fin N × Fin M1) ⊕ (Fin N × Fin M2) → ℂ) i => conj (x i) :=
    measurable_pi_lambda _ fun i => hcm.comp (measurable_pi_apply i)
  rw [← h3.map_eq, ← h2, ← h1, Measure.map_map hm1 (by fun_prop), Measure.map_map h3.measurable (hm1.comp (by fun_prop))]
  rfl

/-! ### The link -/

theorem matX_mat (h : N ≤ M1 + M2) (x : Fin (M1 + M2) × Fin (M1 + M2) → ℂ) (i : Fin N) (j : Fin M1) :
    mat (matX (M2 := M2) h x) i j = conj ((mat x * emb (M1 + M2) N) (Fin.castAdd M2 j) i) := by
  rw [mul_emb h]; rfl

theorem matY_mat (h : N ≤ M1 + M2) (x : Fin (M1 + M2) × Fin (M1 + M2) → ℂ) (i : Fin N) (j : Fin M2) :
    mat (matY (M1 := M1) h x) i j = conj ((mat x * emb (M1 + M2) N) (Fin.natAdd M1 j) i) := by
  rw [mul_emb h]; rfl

theorem gramX (h : N ≤ M1 + M2) (x : Fin (M1 + M2) × Fin (M1 + M2) → ℂ) :
    mat (matX (M2 := M2) h x) * (mat (matX (M2 := M2) h x))ᴴ
      = (mat x * emb (M1 + M2) N)ᴴ * dg (fst0 (M1 + M2) M1) * (mat x * emb (M1 + M2) N) := by
  ext i j
  generalize hB : mat x * emb (M1 + M2) N = B
  rw [Matrix.mul_apply, Matrix.mul_apply, Fin.sum_univ_add]
  have h2 : ∑ k : Fin M2, (Bᴴ * dg (fst0 (M1 + M2) M1)) i (Fin.natAdd M1 k) * B (Fin.natAdd M1 k) j = 0 := by
    refine Finset.sum_eq_zero fun k _ => ?_
    rw [dg, mul_diagonal]
    simp [fst0]
  rw [h2, add_zero]
  refine Finset.sum_congr rfl fun k _ => ?_
  rw [dg, mul_diagonal, conjTranspose_apply, conjTranspose_apply, matX_mat, matX_mat, hB]
  simp [fst0]

theorem gramY (h : N ≤ M1 + M2) (x : Fin (M1 + M2) × Fin (M1 + M2) → ℂ) :
    mat (matY (M1 := M1) h x) * (mat (matY (M1 := M1) h x))ᴴ
      = (mat x * emb (M1 + M2) N)ᴴ * dg (fun i => !fst0 (M1 + M2) M1 i) * (mat x * emb (M1 + M2) N) := by
  ext i j
  generalize hB : mat x * emb (M1 + M2) N = B
  rw [Matrix.mul_apply, Matrix.mul_apply, Fin.sum_univ_add]
  have h2 : ∑ k : Fin M1, (Bᴴ * dg (fun i => !fst0 (M1 + M2) M1 i)) i (Fin.castAdd M2 k) * B (Fin.castAdd M2 k) j = 0 := by
    refine Finset.sum_eq_zero fun k _ => ?_
    rw [dg, mul_diagonal]
    simp [fst0]
  rw [h2, zero_add]
  refine Finset.sum_congr rfl fun k _ => ?_
  rw [dg, mul_diagonal, conjTranspose_apply, conjTranspose_apply, matY_mat, matY_mat, hB]
  simp [fst0]

theorem gramXY (h : N ≤ M1 + M2) (x : Fin (M1 + M2) × Fin (M1 + M2) → ℂ) :
    mat (matX (M2 := M2) h x) * (mat (matX (M2 := M2) h x))ᴴ + mat (matY (M1 := M1) h x) * (mat (matY (M1 := M1) h x))ᴴ
      = (mat x * emb (M1 + M2) N)ᴴ * (mat x * emb (M1 + M2) N) := by
  rw [gramX, gramY, ← Matrix.add_mul, ← Matrix.mul_add, dg_add_not, Matrix.mul_one]

/-- the first columns of a matrix with a triangular factorisation -/
theorem gs_cols (h : N ≤ M) {A U : Matrix (Fin M) (Fin M) ℂ} (hU : IsGS A U) :
    ∃ R : Matrix (Fin N) (Fin N) ℂ, R.det ≠ 0 ∧ A * emb M N = U * emb M N * R := by
  obtain ⟨T, hT⟩ : ∃ T, T = Uᴴ * A := ⟨_, rfl⟩
  have hup := hU.upper
  have hpos := hU.pos
  rw [← hT] at hup hpos
  have hA : A = U * T := by rw [hT, ← Matrix.mul_assoc, uni_mul_conj hU.uni, Matrix.one_mul]
  have hR : ∀ i j : Fin N, ((emb M N)ᴴ * (T * emb M N)) i j = T (Fin.castLE h i) (Fin.castLE h j) := fun i j => by
    rw [embH_mul h, mul_emb h]
  refine ⟨(emb M N)ᴴ * (T * emb M N), ?_, ?_⟩
  · rw [Matrix.det_of_isUpperTriangular]
    · refine Finset.prod_ne_zero_iff.2 fun i _ => ?_
      obtain ⟨r, hr, e⟩ := hpos (Fin.castLE h i)
      rw [hR, e]
      exact_mod_cast hr.ne'
    · intro i j hij
      rw [hR]
      exact hup hij
  · have hTE : emb M N * ((emb M N)ᴴ * (T * emb M N)) = T * emb M N := by
      rw [← Matrix.mul_assoc, emb_embH h]
      ext i j
      rw [dg, diagonal_mul, mul_emb h]
      by_cases hi : (i : ℕ) < N
      · simp [fst0, hi]
      · have : T i (Fin.castLE h j) = 0 := hup (show (Fin.castLE h j : Fin M) < i from by
          rw [Fin.lt_def]
          exact lt_of_lt_of_le j.2 (not_lt.1 hi))
        simp [this]
    rw [Matrix.mul_assoc U, hTE, ← Matrix.mul_assoc, ← hA]

/-- the matrix whose eigenvalues are returned -/
noncomputable def jrat {κ₁ κ₂ : Type} [Fintype κ₁] [Fintype κ₂] (X : Matrix (Fin N) κ₁ ℂ) (Y : Matrix (Fin N) κ₂ ℂ) : Matrix (Fin N) (Fin N) ℂ :=
  X * Xᴴ * (X * Xᴴ + Y * Yᴴ)⁻¹

theorem jac_link (h : N ≤ M1 + M2) {x : Fin (M1 + M2) × Fin (M1 + M2) → ℂ} {U : Matrix (Fin (M1 + M2)) (Fin (M1 + M2)) ℂ} (hU : IsGS (mat x) U) :
    (mat (matX (M2 := M2) h x) * (mat (matX (M2 := M2) h x))ᴴ + mat (matY (M1 := M1) h x) * (mat (matY (M1 := M1) h x))ᴴ).det ≠ 0 ∧
    (jrat (mat (matX (M2 := M2) h x)) (mat (matY (M1 := M1) h x))).charpoly = (corner N (fst0 (M1 + M2) M1) U).charpoly := by
  obtain ⟨R, hR, e⟩ := gs_cols h hU
  have hS : mat (matX (M2 := M2) h x) * (mat (matX (M2 := M2) h x))ᴴ + mat (matY (M1 := M1) h x) * (mat (matY (M1 := M1) h x))ᴴ = Rᴴ * R := by
    rw [gramXY, e]
    have : (U * emb (M1 + M2) N * R)ᴴ * (U * emb (M1 + M2) N * R) = Rᴴ * ((emb (M1 + M2) N)ᴴ * ((Uᴴ * U) * emb (M1 + M2) N)) * R := by
      simp only [conjTranspose_mul, Matrix.mul_assoc]
    rw [this, uni_conj_mul hU.uni, Matrix.one_mul, embH_emb h, Matrix.mul_one]
  have hRH : IsUnit (Rᴴ).det := by
    rw [Matrix.det_conjTranspose, isUnit_iff_ne_zero]
    exact star_ne_zero.2 hR
  have hRu : IsUnit R.det := isUnit_iff_ne_zero.2 hR
  refine ⟨?_, ?_⟩
  · rw [hS, Matrix.det_mul]
    exact mul_ne_zero hRH.ne_zero hR
  · have hX : mat (matX (M2 := M2) h x) * (mat (matX (M2 := M2) h x))ᴴ = Rᴴ * corner N (fst0 (M1 + M2) M1) U * R := by
      rw [gramX, e, corner]
      simp only [conjTranspose_mul, Matrix.mul_assoc]
    rw [jrat, hS, hX, Matrix.mul_inv_rev, ← Matrix.mul_assoc, Matrix.mul_assoc _ R R⁻¹, Matrix.mul_nonsing_inv _ hRu, Matrix.mul_one,
      Matrix.mul_assoc, Matrix.charpoly_mul_comm, Matrix.mul_assoc, Matrix.nonsing_inv_mul _ hRH, Matrix.mul_one]

end Verif.Lemmas
