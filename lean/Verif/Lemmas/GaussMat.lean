import Verif.Lemmas.GaussC
import Verif.Lemmas.JacHermite
import Verif.Lemmas.LAExists
import Mathlib.MeasureTheory.Constructions.Polish.Basic
import Mathlib.Topology.Order.MonotoneContinuity

/-!
# Gaussian matrices: tools
-/

namespace Verif.Lemmas
open Finset Matrix MeasureTheory ProbabilityTheory Verif.Model

/-! ### Determinants -/

/-- expansion of a determinant whose first row and column have at most two nonzero entries -/
theorem det_border {R : Type} [CommRing R] {n : ℕ} (A : Matrix (Fin (n + 2)) (Fin (n + 2)) R) (h0 : ∀ j : Fin n, A 0 j.succ.succ = 0)
    (h1 : ∀ i : Fin n, A i.succ.succ 0 = 0) :
    A.det = A 0 0 * (A.submatrix Fin.succ Fin.succ).det
      - A 0 1 * A 1 0 * (A.submatrix (fun i : Fin n => i.succ.succ) (fun i : Fin n => i.succ.succ)).det := by
  rw [Matrix.det_succ_row_zero, Fin.sum_univ_succ, Fin.sum_univ_succ, sum_eq_zero (fun j _ => by rw [h0]; ring)]
  have e : (A.submatrix Fin.succ (Fin.succAbove (Fin.succ (0 : Fin (n + 1))))).det
      = A 1 0 * (A.submatrix (fun i : Fin n => i.succ.succ) (fun i : Fin n => i.succ.succ)).det := by
    rw [Matrix.det_succ_column_zero, Fin.sum_univ_succ, sum_eq_zero]
    · simp only [Fin.val_zero, pow_zero, one_mul, add_zero, Matrix.submatrix_apply, Matrix.submatrix_submatrix]
      congr 1
    · intro i _
      have : A.submatrix Fin.succ (Fin.succAbove (Fin.succ (0 : Fin (n + 1)))) i.succ 0 = 0 := by
        rw [Matrix.submatrix_apply]
        exact h1 i
      rw [this]; ring
  rw [e]
  have e1 : (((Fin.succ 0 : Fin (n + 2)) : ℕ)) = 1 := rfl
  rw [e1]
  simp only [Fin.val_zero, pow_zero, one_mul, add_zero, Fin.succAbove_zero, pow_one, Fin.succ_zero_eq_one]
  ring

/-- bordered matrix -/
def bord {R : Type} {n m : ℕ} (a : R) (w : Fin m → R) (v : Fin n → R) (K : Matrix (Fin n) (Fin m) R) : Matrix (Fin (n + 1)) (Fin (m + 1)) R :=
  Matrix.of (Fin.cons (Fin.cons a w : Fin (m + 1) → R) (fun i => (Fin.cons (v i) (K i) : Fin (m + 1) → R)))

section bord
variable {R : Type} {n m k : ℕ} (a : R) (w : Fin m → R) (v : Fin n → R) (K : Matrix (Fin n) (Fin m) R)
@[simp] theorem bord_00 : bord a w v K 0 0 = a := rfl
@[simp] theorem bord_0s (j : Fin m) : bord a w v K 0 j.succ = w j := rfl
@[simp] theorem bord_s0 (i : Fin n) : bord a w v K i.succ 0 = v i := rfl
@[simp] theorem bord_ss (i : Fin n) (j : Fin m) : bord a w v K i.succ j.succ = K i j := rfl

theorem bord_ext {A B : Matrix (Fin (n + 1)) (Fin (m + 1)) R} (h00 : A 0 0 = B 0 0) (h0 : ∀ j : Fin m, A 0 j.succ = B 0 j.succ)
    (h1 : ∀ i : Fin n, A i.succ 0 = B i.succ 0) (hs : ∀ (i : Fin n) (j : Fin m), A i.succ j.succ = B i.succ j.succ) : A = B := by
  ext i j
  induction i using Fin.cases with
  | zero => induction j using Fin.cases with
    | zero => exact h00
    | succ j => exact h0 j
  | succ i => induction j using Fin.cases with
    | zero => exact h1 i
    | succ j => exact hs i j

theorem bord_mul {R : Type} [CommRing R] (a : R) (w : Fin m → R) (v : Fin n → R) (K : Matrix (Fin n) (Fin m) R)
    (a' : R) (w' : Fin k → R) (v' : Fin m → R) (K' : Matrix (Fin m) (Fin k) R) :
    bord a w v K * bord a' w' v' K' = bord (a * a' + w ⬝ᵥ v') (fun j => a * w' j + (w ᵥ* K') j) (fun i => v i * a' + (K *ᵥ v') i)
      (Matrix.of fun i j => v i * w' j + (K * K' : Matrix _ _ R) i j) := by
  apply bord_ext <;> intros <;> simp [Matrix.mul_apply, Fin.sum_univ_succ, dotProduct, Matrix.vecMul, Matrix.mulVec]

theorem bord_conj (a : ℂ) (w : Fin m → ℂ) (v : Fin n → ℂ) (K : Matrix (Fin n) (Fin m) ℂ) :
    (bord a w v K)ᴴ = bord (star a) (star v) (star w) Kᴴ := by
  apply bord_ext <;> intros <;> simp [Matrix.conjTranspose_apply]

theorem bord_one {R : Type} [CommRing R] : bord (1 : R) (0 : Fin n → R) (0 : Fin n → R) (1 : Matrix (Fin n) (Fin n) R) = 1 := by
  apply bord_ext <;> intros <;> simp [Matrix.one_apply, Fin.succ_ne_zero, (Fin.succ_ne_zero _).symm]
end bord

/-- characteristic polynomials at the integers: of the matrix, and of the matrix without its first row and column -/
noncomputable def cpp {n : ℕ} (H : Matrix (Fin (n + 1)) (Fin (n + 1)) ℂ) (t : ℕ) : ℝ × ℝ :=
  ((((t : ℂ) • (1 : Matrix (Fin (n + 1)) (Fin (n + 1)) ℂ) - H).det).re,
    (((t : ℂ) • (1 : Matrix (Fin n) (Fin n) ℂ) - H.submatrix Fin.succ Fin.succ).det).re)

theorem det_conj {n : ℕ} {U : Matrix (Fin n) (Fin n) ℂ} (hU : U ∈ unitaryGroup (Fin n) ℂ) (A : Matrix (Fin n) (Fin n) ℂ) (t : ℂ) :
    (t • (1 : Matrix (Fin n) (Fin n) ℂ) - Uᴴ * A * U).det = (t • (1 : Matrix (Fin n) (Fin n) ℂ) - A).det := by
  have h1 : Uᴴ * U = 1 := by simpa [star_eq_conjTranspose] using mem_unitaryGroup_iff'.1 hU
  have e : t • (1 : Matrix (Fin n) (Fin n) ℂ) - Uᴴ * A * U = Uᴴ * (t • (1 : Matrix (Fin n) (Fin n) ℂ) - A) * U := by
    rw [Matrix.mul_sub, Matrix.sub_mul, Matrix.mul_smul, Matrix.smul_mul, Matrix.mul_one, h1]
  rw [e, Matrix.det_mul, Matrix.det_mul, mul_right_comm, ← Matrix.det_mul, h1, Matrix.det_one, one_mul]

/-- the step of the recursion -/
noncomputable def stepH (a b : ℝ) (F : ℕ → ℝ × ℝ) (t : ℕ) : ℝ × ℝ := ((t - a) * (F t).1 - b * (F t).2, (F t).1)

theorem cpp_bord {n : ℕ} (a r : ℝ) (K : Matrix (Fin (n + 1)) (Fin (n + 1)) ℂ) :
    cpp (bord (a : ℂ) (Pi.single 0 (r : ℂ)) (Pi.single 0 (r : ℂ)) K) = stepH a (r ^ 2) (cpp K) := by
  have hsub : (bord (a : ℂ) (Pi.single 0 (r : ℂ)) (Pi.single 0 (r : ℂ)) K).submatrix Fin.succ Fin.succ = K := by
    ext i j; simp
  funext t
  simp only [cpp, stepH, hsub]
  refine Prod.ext ?_ rfl
  rw [det_border]
  · have e00 : ((t : ℂ) • (1 : Matrix (Fin (n + 1 + 1)) (Fin (n + 1 + 1)) ℂ) - bord (a : ℂ) (Pi.single 0 (r : ℂ)) (Pi.single 0 (r : ℂ)) K) 0 0 = t - a := by
      rw [Matrix.sub_apply, bord_00]; simp
    have e01 : ((t : ℂ) • (1 : Matrix (Fin (n + 1 + 1)) (Fin (n + 1 + 1)) ℂ) - bord (a : ℂ) (Pi.single 0 (r : ℂ)) (Pi.single 0 (r : ℂ)) K) 0 1 = -r := by
      have : (1 : Fin (n + 1 + 1)) = Fin.succ 0 := rfl
      rw [Matrix.sub_apply, this, bord_0s]; simp [Matrix.one_apply]
    have e10 : ((t : ℂ) • (1 : Matrix (Fin (n + 1 + 1)) (Fin (n + 1 + 1)) ℂ) - bord (a : ℂ) (Pi.single 0 (r : ℂ)) (Pi.single 0 (r : ℂ)) K) 1 0 = -r := by
      have : (1 : Fin (n + 1 + 1)) = Fin.succ 0 := rfl
      rw [Matrix.sub_apply, this, bord_s0]; simp [Matrix.one_apply]
    have es : ((t : ℂ) • (1 : Matrix (Fin (n + 1 + 1)) (Fin (n + 1 + 1)) ℂ) - bord (a : ℂ) (Pi.single 0 (r : ℂ)) (Pi.single 0 (r : ℂ)) K).submatrix
        Fin.succ Fin.succ = (t : ℂ) • 1 - K := by
      ext i j; simp [Matrix.one_apply]
    have ess : ((t : ℂ) • (1 : Matrix (Fin (n + 1 + 1)) (Fin (n + 1 + 1)) ℂ) - bord (a : ℂ) (Pi.single 0 (r : ℂ)) (Pi.single 0 (r : ℂ)) K).submatrix
        (fun i : Fin n => i.succ.succ) (fun i : Fin n => i.succ.succ) = (t : ℂ) • 1 - K.submatrix Fin.succ Fin.succ := by
      ext i j; simp [Matrix.one_apply]
    rw [e00, e01, e10, es, ess]
    have c1 : ((t : ℂ) - (a : ℂ)) = (((t : ℝ) - a : ℝ) : ℂ) := by push_cast; rfl
    have c2 : (-(r : ℂ)) * (-(r : ℂ)) = ((r ^ 2 : ℝ) : ℂ) := by push_cast; ring
    rw [c1, c2, Complex.sub_re, Complex.re_ofReal_mul, Complex.re_ofReal_mul]
  · intro j
    rw [Matrix.sub_apply, bord_0s]
    simp [Matrix.one_apply, Fin.succ_ne_zero, (Fin.succ_ne_zero _).symm]
  · intro j
    rw [Matrix.sub_apply, bord_s0]
    simp [Matrix.one_apply, Fin.succ_ne_zero]

/-- rotate the border onto the first coordinate -/
theorem cpp_rot {n : ℕ} (a r : ℝ) {v : Fin (n + 1) → ℂ} (K : Matrix (Fin (n + 1)) (Fin (n + 1)) ℂ)
    {U : Matrix (Fin (n + 1)) (Fin (n + 1)) ℂ} (hU : U ∈ unitaryGroup (Fin (n + 1)) ℂ) (hv : U *ᵥ Pi.single 0 (r : ℂ) = v) :
    cpp (bord (a : ℂ) (star v) v K) = stepH a (r ^ 2) (cpp (Uᴴ * K * U)) := by
  have h1 : Uᴴ * U = 1 := by simpa [star_eq_conjTranspose] using mem_unitaryGroup_iff'.1 hU
  have hv' : Uᴴ *ᵥ v = Pi.single 0 (r : ℂ) := by
    rw [← hv, Matrix.mulVec_mulVec, h1, Matrix.one_mulVec]
  set W := bord (1 : ℂ) 0 0 U with hW
  have hWc : Wᴴ = bord (1 : ℂ) 0 0 Uᴴ := by rw [hW, bord_conj]; simp
  have hWu : W ∈ unitaryGroup (Fin (n + 1 + 1)) ℂ := by
    rw [mem_unitaryGroup_iff', star_eq_conjTranspose, hWc, hW, bord_mul, ← bord_one, ← h1]
    congr 1 <;> funext <;> simp
  have hconj : Wᴴ * bord (a : ℂ) (star v) v K * W = bord (a : ℂ) (Pi.single 0 (r : ℂ)) (Pi.single 0 (r : ℂ)) (Uᴴ * K * U) := by
    have hs : star v ᵥ* U = Pi.single 0 (r : ℂ) := by
      have := congrArg star hv'
      rw [Matrix.star_mulVec, Matrix.conjTranspose_conjTranspose] at this
      rw [this]
      funext i
      by_cases hi : i = 0
      · subst hi; simp
      · simp [hi]
    rw [hWc, hW, bord_mul, bord_mul]
    congr 1
    · simp
    · funext j
      rw [← hs]
      simp
      rfl
    · funext i; simp [hv']
    · ext i j; simp [Matrix.mul_apply]
  rw [← cpp_bord, ← hconj]
  funext t
  simp only [cpp]
  refine Prod.ext ?_ ?_
  · exact congrArg Complex.re (det_conj hWu _ _).symm
  · have e1 : (bord (a : ℂ) (star v) v K).submatrix Fin.succ Fin.succ = K := by ext i j; simp
    have e2 : (Wᴴ * bord (a : ℂ) (star v) v K * W).submatrix Fin.succ Fin.succ = Uᴴ * K * U := by
      rw [hconj]; ext i j; simp
    rw [e1, e2, det_conj hU]

/-! ### Measures -/

/-- two functions with the same law in the second variable -/
theorem map_ae_congr {X Y Z : Type} [MeasurableSpace X] [MeasurableSpace Y] [MeasurableSpace Z] {μ : Measure X} {ν : Measure Y} [SFinite ν]
    {F F' : X × Y → Z} (hF : Measurable F) (hF' : Measurable F')
    (h : ∀ᵐ x ∂μ, ν.map (fun y => F (x, y)) = ν.map (fun y => F' (x, y))) : (μ.prod ν).map F = (μ.prod ν).map F' := by
  ext s hs
  rw [Measure.map_apply hF hs, Measure.map_apply hF' hs, Measure.prod_apply (hF hs), Measure.prod_apply (hF' hs)]
  refine lintegral_congr_ae ?_
  filter_upwards [h] with x hx
  have h1 : ν.map (fun y => F (x, y)) s = ν.map (fun y => F' (x, y)) s := by rw [hx]
  rw [Measure.map_apply (f := fun y => F (x, y)) (hF.comp measurable_prodMk_left) hs, Measure.map_apply (f := fun y => F' (x, y)) (hF'.comp measurable_prodMk_left) hs] at h1
  exact h1

/-- the four blocks of a family indexed by pairs -/
noncomputable def split4 {α : Type} {n m : ℕ} (x : Fin (n + 1) × Fin (m + 1) → α) :
    (α × (Fin m → α)) × ((Fin n → α) × (Fin n × Fin m → α)) :=
  ((x (0, 0), fun j => x (0, j.succ)), (fun i => x (i.succ, 0), fun p => x (p.1.succ, p.2.succ)))

/-- the inverse of `split4` -/
noncomputable def join4 {α : Type} {n m : ℕ} (y : (α × (Fin m → α)) × ((Fin n → α) × (Fin n × Fin m → α))) (p : Fin (n + 1) × Fin (m + 1)) : α :=
  bord y.1.1 y.1.2 y.2.1 (Matrix.of fun i j => y.2.2 (i, j)) p.1 p.2

theorem split4_join4 {α : Type} {n m : ℕ} (y : (α × (Fin m → α)) × ((Fin n → α) × (Fin n × Fin m → α))) : split4 (join4 y) = y := by
  simp [split4, join4]

theorem measurable_split4 {α : Type} [MeasurableSpace α] {n m : ℕ} : Measurable (split4 (α := α) (n := n) (m := m)) := by
  unfold split4
  fun_prop

theorem measurable_join4 {α : Type} [MeasurableSpace α] {n m : ℕ} : Measurable (join4 (α := α) (n := n) (m := m)) := by
  refine measurable_pi_lambda _ fun p => ?_
  obtain ⟨i, j⟩ := p
  induction i using Fin.cases with
  | zero => induction j using Fin.cases with
    | zero => simp only [join4, bord_00]; fun_prop
    | succ j => simp only [join4, bord_0s]; fun_prop
  | succ i => induction j using Fin.cases with
    | zero => simp only [join4, bord_s0]; fun_prop
    | succ j => simp only [join4, bord_ss, Matrix.of_apply]; fun_prop

theorem map_split4 {α : Type} [MeasurableSpace α] (γ : Measure α) [IsProbabilityMeasure γ] (n m : ℕ) :
    (Measure.pi fun _ : Fin (n + 1) × Fin (m + 1) => γ).map split4
      = (γ.prod (Measure.pi fun _ : Fin m => γ)).prod ((Measure.pi fun _ : Fin n => γ).prod (Measure.pi fun _ : Fin n × Fin m => γ)) := by
  have h : ((γ.prod (Measure.pi fun _ : Fin m => γ)).prod ((Measure.pi fun _ : Fin n => γ).prod (Measure.pi fun _ : Fin n × Fin m => γ))).map join4
      = Measure.pi fun _ : Fin (n + 1) × Fin (m + 1) => γ := by
    symm
    refine Measure.pi_eq fun s hs => ?_
    rw [Measure.map_apply measurable_join4 (MeasurableSet.univ_pi hs)]
    have e : join4 ⁻¹' (Set.pi Set.univ s) = (s (0, 0) ×ˢ Set.pi Set.univ fun j : Fin m => s (0, j.succ)) ×ˢ
        ((Set.pi Set.univ fun i : Fin n => s (i.succ, 0)) ×ˢ Set.pi Set.univ fun p : Fin n × Fin m => s (p.1.succ, p.2.succ)) := by
      ext y
      simp only [Set.mem_preimage, Set.mem_pi, Set.mem_univ, true_implies, Set.mem_prod, Prod.forall, join4]
      constructor
      · intro h
        refine ⟨⟨h 0 0, fun j => h 0 j.succ⟩, fun i => h i.succ 0, fun i j => h i.succ j.succ⟩
      · rintro ⟨⟨h1, h2⟩, h3, h4⟩ i j
        induction i using Fin.cases with
        | zero => induction j using Fin.cases with
          | zero => exact h1
          | succ j => exact h2 j
        | succ i => induction j using Fin.cases with
          | zero => exact h3 i
          | succ j => exact h4 i j
    rw [e, Measure.prod_prod, Measure.prod_prod, Measure.prod_prod, Measure.pi_pi, Measure.pi_pi, Measure.pi_pi,
      Fintype.prod_prod_type, Fintype.prod_prod_type, Fin.prod_univ_succ]
    simp only [Fin.prod_univ_succ (n := m), prod_mul_distrib]
  rw [← h, Measure.map_map measurable_split4 measurable_join4]
  have : split4 ∘ join4 = (id : (α × (Fin m → α)) × ((Fin n → α) × (Fin n × Fin m → α)) → _) := funext split4_join4
  rw [this, Measure.map_id]

/-- the matrix with entries `x` -/
def mat {n m : ℕ} (x : Fin n × Fin m → ℂ) : Matrix (Fin n) (Fin m) ℂ := Matrix.of fun i j => x (i, j)

/-- the entries of a matrix -/
def unmat {n m : ℕ} (A : Matrix (Fin n) (Fin m) ℂ) (p : Fin n × Fin m) : ℂ := A p.1 p.2

@[simp] theorem mat_unmat {n m : ℕ} (A : Matrix (Fin n) (Fin m) ℂ) : mat (unmat A) = A := rfl

theorem left_inv {γ : Measure ℂ} [IsProbabilityMeasure γ] {n m : ℕ} {W : Matrix (Fin n) (Fin n) ℂ} (hW : Pres γ W) :
    (Measure.pi fun _ : Fin n × Fin m => γ).map (fun x => unmat (W * mat x)) = Measure.pi fun _ : Fin n × Fin m => γ := by
  have hsw : (Measure.pi fun _ : Fin m => Measure.pi fun _ : Fin n => γ).map (fun y (p : Fin n × Fin m) => y p.2 p.1)
      = Measure.pi fun _ : Fin n × Fin m => γ := by
    have h := measurePreserving_piCongrLeft (fun _ : Fin n × Fin m => γ) (Equiv.prodComm (Fin m) (Fin n))
    rw [← h.map_eq, ← pi_uncurry, Measure.map_map h.measurable (by fun_prop)]
    congr 1
  have hm : Measurable fun x : Fin n × Fin m → ℂ => unmat (W * mat x) := by
    refine measurable_pi_lambda _ fun p => ?_
    simp only [unmat, Matrix.mul_apply, mat, Matrix.of_apply]
    fun_prop
  have hW' : ∀ _ : Fin m, SigmaFinite ((Measure.pi fun _ : Fin n => γ).map fun x => W *ᵥ x) := fun _ => by
    rw [hW]; infer_instance
  have h2 := Measure.pi_map_pi (μ := fun _ : Fin m => Measure.pi fun _ : Fin n => γ) (f := fun _ x => W *ᵥ x)
    (fun _ => (measurable_mulVec W).aemeasurable)
  rw [show (fun _ : Fin m => (Measure.pi fun _ : Fin n => γ).map fun x => W *ᵥ x) = fun _ => Measure.pi fun _ : Fin n => γ from
    funext fun _ => hW] at h2
  conv_lhs => rw [← hsw]
  rw [Measure.map_map hm (by fun_prop), ← hsw]
  conv_rhs => rw [← h2]
  have hm2 : Measurable fun (y : Fin m → Fin n → ℂ) i => W *ᵥ y i :=
    measurable_pi_lambda _ fun i => (measurable_mulVec W).comp (measurable_pi_apply i)
  rw [Measure.map_map (by fun_prop) hm2]
  congr 1

theorem right_inv {γ : Measure ℂ} [IsProbabilityMeasure γ] {n m : ℕ} {V : Matrix (Fin m) (Fin m) ℂ} (hV : Pres γ Vᵀ) :
    (Measure.pi fun _ : Fin n × Fin m => γ).map (fun x => unmat (mat x * V)) = Measure.pi fun _ : Fin n × Fin m => γ := by
  have hm : Measurable fun x : Fin n × Fin m → ℂ => unmat (mat x * V) := by
    refine measurable_pi_lambda _ fun p => ?_
    simp only [unmat, Matrix.mul_apply, mat, Matrix.of_apply]
    fun_prop
  have hV' : ∀ _ : Fin n, SigmaFinite ((Measure.pi fun _ : Fin m => γ).map fun x => Vᵀ *ᵥ x) := fun _ => by
    rw [hV]; infer_instance
  have h2 := Measure.pi_map_pi (μ := fun _ : Fin n => Measure.pi fun _ : Fin m => γ) (f := fun _ x => Vᵀ *ᵥ x)
    (fun _ => (measurable_mulVec Vᵀ).aemeasurable)
  rw [show (fun _ : Fin n => (Measure.pi fun _ : Fin m => γ).map fun x => Vᵀ *ᵥ x) = fun _ => Measure.pi fun _ : Fin m => γ from
    funext fun _ => hV] at h2
  conv_lhs => rw [← pi_uncurry]
  rw [Measure.map_map hm (by fun_prop), ← pi_uncurry]
  conv_rhs => rw [← h2]
  have hm2 : Measurable fun (y : Fin n → Fin m → ℂ) i => Vᵀ *ᵥ y i :=
    measurable_pi_lambda _ fun i => (measurable_mulVec Vᵀ).comp (measurable_pi_apply i)
  rw [Measure.map_map (by fun_prop) hm2]
  congr 1
  funext y p
  simp [unmat, mat, Matrix.mul_apply, Matrix.mulVec, dotProduct, mul_comm]

end Verif.Lemmas
