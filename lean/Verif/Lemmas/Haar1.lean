import Verif.Lemmas.GaussMat
import Mathlib.Algebra.Star.Subalgebra

/-!
# Haar measures on the group that keeps the law of a Gaussian vector
-/

namespace Verif.Lemmas
open Finset Matrix MeasureTheory ProbabilityTheory Verif.Model

variable {K : StarSubalgebra ℝ ℂ} {n : ℕ}

/-- unitary matrices with entries in `K`: the orthogonal group when `K` is the real line, the unitary group when `K = ℂ` -/
structure InG (K : StarSubalgebra ℝ ℂ) {n : ℕ} (V : Matrix (Fin n) (Fin n) ℂ) : Prop where
  uni : V ∈ unitaryGroup (Fin n) ℂ
  mem : ∀ i j, V i j ∈ K

section InG
variable {U V : Matrix (Fin n) (Fin n) ℂ}

theorem InG.conj_mul (hV : InG K V) : Vᴴ * V = 1 := by
  simpa [star_eq_conjTranspose] using mem_unitaryGroup_iff'.1 hV.uni

theorem InG.mul_conj (hV : InG K V) : V * Vᴴ = 1 := by
  simpa [star_eq_conjTranspose] using mem_unitaryGroup_iff.1 hV.uni

theorem InG.one : InG K (1 : Matrix (Fin n) (Fin n) ℂ) :=
  ⟨one_mem _, fun i j => by
    rw [Matrix.one_apply]
    split_ifs
    · exact one_mem K
    · exact zero_mem K⟩

theorem InG.mul (hU : InG K U) (hV : InG K V) : InG K (U * V) :=
  ⟨mul_mem hU.uni hV.uni, fun i j => by
    rw [Matrix.mul_apply]; exact sum_mem fun k _ => mul_mem (hU.mem i k) (hV.mem k j)⟩

theorem InG.star (hV : InG K V) : InG K Vᴴ :=
  ⟨mem_unitaryGroup_iff.2 (by rw [star_eq_conjTranspose, conjTranspose_conjTranspose]; exact hV.conj_mul),
    fun i j => star_mem (hV.mem j i)⟩

theorem InG.transpose (hV : InG K V) : InG K Vᵀ := by
  refine ⟨mem_unitaryGroup_iff.2 ?_, fun i j => hV.mem j i⟩
  have := congrArg Matrix.transpose hV.conj_mul
  rw [transpose_mul, transpose_one] at this
  rw [star_eq_conjTranspose]
  exact this

end InG

/-- a probability measure on the group, invariant by left translations -/
structure IsHaar (K : StarSubalgebra ℝ ℂ) (n : ℕ) (μ : Measure (Fin n × Fin n → ℂ)) : Prop where
  prob : IsProbabilityMeasure μ
  mem : ∀ᵐ x ∂μ, InG K (mat x)
  left : ∀ V, InG K V → μ.map (fun x => unmat (V * mat x)) = μ

theorem measurable_matmul {X : Type} [MeasurableSpace X] {n m k : ℕ} {A : X → Matrix (Fin n) (Fin m) ℂ} {B : X → Matrix (Fin m) (Fin k) ℂ}
    (hA : ∀ i j, Measurable fun x => A x i j) (hB : ∀ i j, Measurable fun x => B x i j) (i : Fin n) (j : Fin k) :
    Measurable fun x => (A x * B x) i j := by
  simp only [Matrix.mul_apply]
  exact Finset.measurable_sum _ fun l _ => (hA i l).mul (hB l j)

theorem measurable_unmat {X : Type} [MeasurableSpace X] {n m : ℕ} {A : X → Matrix (Fin n) (Fin m) ℂ}
    (hA : ∀ i j, Measurable fun x => A x i j) : Measurable fun x => unmat (A x) :=
  measurable_pi_lambda _ fun p => hA p.1 p.2

theorem measurable_mat {n m : ℕ} (i : Fin n) (j : Fin m) : Measurable fun x : Fin n × Fin m → ℂ => mat x i j :=
  measurable_pi_apply (i, j)

theorem measurable_conjT {X : Type} [MeasurableSpace X] {n m : ℕ} {A : X → Matrix (Fin n) (Fin m) ℂ}
    (hA : ∀ i j, Measurable fun x => A x i j) (i : Fin m) (j : Fin n) : Measurable fun x => (A x)ᴴ i j := by
  simp only [conjTranspose_apply]
  exact Complex.continuous_conj.measurable.comp (hA j i)

theorem IsHaar.star_eq {μ μ' : Measure (Fin n × Fin n → ℂ)} (h : IsHaar K n μ) (h' : IsHaar K n μ') :
    μ = μ'.map fun x => unmat (mat x)ᴴ := by
  have := h.prob
  have := h'.prob
  have hm1 : Measurable fun p : (Fin n × Fin n → ℂ) × (Fin n × Fin n → ℂ) => unmat ((mat p.1)ᴴ * mat p.2) :=
    measurable_unmat (measurable_matmul (measurable_conjT fun i j => (measurable_mat i j).comp measurable_fst)
      fun i j => (measurable_mat i j).comp measurable_snd)
  have hm2 : Measurable fun x : Fin n × Fin n → ℂ => unmat (mat x)ᴴ :=
    measurable_unmat (measurable_conjT measurable_mat)
  have hm1' : Measurable fun p : (Fin n × Fin n → ℂ) × (Fin n × Fin n → ℂ) => unmat ((mat p.2)ᴴ * mat p.1) :=
    measurable_unmat (measurable_matmul (measurable_conjT fun i j => (measurable_mat i j).comp measurable_snd)
      fun i j => (measurable_mat i j).comp measurable_fst)
  have hm2' : Measurable fun p : (Fin n × Fin n → ℂ) × (Fin n × Fin n → ℂ) => unmat (mat p.2)ᴴ :=
    measurable_unmat (measurable_conjT fun i j => (measurable_mat i j).comp measurable_snd)
  have e1 : (μ'.prod μ).map (fun p => unmat ((mat p.1)ᴴ * mat p.2)) = (μ'.prod μ).map Prod.snd := by
    refine map_ae_congr hm1 measurable_snd ?_
    filter_upwards [h'.mem] with y hy
    rw [h.left _ hy.star]
    exact Measure.map_id.symm
  have e2 : (μ.prod μ').map (fun p => unmat ((mat p.2)ᴴ * mat p.1)) = (μ.prod μ').map fun p => unmat (mat p.2)ᴴ := by
    refine map_ae_congr hm1' hm2' ?_
    filter_upwards [h.mem] with x hx
    have h3 : (fun y : Fin n × Fin n → ℂ => unmat ((mat y)ᴴ * mat x))
        = (fun x => unmat (mat x)ᴴ) ∘ fun y => unmat ((mat x)ᴴ * mat y) := by
      funext y
      simp [conjTranspose_mul]
    have h4 : Measurable fun y : Fin n × Fin n → ℂ => unmat ((mat x)ᴴ * mat y) :=
      measurable_unmat (measurable_matmul (fun i j => measurable_const) measurable_mat)
    rw [h3, ← Measure.map_map hm2 h4, h'.left _ hx.star]
  have e3 : (μ'.prod μ).map (fun p => unmat ((mat p.1)ᴴ * mat p.2)) = (μ.prod μ').map (fun p => unmat ((mat p.2)ᴴ * mat p.1)) := by
    rw [← Measure.prod_swap (μ := μ) (ν := μ'), Measure.map_map hm1 measurable_swap]
    rfl
  have e4 : (μ'.prod μ).map Prod.snd = μ := by
    rw [Measure.map_snd_prod]; simp
  have e5 : (μ.prod μ').map (fun p => unmat (mat p.2)ᴴ) = μ'.map fun x => unmat (mat x)ᴴ := by
    rw [show (fun p : (Fin n × Fin n → ℂ) × (Fin n × Fin n → ℂ) => unmat (mat p.2)ᴴ) = (fun x => unmat (mat x)ᴴ) ∘ Prod.snd from rfl,
      ← Measure.map_map hm2 measurable_snd, Measure.map_snd_prod]
    simp
  rw [← e4, e1.symm, e3, e2, e5]

/-- uniqueness of the Haar measure -/
theorem IsHaar.unique {μ μ' : Measure (Fin n × Fin n → ℂ)} (h : IsHaar K n μ) (h' : IsHaar K n μ') : μ = μ' :=
  (h.star_eq h').trans (h'.star_eq h').symm

/-- invariance by right translations -/
theorem IsHaar.right {μ : Measure (Fin n × Fin n → ℂ)} (h : IsHaar K n μ) {V : Matrix (Fin n) (Fin n) ℂ} (hV : InG K V) :
    μ.map (fun x => unmat (mat x * V)) = μ := by
  have hm2 : Measurable fun x : Fin n × Fin n → ℂ => unmat (mat x)ᴴ :=
    measurable_unmat (measurable_conjT measurable_mat)
  have hmV : Measurable fun x : Fin n × Fin n → ℂ => unmat (mat x * V) :=
    measurable_unmat (measurable_matmul measurable_mat fun i j => measurable_const)
  have hmV' : Measurable fun x : Fin n × Fin n → ℂ => unmat (Vᴴ * mat x) :=
    measurable_unmat (measurable_matmul (fun i j => measurable_const) measurable_mat)
  conv_lhs => rw [h.star_eq h]
  rw [Measure.map_map hmV hm2]
  have e : (fun x : Fin n × Fin n → ℂ => unmat (mat x * V)) ∘ (fun x => unmat (mat x)ᴴ) = (fun x => unmat (mat x)ᴴ) ∘ fun x => unmat (Vᴴ * mat x) := by
    funext x; simp [conjTranspose_mul]
  rw [e, ← Measure.map_map hm2 hmV', h.left _ hV.star, ← h.star_eq h]

/-- invariance by conjugation -/
theorem IsHaar.conj {μ : Measure (Fin n × Fin n → ℂ)} (h : IsHaar K n μ) {V : Matrix (Fin n) (Fin n) ℂ} (hV : InG K V) :
    μ.map (fun x => unmat (Vᴴ * mat x * V)) = μ := by
  have hmV : Measurable fun x : Fin n × Fin n → ℂ => unmat (mat x * V) :=
    measurable_unmat (measurable_matmul measurable_mat fun i j => measurable_const)
  have hmV' : Measurable fun x : Fin n × Fin n → ℂ => unmat (Vᴴ * mat x) :=
    measurable_unmat (measurable_matmul (fun i j => measurable_const) measurable_mat)
  have e : (fun x : Fin n × Fin n → ℂ => unmat (Vᴴ * mat x * V)) = (fun x => unmat (mat x * V)) ∘ fun x => unmat (Vᴴ * mat x) := by
    funext x; simp
  rw [e, ← Measure.map_map hmV hmV', h.left _ hV.star, h.right hV]

/-- `1 ⊕ W` -/
def oneAdd {n : ℕ} (W : Matrix (Fin n) (Fin n) ℂ) : Matrix (Fin (n + 1)) (Fin (n + 1)) ℂ := bord 1 0 0 W

theorem oneAdd_mul (W W' : Matrix (Fin n) (Fin n) ℂ) : oneAdd (W * W') = oneAdd W * oneAdd W' := by
  rw [oneAdd, oneAdd, oneAdd, bord_mul]
  congr 1 <;> funext <;> simp

theorem oneAdd_conj (W : Matrix (Fin n) (Fin n) ℂ) : (oneAdd W)ᴴ = oneAdd Wᴴ := by
  rw [oneAdd, bord_conj]; simp [oneAdd]

theorem oneAdd_transpose (W : Matrix (Fin n) (Fin n) ℂ) : (oneAdd W)ᵀ = oneAdd Wᵀ := by
  apply bord_ext <;> intros <;> simp [oneAdd]

theorem oneAdd_one : oneAdd (1 : Matrix (Fin n) (Fin n) ℂ) = 1 := bord_one

theorem oneAdd_mulVec (W : Matrix (Fin n) (Fin n) ℂ) (x : Fin (n + 1) → ℂ) :
    oneAdd W *ᵥ x = Fin.cons (x 0) (W *ᵥ fun i => x i.succ) := by
  funext i
  induction i using Fin.cases with
  | zero => simp [oneAdd, Matrix.mulVec, dotProduct, Fin.sum_univ_succ]
  | succ i => simp [oneAdd, Matrix.mulVec, dotProduct, Fin.sum_univ_succ]

theorem InG.oneAdd {W : Matrix (Fin n) (Fin n) ℂ} (hW : InG K W) : InG K (oneAdd W) := by
  refine ⟨?_, fun i j => ?_⟩
  · rw [mem_unitaryGroup_iff', star_eq_conjTranspose, oneAdd_conj, ← oneAdd_mul, hW.conj_mul, oneAdd_one]
  · induction i using Fin.cases with
    | zero => induction j using Fin.cases with
      | zero => exact one_mem K
      | succ j => exact zero_mem K
    | succ i => induction j using Fin.cases with
      | zero => exact zero_mem K
      | succ j => exact hW.mem i j

/-- what is used of the law `γ` of the entries of a Gaussian matrix and of its field `K` -/
structure GaussK (γ : Measure ℂ) (K : StarSubalgebra ℝ ℂ) (beta : ℝ) : Prop where
  ok : GaussOK γ beta
  beta_pos : 0 < beta
  meas : MeasurableSet {z : ℂ | z ∈ K}
  nz : ∀ᵐ z ∂γ, z ≠ 0
  pres : ∀ n : ℕ, ∀ U : Matrix (Fin n) (Fin n) ℂ, InG K U → Pres γ U
  rot : ∀ n : ℕ, ∀ᵐ v ∂(Measure.pi fun _ : Fin (n + 1) => γ), ∃ U : Matrix (Fin (n + 1)) (Fin (n + 1)) ℂ,
    InG K U ∧ U *ᵥ (Pi.single 0 ((√(∑ i, Complex.normSq (v i)) : ℝ) : ℂ)) = v

end Verif.Lemmas
