import Verif.Lemmas.Jaco7
import Mathlib.Logic.Equiv.Fintype

/-!
# The full Jacobi model: any choice of coordinates
-/

namespace Verif.Lemmas
open Finset Matrix MeasureTheory ProbabilityTheory Verif.Model
open scoped ComplexConjugate

variable {n m M : ℕ} {γ : Measure ℂ} {K : StarSubalgebra ℝ ℂ} {beta : ℝ}

/-! ### Permutations of the coordinates -/

/-- matrix of a permutation -/
def pm (σ : Equiv.Perm (Fin M)) : Matrix (Fin M) (Fin M) ℂ := (1 : Matrix (Fin M) (Fin M) ℂ).submatrix σ id

theorem pm_mul (σ : Equiv.Perm (Fin M)) (A : Matrix (Fin M) (Fin M) ℂ) : pm σ * A = A.submatrix σ id := by
  ext i j
  rw [Matrix.mul_apply]
  simp [pm, Matrix.one_apply]

theorem mul_pmH (σ : Equiv.Perm (Fin M)) (A : Matrix (Fin M) (Fin M) ℂ) : A * (pm σ)ᴴ = A.submatrix id σ := by
  ext i j
  rw [Matrix.mul_apply]
  simp [pm, Matrix.one_apply, Matrix.conjTranspose_apply, apply_ite]

theorem pm_InG (σ : Equiv.Perm (Fin M)) : InG K (pm σ) := by
  refine ⟨mem_unitaryGroup_iff.2 ?_, fun i j => ?_⟩
  · rw [star_eq_conjTranspose, mul_pmH]
    ext i j
    simp [pm, Matrix.one_apply]
  · rw [pm, Matrix.submatrix_apply, Matrix.one_apply]
    split_ifs
    · exact one_mem K
    · exact zero_mem K

theorem dg_perm (σ : Equiv.Perm (Fin M)) (p : Fin M → Bool) : dg (fun i => p (σ i)) = pm σ * dg p * (pm σ)ᴴ := by
  rw [mul_pmH, pm_mul]
  ext i j
  simp [dg_apply]

theorem exists_perm {p p' : Fin M → Bool} (h : cnt p = cnt p') : ∃ σ : Equiv.Perm (Fin M), p' = fun i => p (σ i) := by
  have hc : Fintype.card {i // p' i = true} = Fintype.card {i // p i = true} := by
    rw [Fintype.card_subtype, Fintype.card_subtype]
    exact h.symm
  let e := Fintype.equivOfCardEq hc
  refine ⟨e.extendSubtype, funext fun i => ?_⟩
  by_cases hi : p' i = true
  · rw [hi, e.extendSubtype_mem i hi]
  · have := e.extendSubtype_not_mem i hi
    rw [Bool.not_eq_true] at hi this
    rw [hi, this]

/-- characteristic polynomial -/
noncomputable def ch1 (A : Matrix (Fin M) (Fin M) ℂ) (t : ℕ) : ℝ := (((t : ℂ) • (1 : Matrix (Fin M) (Fin M) ℂ) - A).det).re

theorem ch1_conj {U : Matrix (Fin M) (Fin M) ℂ} (hU : U ∈ unitaryGroup (Fin M) ℂ) (A : Matrix (Fin M) (Fin M) ℂ) : ch1 (U * A * Uᴴ) = ch1 A := by
  funext t
  have h := det_conj (U := Uᴴ) (by
    rw [mem_unitaryGroup_iff, star_eq_conjTranspose, conjTranspose_conjTranspose]
    exact uni_conj_mul hU) A (t : ℂ)
  rw [conjTranspose_conjTranspose] at h
  rw [ch1, h, ch1]

theorem measurable_ch1 {X : Type} [MeasurableSpace X] {U : X → Matrix (Fin M) (Fin M) ℂ} (hU : ∀ i j, Measurable fun x => U x i j) :
    Measurable fun x => ch1 (U x) := by
  refine measurable_pi_lambda _ fun t => Complex.measurable_re.comp ?_
  simp only [Matrix.det_apply]
  refine Finset.measurable_sum _ fun σ _ => ?_
  refine Measurable.const_smul (Finset.measurable_prod _ fun i _ => ?_) _
  exact measurable_const.sub (hU _ _)

/-- the law of the characteristic polynomial depends only on the numbers of coordinates -/
theorem ch1_perm (hγ : GaussK γ K beta) {p p' q q' : Fin M → Bool} (hp : cnt p = cnt p') (hq : cnt q = cnt q') :
    (haarM γ M).map (fun u => ch1 (Hm p' q' (mat u))) = (haarM γ M).map fun u => ch1 (Hm p q (mat u)) := by
  obtain ⟨σ, rfl⟩ := exists_perm hp
  obtain ⟨τ, rfl⟩ := exists_perm hq
  have hH := haarM_isHaar hγ M
  have hσ : InG K (pm σ) := pm_InG σ
  have hτ : InG K (pm τ) := pm_InG τ
  have hm1 : Measurable fun u : Fin M × Fin M → ℂ => ch1 (Hm p q (mat u)) := measurable_ch1 (measurable_Hm _ _ measurable_mat)
  have hmL : Measurable fun x : Fin M × Fin M → ℂ => unmat ((pm τ)ᴴ * mat x) :=
    measurable_unmat (measurable_matmul (fun i j => measurable_const) measurable_mat)
  have hmR : Measurable fun x : Fin M × Fin M → ℂ => unmat (mat x * pm σ) :=
    measurable_unmat (measurable_matmul measurable_mat fun i j => measurable_const)
  conv_rhs => rw [← hH.left _ hτ.star, ← hH.right hσ]
  rw [Measure.map_map hmL hmR, Measure.map_map hm1 (hmL.comp hmR)]
  congr 1
  funext u
  simp only [Function.comp_apply, mat_unmat]
  rw [Hm, dg_perm, dg_perm, ← ch1_conj hσ.uni (Hm p q _), Hm]
  congr 1
  simp only [conjTranspose_mul, conjTranspose_conjTranspose, Matrix.mul_assoc]

/-! ### Existence of the patterns -/

theorem exists_cnt (M1 M2 : ℕ) : ∃ q : Fin (M1 + M2) → Bool, cnt q = M1 ∧ (cnt fun i => !q i) = M2 := by
  have h : cnt (fun i : Fin (M1 + M2) => decide ((i : ℕ) < M1)) = M1 := by
    rw [cnt]
    simp [Fin.card_filter_val_lt]
  refine ⟨fun i => decide ((i : ℕ) < M1), h, ?_⟩
  have := cnt_not (fun i : Fin (M1 + M2) => decide ((i : ℕ) < M1))
  rw [Fintype.card_fin, h] at this
  exact Nat.add_left_cancel this

theorem exists_pat : ∀ (k M1 M2 : ℕ), k + 1 ≤ M1 → k + 1 ≤ M2 →
    ∃ (m : ℕ) (p : Fin m → Bool) (q : Fin (m + 1) → Bool), m + 1 = M1 + M2 ∧ Pat k m (Fin.cons true p) q ∧ cnt q = M1 ∧ (cnt fun i => !q i) = M2
  | 0, M1, M2, h1, h2 => by
    obtain ⟨m, hm⟩ : ∃ m, M1 + M2 = m + 1 := ⟨M1 + M2 - 1, by omega⟩
    obtain ⟨q, hq1, hq2⟩ : ∃ q : Fin (m + 1) → Bool, cnt q = M1 ∧ (cnt fun i => !q i) = M2 := hm ▸ exists_cnt M1 M2
    exact ⟨m, fun _ => false, q, hm.symm, .base q (by omega) (by omega), hq1, hq2⟩
  | k + 1, M1, M2, h1, h2 => by
    obtain ⟨m, p, q, hm, hp, hq1, hq2⟩ := exists_pat k (M1 - 1) (M2 - 1) (by omega) (by omega)
    refine ⟨m + 2, tf p, tf q, by omega, .step p q hp, ?_, ?_⟩
    · rw [cnt_tf, hq1]; omega
    · rw [cnt_tf_not, hq2]; omega

/-- law of the characteristic polynomial of a corner of the projection of a Haar matrix -/
theorem law_corner (hγ : GaussK γ K beta) {k M1 M2 M : ℕ} (hM : M = M1 + M2) (h1 : k + 1 ≤ M1) (h2 : k + 1 ≤ M2) {p q : Fin M → Bool}
    (hp : cnt p = k + 1) (hq : cnt q = M1) :
    (haarM γ M).map (fun u => ch1 (Hm p q (mat u))) = (lawJ beta k M1 M2).map fun F (t : ℕ) => (t : ℝ) ^ (M - (k + 1)) * (F t).1 := by
  obtain ⟨m, p', q', hm, hpat, hq1, hq2⟩ := exists_pat k M1 M2 h1 h2
  obtain rfl : M = m + 1 := by omega
  have hm1 : Measurable fun u : Fin (m + 1) × Fin (m + 1) → ℂ => cpp (Hm (Fin.cons true p' : Fin (m + 1) → Bool) q' (mat u)) :=
    measurable_cpp (measurable_Hm _ _ measurable_mat)
  have hf : Measurable fun (F : ℕ → ℝ × ℝ) t => (F t).1 := by fun_prop
  rw [ch1_perm hγ (p := (Fin.cons true p' : Fin (m + 1) → Bool)) (q := q') (by rw [hpat.counts.1, hp]) (by rw [hq1, hq])]
  have h := congrArg (fun μ => μ.map fun (F : ℕ → ℝ × ℝ) t => (F t).1) (full_lawJ hγ hpat)
  rw [Measure.map_map hf hm1, Measure.map_map hf (measurable_tmP _), hq1, hq2] at h
  rw [show m + 1 - (k + 1) = m - k by omega]
  exact h

end Verif.Lemmas
