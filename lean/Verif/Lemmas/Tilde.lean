import Verif.Lemmas.Inner
import Verif.Lemmas.Minor
import Verif.Model.Intermediate
import Mathlib.Algebra.Order.Star.Real

/-!
The law of a sample of the DPP restricted to an intermediate sample.
-/

namespace Verif
open Verif Verif.Spec Verif.Model Matrix
open scoped ENNReal NNReal

variable {n m : ℕ}

theorem minor_map {ι κ : Type*} [DecidableEq ι] [DecidableEq κ] (L : Matrix ι ι ℝ) (f : κ ↪ ι) (S : Finset κ) :
    minor (L.submatrix f f) S = minor L (S.map f) := by
  unfold minor
  let g : S → S.map f := fun x => ⟨f x.1, Finset.mem_map_of_mem f x.2⟩
  have hg : Function.Bijective g := by
    constructor
    · intro x y h
      exact Subtype.ext (f.injective (congrArg Subtype.val h))
    · rintro ⟨y, hy⟩
      obtain ⟨x, hx, rfl⟩ := Finset.mem_map.1 hy
      exact ⟨⟨x, hx⟩, rfl⟩
  rw [← Matrix.det_submatrix_equiv_self (Equiv.ofBijective g hg)]
  rfl

theorem minor_scale {ι : Type*} [DecidableEq ι] (L : Matrix ι ι ℝ) (d : ι → ℝ) (a : ℝ) (S : Finset ι) :
    minor (Matrix.of fun i j => a * d i * L i j * d j) S = a ^ S.card * (∏ i ∈ S, d i ^ 2) * minor L S := by
  have h : (Matrix.of fun i j => a * d i * L i j * d j).submatrix (Subtype.val : S → ι) Subtype.val
      = Matrix.of fun (i j : S) => (a * d i) * (Matrix.of fun (i j : S) => d j * (L.submatrix (Subtype.val : S → ι) Subtype.val) i j) i j := by
    ext i j
    simp only [submatrix_apply, of_apply]
    ring
  unfold minor
  rw [h, Matrix.det_mul_column, Matrix.det_mul_row, Finset.prod_mul_distrib, Finset.prod_const, Finset.card_univ,
    Fintype.card_coe]
  rw [Finset.prod_coe_sort S (fun i => d i)]
  rw [Finset.prod_pow]
  ring

theorem minor_nonneg {L : Matrix (Fin n) (Fin n) ℝ} (h : L.PosSemidef) (S : Finset (Fin n)) : 0 ≤ minor L S :=
  Matrix.PosSemidef.det_nonneg (h.submatrix _)

/-- a positive semi-definite matrix with a zero on the diagonal has a zero row -/
theorem psd_row_zero {L : Matrix (Fin n) (Fin n) ℝ} (h : L.PosSemidef) {i : Fin n} (hi : L i i = 0) (j : Fin n) :
    L i j = 0 := by
  by_cases hij : i = j
  · rw [← hij, hi]
  · have h2 := minor_nonneg h {i, j}
    have h3 : minor L {i, j} = L i i * L j j - L i j * L j i := by
      have : ({i, j} : Finset (Fin n)) = (Finset.univ : Finset (Fin 2)).map
          ⟨![i, j], by intro a b; fin_cases a <;> fin_cases b <;> simp [hij, Ne.symm hij]⟩ := by
        ext x; simp only [Finset.mem_map, Finset.mem_univ, true_and, Fin.exists_fin_two, Finset.mem_insert, Finset.mem_singleton]
        exact or_congr eq_comm eq_comm
      rw [this, ← minor_map, minor_univ, Matrix.det_fin_two]
      rfl
    rw [h3, hi, h.symm' j i] at h2
    nlinarith

theorem minor_diag_zero {L : Matrix (Fin n) (Fin n) ℝ} (h : L.PosSemidef) {i : Fin n} (hi : L i i = 0)
    {S : Finset (Fin n)} (hS : i ∈ S) : minor L S = 0 :=
  minor_row_zero hS fun j _ => psd_row_zero h hi j

theorem det_one_add_pos {L : Matrix (Fin n) (Fin n) ℝ} (h : L.PosSemidef) : 0 < (1 + L).det := by
  rw [← sum_lDppProb h]
  refine lt_of_lt_of_le zero_lt_one ?_
  rw [← minor_empty L]
  exact Finset.single_le_sum (f := fun S => minor L S) (fun S _ => minor_nonneg h S) (Finset.mem_univ _)

/-! ### intermediate samples -/

theorem uniq_nodup (c : Fin n → ℕ) : (uniq c).Nodup := (List.nodup_finRange n).filter _

theorem mem_uniq {c : Fin n → ℕ} {i : Fin n} : i ∈ uniq c ↔ 0 < c i := by simp [uniq]

/-- position in the intermediate sample to item -/
def uniqEmb (c : Fin n → ℕ) : Fin (uniq c).length ↪ Fin n := ⟨(uniq c).get, List.nodup_iff_injective_get.1 (uniq_nodup c)⟩

/-- `alpha * √W * L * √W` on the intermediate sample -/
noncomputable def tildeM (L : Matrix (Fin n) (Fin n) ℝ) (α : ℝ) (w : Fin n → ℝ) (c : Fin n → ℕ) :
    Matrix (Fin (uniq c).length) (Fin (uniq c).length) ℝ :=
  (Matrix.of fun i j => α * Real.sqrt (w i) * L i j * Real.sqrt (w j)).submatrix (uniqEmb c) (uniqEmb c)

variable {L : Matrix (Fin n) (Fin n) ℝ} {α : ℝ} {w : Fin n → ℝ} {c : Fin n → ℕ}

theorem tildeM_psd (hL : L.PosSemidef) (hα : 0 ≤ α) : (tildeM L α w c).PosSemidef := by
  unfold tildeM
  refine Matrix.PosSemidef.submatrix ?_ _
  have : (Matrix.of fun i j => α * Real.sqrt (w i) * L i j * Real.sqrt (w j))
      = α • ((diagonal fun i => Real.sqrt (w i)) * L * (diagonal fun i => Real.sqrt (w i))ᴴ) := by
    ext i j
    rw [Matrix.smul_apply, diagonal_conjTranspose, mul_diagonal, diagonal_mul]
    simp
    ring
  rw [this]
  exact (hL.mul_mul_conjTranspose_same _).smul hα

/-- The law of the sample of the restricted DPP, as a set of items. -/
theorem tilde_law {inner : DppSampler} (hin : InnerSpec inner) (hL : L.PosSemidef) (hα : 0 ≤ α) (hw : ∀ i, 0 ≤ w i)
    (hc : ∀ i, c i = 0 → w i = 0) (T : Finset (Fin n)) :
    ENNReal.ofReal (1 + tildeM L α w c).det *
        PP ((inner _ (tildeM L α w c)).map (Outcome.map (List.map (uniq c).get))) (Returns T)
      = ENNReal.ofReal (α ^ T.card * (∏ i ∈ T, w i) * minor L T) := by
  classical
  have hpsd := tildeM_psd (w := w) (c := c) hL hα
  have hdet := det_one_add_pos hpsd
  by_cases hT : ∀ i ∈ T, 0 < c i
  · obtain ⟨S, hS⟩ : ∃ S : Finset (Fin (uniq c).length), S.map (uniqEmb c) = T := by
      refine ⟨Finset.univ.filter fun a => uniqEmb c a ∈ T, ?_⟩
      ext i
      simp only [Finset.mem_map, Finset.mem_filter, Finset.mem_univ, true_and]
      constructor
      · rintro ⟨a, ha, rfl⟩; exact ha
      · intro hi
        obtain ⟨a, ha⟩ := List.mem_iff_get.1 (mem_uniq.2 (hT i hi))
        exact ⟨a, by rw [show uniqEmb c a = i from ha]; exact hi, ha⟩
    have h1 : PP ((inner _ (tildeM L α w c)).map (Outcome.map (List.map (uniq c).get))) (Returns T)
        = PP (inner _ (tildeM L α w c)) (Returns S) := by
      unfold PP
      rw [PE_map]
      refine PE_congr fun o ho => ?_
      congr 1
      rw [eq_iff_iff]
      obtain ⟨l, rfl, -⟩ := hin.nodup _ _ hpsd o ho
      unfold Returns Outcome.map
      simp only [Outcome.ok.injEq, exists_eq_left']
      rw [← hS, ← Finset.map_inj (f := uniqEmb c)]
      have : (List.map (uniq c).get l).toFinset = l.toFinset.map (uniqEmb c) := by
        ext i; simp [uniqEmb]
      rw [this]
    rw [h1, hin.law _ _ hpsd, lDppProb, ← ENNReal.ofReal_mul hdet.le, mul_div_cancel₀ _ hdet.ne']
    congr 1
    unfold tildeM
    rw [minor_map, hS, minor_scale]
    simp_rw [Real.sq_sqrt (hw _)]
  · push Not at hT
    obtain ⟨i, hi, h0⟩ := hT
    rw [Finset.prod_eq_zero hi (hc i (by omega))]
    simp only [mul_zero, zero_mul, ENNReal.ofReal_zero, mul_eq_zero, ENNReal.ofReal_eq_zero]
    right
    unfold PP
    rw [PE_map, PE_eq_zero]
    intro o ho
    rw [if_neg]
    obtain ⟨l, rfl, -⟩ := hin.nodup _ _ hpsd o ho
    rintro ⟨l', he, rfl⟩
    unfold Outcome.map at he
    simp only [Outcome.ok.injEq] at he
    subst he
    simp only [List.mem_toFinset, List.mem_map] at hi
    obtain ⟨a, -, rfl⟩ := hi
    have := mem_uniq.1 ((uniq c).get_mem a)
    omega

/-- every sample of the restricted DPP is a list of distinct items of the intermediate sample -/
theorem tilde_nodup {inner : DppSampler} (hin : InnerSpec inner) (hL : L.PosSemidef) (hα : 0 ≤ α)
    {o : Outcome (List (Fin n))}
    (ho : o ∈ ((inner _ (tildeM L α w c)).map (Outcome.map (List.map (uniq c).get))).support) :
    ∃ l, o = .ok l ∧ l.Nodup ∧ ∀ i ∈ l, 0 < c i := by
  rw [PMF.mem_support_map_iff] at ho
  obtain ⟨o, ho, rfl⟩ := ho
  obtain ⟨l, rfl, hl⟩ := hin.nodup _ _ (tildeM_psd hL hα) o ho
  refine ⟨_, rfl, hl.map (uniqEmb c).injective, ?_⟩
  intro i hi
  obtain ⟨a, -, rfl⟩ := List.mem_map.1 hi
  exact mem_uniq.1 ((uniq c).get_mem a)

end Verif
