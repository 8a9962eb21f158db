import Verif.Lemmas.UST
import Verif.Lemmas.FiniteAlg
import Mathlib.LinearAlgebra.Matrix.ToLinearEquiv
import Mathlib.LinearAlgebra.Matrix.Determinant.Basic

/-! Reduced incidence matrices: the square sub-determinants are `±1` on spanning trees and `0` elsewhere. -/

set_option linter.unusedSectionVars false

namespace Verif.Model
open Verif Verif.Spec Matrix

variable {d m : ℕ}

/-- integer version of `incEntry` -/
def incZ (e : Fin (d + 1) × Fin (d + 1)) (v : Fin (d + 1)) : ℤ :=
  if e.1 = e.2 then 0 else if v = e.1 then -1 else if v = e.2 then 1 else 0

theorem incEntry_cast (e : Fin (d + 1) × Fin (d + 1)) (v : Fin (d + 1)) : incEntry e v = (incZ e v : ℝ) := by
  unfold incEntry incZ; split_ifs <;> simp

theorem incZ_eq (e : Fin (d + 1) × Fin (d + 1)) (v : Fin (d + 1)) :
    incZ e v = (if v = e.2 then 1 else 0) - (if v = e.1 then 1 else 0) := by
  unfold incZ
  by_cases h : e.1 = e.2
  · simp [h]
  · rw [if_neg h]
    by_cases h1 : v = e.1
    · have : v ≠ e.2 := fun h2 => h (h1.symm.trans h2)
      simp [h1, h]
    · have h' : ¬ e.2 = e.1 := fun h3 => h h3.symm
      by_cases h2 : v = e.2 <;> simp [h1, h2, h']

theorem sum_incZ (x : Fin (d + 1) → ℤ) (e : Fin (d + 1) × Fin (d + 1)) :
    ∑ v, x v * incZ e v = x e.2 - x e.1 := by
  simp_rw [incZ_eq, mul_sub, Finset.sum_sub_distrib]
  simp

/-- the square block of the reduced incidence matrix with columns `E 0, ..., E (d-1)` -/
def blockZ (E : Fin d → Fin (d + 1) × Fin (d + 1)) : Matrix (Fin d) (Fin d) ℤ :=
  Matrix.of fun k j => incZ (E j) k.castSucc

/-- the edges as a list -/
def edgesOf (E : Fin d → Fin (d + 1) × Fin (d + 1)) : List (Fin (d + 1) × Fin (d + 1)) := List.ofFn E

theorem adj_edgesOf {E : Fin d → Fin (d + 1) × Fin (d + 1)} {a b : Fin (d + 1)} :
    (graphOf (edgesOf E)).Adj a b ↔ a ≠ b ∧ ∃ j, E j = (a, b) ∨ E j = (b, a) := by
  rw [graphOf_adj]
  simp only [edgesOf, List.mem_ofFn]
  constructor
  · rintro ⟨h, ⟨j, hj⟩ | ⟨j, hj⟩⟩
    · exact ⟨h, j, Or.inl hj⟩
    · exact ⟨h, j, Or.inr hj⟩
  · rintro ⟨h, j, hj | hj⟩
    · exact ⟨h, Or.inl ⟨j, hj⟩⟩
    · exact ⟨h, Or.inr ⟨j, hj⟩⟩

theorem det_block_connected {E : Fin d → Fin (d + 1) × Fin (d + 1)} (h : (graphOf (edgesOf E)).Connected) :
    (blockZ E).det ^ 2 = 1 := by
  have hP : ∀ v, ∃ x : Fin d → ℤ, ∀ u : Fin (d + 1),
      ∑ j, incZ (E j) u * x j = (if u = v then 1 else 0) - (if u = Fin.last d then 1 else 0) := by
    intro v
    have hr : (graphOf (edgesOf E)).Reachable (Fin.last d) v := h.preconnected _ _
    rw [SimpleGraph.reachable_iff_reflTransGen] at hr
    induction hr with
    | refl => exact ⟨fun _ => 0, fun u => by simp⟩
    | tail _ hab ih =>
      rename_i b c _
      obtain ⟨x, hx⟩ := ih
      obtain ⟨hne, j, hj⟩ := adj_edgesOf.1 hab
      rcases hj with hj | hj
      · refine ⟨fun i => x i + if i = j then 1 else 0, fun u => ?_⟩
        simp only [mul_add, Finset.sum_add_distrib, hx u]
        simp [incZ_eq, hj]
      · refine ⟨fun i => x i - if i = j then 1 else 0, fun u => ?_⟩
        simp only [mul_sub, Finset.sum_sub_distrib, hx u]
        simp [incZ_eq, hj]
  choose x hx using hP
  have hmul : blockZ E * (Matrix.of fun j k => x (Fin.castSucc k) j) = 1 := by
    ext k l
    rw [Matrix.mul_apply, Matrix.one_apply]
    have := hx l.castSucc k.castSucc
    simp only [blockZ, Matrix.of_apply]
    rw [this, if_neg (Fin.castSucc_lt_last k).ne]
    simp
  have hdet := congrArg Matrix.det hmul
  rw [Matrix.det_mul, Matrix.det_one] at hdet
  rcases Int.isUnit_iff.1 (IsUnit.of_mul_eq_one _ hdet) with h1 | h1 <;> rw [h1] <;> norm_num

theorem det_block_not_connected {E : Fin d → Fin (d + 1) × Fin (d + 1)}
    (h : ¬ (graphOf (edgesOf E)).Connected) : (blockZ E).det = 0 := by
  classical
  have : ∃ v, ¬ (graphOf (edgesOf E)).Reachable (Fin.last d) v := by
    by_contra hc
    push Not at hc
    apply h
    rw [SimpleGraph.connected_iff]
    exact ⟨fun a b => (hc a).symm.trans (hc b), ⟨Fin.last d⟩⟩
  obtain ⟨v, hv⟩ := this
  let c : Fin (d + 1) → ℤ := fun u => if (graphOf (edgesOf E)).Reachable (Fin.last d) u then 0 else 1
  rw [← Matrix.exists_vecMul_eq_zero_iff]
  refine ⟨fun k => c k.castSucc, ?_, ?_⟩
  · intro h0
    have hvl : v ≠ Fin.last d := fun e => hv (e ▸ SimpleGraph.Reachable.refl _)
    obtain ⟨k, rfl⟩ := Fin.exists_castSucc_eq.2 hvl
    have := congrFun h0 k
    simp [c, hv] at this
  · ext j
    have h1 := sum_incZ c (E j)
    rw [Fin.sum_univ_castSucc] at h1
    have hl : c (Fin.last d) = 0 := by simp [c]
    rw [hl, zero_mul, add_zero] at h1
    simp only [Matrix.vecMul, dotProduct, blockZ, Matrix.of_apply, Pi.zero_apply]
    rw [h1]
    by_cases he : (E j).1 = (E j).2
    · rw [he]; simp
    · have hadj : (graphOf (edgesOf E)).Adj (E j).1 (E j).2 := adj_edgesOf.2 ⟨he, j, Or.inl rfl⟩
      have : (graphOf (edgesOf E)).Reachable (Fin.last d) (E j).1 ↔ (graphOf (edgesOf E)).Reachable (Fin.last d) (E j).2 :=
        ⟨fun h => h.trans hadj.reachable, fun h => h.trans hadj.symm.reachable⟩
      simp only [c, this]; simp

/-- rows of the reduced incidence matrix of a connected graph are independent -/
theorem inc_rows_independent {E : Fin m → Fin (d + 1) × Fin (d + 1)}
    (h : (graphOf (List.ofFn E)).Connected) :
    LinearIndependent ℝ (fun (k : Fin d) (e : Fin m) => incEntry (E e) k.castSucc) := by
  rw [Fintype.linearIndependent_iff]
  intro g hg
  let x : Fin (d + 1) → ℝ := fun v => if hv : v.val < d then g ⟨v.val, hv⟩ else 0
  have hx : ∀ k : Fin d, x k.castSucc = g k := fun k => by simp [x]
  have hxl : x (Fin.last d) = 0 := by simp [x]
  have he : ∀ e, x (E e).2 = x (E e).1 := by
    intro e
    have h1 := congrFun hg e
    simp only [Finset.sum_apply, Pi.smul_apply, smul_eq_mul, Pi.zero_apply] at h1
    have h2 : ∑ v, x v * incEntry (E e) v = x (E e).2 - x (E e).1 := by
      have : ∀ v, incEntry (E e) v = (if v = (E e).2 then 1 else 0) - (if v = (E e).1 then 1 else 0) := by
        intro v; rw [incEntry_cast, incZ_eq]; push_cast; split_ifs <;> simp
      simp_rw [this, mul_sub, Finset.sum_sub_distrib]
      simp
    rw [Fin.sum_univ_castSucc, hxl, zero_mul, add_zero] at h2
    simp only [hx] at h2
    rw [h1] at h2
    linarith
  have hall : ∀ v, x v = 0 := by
    intro v
    have hr : (graphOf (List.ofFn E)).Reachable (Fin.last d) v := h.preconnected _ _
    rw [SimpleGraph.reachable_iff_reflTransGen] at hr
    induction hr with
    | refl => exact hxl
    | tail _ hab ih =>
      rename_i b c _
      obtain ⟨-, h1⟩ := graphOf_adj.1 hab
      rcases h1 with h1 | h1
      · obtain ⟨j, hj⟩ := (List.mem_ofFn' _ _).1 h1
        have := he j; rw [hj] at this; simp only at this; rw [this, ih]
      · obtain ⟨j, hj⟩ := (List.mem_ofFn' _ _).1 h1
        have := he j; rw [hj] at this; simp only at this; rw [← this, ih]
  intro k
  rw [← hx k, hall]

/-- Minors of the projection on the rows. -/
theorem minor_rowProj (A : Fin d → Fin m → ℝ) (S : Finset (Fin m)) (f : Fin d ≃ S) :
    minor (rowProj A) S = (Matrix.of fun k j => A k (f j)).det ^ 2 * ((Matrix.of A * (Matrix.of A)ᵀ)⁻¹).det := by
  unfold minor
  rw [← Matrix.det_submatrix_equiv_self f]
  have : ((rowProj A).submatrix (Subtype.val : S → Fin m) (Subtype.val : S → Fin m)).submatrix f f
      = (Matrix.of fun k j => A k (f j))ᵀ * (Matrix.of A * (Matrix.of A)ᵀ)⁻¹ * (Matrix.of fun k j => A k (f j)) := by
    ext i j
    simp only [rowProj, Matrix.submatrix_apply, Matrix.mul_apply, Matrix.transpose_apply, Matrix.of_apply]
  rw [this, Matrix.det_mul, Matrix.det_mul, Matrix.det_transpose]
  ring

end Verif.Model
