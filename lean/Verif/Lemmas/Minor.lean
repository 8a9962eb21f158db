import Verif.Spec.Det
import Mathlib.LinearAlgebra.Matrix.SchurComplement
import Mathlib.LinearAlgebra.Matrix.NonsingularInverse
import Mathlib.Tactic.Ring
import Mathlib.Tactic.LinearCombination
import Mathlib.Tactic.FieldSimp
import Mathlib.Tactic.Linarith

namespace Verif
open Verif.Spec

variable {ι R : Type*} [DecidableEq ι]

theorem minor_congr [CommRing R] {A B : Matrix ι ι R} {S : Finset ι}
    (h : ∀ i ∈ S, ∀ j ∈ S, A i j = B i j) : minor A S = minor B S := by
  unfold minor
  congr 1
  ext i j
  exact h i i.2 j j.2

@[simp] theorem minor_empty [CommRing R] (A : Matrix ι ι R) : minor A ∅ = 1 := by
  unfold minor
  exact Matrix.det_isEmpty

theorem minor_singleton [CommRing R] (A : Matrix ι ι R) (i : ι) : minor A {i} = A i i := by
  unfold minor
  rw [Matrix.det_unique]
  rfl

theorem minor_row_zero [CommRing R] {A : Matrix ι ι R} {S : Finset ι} {y : ι} (hy : y ∈ S)
    (h : ∀ x ∈ S, A y x = 0) : minor A S = 0 := by
  unfold minor
  apply Matrix.det_eq_zero_of_row_eq_zero ⟨y, hy⟩
  intro j
  exact h j j.2

theorem minor_univ [CommRing R] [Fintype ι] (A : Matrix ι ι R) : minor A Finset.univ = A.det := by
  unfold minor
  have e : (Finset.univ : Finset ι) ≃ ι := Equiv.subtypeUnivEquiv (by simp)
  exact Matrix.det_submatrix_equiv_self (Equiv.subtypeUnivEquiv (by simp)) A

/-- one step of Gaussian elimination / Schur complement with pivot `y` -/
def elim [Field R] (A : Matrix ι ι R) (y : ι) : Matrix ι ι R :=
  fun a b => A a b - A a y * A y b / A y y

/-- the equivalence separating a point from the rest of a finite set -/
def splitEquiv {S : Finset ι} {y : ι} (hy : y ∈ S) : Unit ⊕ (S.erase y) ≃ S where
  toFun
    | .inl _ => ⟨y, hy⟩
    | .inr x => ⟨x.1, Finset.mem_of_mem_erase x.2⟩
  invFun x := if h : x.1 = y then .inl () else .inr ⟨x.1, Finset.mem_erase.2 ⟨h, x.2⟩⟩
  left_inv := by
    rintro (_ | ⟨x, hx⟩)
    · simp
    · have := (Finset.mem_erase.1 hx).1
      simp [this]
  right_inv := by
    rintro ⟨x, hx⟩
    by_cases h : x = y
    · subst h; simp
    · simp [h]

theorem minor_elim [Field R] {A : Matrix ι ι R} {S : Finset ι} {y : ι} (hy : y ∈ S)
    (hA : A y y ≠ 0) : minor A S = A y y * minor (elim A y) (S.erase y) := by
  unfold minor
  rw [← Matrix.det_submatrix_equiv_self (splitEquiv hy)]
  have hblock : ((A.submatrix (Subtype.val : S → ι) (Subtype.val : S → ι)).submatrix
      (splitEquiv hy) (splitEquiv hy))
      = Matrix.fromBlocks (Matrix.of fun (_ _ : Unit) => A y y)
          (Matrix.of fun (_ : Unit) (b : S.erase y) => A y b)
          (Matrix.of fun (a : S.erase y) (_ : Unit) => A a y)
          (Matrix.of fun (a b : S.erase y) => A a b) := by
    ext a b
    rcases a with a | a <;> rcases b with b | b <;> rfl
  rw [hblock]
  have hinv : (Matrix.of fun (_ _ : Unit) => A y y) * (Matrix.of fun (_ _ : Unit) => (A y y)⁻¹) = 1 := by
    ext a b
    simp [Matrix.mul_apply, hA]
  have hinv' : (Matrix.of fun (_ _ : Unit) => (A y y)⁻¹) * (Matrix.of fun (_ _ : Unit) => A y y) = 1 := by
    ext a b
    simp [Matrix.mul_apply, hA]
  let _ : Invertible (Matrix.of fun (_ _ : Unit) => A y y) :=
    ⟨Matrix.of fun (_ _ : Unit) => (A y y)⁻¹, hinv', hinv⟩
  rw [Matrix.det_fromBlocks₁₁]
  congr 1
  · rw [Matrix.det_unique]; rfl
  · congr 1
    ext a b
    have : ⅟(Matrix.of fun (_ _ : Unit) => A y y) = Matrix.of fun (_ _ : Unit) => (A y y)⁻¹ := rfl
    simp only [this, Matrix.sub_apply, Matrix.mul_apply, Matrix.of_apply, Matrix.submatrix_apply,
      elim, Finset.univ_unique, Finset.sum_singleton]
    ring

end Verif
