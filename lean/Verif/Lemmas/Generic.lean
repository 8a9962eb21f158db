import Verif.Model.Exact
import Verif.Lemmas.Minor
import Mathlib.LinearAlgebra.Matrix.Determinant.Basic
import Mathlib.LinearAlgebra.Matrix.Block
import Mathlib.Algebra.Order.BigOperators.Group.Finset

namespace Verif.Model
open Verif Verif.Spec

section
variable {ι R : Type*} [DecidableEq ι]

/-- rows of `A` on `S`, rows of `1 - A` outside `S` -/
def mixRows [CommRing R] (A : Matrix ι ι R) (S : Finset ι) : Matrix ι ι R :=
  fun i j => if i ∈ S then A i j else (1 : Matrix ι ι R) i j - A i j

theorem mixRows_congr [CommRing R] {A B : Matrix ι ι R} {S U : Finset ι}
    (h : ∀ i ∈ U, ∀ j ∈ U, A i j = B i j) :
    minor (mixRows A S) U = minor (mixRows B S) U := by
  apply minor_congr
  intro i hi j hj
  simp only [mixRows, h i hi j hj]

theorem minor_mixRows_mem [Field R] {A : Matrix ι ι R} {S U : Finset ι} {j : ι} (hU : j ∈ U)
    (hS : j ∈ S) (ha : A j j ≠ 0) :
    minor (mixRows A S) U = A j j * minor (mixRows (elim A j) (S.erase j)) (U.erase j) := by
  have hjj : mixRows A S j j = A j j := by simp [mixRows, hS]
  rw [minor_elim hU (by rwa [hjj]), hjj]
  congr 1
  apply minor_congr
  intro i hi k hk
  have hij := (Finset.mem_erase.1 hi).1
  have hkj := (Finset.mem_erase.1 hk).1
  simp only [elim, mixRows, hS, if_true, Finset.mem_erase, ne_eq, hij, not_false_eq_true, true_and]
  by_cases h : i ∈ S
  · simp [h]
  · simp [h, hij, Matrix.one_apply]; ring

/-- elimination step with the pivot shifted by one -/
def elimOut [Field R] (A : Matrix ι ι R) (j : ι) : Matrix ι ι R :=
  fun a c => A a c - A a j * A j c / (A j j - 1)

theorem minor_mixRows_notMem [Field R] {A : Matrix ι ι R} {S U : Finset ι} {j : ι} (hU : j ∈ U)
    (hS : j ∉ S) (ha : A j j ≠ 1) :
    minor (mixRows A S) U
      = (1 - A j j) * minor (mixRows (elimOut A j) S) (U.erase j) := by
  have hjj : mixRows A S j j = 1 - A j j := by simp [mixRows, hS]
  have h1 : (1 - A j j) ≠ 0 := sub_ne_zero.2 (Ne.symm ha)
  have h2 : (A j j - 1) ≠ 0 := sub_ne_zero.2 ha
  rw [minor_elim hU (by rwa [hjj]), hjj]
  congr 1
  apply minor_congr
  intro i hi k hk
  have hij := (Finset.mem_erase.1 hi).1
  have hkj := (Finset.mem_erase.1 hk).1
  simp only [elim, elimOut, mixRows, hS, if_false, Matrix.one_apply_eq]
  have e : A i j * A j k / (A j j - 1) = - (A i j * A j k / (1 - A j j)) := by
    rw [← div_neg]; congr 1; ring
  by_cases h : i ∈ S
  · simp only [h, if_true, Matrix.one_apply_ne (Ne.symm hkj)]
    rw [e]; ring
  · simp only [h, if_false, Matrix.one_apply_ne (Ne.symm hkj), Matrix.one_apply_ne hij]
    rw [e]; ring

/-- rows of `A` on `T`, rows of the identity elsewhere -/
def idRows [CommRing R] (A : Matrix ι ι R) (T : Finset ι) : Matrix ι ι R :=
  fun i j => if i ∈ T then A i j else (1 : Matrix ι ι R) i j

theorem minor_idRows [CommRing R] (A : Matrix ι ι R) (T V : Finset ι) (hV : T ⊆ V) :
    minor (idRows A T) V = minor A T := by
  unfold minor
  let p : V → Prop := fun i => i.1 ∈ T
  rw [Matrix.twoBlockTriangular_det _ p]
  · have e2 : (Matrix.toSquareBlockProp ((idRows A T).submatrix
        (Subtype.val : V → ι) (Subtype.val : V → ι)) (fun i => ¬ p i)) = 1 := by
      ext i j
      have : ¬ (i.1.1 ∈ T) := i.2
      simp only [Matrix.toSquareBlockProp, Matrix.toBlock_apply,
        Matrix.submatrix_apply, idRows, this, if_false, Matrix.one_apply, Subtype.ext_iff]
    rw [e2, Matrix.det_one, mul_one]
    let e : T ≃ {i : V // p i} :=
      { toFun := fun x => ⟨⟨x.1, hV x.2⟩, x.2⟩
        invFun := fun x => ⟨x.1.1, x.2⟩
        left_inv := fun x => rfl
        right_inv := fun x => rfl }
    rw [← Matrix.det_submatrix_equiv_self e]
    congr 1
    ext i j
    simp [Matrix.toSquareBlockProp, e, idRows]
  · intro i hi j hj
    have hi' : i.1 ∉ T := hi
    have hj' : j.1 ∈ T := hj
    have hne : i.1 ≠ j.1 := fun h => hi' (h ▸ hj')
    simp [idRows, hi', Matrix.one_apply_ne hne]

/-- the sub-family indexed by subsets of `U` that contain `T` -/
theorem sum_mixRows [CommRing R] (A : Matrix ι ι R) (T U : Finset ι) (hT : T ⊆ U) :
    ∑ S ∈ (U \ T).powerset, minor (mixRows A (S ∪ T)) U = minor A T := by
  classical
  -- multilinearity in the rows
  let f := (Matrix.detRowAlternating (n := U) (R := R)).toMultilinearMap
  let m : U → (U → R) := fun i j => A i j
  let m' : U → (U → R) := fun i j => if i.1 ∈ T then 0 else (1 : Matrix ι ι R) i j - A i j
  have hadd : f (m + m') = ∑ s : Finset U, f (s.piecewise m m') := f.map_add_univ m m'
  have hL : f (m + m') = minor A T := by
    -- rows of A on T, identity rows elsewhere
    rw [← minor_idRows A T U hT]
    show Matrix.det _ = Matrix.det _
    congr 1
    ext i j
    show m i j + m' i j = idRows A T i j
    simp only [m, m', idRows]
    split <;> ring
  rw [hL] at hadd
  rw [hadd]
  symm
  -- only sets containing T contribute
  have hz : ∀ s : Finset U, ¬ (∀ i : U, i.1 ∈ T → i ∈ s) → f (s.piecewise m m') = 0 := by
    intro s hs
    push Not at hs
    obtain ⟨i, hiT, his⟩ := hs
    apply f.map_coord_zero i
    funext j
    simp [Finset.piecewise, his, m', hiT]
  rw [← Finset.sum_filter_add_sum_filter_not Finset.univ (fun s : Finset U => ∀ i : U, i.1 ∈ T → i ∈ s)]
  rw [Finset.sum_eq_zero (s := Finset.univ.filter fun s : Finset U => ¬ ∀ i : U, i.1 ∈ T → i ∈ s)
    (fun s hs => hz s (Finset.mem_filter.1 hs).2), add_zero]
  symm
  apply Finset.sum_nbij' (fun S => (Finset.univ : Finset U).filter (fun i => i.1 ∈ S ∪ T))
    (fun s => (s.map (Function.Embedding.subtype _)) \ T)
  · intro S hS
    simp only [Finset.mem_filter, Finset.mem_univ, true_and]
    intro i hi
    exact Finset.mem_union_right _ hi
  · intro s hs
    simp only [Finset.mem_powerset]
    intro x hx
    simp only [Finset.mem_sdiff, Finset.mem_map, Function.Embedding.subtype_apply, Subtype.exists,
      exists_and_right, exists_eq_right] at hx ⊢
    exact ⟨hx.1.1, hx.2⟩
  · intro S hS
    simp only [Finset.mem_powerset] at hS
    ext x
    simp only [Finset.mem_sdiff, Finset.mem_map, Finset.mem_filter, Finset.mem_univ, true_and,
      Function.Embedding.subtype_apply, Subtype.exists, exists_and_left, exists_prop,
      exists_eq_right_right, Finset.mem_union]
    constructor
    · rintro ⟨⟨h1, h2⟩, h3⟩
      tauto
    · intro h
      have := Finset.mem_sdiff.1 (hS h)
      exact ⟨⟨.inl h, this.1⟩, this.2⟩
  · intro s hs
    simp only [Finset.mem_filter, Finset.mem_univ, true_and] at hs
    ext x
    simp only [Finset.mem_filter, Finset.mem_univ, true_and, Finset.mem_union, Finset.mem_sdiff,
      Finset.mem_map, Function.Embedding.subtype_apply, Subtype.exists, exists_and_right,
      exists_eq_right]
    constructor
    · rintro (⟨⟨h, h'⟩, -⟩ | h)
      · exact h'
      · exact hs x h
    · intro h
      by_cases hT : x.1 ∈ T
      · exact .inr hT
      · exact .inl ⟨⟨x.2, h⟩, hT⟩
  · intro S hS
    show minor _ U = f _
    unfold minor
    show Matrix.det _ = Matrix.det _
    congr 1
    ext i j
    simp only [Matrix.submatrix_apply, mixRows, Finset.piecewise, Finset.mem_filter,
      Finset.mem_univ, true_and, m, m']
    by_cases h : i.1 ∈ S ∪ T
    · simp only [h, if_true]
    · have hT : i.1 ∉ T := fun hc => h (Finset.mem_union_right _ hc)
      simp only [h, hT, if_false]

end
end Verif.Model
