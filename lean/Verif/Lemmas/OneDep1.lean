import Verif.Spec.PointProcess
import Mathlib.LinearAlgebra.Matrix.Adjugate
import Mathlib.LinearAlgebra.Matrix.Block
import Mathlib.RingTheory.PowerSeries.Inverse

/-!
# Translation invariant kernels with one subdiagonal

Determinants of the blocks of `k(j - i)` when `k` vanishes below `-1`: they factor over the runs of consecutive indices, and the
determinant of a run of length `l` is the coefficient of order `l` of `-1 / (sum_n k(n-1) z^n)`.
-/

namespace Verif.Lemmas
open Finset Matrix Verif.Spec

variable {R : Type*} [CommRing R]

/-- upper triangular Toeplitz matrix -/
def utoep (c : ℕ → R) (n : ℕ) : Matrix (Fin n) (Fin n) R := Matrix.of fun i j => if (i : ℕ) ≤ j then c (j - i) else 0

theorem utoep_mul (c d : ℕ → R) (n : ℕ) : utoep c n * utoep d n = utoep (fun m => PowerSeries.coeff m (PowerSeries.mk c * PowerSeries.mk d)) n := by
  ext i j
  rw [Matrix.mul_apply]
  simp only [utoep, Matrix.of_apply, PowerSeries.coeff_mul, PowerSeries.coeff_mk]
  rw [Fin.sum_univ_eq_sum_range (fun x => (if (i : ℕ) ≤ x then c (x - i) else 0) * if x ≤ (j : ℕ) then d (j - x) else 0) n]
  split_ifs with hij
  · rw [Finset.Nat.sum_antidiagonal_eq_sum_range_succ_mk]
    have hsub : (Finset.range ((j : ℕ) - i).succ).image (fun k => (i : ℕ) + k) ⊆ Finset.range n := fun x hx => by
      simp only [mem_image, mem_range] at hx ⊢
      obtain ⟨k, hk, rfl⟩ := hx
      have := j.2
      omega
    rw [← Finset.sum_subset hsub, Finset.sum_image fun a _ b _ h => by simpa using h]
    · refine sum_congr rfl fun k hk => ?_
      simp only [mem_range] at hk
      rw [if_pos (by omega), if_pos (by omega), show (i : ℕ) + k - i = k by omega, show (j : ℕ) - (i + k) = j - i - k by omega]
    · intro x _ hx
      by_cases h1 : (i : ℕ) ≤ x
      · by_cases h2 : x ≤ j
        · exact absurd (mem_image.2 ⟨x - i, by simp only [mem_range]; omega, by omega⟩) hx
        · rw [if_neg h2, mul_zero]
      · rw [if_neg h1, zero_mul]
  · refine sum_eq_zero fun x _ => ?_
    by_cases h1 : (i : ℕ) ≤ x
    · rw [if_neg (show ¬ x ≤ (j : ℕ) by omega), mul_zero]
    · rw [if_neg h1, zero_mul]

theorem utoep_det (c : ℕ → R) (n : ℕ) : (utoep c n).det = c 0 ^ n := by
  rw [Matrix.det_of_upperTriangular]
  · simp [utoep]
  · intro i j hij
    have h : (j : ℕ) < i := hij
    simp only [utoep, of_apply]
    rw [if_neg (by omega)]

/-- determinant of a run -/
theorem run_det {k : ℤ → R} {d : ℕ → R} (h1 : k (-1) = -1) (hk : ∀ m : ℤ, m < -1 → k m = 0)
    (hs : PowerSeries.mk (fun n : ℕ => k ((n : ℤ) - 1)) * PowerSeries.mk d = -1) (l : ℕ) :
    (Matrix.of fun i j : Fin l => k ((j : ℤ) - (i : ℤ))).det = d l := by
  set A := utoep (fun n : ℕ => k ((n : ℤ) - 1)) (l + 1) with hA
  have hAB : A * (-utoep d (l + 1)) = 1 := by
    rw [mul_neg, hA, utoep_mul, hs]
    ext i j
    simp only [utoep, Matrix.neg_apply, Matrix.of_apply, Matrix.one_apply, map_neg, PowerSeries.coeff_one]
    by_cases hij : i = j
    · subst hij; simp
    · rw [if_neg hij]
      by_cases hle : (i : ℕ) ≤ j
      · rw [if_pos hle, if_neg (fun h => hij (Fin.ext (by omega)))]; simp
      · rw [if_neg hle, neg_zero]
  have hdet : A.det = (-1) ^ (l + 1) := by
    rw [hA, utoep_det]
    simp [h1]
  have hadj : A.adjugate = A.det • (-utoep d (l + 1)) := by
    calc A.adjugate = A.adjugate * (A * (-utoep d (l + 1))) := by rw [hAB, mul_one]
      _ = A.det • (-utoep d (l + 1)) := by rw [← mul_assoc, adjugate_mul, smul_mul, one_mul]
  have h2 := congrFun (congrFun hadj 0) (Fin.last l)
  rw [adjugate_fin_succ_eq_det_submatrix, hdet] at h2
  simp only [Fin.val_last, Fin.val_zero, add_zero, Matrix.smul_apply, Matrix.neg_apply, utoep, of_apply, Nat.zero_le, if_true, Nat.sub_zero, smul_eq_mul] at h2
  have hsub : A.submatrix (Fin.last l).succAbove (Fin.succAbove 0) = Matrix.of fun i j : Fin l => k ((j : ℤ) - (i : ℤ)) := by
    ext i j
    simp only [hA, utoep, submatrix_apply, of_apply, Fin.succAbove_last, Fin.zero_succAbove, Fin.val_castSucc, Fin.val_succ]
    by_cases h : (i : ℕ) ≤ (j : ℕ) + 1
    · rw [if_pos h]
      congr 1
      push_cast [Nat.cast_sub h]
      ring
    · rw [if_neg h, hk]
      push_cast at h ⊢
      omega
  rw [hsub] at h2
  have h3 : ((-1 : R) ^ l) * ((-1) ^ l) = 1 := by rw [← mul_pow]; simp
  have := congrArg (fun x => (-1 : R) ^ l * x) h2
  simp only [← mul_assoc, h3, one_mul] at this
  rw [this, pow_succ, ← mul_assoc, h3]
  ring

/-- determinant of a block of the kernel -/
def bdet (k : ℤ → R) (A : Finset ℕ) : R := (Matrix.of fun i j : A => shiftKernel k i j).det

theorem bdet_empty (k : ℤ → R) : bdet k ∅ = 1 := by
  unfold bdet
  exact Matrix.det_isEmpty

theorem bdet_run {k : ℤ → R} {d : ℕ → R} (h1 : k (-1) = -1) (hk : ∀ m : ℤ, m < -1 → k m = 0)
    (hs : PowerSeries.mk (fun n : ℕ => k ((n : ℤ) - 1)) * PowerSeries.mk d = -1) (a l : ℕ) : bdet k (Ico a (a + l)) = d l := by
  rw [← run_det h1 hk hs l, bdet]
  let e : Fin l ≃ Ico a (a + l) :=
    { toFun := fun i => ⟨a + i, by simp⟩
      invFun := fun x => ⟨x.1 - a, by have := mem_Ico.1 x.2; omega⟩
      left_inv := fun i => by ext; simp
      right_inv := fun x => by have := mem_Ico.1 x.2; ext; simp only []; omega }
  rw [← Matrix.det_submatrix_equiv_self e]
  congr 1
  ext i j
  simp only [submatrix_apply, of_apply, shiftKernel, e, Equiv.coe_fn_mk]
  congr 1
  push_cast
  ring

theorem bdet_union {k : ℤ → R} (hk : ∀ m : ℤ, m < -1 → k m = 0) {A B : Finset ℕ} (h : ∀ x ∈ A, ∀ y ∈ B, x + 1 < y) :
    bdet k (A ∪ B) = bdet k A * bdet k B := by
  classical
  have hne : ∀ x ∈ B, x ∉ A := fun x hx hx' => by have := h x hx' x hx; omega
  rw [bdet, Matrix.twoBlockTriangular_det _ (fun x : (A ∪ B : Finset ℕ) => x.1 ∈ A)]
  · congr 1
    · let e : A ≃ {x : (A ∪ B : Finset ℕ) // x.1 ∈ A} :=
        { toFun := fun x => ⟨⟨x.1, mem_union_left _ x.2⟩, x.2⟩
          invFun := fun x => ⟨x.1.1, x.2⟩
          left_inv := fun _ => rfl
          right_inv := fun _ => rfl }
      rw [← Matrix.det_submatrix_equiv_self e]
      rfl
    · let e : B ≃ {x : (A ∪ B : Finset ℕ) // ¬ x.1 ∈ A} :=
        { toFun := fun x => ⟨⟨x.1, mem_union_right _ x.2⟩, hne x.1 x.2⟩
          invFun := fun x => ⟨x.1.1, (mem_union.1 x.1.2).resolve_left x.2⟩
          left_inv := fun _ => rfl
          right_inv := fun _ => rfl }
      rw [← Matrix.det_submatrix_equiv_self e]
      rfl
  · intro i hi j hj
    have hb := (mem_union.1 i.2).resolve_left hi
    have := h j.1 hj i.1 hb
    simp only [of_apply, shiftKernel]
    exact hk _ (by omega)

/-- a nonempty finite set is a run followed by a set at distance at least two -/
theorem exists_run {A : Finset ℕ} (hA : A.Nonempty) : ∃ a l B, 1 ≤ l ∧ A = Ico a (a + l) ∪ B ∧ ∀ x ∈ B, a + l < x := by
  classical
  set a := A.min' hA with ha
  have hex : ∃ l, a + l ∉ A := by
    refine ⟨A.sup id + 1, fun h => ?_⟩
    have := le_sup (f := id) h
    simp only [id] at this
    omega
  set l := Nat.find hex with hl
  have h1 : a + l ∉ A := Nat.find_spec hex
  have h2 : ∀ m < l, a + m ∈ A := fun m hm => not_not.1 (Nat.find_min hex hm)
  refine ⟨a, l, A.filter fun x => a + l < x, ?_, ?_, fun x hx => (mem_filter.1 hx).2⟩
  · by_contra h0
    have h0 : l = 0 := by omega
    rw [h0] at h1
    exact h1 (A.min'_mem hA)
  · ext x
    simp only [mem_union, mem_Ico, mem_filter]
    constructor
    · intro hx
      have := A.min'_le x hx
      rcases lt_trichotomy x (a + l) with h | h | h
      · exact .inl ⟨this, h⟩
      · exact absurd (h ▸ hx) h1
      · exact .inr ⟨hx, h⟩
    · rintro (h | h)
      · have := h2 (x - a) (by omega)
        rwa [show a + (x - a) = x by omega] at this
      · exact h.1

/-- a function of finite sets that factors over the runs is given by the determinants -/
theorem factor_det {k : ℤ → R} {d : ℕ → R} (h1 : k (-1) = -1) (hk : ∀ m : ℤ, m < -1 → k m = 0)
    (hs : PowerSeries.mk (fun n : ℕ => k ((n : ℤ) - 1)) * PowerSeries.mk d = -1) {G : Finset ℕ} {q : Finset ℕ → R} (h0 : q ∅ = 1)
    (hq : ∀ a l B, 1 ≤ l → Ico a (a + l) ⊆ G → B ⊆ G → (∀ x ∈ B, a + l < x) → q (Ico a (a + l) ∪ B) = d l * q B) :
    ∀ A : Finset ℕ, A ⊆ G → q A = bdet k A := by
  intro A
  induction hn : A.card using Nat.strong_induction_on generalizing A with
  | _ n ih =>
    intro hG
    rcases A.eq_empty_or_nonempty with rfl | hA
    · rw [h0, bdet_empty]
    · obtain ⟨a, l, B, hl, rfl, hB⟩ := exists_run hA
      have hd : Disjoint (Ico a (a + l)) B := disjoint_left.2 fun x hx hx' => by
        have := hB x hx'
        have := mem_Ico.1 hx
        omega
      have hc : B.card < n := by
        rw [← hn, card_union_of_disjoint hd, Nat.card_Ico]
        omega
      have hG2 := union_subset_iff.1 hG
      rw [hq a l B hl hG2.1 hG2.2 hB, ih B.card hc B rfl hG2.2, bdet_union hk, bdet_run h1 hk hs]
      intro x hx y hy
      have := hB y hy
      have := mem_Ico.1 hx
      omega

end Verif.Lemmas
