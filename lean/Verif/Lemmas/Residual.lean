import Verif.Lemmas.Minor
import Verif.Spec.Projection
import Mathlib.Algebra.BigOperators.Field

/-!
Residual matrices of an orthogonal projection: conditioning on an item keeps a projection and lowers
the trace by one.
-/

set_option linter.unusedSectionVars false

namespace Verif
open Spec

variable {ι 𝕜 : Type*} [Fintype ι] [DecidableEq ι] [RCLike 𝕜] {A : Matrix ι ι 𝕜}

theorem Spec.IsProjection.herm (h : IsProjection A) (i k : ι) : star (A i k) = A k i := by
  have := congrFun (congrFun h.1 k) i
  simpa [Matrix.conjTranspose_apply] using this

theorem Spec.IsProjection.idem (h : IsProjection A) (i l : ι) : ∑ k, A i k * A k l = A i l := by
  have := congrFun (congrFun h.2 i) l
  simpa [Matrix.mul_apply] using this

theorem Spec.IsProjection.diag (h : IsProjection A) (i : ι) :
    RCLike.re (A i i) = ∑ k, ‖A i k‖ ^ 2 := by
  have h1 := h.idem i i
  rw [← h1, map_sum]
  apply Finset.sum_congr rfl
  intro k _
  rw [← h.herm i k]
  have : A i k * star (A i k) = ((‖A i k‖ ^ 2 : ℝ) : 𝕜) := by
    rw [RCLike.star_def, RCLike.mul_conj]; push_cast; rfl
  rw [this, RCLike.ofReal_re]

theorem Spec.IsProjection.diag_nonneg (h : IsProjection A) (i : ι) : 0 ≤ RCLike.re (A i i) := by
  rw [h.diag]; exact Finset.sum_nonneg (fun k _ => by positivity)

theorem Spec.IsProjection.diag_real (h : IsProjection A) (i : ι) :
    ((RCLike.re (A i i) : ℝ) : 𝕜) = A i i := by
  rw [← RCLike.conj_eq_iff_re, ← RCLike.star_def, h.herm]

theorem Spec.IsProjection.re_eq_zero (h : IsProjection A) {i : ι} :
    RCLike.re (A i i) = 0 ↔ A i i = 0 := by
  rw [← h.diag_real i]; simp

theorem Spec.IsProjection.row_zero (h : IsProjection A) {i : ι} (hi : A i i = 0) (k : ι) :
    A i k = 0 := by
  have h1 := h.diag i
  rw [hi, map_zero] at h1
  have h2 := (Finset.sum_eq_zero_iff_of_nonneg (fun k _ => by positivity)).1 h1.symm k
    (Finset.mem_univ k)
  simpa using h2

theorem Spec.IsProjection.col_zero (h : IsProjection A) {i : ι} (hi : A i i = 0) (k : ι) :
    A k i = 0 := by
  rw [← h.herm i k, h.row_zero hi, star_zero]

theorem elim_apply (A : Matrix ι ι 𝕜) (y i k : ι) :
    elim A y i k = A i k - A i y * A y k / A y y := rfl

theorem Spec.IsProjection.elim (h : IsProjection A) (y : ι) : IsProjection (elim A y) := by
  constructor
  · ext i k
    rw [Matrix.conjTranspose_apply, elim_apply, elim_apply, star_sub, star_div₀, star_mul,
      h.herm, h.herm, h.herm, h.herm]
  · ext i l
    rw [Matrix.mul_apply]
    by_cases hy : A y y = 0
    · simp only [elim_apply, hy, div_zero, sub_zero]
      exact h.idem i l
    · have e : ∀ k, Verif.elim A y i k * Verif.elim A y k l
          = A i k * A k l - (A i y / A y y) * (A y k * A k l) - (A i k * A k y) * (A y l / A y y)
            + (A i y / A y y) * (A y k * A k y) * (A y l / A y y) := by
        intro k; rw [elim_apply, elim_apply]; ring
      simp only [e, Finset.sum_add_distrib, Finset.sum_sub_distrib, ← Finset.mul_sum,
        ← Finset.sum_mul, h.idem]
      rw [elim_apply]
      field_simp
      ring

theorem trace_elim (h : IsProjection A) {y : ι} (hy : A y y ≠ 0) :
    (elim A y).trace = A.trace - 1 := by
  simp only [Matrix.trace, Matrix.diag_apply, elim_apply, Finset.sum_sub_distrib]
  congr 1
  rw [← Finset.sum_div]
  have : ∑ i, A i y * A y i = A y y := by
    rw [← h.idem y y]
    exact Finset.sum_congr rfl (fun i _ => mul_comm _ _)
  rw [this, div_self hy]

theorem elim_diag_zero (h : IsProjection A) {y i : ι} (hi : A i i = 0) : elim A y i i = 0 := by
  rw [elim_apply, hi, h.row_zero hi]; simp

theorem elim_self {y : ι} (_hy : A y y ≠ 0) : elim A y y y = 0 := by
  rw [elim_apply]; field_simp; ring

/-- the trace of a projection is a natural number -/
theorem Spec.IsProjection.trace_nat (h : IsProjection A) : ∃ r : ℕ, A.trace = r := by
  classical
  generalize hn : (Finset.univ.filter fun i => A i i ≠ 0).card = n
  induction n using Nat.strong_induction_on generalizing A with
  | _ n ih =>
    by_cases h0 : ∃ y, A y y ≠ 0
    · obtain ⟨y, hy⟩ := h0
      have hlt : (Finset.univ.filter fun i => (Verif.elim A y) i i ≠ 0).card < n := by
        rw [← hn]
        apply Finset.card_lt_card
        refine ⟨?_, ?_⟩
        · intro i hi
          simp only [Finset.mem_filter, Finset.mem_univ, true_and] at hi ⊢
          exact fun hc => hi (elim_diag_zero h hc)
        · intro hc
          have := hc (Finset.mem_filter.2 ⟨Finset.mem_univ y, hy⟩)
          simp only [Finset.mem_filter, Finset.mem_univ, true_and] at this
          exact this (elim_self hy)
      obtain ⟨r, hr⟩ := ih _ hlt (h.elim y) rfl
      rw [trace_elim h hy] at hr
      exact ⟨r + 1, by push_cast; rw [← hr]; ring⟩
    · push Not at h0
      exact ⟨0, by simp [Matrix.trace, h0]⟩

/-- principal minors of a projection are real and non-negative -/
theorem minor_proj_re (h : IsProjection A) (S : Finset ι) :
    0 ≤ RCLike.re (minor A S) ∧ ((RCLike.re (minor A S) : ℝ) : 𝕜) = minor A S := by
  classical
  induction S using Finset.strongInduction generalizing A with
  | _ S ih =>
    rcases S.eq_empty_or_nonempty with rfl | ⟨y, hy⟩
    · simp
    · by_cases h0 : A y y = 0
      · rw [minor_row_zero hy (fun k _ => h.row_zero h0 k)]; simp
      · rw [minor_elim hy h0]
        obtain ⟨i1, i2⟩ := ih (S.erase y) (Finset.erase_ssubset hy) (h.elim y)
        rw [← i2, ← h.diag_real y, ← RCLike.ofReal_mul, RCLike.ofReal_re]
        exact ⟨mul_nonneg (h.diag_nonneg y) i1, rfl⟩

/-- product formula for real parts -/
theorem re_minor_elim (h : IsProjection A) {S : Finset ι} {y : ι} (hy : y ∈ S) :
    RCLike.re (A y y) * RCLike.re (minor (elim A y) (S.erase y)) = RCLike.re (minor A S) := by
  by_cases h0 : A y y = 0
  · rw [minor_row_zero hy (fun k _ => h.row_zero h0 k), h0]; simp
  · rw [minor_elim hy h0, ← h.diag_real y, RCLike.re_ofReal_mul, RCLike.ofReal_re]

end Verif
