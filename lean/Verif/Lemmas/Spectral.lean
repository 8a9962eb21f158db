import Verif.Lemmas.ProjTop
import Verif.Lemmas.GenericLaw
import Mathlib.LinearAlgebra.Matrix.Determinant.Basic
import Mathlib.LinearAlgebra.Multilinear.Basic

/-!
Algebra behind two-step (spectral) sampling: minors of `Σ_a γ_a u_a u_aᵀ`.
-/

set_option linter.unusedSectionVars false

namespace Verif.Model
open Verif Verif.Spec Matrix

section expansion
variable {ι κ R : Type*} [DecidableEq ι] [Fintype κ] [DecidableEq κ] [CommRing R]

/-- `Σ_a γ_a u_a u_aᵀ` with `u_a` the columns of `U` -/
def ker (U : ι → κ → R) (g : κ → R) : Matrix ι ι R := Matrix.of fun i j => ∑ a, g a * U i a * U j a

/-- coefficient of a choice of one column per row in the expansion of the determinant -/
def coefF (U : ι → κ → R) (S : Finset ι) (f : S → κ) : R :=
  (∏ i, U i.1 (f i)) * (Matrix.of fun (i j : S) => U j.1 (f i)).det

theorem coefF_eq_zero (U : ι → κ → R) (S : Finset ι) (f : S → κ) (hf : ¬ Function.Injective f) :
    coefF U S f = 0 := by
  have : ∃ i j, f i = f j ∧ i ≠ j := by
    simpa [Function.Injective] using hf
  obtain ⟨i, j, h, hij⟩ := this
  unfold coefF
  rw [Matrix.det_zero_of_row_eq hij (by ext k; simp [h]), mul_zero]

theorem minor_ker (U : ι → κ → R) (g : κ → R) (S : Finset ι) :
    minor (ker U g) S = ∑ f : S → κ, (∏ i, g (f i)) * coefF U S f := by
  unfold minor
  let D := (Matrix.detRowAlternating (n := S) (R := R)).toMultilinearMap
  have h1 : ((ker U g).submatrix (Subtype.val : S → ι) (Subtype.val : S → ι)).det
      = D (fun i => ∑ a : κ, (g a * U i.1 a) • (fun j : S => U j.1 a)) := by
    show _ = Matrix.det _
    congr 1
    ext i j
    simp [ker]
  rw [h1, MultilinearMap.map_sum]
  apply Finset.sum_congr rfl
  intro f _
  rw [MultilinearMap.map_smul_univ, Finset.prod_mul_distrib, smul_eq_mul, coefF, mul_assoc]
  rfl

end expansion

section mixture
variable {ι κ R : Type*} [DecidableEq ι] [Fintype κ] [DecidableEq κ] [CommRing R]

/-- indicator of `J` -/
def ind (J : Finset κ) : κ → R := fun a => if a ∈ J then 1 else 0

theorem prod_ind {S : Finset ι} (J : Finset κ) (f : S → κ) :
    ∏ i, (ind J (f i) : R) = if Finset.univ.image f ⊆ J then 1 else 0 := by
  split
  · rename_i h
    apply Finset.prod_eq_one
    intro i _
    rw [ind, if_pos (h (Finset.mem_image_of_mem f (Finset.mem_univ i)))]
  · rename_i h
    rw [Finset.not_subset] at h
    obtain ⟨a, ha, haJ⟩ := h
    obtain ⟨i, -, rfl⟩ := Finset.mem_image.1 ha
    exact Finset.prod_eq_zero (Finset.mem_univ i) (by rw [ind, if_neg haJ])

theorem sum_weights (lam : κ → R) (A : Finset κ) :
    ∑ J : Finset κ, (∏ a ∈ J, lam a) * (∏ a ∈ Jᶜ, (1 - lam a)) * (if A ⊆ J then 1 else 0)
      = ∏ a ∈ A, lam a := by
  have h := Finset.prod_add lam (fun a => (1 - lam a) * (if a ∈ A then 0 else 1)) Finset.univ
  have h1 : ∏ a, (lam a + (1 - lam a) * (if a ∈ A then 0 else 1)) = ∏ a ∈ A, lam a := by
    rw [← Finset.prod_subset (Finset.subset_univ A)]
    · apply Finset.prod_congr rfl
      intro a ha; simp [ha]
    · intro a _ ha; simp [ha]
  rw [h1] at h
  rw [h, Finset.powerset_univ]
  apply Finset.sum_congr rfl
  intro J _
  rw [← Finset.compl_eq_univ_sdiff, mul_assoc]
  congr 1
  split
  · rename_i hA
    rw [mul_one]
    apply Finset.prod_congr rfl
    intro a ha
    rw [if_neg (fun hh => (Finset.mem_compl.1 ha) (hA hh)), mul_one]
  · rename_i hA
    obtain ⟨a, ha, haJ⟩ := Finset.not_subset.1 hA
    rw [mul_zero, Finset.prod_eq_zero (Finset.mem_compl.2 haJ)]
    simp [ha]

/-- mixture of the kernels of the selected columns -/
theorem sum_minor_ker (U : ι → κ → R) (lam : κ → R) (T : Finset ι) :
    ∑ J : Finset κ, (∏ a ∈ J, lam a) * (∏ a ∈ Jᶜ, (1 - lam a)) * minor (ker U (ind J)) T
      = minor (ker U lam) T := by
  rw [minor_ker]
  simp only [minor_ker, Finset.mul_sum]
  rw [Finset.sum_comm]
  apply Finset.sum_congr rfl
  intro f _
  by_cases hf : Function.Injective f
  · have h := sum_weights lam (Finset.univ.image f)
    rw [Finset.prod_image (fun a _ b _ h => hf h)] at h
    rw [← h, Finset.sum_mul]
    apply Finset.sum_congr rfl
    intro J _
    rw [prod_ind]; ring
  · simp only [coefF_eq_zero U T f hf, mul_zero, Finset.sum_const_zero]

/-- Cauchy–Binet in the form used by k-DPPs -/
theorem sum_card_minor_ker (U : ι → κ → R) (g : κ → R) (S : Finset ι) :
    ∑ J ∈ (Finset.univ : Finset κ).powersetCard S.card, (∏ a ∈ J, g a) * minor (ker U (ind J)) S
      = minor (ker U g) S := by
  rw [minor_ker]
  simp only [minor_ker, Finset.mul_sum]
  rw [Finset.sum_comm]
  apply Finset.sum_congr rfl
  intro f _
  by_cases hf : Function.Injective f
  · have hc : (Finset.univ.image f).card = S.card := by
      rw [Finset.card_image_of_injective _ hf]; simp
    rw [Finset.sum_eq_single (Finset.univ.image f)]
    · rw [prod_ind, if_pos (Finset.Subset.refl _), Finset.prod_image (fun a _ b _ h => hf h), one_mul]
    · intro J hJ hne
      rw [prod_ind, if_neg, zero_mul, mul_zero]
      intro hsub
      apply hne
      exact (Finset.eq_of_subset_of_card_le hsub
        (by rw [hc, (Finset.mem_powersetCard.1 hJ).2])).symm
    · intro h
      exact absurd (Finset.mem_powersetCard.2 ⟨Finset.subset_univ _, hc⟩) h
  · simp only [coefF_eq_zero U S f hf, mul_zero, Finset.sum_const_zero]

end mixture

section moebius
variable {ι R : Type*} [DecidableEq ι] [Fintype ι] [AddCommGroup R]

theorem eq_of_superset_sums (F G : Finset ι → R)
    (h : ∀ T, ∑ S ∈ (Finset.univ \ T).powerset, F (S ∪ T) = ∑ S ∈ (Finset.univ \ T).powerset, G (S ∪ T))
    (T : Finset ι) : F T = G T := by
  generalize hn : (Finset.univ \ T).card = n
  induction n using Nat.strong_induction_on generalizing T with
  | _ n ih =>
    have h1 := h T
    have hmem : ∅ ∈ (Finset.univ \ T).powerset := by simp
    rw [← Finset.add_sum_erase _ _ hmem, ← Finset.add_sum_erase _ _ hmem] at h1
    have h2 : ∑ S ∈ ((Finset.univ \ T).powerset).erase ∅, F (S ∪ T)
        = ∑ S ∈ ((Finset.univ \ T).powerset).erase ∅, G (S ∪ T) := by
      apply Finset.sum_congr rfl
      intro S hS
      obtain ⟨hne, hS⟩ := Finset.mem_erase.1 hS
      have hS := Finset.mem_powerset.1 hS
      refine ih _ ?_ (S ∪ T) rfl
      rw [← hn]
      apply Finset.card_lt_card
      rw [Finset.ssubset_iff_of_subset (Finset.sdiff_subset_sdiff (Finset.Subset.refl _)
        Finset.subset_union_right)]
      obtain ⟨x, hx⟩ := Finset.nonempty_iff_ne_empty.2 hne
      exact ⟨x, hS hx, by simp [hx]⟩
    rw [h2, Finset.empty_union] at h1
    exact add_right_cancel h1

end moebius

section proj
variable {ι : Type*} [DecidableEq ι] [Fintype ι] {P : Matrix ι ι ℝ}

theorem exactProb_compl (K : Matrix ι ι ℝ) (S : Finset ι) :
    exactProb K S = exactProb (1 - K) Sᶜ := by
  unfold exactProb
  have h : (1 - K) - Matrix.diagonal (fun i => if i ∈ Sᶜ then (0:ℝ) else 1)
      = - (K - Matrix.diagonal (fun i => if i ∈ S then 0 else 1)) := by
    ext i j
    by_cases hij : i = j
    · subst hij
      by_cases hi : i ∈ S <;> simp [hi]
    · simp [hij]
  rw [h, Matrix.det_neg, compl_compl, ← mul_assoc, ← pow_add]
  have hc : S.card + Fintype.card ι = 2 * S.card + Sᶜ.card := by
    have := Finset.card_add_card_compl S; omega
  rw [hc, pow_add, pow_mul]; simp

theorem _root_.Verif.Spec.IsProjection.compl (h : IsProjection P) : IsProjection (1 - P) := by
  constructor
  · rw [conjTranspose_sub, conjTranspose_one, h.1]
  · rw [Matrix.sub_mul, Matrix.mul_sub, Matrix.mul_sub, h.2]; simp

theorem _root_.Verif.Spec.IsProjection.exactProb_nonneg (h : IsProjection P) (S : Finset ι) :
    0 ≤ exactProb P S := by
  have hq : ∀ {Q : Matrix ι ι ℝ}, IsProjection Q → ∀ x, 0 ≤ quad Q Finset.univ x := by
    intro Q hQ x
    have e : quad Q Finset.univ x = ∑ k, (∑ i, Q k i * x i) ^ 2 := by
      unfold quad
      have h1 : ∀ i j, x i * Q i j * x j = ∑ k, (Q k i * x i) * (Q k j * x j) := by
        intro i j
        rw [← hQ.idem i j, Finset.mul_sum, Finset.sum_mul]
        apply Finset.sum_congr rfl
        intro k _
        have := hQ.herm i k
        simp only [star_trivial] at this
        rw [this]; ring
      simp only [h1]
      have h2 : ∀ k, (∑ i, Q k i * x i) ^ 2 = ∑ i, ∑ j, (Q k i * x i) * (Q k j * x j) := by
        intro k; rw [sq, Finset.sum_mul_sum]
      simp only [h2]
      rw [Finset.sum_comm (γ := ι)]
      conv_rhs => rw [Finset.sum_comm]
      rw [Finset.sum_comm]
      apply Finset.sum_congr rfl
      intro i _
      rw [Finset.sum_comm]
    rw [e]
    exact Finset.sum_nonneg (fun k _ => sq_nonneg _)
  rw [← minor_mixRows_univ]
  exact mixRows_nonneg _ P (fun i k => by rw [← h.herm k i]; simp) (hq h) (hq h.compl) S

theorem minor_zero_of_card_gt (h : IsProjection P) {r : ℕ} (ht : P.trace = r) {S : Finset ι}
    (hS : r < S.card) : minor P S = 0 := by
  induction r generalizing P S with
  | zero =>
    obtain ⟨y, hy⟩ := Finset.card_pos.1 hS
    have h0 : P y y = 0 := by
      have h1 : ∑ i, P i i = 0 := by simpa [Matrix.trace] using ht
      exact (Finset.sum_eq_zero_iff_of_nonneg (fun i _ => h.diag_nonneg i)).1 h1 y (Finset.mem_univ y)
    exact minor_row_zero hy (fun k _ => h.row_zero h0 k)
  | succ r ih =>
    obtain ⟨y, hy⟩ : S.Nonempty := Finset.card_pos.1 (by omega)
    by_cases h0 : P y y = 0
    · exact minor_row_zero hy (fun k _ => h.row_zero h0 k)
    · rw [minor_elim hy h0, ih (h.elim y) (by rw [trace_elim h h0, ht]; push_cast; ring)
        (by rw [Finset.card_erase_of_mem hy]; omega), mul_zero]

theorem exactProb_superset (K : Matrix ι ι ℝ) (T : Finset ι) :
    ∑ S ∈ (Finset.univ \ T).powerset, exactProb K (S ∪ T) = minor K T := by
  rw [← sum_mixRows K T Finset.univ (Finset.subset_univ _)]
  exact Finset.sum_congr rfl (fun S _ => (minor_mixRows_univ K _).symm)

theorem exactProb_zero_of_card_gt (h : IsProjection P) {r : ℕ} (ht : P.trace = r) {S : Finset ι}
    (hS : r < S.card) : exactProb P S = 0 := by
  have h1 := exactProb_superset P S
  rw [minor_zero_of_card_gt h ht hS] at h1
  have := (Finset.sum_eq_zero_iff_of_nonneg (fun T _ => h.exactProb_nonneg _)).1 h1 ∅ (by simp)
  simpa using this

/-- a projection DPP has exactly `r` points, and density `det P_S` -/
theorem exactProb_proj (h : IsProjection P) {r : ℕ} (ht : P.trace = r) (S : Finset ι) :
    exactProb P S = if S.card = r then minor P S else 0 := by
  rcases lt_trichotomy S.card r with hlt | heq | hgt
  · rw [if_neg (by omega), exactProb_compl]
    have hN : r ≤ Fintype.card ι := by
      by_contra hc
      have h1 : P.trace ≤ Fintype.card ι := by
        have h2 := fun i => (h.compl).diag_nonneg i
        have h3 : ∑ i, P i i ≤ ∑ _i : ι, (1:ℝ) := Finset.sum_le_sum (fun i _ => by
          have := h2 i; simp at this; exact this)
        simpa [Matrix.trace] using h3
      rw [ht] at h1
      exact hc (by exact_mod_cast h1)
    apply exactProb_zero_of_card_gt h.compl (r := Fintype.card ι - r)
    · rw [trace_sub, trace_one, ht, Nat.cast_sub hN]
    · rw [Finset.card_compl]; have := Finset.card_le_univ S; omega
  · rw [if_pos heq, ← exactProb_superset P S, Finset.sum_eq_single ∅]
    · rw [Finset.empty_union]
    · intro T hT hne
      apply exactProb_zero_of_card_gt h ht
      obtain ⟨x, hx⟩ := Finset.nonempty_iff_ne_empty.2 hne
      have hxS := (Finset.mem_sdiff.1 (Finset.mem_powerset.1 hT hx)).2
      rw [← heq]
      apply Finset.card_lt_card
      rw [Finset.ssubset_iff_of_subset Finset.subset_union_right]
      exact ⟨x, by simp [hx], hxS⟩
    · simp
  · rw [if_neg (by omega), exactProb_zero_of_card_gt h ht hgt]

/-- mixture formula for the exact probabilities -/
theorem sum_exactProb_ker {κ : Type*} [Fintype κ] [DecidableEq κ] (U : ι → κ → ℝ) (lam : κ → ℝ)
    (S : Finset ι) :
    ∑ J : Finset κ, (∏ a ∈ J, lam a) * (∏ a ∈ Jᶜ, (1 - lam a)) * exactProb (ker U (ind J)) S
      = exactProb (ker U lam) S := by
  refine eq_of_superset_sums (fun S => ∑ J : Finset κ, (∏ a ∈ J, lam a) * (∏ a ∈ Jᶜ, (1 - lam a)) *
    exactProb (ker U (ind J)) S) (fun S => exactProb (ker U lam) S) (fun T => ?_) S
  rw [exactProb_superset, ← sum_minor_ker, Finset.sum_comm]
  apply Finset.sum_congr rfl
  intro J _
  rw [← Finset.mul_sum, exactProb_superset]

end proj

end Verif.Model
