import Verif.Lemmas.Precompute2
import Verif.Spec.Dict

/-!
The invariants of BLESS.
-/

namespace Verif
open Verif Verif.Spec Verif.Model Matrix
open scoped ENNReal

variable {n : ℕ} {L : Matrix (Fin n) (Fin n) ℝ} {num : Numerics}

theorem blessMat_psd (hL : L.PosSemidef) {D : Centers n} (hp : ∀ e, 0 ≤ D.probs e) {lam : ℝ} (hlam : 0 ≤ lam) :
    PosSemidef (blessMat L D lam : Matrix _ _ ℝ) := by
  have h1 : (L.submatrix D.idx D.idx + diagonal fun e => lam * D.probs e).PosSemidef :=
    (hL.submatrix D.idx).add (.diagonal fun e => mul_nonneg hlam (hp e))
  refine cast (congrArg PosSemidef ?_) h1
  ext e f
  rw [Matrix.add_apply, submatrix_apply, diagonal_apply]
  rfl

/-- the estimated leverage scores are never negative -/
theorem blessRls_nonneg (hn : NumericsSpec num) (hL : L.PosSemidef) {D : Centers n} (hp : ∀ e, 0 ≤ D.probs e) {lam : ℝ}
    (hlam : 0 < lam) {keep : List (Fin D.items.length)} (hk : keep.Nodup)
    (hpos : ∀ j ∈ keep, 0 < (num.svd _ (blessMat L D lam)).2 j) (i : Fin n) :
    0 ≤ blessRls num L D lam keep i := by
  have hpsd := blessMat_psd hL hp hlam.le
  have heig := fun e j => svd_eig hn.svd hpsd e j
  have horth := (hn.svd _ _ hpsd).2.1
  obtain ⟨R, hR⟩ := psd_factor hL
  unfold blessRls
  refine div_nonneg (sub_nonneg.2 ?_) hlam.le
  have hsum : (keep.map fun j => blessPrecond num L D lam j i ^ 2).sum = ∑ j ∈ keep.toFinset, blessPrecond num L D lam j i ^ 2 :=
    (List.sum_toFinset _ hk).symm
  rw [hsum]
  unfold blessPrecond
  set S := (num.svd _ (blessMat L D lam)).2
  set U := (num.svd _ (blessMat L D lam)).1
  have hposF : ∀ j ∈ keep.toFinset, 0 < S j := fun j hj => hpos j (by simpa using hj)
  set u : Fin D.items.length → ℝ := fun j => ∑ e, U e j * L (D.idx e) i with hu
  -- the coefficients of the projection
  set x : Fin D.items.length → ℝ := fun e => ∑ j ∈ keep.toFinset, u j / S j * U e j with hx
  have h1 : ∑ j ∈ keep.toFinset, (1 / Real.sqrt (S j) * u j) ^ 2 = ∑ j ∈ keep.toFinset, u j ^ 2 / S j := by
    refine Finset.sum_congr rfl fun j hj => ?_
    rw [mul_pow, div_pow, one_pow, Real.sq_sqrt (hposF j hj).le]; ring
  rw [show (∑ j ∈ keep.toFinset, (1 / Real.sqrt (S j) * ∑ e, U e j * L (D.idx e) i) ^ 2) = ∑ j ∈ keep.toFinset, u j ^ 2 / S j from h1]
  have h2 : ∑ e, x e * L (D.idx e) i = ∑ j ∈ keep.toFinset, u j ^ 2 / S j := by
    simp only [hx, Finset.sum_mul]
    rw [Finset.sum_comm]
    refine Finset.sum_congr rfl fun j _ => ?_
    have : ∀ e, u j / S j * U e j * L (D.idx e) i = u j / S j * (U e j * L (D.idx e) i) := fun e => by ring
    simp_rw [this]
    rw [← Finset.mul_sum]
    change u j / S j * u j = _
    ring
  have h3 : ∑ e, ∑ f, x e * blessMat L D lam e f * x f = ∑ j ∈ keep.toFinset, u j ^ 2 / S j := by
    have h4 : ∀ e, ∑ f, blessMat L D lam e f * x f = ∑ j ∈ keep.toFinset, u j * U e j := by
      intro e
      simp only [hx, Finset.mul_sum]
      rw [Finset.sum_comm]
      refine Finset.sum_congr rfl fun j hj => ?_
      have : ∀ f, blessMat L D lam e f * (u j / S j * U f j) = u j / S j * (blessMat L D lam e f * U f j) := fun f => by ring
      simp_rw [this]
      rw [← Finset.mul_sum, heig]
      change u j / S j * (S j * U e j) = _
      have := (hposF j hj).ne'
      field_simp
    simp_rw [mul_assoc, ← Finset.mul_sum, h4]
    simp only [hx, Finset.sum_mul]
    rw [Finset.sum_comm]
    refine Finset.sum_congr rfl fun j hj => ?_
    have h5 : ∀ e, u j / S j * U e j * ∑ k ∈ keep.toFinset, u k * U e k
        = ∑ k ∈ keep.toFinset, u j / S j * u k * (U e j * U e k) := by
      intro e
      rw [Finset.mul_sum]
      exact Finset.sum_congr rfl fun k _ => by ring
    simp_rw [h5]
    rw [Finset.sum_comm]
    simp_rw [← Finset.mul_sum, horth]
    simp only [mul_ite, mul_one, mul_zero]
    rw [Finset.sum_ite_eq keep.toFinset j, if_pos hj]
    ring
  -- the quadratic form of L at e_i - x
  have h6 : 0 ≤ L i i - 2 * ∑ e, x e * L (D.idx e) i + ∑ e, ∑ f, x e * L (D.idx e) (D.idx f) * x f := by
    have h7 : ∀ a b, L a b = ∑ p, R p a * R p b := by
      intro a b
      conv_lhs => rw [hR, mul_apply]
      rfl
    have h8 : 0 ≤ ∑ p, (R p i - ∑ e, x e * R p (D.idx e)) ^ 2 := Finset.sum_nonneg fun p _ => sq_nonneg _
    refine le_of_le_of_eq h8 ?_
    have h9 : ∀ p, (R p i - ∑ e, x e * R p (D.idx e)) ^ 2 = R p i * R p i - 2 * ∑ e, x e * (R p (D.idx e) * R p i)
        + ∑ e, ∑ f, x e * (R p (D.idx e) * R p (D.idx f)) * x f := by
      intro p
      have e1 : ∑ e, x e * (R p (D.idx e) * R p i) = (∑ e, x e * R p (D.idx e)) * R p i := by
        rw [Finset.sum_mul]; exact Finset.sum_congr rfl fun e _ => by ring
      have e2 : ∑ e, ∑ f, x e * (R p (D.idx e) * R p (D.idx f)) * x f = (∑ e, x e * R p (D.idx e)) * ∑ e, x e * R p (D.idx e) := by
        rw [Finset.sum_mul_sum]; exact Finset.sum_congr rfl fun e _ => Finset.sum_congr rfl fun f _ => by ring
      rw [e1, e2]; ring
    simp_rw [h9]
    rw [Finset.sum_add_distrib, Finset.sum_sub_distrib, ← Finset.mul_sum]
    simp_rw [h7]
    have e3 : ∑ p, ∑ e, x e * (R p (D.idx e) * R p i) = ∑ e, x e * ∑ p, R p (D.idx e) * R p i := by
      rw [Finset.sum_comm]
      exact Finset.sum_congr rfl fun e _ => by rw [Finset.mul_sum]
    have e4 : ∑ p, ∑ e, ∑ f, x e * (R p (D.idx e) * R p (D.idx f)) * x f
        = ∑ e, ∑ f, x e * (∑ p, R p (D.idx e) * R p (D.idx f)) * x f := by
      rw [Finset.sum_comm]
      refine Finset.sum_congr rfl fun e _ => ?_
      rw [Finset.sum_comm]
      exact Finset.sum_congr rfl fun f _ => by simp_rw [Finset.mul_sum, Finset.sum_mul]
    rw [e3, e4]
  have h10 : ∑ e, ∑ f, x e * L (D.idx e) (D.idx f) * x f ≤ ∑ e, ∑ f, x e * blessMat L D lam e f * x f := by
    have : ∀ e, ∑ f, x e * blessMat L D lam e f * x f = (∑ f, x e * L (D.idx e) (D.idx f) * x f) + lam * D.probs e * x e ^ 2 := by
      intro e
      unfold blessMat
      simp_rw [mul_add, add_mul, Finset.sum_add_distrib]
      congr 1
      simp only [mul_ite, mul_zero, ite_mul, zero_mul, Finset.sum_ite_eq, Finset.mem_univ, if_true]
      ring
    simp_rw [this, Finset.sum_add_distrib]
    have : 0 ≤ ∑ e, lam * D.probs e * x e ^ 2 := Finset.sum_nonneg fun e _ => by have := hp e; positivity
    linarith
  rw [h3] at h10
  rw [h2] at h6
  linarith

theorem mem_selOnes {U : Fin n → Bool} {i : Fin n} : i ∈ selOnes U ↔ U i = true := by simp [selOnes]

theorem selOnes_sorted (U : Fin n → Bool) : (selOnes U).Pairwise (· < ·) := by
  unfold selOnes
  exact (List.pairwise_lt_finRange n).filter _

theorem coin_true {p : ℝ} (h : true ∈ (coin p).support) : 0 < p := by
  by_contra hp
  rw [PMF.mem_support_iff] at h
  apply h
  unfold coin
  rw [PMF.bernoulli_apply]
  simp [Real.toNNReal_of_nonpos (not_lt.1 hp)]

/-- `stable_filter` of a positive definite dictionary matrix -/
theorem estimateRls_ok (hn : NumericsSpec num) (hL : L.PosSemidef) {D : Centers n} (hne : D.items ≠ []) (hp : ∀ e, 0 < D.probs e)
    {lam : ℝ} (hlam : 0 < lam) (U : Fin n → Bool) :
    estimateRlsBless num L D U lam = .ok (blessRls num L D lam (stableKeep num.eps (num.svd _ (blessMat L D lam)).2)) := by
  have hpsd := blessMat_psd hL (fun e => (hp e).le) hlam.le
  obtain ⟨hS, -, V, -, hV⟩ := hn.svd _ _ hpsd
  have hex : ∃ j, 0 < (num.svd _ (blessMat L D lam)).2 j := by
    by_contra hno
    push Not at hno
    have h2 : ∀ a, (num.svd _ (blessMat L D lam)).2 a = 0 := fun a => le_antisymm (hno a) (hS a)
    have e0 : Fin D.items.length := ⟨0, List.length_pos_of_ne_nil hne⟩
    have h1 := hV e0 e0
    simp only [h2, zero_mul, Finset.sum_const_zero] at h1
    unfold blessMat at h1
    rw [if_pos rfl] at h1
    have h3 := hL.diag_nonneg (i := D.idx e0)
    have h4 := mul_pos hlam (hp e0)
    linarith
  obtain ⟨j0, hj0⟩ := hex
  unfold estimateRlsBless
  rw [stableFilter_ok hn.eps hS hj0]
  simp only
  rw [if_neg]
  rintro ⟨i, -, hi⟩
  exact absurd (blessRls_nonneg hn hL (fun e => (hp e).le) hlam (stableKeep_nodup _ _)
    (fun j hj => stableKeep_pos hn.eps.le hS hj) i) (not_le.2 hi)

/-- the outcomes of `reduce_lambda` -/
theorem reduceLambda_support (hL : L.PosSemidef) {D : Centers n} {lam : ℝ} (hlam : 0 < lam) {over? : Option ℝ}
    (hover : 0 < over?.getD D.over) {o : Outcome (Centers n)} (ho : o ∈ (reduceLambda num L D lam over?).support) :
    o = .valueError ∨ ∃ D', o = .ok D' ∧ ValidDict L D' ∧ D'.lam = lam ∧ D'.over = over?.getD D.over ∧ lam ≤ D.lam := by
  classical
  unfold reduceLambda at ho
  simp only at ho
  set over := over?.getD D.over
  split at ho
  · left; simpa using ho
  rename_i hratio
  rw [PMF.mem_support_bind_iff] at ho
  obtain ⟨U, hU, ho⟩ := ho
  split at ho
  · left; simpa using ho
  have hcase : (∃ e, estimateRlsBless num L D U lam = .raise e ∧ e = .valueError) ∨ ∃ rls, estimateRlsBless num L D U lam = .ok rls := by
    unfold estimateRlsBless
    rcases stableFilter_cases num.eps (num.svd _ (blessMat L D lam)).2 with h | h
    · rw [h]; left; exact ⟨_, rfl, rfl⟩
    · rw [h]
      simp only
      split
      · left; exact ⟨_, rfl, rfl⟩
      · right; exact ⟨_, rfl⟩
  rcases hcase with ⟨e, he, rfl⟩ | ⟨rls, hrls⟩
  · rw [he] at ho; left; simpa using ho
  rw [hrls] at ho
  simp only at ho
  split at ho
  · left; simpa using ho
  split at ho
  · left; simpa using ho
  rw [PMF.mem_support_map_iff] at ho
  obtain ⟨sel, hsel, rfl⟩ := ho
  split
  · left; rfl
  rename_i hnil
  right
  refine ⟨_, rfl, ⟨by simpa using hnil, ?_, ?_, ?_, ?_⟩, rfl, rfl, ?_⟩
  · rw [List.map_map]
    have : (Prod.fst ∘ fun i => (i, redProbs L over lam rls i)) = id := rfl
    rw [this, List.map_id]
    exact (selOnes_sorted U).filter _
  all_goals try
    intro p hp
    rw [List.mem_map] at hp
    obtain ⟨i, hi, rfl⟩ := hp
    rw [List.mem_filter, mem_selOnes] at hi
    have h1 := mem_support_indep _ _ hU i
    have h2 := mem_support_indep _ _ hsel i
    rw [hi.1] at h1
    rw [show sel i = true by simpa using hi.2] at h2
    have h3 := coin_true h1
    have h4 := coin_true h2
  · unfold redReject at h4
    exact (div_pos_iff_of_pos_right h3).1 h4
  · exact (min_le_right _ _).trans (min_le_right _ _)
  · unfold ucb at h3
    have h5 := (lt_min_iff.1 h3).1
    have h6 := hL.diag_nonneg (i := i)
    refine lt_of_le_of_ne h6 fun h0 => ?_
    rw [← h0] at h5
    simp at h5
  · rw [not_lt, le_div_iff₀ hlam, one_mul] at hratio
    exact hratio

end Verif
