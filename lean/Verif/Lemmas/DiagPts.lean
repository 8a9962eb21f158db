import Verif.Lemmas.TiesK

/-!
Orthogonal points: BLESS, the Nyström approximation and the ties of alpha-dpp.
-/

namespace Verif.DiagPts
open Verif Verif.Spec Verif.Model Matrix
open scoped ENNReal NNReal

variable {n : ℕ} {num : Numerics}

/-! ### diagonal matrices -/

theorem eig_diag {m : ℕ} {U : Fin m → Fin m → ℝ} {v d : Fin m → ℝ} {A : Fin m → Fin m → ℝ}
    (hA : ∀ e f, A e f = if e = f then d e else 0) (j : Fin m) (h : ∀ e, ∑ f, A e f * U f j = v j * U e j) (e : Fin m) :
    d e * U e j = v j * U e j := by
  rw [← h e]
  simp only [hA, ite_mul, zero_mul, Finset.sum_ite_eq, Finset.mem_univ, if_true]

theorem col_ne {m : ℕ} {U : Fin m → Fin m → ℝ} (hU : ∀ a b, ∑ i, U i a * U i b = if a = b then 1 else 0) (j : Fin m) :
    ∃ e, U e j ≠ 0 := by
  by_contra hno
  push Not at hno
  have := hU j j
  simp [hno] at this

theorem diag_psd {m : ℕ} {A : Fin m → Fin m → ℝ} {d : Fin m → ℝ} (hd : ∀ e, 0 ≤ d e) (hA : ∀ e f, A e f = if e = f then d e else 0) :
    PosSemidef (A : Matrix (Fin m) (Fin m) ℝ) := by
  have h : (A : Matrix (Fin m) (Fin m) ℝ) = diagonal d := by
    ext e f
    rw [diagonal_apply]
    exact hA e f
  rw [h]
  exact PosSemidef.diagonal hd

theorem svd_diag (hn : NumericsSpec num) {m : ℕ} {A : Fin m → Fin m → ℝ} {d : Fin m → ℝ} (hd : ∀ e, 0 ≤ d e)
    (hA : ∀ e f, A e f = if e = f then d e else 0) (e j : Fin m) : d e * (num.svd m A).1 e j = (num.svd m A).2 j * (num.svd m A).1 e j :=
  eig_diag hA j (fun e => svd_eig hn.svd (diag_psd hd hA) e j) e

theorem svd_range (hn : NumericsSpec num) {m : ℕ} {A : Fin m → Fin m → ℝ} {d : Fin m → ℝ} (hd : ∀ e, 0 ≤ d e)
    (hA : ∀ e f, A e f = if e = f then d e else 0) (j : Fin m) : ∃ e, (num.svd m A).2 j = d e := by
  obtain ⟨e, he⟩ := col_ne (hn.svd m A (diag_psd hd hA)).2.1 j
  exact ⟨e, (mul_right_cancel₀ he (svd_diag hn hd hA e j)).symm⟩

theorem eigh_range (hn : NumericsSpec num) {m : ℕ} {A : Fin m → Fin m → ℝ} {d : Fin m → ℝ}
    (hA : ∀ e f, A e f = if e = f then d e else 0) (j : Fin m) : ∃ e, (num.eigh m A).1 j = d e := by
  have hs : ∀ e f, A e f = A f e := by
    intro e f
    rw [hA, hA]
    by_cases h : e = f
    · rw [h]
    · rw [if_neg h, if_neg (Ne.symm h)]
  obtain ⟨h1, h2⟩ := hn.eigh m A hs
  have h3 : ∀ e, ∑ f, A e f * (num.eigh m A).2 f j = (num.eigh m A).1 j * (num.eigh m A).2 e j := by
    intro e
    simp_rw [h2 e, Finset.sum_mul]
    rw [Finset.sum_comm]
    have : ∀ a, ∑ f, (num.eigh m A).1 a * (num.eigh m A).2 e a * (num.eigh m A).2 f a * (num.eigh m A).2 f j
        = (num.eigh m A).1 a * (num.eigh m A).2 e a * if a = j then 1 else 0 := by
      intro a
      rw [← h1 a j, Finset.mul_sum]
      exact Finset.sum_congr rfl fun f _ => by ring
    simp_rw [this]
    simp
  obtain ⟨e, he⟩ := col_ne h1 j
  exact ⟨e, (mul_right_cancel₀ he (eig_diag hA j h3 e)).symm⟩

theorem stableKeep_full {m : ℕ} {eps lo hi : ℝ} (he : 0 ≤ eps) (hlo : 0 < lo) (hm : hi * m * eps < lo) {v : Fin m → ℝ}
    (hv : ∀ i, lo ≤ v i ∧ v i ≤ hi) : stableKeep eps v = List.finRange m := by
  classical
  unfold stableKeep
  rw [List.filter_eq_self]
  intro i _
  have hpos : ∀ i, 0 < v i := fun i => hlo.trans_le (hv i).1
  have hhi : 0 ≤ hi := (hpos i).le.trans (hv i).2
  have hfold : ∀ (l : List ℝ) (a : ℝ), a ≤ hi → (∀ x ∈ l, x ≤ hi) → l.foldl max a ≤ hi := by
    intro l
    induction l with
    | nil => intro a ha _; exact ha
    | cons x l ih => intro a ha hl; exact ih _ (max_le ha (hl x List.mem_cons_self)) fun y hy => hl y (List.mem_cons_of_mem _ hy)
  have h1 : (List.ofFn fun i => |v i|).foldl max 0 ≤ hi := by
    refine hfold _ 0 hhi fun x hx => ?_
    rw [List.mem_ofFn] at hx
    obtain ⟨k, rfl⟩ := hx
    rw [abs_of_pos (hpos k)]
    exact (hv k).2
  have : stableThresh eps v < |v i| := by
    rw [abs_of_pos (hpos i)]
    unfold stableThresh
    refine lt_of_le_of_lt ?_ (hm.trans_le (hv i).1)
    exact mul_le_mul_of_nonneg_right (mul_le_mul_of_nonneg_right h1 (by positivity)) he
  simpa using this

/-! ### BLESS -/

variable {ℓ : Fin n → ℝ} {D : Centers n}

theorem blessMat_diag (hinj : Function.Injective D.idx) (lam : ℝ) (e f : Fin D.items.length) :
    blessMat (diagonal ℓ) D lam e f = if e = f then ℓ (D.idx e) + lam * D.probs e else 0 := by
  unfold blessMat
  rw [diagonal_apply]
  by_cases h : e = f
  · rw [h, if_pos rfl, if_pos rfl, if_pos rfl]
  · rw [if_neg h, if_neg h, if_neg fun h' => h (hinj h'), add_zero]

/-- the estimate of a point of the dictionary -/
theorem blessRls_in (hn : NumericsSpec num) (hl : ∀ i, 0 < ℓ i) (hinj : Function.Injective D.idx) (hp : ∀ e, 0 < D.probs e) {lam : ℝ}
    (hlam : 0 < lam) (e : Fin D.items.length) : blessRls num (diagonal ℓ) D lam (List.finRange _) (D.idx e)
      = (ℓ (D.idx e) - ℓ (D.idx e) ^ 2 / (ℓ (D.idx e) + lam * D.probs e)) / lam := by
  have hA := blessMat_diag (ℓ := ℓ) hinj lam
  have hd : ∀ e, 0 < ℓ (D.idx e) + lam * D.probs e := fun e => by have := hl (D.idx e); have := hp e; positivity
  have hU := (hn.svd _ _ (diag_psd (fun e => (hd e).le) hA)).2.1
  have hrow := rows_of_cols hU e e
  rw [if_pos rfl] at hrow
  unfold blessRls blessPrecond
  rw [diagonal_apply_eq, ← Fin.sum_univ_def]
  congr 2
  rw [eq_div_iff (hd e).ne', Finset.sum_mul]
  have hj : ∀ j, (1 / Real.sqrt ((num.svd _ (blessMat (diagonal ℓ) D lam)).2 j) *
      ∑ f, (num.svd _ (blessMat (diagonal ℓ) D lam)).1 f j * (diagonal ℓ : Matrix _ _ ℝ) (D.idx f) (D.idx e)) ^ 2
        * (ℓ (D.idx e) + lam * D.probs e)
      = ℓ (D.idx e) ^ 2 * ((num.svd _ (blessMat (diagonal ℓ) D lam)).1 e j * (num.svd _ (blessMat (diagonal ℓ) D lam)).1 e j) := by
    intro j
    have h1 : ∑ f, (num.svd _ (blessMat (diagonal ℓ) D lam)).1 f j * (diagonal ℓ : Matrix _ _ ℝ) (D.idx f) (D.idx e)
        = (num.svd _ (blessMat (diagonal ℓ) D lam)).1 e j * ℓ (D.idx e) := by
      rw [Finset.sum_eq_single e]
      · rw [diagonal_apply_eq]
      · intro f _ hf
        rw [diagonal_apply_ne _ fun h => hf (hinj h), mul_zero]
      · intro h; exact absurd (Finset.mem_univ e) h
    rw [h1]
    obtain ⟨e', he'⟩ := svd_range hn (fun e => (hd e).le) hA j
    have hs : 0 < (num.svd _ (blessMat (diagonal ℓ) D lam)).2 j := by rw [he']; exact hd e'
    have h2 := svd_diag hn (fun e => (hd e).le) hA e j
    rw [mul_pow, div_pow, one_pow, Real.sq_sqrt hs.le, mul_pow]
    have h3 : (num.svd _ (blessMat (diagonal ℓ) D lam)).1 e j ^ 2 * (ℓ (D.idx e) + lam * D.probs e)
        = (num.svd _ (blessMat (diagonal ℓ) D lam)).2 j * ((num.svd _ (blessMat (diagonal ℓ) D lam)).1 e j
          * (num.svd _ (blessMat (diagonal ℓ) D lam)).1 e j) := by
      rw [← mul_assoc, ← h2]; ring
    calc _ = 1 / (num.svd _ (blessMat (diagonal ℓ) D lam)).2 j * ℓ (D.idx e) ^ 2 *
          ((num.svd _ (blessMat (diagonal ℓ) D lam)).1 e j ^ 2 * (ℓ (D.idx e) + lam * D.probs e)) := by ring
      _ = _ := by rw [h3]; field_simp
  simp_rw [hj]
  rw [← Finset.mul_sum, hrow, mul_one]

/-- the estimate of the other points -/
theorem blessRls_out (lam : ℝ) {i : Fin n} (hi : ∀ e, D.idx e ≠ i) :
    blessRls num (diagonal ℓ) D lam (List.finRange _) i = ℓ i / lam := by
  unfold blessRls blessPrecond
  have : ∀ j, ∑ f, (num.svd _ (blessMat (diagonal ℓ) D lam)).1 f j * (diagonal ℓ : Matrix _ _ ℝ) (D.idx f) i = 0 := fun j =>
    Finset.sum_eq_zero fun f _ => by rw [diagonal_apply_ne _ (hi f), mul_zero]
  simp [this]

/-- the probabilities of the dictionary returned by `reduce_lambda` -/
theorem reduceLambda_probs (hn : NumericsSpec num) {L : Matrix (Fin n) (Fin n) ℝ} (hL : L.PosSemidef) (hne : D.items ≠ [])
    (hp : ∀ e, 0 < D.probs e) {lam over : ℝ} (hlam : 0 < lam) {D' : Centers n}
    (h : .ok D' ∈ (reduceLambda num L D lam (some over)).support) :
    ∀ e, D'.probs e = redProbs L over lam (blessRls num L D lam (stableKeep num.eps (num.svd _ (blessMat L D lam)).2)) (D'.idx e) := by
  classical
  unfold reduceLambda at h
  simp only [Option.getD_some] at h
  split at h
  · exact absurd h (by simp)
  rw [PMF.mem_support_bind_iff] at h
  obtain ⟨U, hU, h⟩ := h
  split at h
  · exact absurd h (by simp)
  rw [estimateRls_ok hn hL hne hp hlam U] at h
  simp only at h
  split at h
  · exact absurd h (by simp)
  split at h
  · exact absurd h (by simp)
  rw [PMF.mem_support_map_iff] at h
  obtain ⟨sel, -, h⟩ := h
  split at h
  · exact absurd h (by simp [Outcome.valueError])
  rw [Outcome.ok.injEq] at h
  subst h
  intro e
  unfold Centers.probs Centers.idx
  rw [List.get_eq_getElem]
  simp only [List.getElem_map]

/-! ### the Nyström approximation -/

/-- the inverse of the probability of a point of the dictionary, zero for the other points -/
noncomputable def invP (D : Centers n) (i : Fin n) : ℝ := ∑ e, if D.idx e = i then 1 / D.probs e else 0

theorem invP_in (hinj : Function.Injective D.idx) (e : Fin D.items.length) : invP D (D.idx e) = 1 / D.probs e := by
  unfold invP
  simp only [hinj.eq_iff]
  rw [Finset.sum_ite_eq' Finset.univ e, if_pos (Finset.mem_univ e)]

theorem invP_out {i : Fin n} (hi : ∀ e, D.idx e ≠ i) : invP D i = 0 :=
  Finset.sum_eq_zero fun e _ => if_neg (hi e)

theorem invP_nonneg (hp : ∀ e, 0 < D.probs e) (i : Fin n) : 0 ≤ invP D i :=
  Finset.sum_nonneg fun e _ => by
    split
    · exact (one_div_pos.2 (hp e)).le
    · exact le_rfl

theorem lHat_diag (hinj : Function.Injective D.idx) (hp : ∀ e, 0 < D.probs e) (e f : Fin D.items.length) :
    lHat (diagonal ℓ) D e f = if e = f then ℓ (D.idx e) / D.probs e else 0 := by
  unfold lHat
  rw [diagonal_apply]
  by_cases h : e = f
  · rw [h, if_pos rfl, if_pos rfl]
    have h1 := Real.mul_self_sqrt (hp f).le
    have h2 := Real.sqrt_pos.2 (hp f)
    calc _ = ℓ (D.idx f) / (Real.sqrt (D.probs f) * Real.sqrt (D.probs f)) := by field_simp
      _ = _ := by rw [h1]
  · rw [if_neg h, if_neg fun h' => h (hinj h')]; simp

/-- the dictionary with all its eigenvectors -/
noncomputable def fullNys (num : Numerics) (ℓ : Fin n → ℝ) (D : Centers n) : Nystrom n := nysOf num (diagonal ℓ) D (List.finRange _)

/-- a square root of the kernel -/
noncomputable def root (ℓ : Fin n → ℝ) : Matrix (Fin n) (Fin n) ℝ := diagonal fun i => Real.sqrt (ℓ i)

theorem root_mul (hl : ∀ i, 0 < ℓ i) : (diagonal ℓ : Matrix (Fin n) (Fin n) ℝ) = (root ℓ)ᵀ * root ℓ := by
  unfold root
  rw [diagonal_transpose, diagonal_mul_diagonal]
  congr 1
  funext i
  exact (Real.mul_self_sqrt (hl i).le).symm

theorem diag_kernel_psd (hl : ∀ i, 0 < ℓ i) : (diagonal ℓ : Matrix (Fin n) (Fin n) ℝ).PosSemidef := PosSemidef.diagonal fun i => (hl i).le

theorem fullNys_ok (hn : NumericsSpec num) (hl : ∀ i, 0 < ℓ i) : NysOK (diagonal ℓ) (fullNys num ℓ D) :=
  nysOf_ok hn (diag_kernel_psd hl) D (List.nodup_finRange _)

theorem gram_full (hn : NumericsSpec num) (hl : ∀ i, 0 < ℓ i) (hp : ∀ e, 0 < D.probs e) :
    nysG (root ℓ) (fullNys num ℓ D) * (nysG (root ℓ) (fullNys num ℓ D))ᵀ = diagonal fun i => ℓ i * invP D i := by
  have hU := (hn.eigh _ _ (lHat_symm (diag_kernel_psd hl) D)).1
  have hrow := rows_of_cols hU
  ext p q
  rw [mul_apply, diagonal_apply]
  simp only [transpose_apply, nysG, of_apply]
  have h1 : ∀ j, (∑ e, (fullNys num ℓ D).eigvecs e j * (root ℓ p ((fullNys num ℓ D).idx e) * (1 / Real.sqrt ((fullNys num ℓ D).probs e)))) *
      (∑ e, (fullNys num ℓ D).eigvecs e j * (root ℓ q ((fullNys num ℓ D).idx e) * (1 / Real.sqrt ((fullNys num ℓ D).probs e))))
      = (fun j => ∑ e, ∑ f, ((num.eigh _ (lHat (diagonal ℓ) D)).2 e j * (num.eigh _ (lHat (diagonal ℓ) D)).2 f j) *
        ((root ℓ p (D.idx e) * (1 / Real.sqrt (D.probs e))) * (root ℓ q (D.idx f) * (1 / Real.sqrt (D.probs f)))))
        ((List.finRange _).get j) := by
    intro j
    rw [Finset.sum_mul_sum]
    refine Finset.sum_congr rfl fun e _ => Finset.sum_congr rfl fun f _ => ?_
    change ((num.eigh _ (lHat (diagonal ℓ) D)).2 e ((List.finRange _).get j) * (root ℓ p (D.idx e) * (1 / Real.sqrt (D.probs e)))) *
      ((num.eigh _ (lHat (diagonal ℓ) D)).2 f ((List.finRange _).get j) * (root ℓ q (D.idx f) * (1 / Real.sqrt (D.probs f)))) = _
    ring
  refine (Finset.sum_congr rfl fun j _ => h1 j).trans ?_
  refine (sum_finRange (fun j => ∑ e, ∑ f, ((num.eigh _ (lHat (diagonal ℓ) D)).2 e j * (num.eigh _ (lHat (diagonal ℓ) D)).2 f j) *
        ((root ℓ p (D.idx e) * (1 / Real.sqrt (D.probs e))) * (root ℓ q (D.idx f) * (1 / Real.sqrt (D.probs f)))))).trans ?_
  rw [Finset.sum_comm]
  have h2 : ∀ e, ∑ j, ∑ f, ((num.eigh _ (lHat (diagonal ℓ) D)).2 e j * (num.eigh _ (lHat (diagonal ℓ) D)).2 f j) *
        ((root ℓ p (D.idx e) * (1 / Real.sqrt (D.probs e))) * (root ℓ q (D.idx f) * (1 / Real.sqrt (D.probs f))))
      = if D.idx e = p then (if p = q then ℓ p * (1 / D.probs e) else 0) else 0 := by
    intro e
    rw [Finset.sum_comm]
    simp_rw [← Finset.sum_mul, hrow]
    simp only [ite_mul, one_mul, zero_mul, Finset.sum_ite_eq, Finset.mem_univ, if_true]
    unfold root
    rw [diagonal_apply, diagonal_apply]
    by_cases hpe : D.idx e = p
    · rw [if_pos hpe.symm, if_pos hpe]
      by_cases hpq : p = q
      · rw [if_pos hpq, if_pos (by rw [← hpq, hpe]), ← hpq]
        have h3 := Real.mul_self_sqrt (hl p).le
        have h4 := Real.mul_self_sqrt (hp e).le
        have h5 := Real.sqrt_pos.2 (hp e)
        calc _ = (Real.sqrt (ℓ p) * Real.sqrt (ℓ p)) * (1 / (Real.sqrt (D.probs e) * Real.sqrt (D.probs e))) := by field_simp
          _ = _ := by rw [h3, h4]
      · rw [if_neg hpq, if_neg (by rw [hpe]; exact Ne.symm hpq)]; ring
    · rw [if_neg (Ne.symm hpe), if_neg hpe]; ring
  simp_rw [h2]
  unfold invP
  by_cases hpq : p = q
  · rw [if_pos hpq, Finset.mul_sum]
    refine Finset.sum_congr rfl fun e _ => ?_
    split
    · first | rfl | rw [if_pos hpq]
    · rw [mul_zero]
  · rw [if_neg hpq]
    refine Finset.sum_eq_zero fun e _ => ?_
    simp [hpq]

theorem nysInv_full (hn : NumericsSpec num) (hl : ∀ i, 0 < ℓ i) (hp : ∀ e, 0 < D.probs e) {a : ℝ} (ha : 0 ≤ a) :
    nysInv (nysG (root ℓ) (fullNys num ℓ D)) a (fullNys num ℓ D).eigvals = diagonal fun i => 1 / (1 + a * (ℓ i * invP D i)) := by
  have hN := fullNys_ok (D := D) hn hl
  have hG := nysG_gram hN (root_mul hl)
  have h1 := nysInv_mul hG ha hN.nonneg
  have hd : ∀ i, 0 < 1 + a * (ℓ i * invP D i) := fun i => by
    have := (hl i).le; have := invP_nonneg hp i; positivity
  have h2 : (1 + a • (nysG (root ℓ) (fullNys num ℓ D) * (nysG (root ℓ) (fullNys num ℓ D))ᵀ)) *
      (diagonal fun i => 1 / (1 + a * (ℓ i * invP D i))) = 1 := by
    rw [gram_full hn hl hp, ← diagonal_one, ← diagonal_smul, diagonal_add, diagonal_mul_diagonal]
    congr 1
    funext i
    simp only [Pi.smul_apply, smul_eq_mul]
    exact mul_one_div_cancel (hd i).ne'
  calc _ = nysInv (nysG (root ℓ) (fullNys num ℓ D)) a (fullNys num ℓ D).eigvals *
        ((1 + a • (nysG (root ℓ) (fullNys num ℓ D) * (nysG (root ℓ) (fullNys num ℓ D))ᵀ)) *
      (diagonal fun i => 1 / (1 + a * (ℓ i * invP D i)))) := by rw [h2, Matrix.mul_one]
    _ = _ := by rw [← Matrix.mul_assoc, h1, Matrix.one_mul]

theorem nysRls_full (hn : NumericsSpec num) (hl : ∀ i, 0 < ℓ i) (hp : ∀ e, 0 < D.probs e) {a : ℝ} (ha : 0 ≤ a) (i : Fin n) :
    nysRls (diagonal ℓ) (fullNys num ℓ D) a i = a * ℓ i / (1 + a * (ℓ i * invP D i)) := by
  rw [nysRls_eq (fullNys_ok hn hl) (root_mul hl) ha, nysInv_full hn hl hp ha]
  have h1 := Real.mul_self_sqrt (hl i).le
  have h2 : (fun p => root ℓ p i) ⬝ᵥ ((diagonal fun i => 1 / (1 + a * (ℓ i * invP D i))) *ᵥ fun p => root ℓ p i)
      = ℓ i / (1 + a * (ℓ i * invP D i)) := by
    simp only [dotProduct, mulVec_diagonal, root, diagonal_apply]
    rw [Finset.sum_eq_single i]
    · rw [if_pos rfl]
      calc _ = (Real.sqrt (ℓ i) * Real.sqrt (ℓ i)) / (1 + a * (ℓ i * invP D i)) := by ring
        _ = _ := by rw [h1]
    · intro p _ hpi
      rw [if_neg hpi]; ring
    · intro h; exact absurd (Finset.mem_univ i) h
  rw [h2, mul_div_assoc]

theorem nysDeff_full (hn : NumericsSpec num) (hl : ∀ i, 0 < ℓ i) (hp : ∀ e, 0 < D.probs e) {a : ℝ} (ha : 0 ≤ a) :
    nysDeff (fullNys num ℓ D) a = ∑ i, a * (ℓ i * invP D i) / (1 + a * (ℓ i * invP D i)) := by
  have hN := fullNys_ok (D := D) hn hl
  have h1 := trace_nysInv (α := a) (nysG_gram hN (root_mul hl))
  rw [nysInv_full hn hl hp ha, trace_diagonal] at h1
  have h2 : nysDeff (fullNys num ℓ D) a = ∑ j, a * (fullNys num ℓ D).eigvals j / (a * (fullNys num ℓ D).eigvals j + 1) := by
    unfold nysDeff
    refine Finset.sum_congr rfl fun j _ => ?_
    have : 0 < a * (fullNys num ℓ D).eigvals j + 1 := by have := hN.nonneg j; positivity
    field_simp
    ring
  rw [h2]
  have h3 : ∑ i, a * (ℓ i * invP D i) / (1 + a * (ℓ i * invP D i)) = n - ∑ i, 1 / (1 + a * (ℓ i * invP D i)) := by
    rw [eq_sub_iff_add_eq, ← Finset.sum_add_distrib]
    have : ∀ i, a * (ℓ i * invP D i) / (1 + a * (ℓ i * invP D i)) + 1 / (1 + a * (ℓ i * invP D i)) = 1 := fun i => by
      have h4 : 0 < 1 + a * (ℓ i * invP D i) := by have := (hl i).le; have := invP_nonneg hp i; positivity
      rw [← add_div, add_comm, div_self h4.ne']
    simp_rw [this]
    simp
  rw [h3, h1, sub_sub_cancel]

/-! ### the ties -/

theorem tildeX_full (hl : ∀ i, 0 < ℓ i) {a : ℝ} {w : Fin n → ℝ} {c : Fin n → ℕ} (hw : ∀ i, 0 < c i → 0 ≤ a * w i) :
    tildeX (root ℓ) a w c * (tildeX (root ℓ) a w c)ᵀ = diagonal fun i => if 0 < c i then a * w i * ℓ i else 0 := by
  ext p q
  rw [mul_apply, diagonal_apply]
  simp only [tildeX, transpose_apply, of_apply]
  refine (sum_uniq c fun i => Real.sqrt (a * w i) * root ℓ p i * (Real.sqrt (a * w i) * root ℓ q i)).trans ?_
  unfold root
  simp only [diagonal_apply]
  rw [Finset.sum_eq_single p]
  · by_cases hpq : p = q
    · subst hpq
      rw [if_pos rfl, if_pos rfl]
      split
      · rename_i hc
        have h1 := Real.mul_self_sqrt (hw p hc)
        have h2 := Real.mul_self_sqrt (hl p).le
        calc _ = (Real.sqrt (a * w p) * Real.sqrt (a * w p)) * (Real.sqrt (ℓ p) * Real.sqrt (ℓ p)) := by ring
          _ = _ := by rw [h1, h2]
      · rfl
    · rw [if_neg (Ne.symm hpq), if_neg hpq]; simp
  · intro i _ hi
    rw [if_neg (Ne.symm hi)]; simp
  · intro h; exact absurd (Finset.mem_univ p) h

theorem weight_full (hn : NumericsSpec num) (hl : ∀ i, 0 < ℓ i) (hp : ∀ e, 0 < D.probs e) {a r : ℝ} (ha : 0 < a) (c : Fin n → ℕ)
    (i : Fin n) : a * alphaWt r (nysRls (diagonal ℓ) (fullNys num ℓ D) a) c i * ℓ i = c i * (1 + a * (ℓ i * invP D i)) / r := by
  unfold alphaWt
  rw [nysRls_full hn hl hp ha.le]
  have h1 := hl i
  have h2 : 0 < 1 + a * (ℓ i * invP D i) := by have := invP_nonneg hp i; positivity
  by_cases hr : r = 0
  · simp [hr]
  · field_simp

theorem rls_pos (hn : NumericsSpec num) (hl : ∀ i, 0 < ℓ i) (hp : ∀ e, 0 < D.probs e) {a : ℝ} (ha : 0 < a) (i : Fin n) :
    0 < nysRls (diagonal ℓ) (fullNys num ℓ D) a i := by
  rw [nysRls_full hn hl hp ha.le]
  have h1 := hl i
  have h2 := invP_nonneg hp i
  positivity

/-- an intermediate sample is a tie exactly when each count is `r` times the (estimated) leverage score divided by the probability -/
theorem tie_iff (hn : NumericsSpec num) (hl : ∀ i, 0 < ℓ i) (hp : ∀ e, 0 < D.probs e) {a r : ℝ} (ha : 0 < a) (hr : 0 < r)
    (c : Fin n → ℕ) : alphaAcc (diagonal ℓ) (fullNys num ℓ D) a r (nysRls (diagonal ℓ) (fullNys num ℓ D) a) c = 0 ↔
      ∀ i, c i * (1 + a * (ℓ i * invP D i)) = r * (a * (ℓ i * invP D i)) := by
  have hN := fullNys_ok (D := D) hn hl
  have hL := diag_kernel_psd hl
  have hR := root_mul hl
  have hG := nysG_gram hN hR
  have hc : ∀ i, 0 < c i → 0 < nysRls (diagonal ℓ) (fullNys num ℓ D) a i := fun i _ => rls_pos hn hl hp ha i
  have hw : ∀ i, 0 < c i → 0 ≤ alphaWt r (nysRls (diagonal ℓ) (fullNys num ℓ D) a) c i := fun i hi => by
    have h2 := hc i hi
    unfold alphaWt; positivity
  have hX := tildeX_full hl (a := a) (w := alphaWt r (nysRls (diagonal ℓ) (fullNys num ℓ D) a) c) (c := c)
    fun i hi => mul_nonneg ha.le (hw i hi)
  have hkey : tildeX (root ℓ) a (alphaWt r (nysRls (diagonal ℓ) (fullNys num ℓ D) a) c) c *
        (tildeX (root ℓ) a (alphaWt r (nysRls (diagonal ℓ) (fullNys num ℓ D) a) c) c)ᵀ
        = a • (nysG (root ℓ) (fullNys num ℓ D) * (nysG (root ℓ) (fullNys num ℓ D))ᵀ) ↔
      ∀ i, c i * (1 + a * (ℓ i * invP D i)) = r * (a * (ℓ i * invP D i)) := by
    rw [hX, gram_full hn hl hp, ← diagonal_smul, diagonal_injective.eq_iff, funext_iff]
    refine forall_congr' fun i => ?_
    simp only [Pi.smul_apply, smul_eq_mul]
    rw [weight_full hn hl hp ha]
    split
    · rw [div_eq_iff hr.ne', mul_comm r]
    · rename_i hi
      rw [show c i = 0 by omega]
      simp only [Nat.cast_zero, zero_mul]
      rw [eq_comm, eq_comm (a := (0:ℝ)), mul_eq_zero (a := r)]
      simp [hr.ne']
  rw [alphaAcc_eq hN hL hR ha hc, tilde_eq_nys hR hG ha.le hN.nonneg _ c hw]
  constructor
  · intro h
    exact hkey.1 (nys_acc_eq hG ha.le hN.nonneg _ h)
  · intro h
    have h2 := hkey.2 h
    obtain ⟨X, hXd⟩ : ∃ X, X = tildeX (root ℓ) a (alphaWt r (nysRls (diagonal ℓ) (fullNys num ℓ D) a) c) c := ⟨_, rfl⟩
    rw [← hXd] at h2 ⊢
    have h6 : (Xᵀ * nysInv (nysG (root ℓ) (fullNys num ℓ D)) a (fullNys num ℓ D).eigvals * X).trace
        = ∑ j, a * (fullNys num ℓ D).eigvals j / (a * (fullNys num ℓ D).eigvals j + 1) := by
      rw [Matrix.mul_assoc, trace_mul_comm, Matrix.mul_assoc, h2]
      have h7 : a • (nysG (root ℓ) (fullNys num ℓ D) * (nysG (root ℓ) (fullNys num ℓ D))ᵀ)
          = (1 + a • (nysG (root ℓ) (fullNys num ℓ D) * (nysG (root ℓ) (fullNys num ℓ D))ᵀ)) - 1 := by simp
      rw [h7, Matrix.mul_sub, nysInv_mul hG ha.le hN.nonneg, Matrix.mul_one, trace_sub, trace_nysInv hG, trace_one,
        Fintype.card_fin, sub_sub_cancel]
    have h8 : Real.log (1 + Xᵀ * X).det = ∑ j, Real.log (1 + a * (fullNys num ℓ D).eigvals j) := by
      have hpos : ∀ j, 0 < 1 + a * (fullNys num ℓ D).eigvals j := fun j => by have := hN.nonneg j; positivity
      have h9 := det_nysInv hG ha.le hN.nonneg
      have h10 := congrArg Matrix.det (nysInv_mul hG ha.le hN.nonneg)
      rw [det_mul, det_one] at h10
      have hne : (nysInv (nysG (root ℓ) (fullNys num ℓ D)) a (fullNys num ℓ D).eigvals).det ≠ 0 := by
        intro h0; rw [h0, zero_mul] at h10; exact zero_ne_one h10
      rw [det_one_add_mul_comm, h2, mul_left_cancel₀ hne (h10.trans h9.symm), Real.log_prod fun j _ => (hpos j).ne']
    rw [h6, h8]
    ring

end Verif.DiagPts
