import Verif.Lemmas.Precompute2

/-!
The outcome of the pre-computation of vfx.
-/

namespace Verif
open Verif Verif.Spec Verif.Model Matrix

variable {n m : ℕ} {L : Matrix (Fin n) (Fin n) ℝ} {num : Numerics} {B : Fin m → Fin n → ℝ}
  {Q : Matrix (Fin n) (Fin m) ℝ} {R : Matrix (Fin n) (Fin n) ℝ}

/-- Bessel's inequality -/
theorem bessel (hQ : Qᵀ * Q = 1) (r : Fin n → ℝ) : ∑ a, (∑ p, Q p a * r p) ^ 2 ≤ ∑ p, r p ^ 2 := by
  have h1 : 0 ≤ (r - Q *ᵥ (Qᵀ *ᵥ r)) ⬝ᵥ (r - Q *ᵥ (Qᵀ *ᵥ r)) := by
    have := dotProduct_star_self_nonneg (r - Q *ᵥ (Qᵀ *ᵥ r))
    rwa [star_trivial] at this
  have h2 : (Q *ᵥ (Qᵀ *ᵥ r)) ⬝ᵥ (Q *ᵥ (Qᵀ *ᵥ r)) = (Qᵀ *ᵥ r) ⬝ᵥ (Qᵀ *ᵥ r) := by
    rw [dotProduct_mulVec, vecMul_mulVec, hQ, Matrix.vecMul_one]
  have h3 : r ⬝ᵥ (Q *ᵥ (Qᵀ *ᵥ r)) = (Qᵀ *ᵥ r) ⬝ᵥ (Qᵀ *ᵥ r) := by
    rw [dotProduct_mulVec, ← mulVec_transpose]
  rw [sub_dotProduct, dotProduct_sub, dotProduct_sub, h2, h3, dotProduct_comm (Q *ᵥ (Qᵀ *ᵥ r)) r, h3] at h1
  have h4 : (Qᵀ *ᵥ r) ⬝ᵥ (Qᵀ *ᵥ r) = ∑ a, (∑ p, Q p a * r p) ^ 2 := by
    rw [dotProduct]
    exact Finset.sum_congr rfl fun a _ => (sq _).symm
  have h5 : r ⬝ᵥ r = ∑ p, r p ^ 2 := Finset.sum_congr rfl fun a _ => (sq _).symm
  rw [h4, h5] at h1
  linarith

theorem diag_factor (hR : L = Rᵀ * R) (i : Fin n) : L i i = ∑ p, R p i ^ 2 := by
  conv_lhs => rw [hR, mul_apply]
  exact Finset.sum_congr rfl fun a _ => (sq _).symm

theorem embed_le (hR : L = Rᵀ * R) (hB : (B : Matrix _ _ ℝ) = Qᵀ * R) (hQ : Qᵀ * Q = 1) (i : Fin n) :
    ∑ a, B a i ^ 2 ≤ L i i := by
  rw [diag_factor hR]
  refine le_trans (le_of_eq ?_) (bessel hQ fun p => R p i)
  refine Finset.sum_congr rfl fun a _ => ?_
  have := congrFun (congrFun hB a) i
  rw [mul_apply] at this
  rw [this]; rfl

theorem eig_le (hn : NumericsSpec num) (hR : L = Rᵀ * R) (hB : (B : Matrix _ _ ℝ) = Qᵀ * R) (hQ : Qᵀ * Q = 1) (j : Fin m) :
    (num.eigh m (iAmm B)).1 j - 1 ≤ L.trace := by
  have h1 := eig_quad hn B j j
  rw [if_pos rfl] at h1
  rw [← h1, Matrix.trace]
  refine Finset.sum_le_sum fun i _ => ?_
  refine le_trans ?_ (embed_le hR hB hQ i)
  rw [sum_sq_rot hn B i, ← sq]
  exact Finset.single_le_sum (f := fun j => (∑ a, (num.eigh m (iAmm B)).2 a j * B a i) ^ 2) (fun j _ => sq_nonneg _)
    (Finset.mem_univ j)

theorem rank_le (hQ : Qᵀ * Q = 1) : m ≤ n := by
  have h1 : (1 : Matrix (Fin m) (Fin m) ℝ).rank = m := by rw [Matrix.rank_one, Fintype.card_fin]
  rw [← hQ] at h1
  have h2 := Matrix.rank_mul_le_right Qᵀ Q
  have h3 := Matrix.rank_le_card_height Q
  rw [Fintype.card_fin] at h3
  omega

/-- no direction is dropped by `stable_filter` when `L` is not numerically huge -/
theorem stableKeep_all (hn : NumericsSpec num) (hR : L = Rᵀ * R) (hB : (B : Matrix _ _ ℝ) = Qᵀ * R) (hQ : Qᵀ * Q = 1)
    {α : ℝ} (hα : 0 < α) (hα1 : α ≤ 1) (hc : (1 + L.trace) * n * num.eps < 1) :
    stableFilter num.eps (fun j => (num.eigh m (iAmm B)).1 j + (1 / α - 1)) = .ok (List.finRange m) := by
  have hge := eig_ge hn B
  have hle := eig_le hn hR hB hQ
  have h1α : 0 < 1 / α := by positivity
  have h1α' : 1 ≤ 1 / α := by rw [le_div_iff₀ hα]; linarith
  have heps := hn.eps
  have htr : 0 ≤ L.trace := by
    rw [Matrix.trace]
    refine Finset.sum_nonneg fun i _ => ?_
    rw [diag_apply, diag_factor hR]
    exact Finset.sum_nonneg fun p _ => sq_nonneg _
  have hmn : (m:ℝ) ≤ n := by exact_mod_cast rank_le hQ
  have hkey : ∀ j, stableThresh num.eps (fun j => (num.eigh m (iAmm B)).1 j + (1 / α - 1))
      < (num.eigh m (iAmm B)).1 j + (1 / α - 1) := by
    intro j
    refine lt_of_lt_of_le (b := 1 / α) ?_ (by linarith [hge j])
    unfold stableThresh
    have h2 : ∀ (l : List ℝ) (a M : ℝ), a ≤ M → (∀ x ∈ l, x ≤ M) → l.foldl max a ≤ M := by
      intro l
      induction l with
      | nil => intro a M h _; exact h
      | cons x l ih =>
        intro a M h h'
        exact ih _ _ (max_le h (h' x (by simp))) fun y hy => h' y (by simp [hy])
    have h3 : (List.ofFn fun j => |(num.eigh m (iAmm B)).1 j + (1 / α - 1)|).foldl max 0 ≤ 1 / α * (1 + L.trace) := by
      refine h2 _ _ _ (by positivity) fun x hx => ?_
      rw [List.mem_ofFn] at hx
      obtain ⟨k, rfl⟩ := hx
      rw [abs_of_nonneg (by linarith [hge k])]
      have := hle k
      nlinarith
    have h4 : (0:ℝ) ≤ m * num.eps := by positivity
    calc _ ≤ 1 / α * (1 + L.trace) * m * num.eps := by
          rw [mul_assoc _ (m:ℝ), mul_assoc _ (m:ℝ)]
          exact mul_le_mul_of_nonneg_right h3 h4
      _ ≤ 1 / α * (1 + L.trace) * n * num.eps := by gcongr
      _ = 1 / α * ((1 + L.trace) * n * num.eps) := by ring
      _ < 1 / α * 1 := by gcongr
      _ = _ := mul_one _
  unfold stableFilter
  rw [if_neg]
  · congr 1
    unfold stableKeep
    rw [List.filter_eq_self]
    intro j _
    simp only [decide_eq_true_eq]
    exact (hkey j).trans_le (le_abs_self _)
  · rintro ⟨j, hj⟩
    have h1 := hkey j
    have h2 := stableThresh_nonneg heps.le (fun j => (num.eigh m (iAmm B)).1 j + (1 / α - 1))
    linarith [hge j]

/-- the eigenvalues are never at most 1 -/
theorem eig_gt (hn : NumericsSpec num) (hL : L.PosSemidef) {D : Centers n} {keep : List (Fin D.items.length)} (hk : keep.Nodup)
    (hpos : ∀ j ∈ keep, 0 < (num.svd _ (dictMat L D)).2 j) (j : Fin keep.length) :
    1 < (num.eigh _ (iAmm (bBar num L D keep))).1 j := by
  obtain ⟨R, hR⟩ := psd_factor hL
  have hQ := bQ_gram hn hL hR hk hpos
  have hB := bBar_eq (num := num) hR D keep
  refine lt_of_le_of_ne (eig_ge hn _ j) fun h => ?_
  have h1 := eig_quad hn (bBar num L D keep) j j
  rw [if_pos rfl, ← h, sub_self] at h1
  have h2 : ∀ i, ∑ a, (num.eigh _ (iAmm (bBar num L D keep))).2 a j * bBar num L D keep a i = 0 := by
    intro i
    have := (Finset.sum_eq_zero_iff_of_nonneg fun i _ => mul_self_nonneg _).1 h1 i (Finset.mem_univ i)
    exact mul_self_eq_zero.1 this
  have h3 := (hn.eigh _ (iAmm (bBar num L D keep)) (iAmm_symm _)).1 j j
  rw [if_pos rfl] at h3
  set V := (num.eigh _ (iAmm (bBar num L D keep))).2
  set Qm := bQ num L R D keep with hQm
  set x : Fin n → ℝ := Qm *ᵥ fun a => V a j with hx
  have h4 : x ⬝ᵥ x = 1 := by
    rw [hx, dotProduct_mulVec, vecMul_mulVec, hQ, Matrix.vecMul_one]
    exact h3
  have h5 : ∀ i, ∑ p, x p * R p i = 0 := by
    intro i
    rw [← h2 i]
    have hB' : ∀ a, bBar num L D keep a i = ∑ p, Qm p a * R p i := by
      intro a
      have := congrFun (congrFun hB a) i
      rw [mul_apply] at this
      exact this
    simp_rw [hB', hx, mulVec, dotProduct, Finset.sum_mul, Finset.mul_sum]
    rw [Finset.sum_comm]
    refine Finset.sum_congr rfl fun a _ => Finset.sum_congr rfl fun p _ => by ring
  have h6 : x ⬝ᵥ x = 0 := by
    conv_lhs => rw [hx, dotProduct_mulVec, ← hx]
    rw [dotProduct]
    refine Finset.sum_eq_zero fun a _ => ?_
    have : (x ᵥ* Qm) a = 0 := by
      rw [vecMul, dotProduct]
      simp only [hQm, bQ, of_apply]
      set S := (num.svd _ (dictMat L D)).2
      set U := (num.svd _ (dictMat L D)).1
      have h7 : ∀ p, x p * (1 / Real.sqrt (S (keep.get a)) * ∑ e, U e (keep.get a) * R p (D.idx e))
          = 1 / Real.sqrt (S (keep.get a)) * ∑ e, U e (keep.get a) * (x p * R p (D.idx e)) := by
        intro p
        rw [mul_left_comm, Finset.mul_sum]
        congr 1
        exact Finset.sum_congr rfl fun e _ => by ring
      simp_rw [h7]
      rw [← Finset.mul_sum, Finset.sum_comm]
      simp_rw [← Finset.mul_sum, h5]
      simp
    rw [this, zero_mul]
  rw [h4] at h6
  exact one_ne_zero h6

/-- what the constants mean -/
structure VfxConst (L R : Matrix (Fin n) (Fin n) ℝ) (G : Matrix (Fin n) (Fin m) ℝ) (μ : Fin m → ℝ) (α : ℝ) (pc : VfxInfo n) :
    Prop where
  gram : Gᵀ * G = diagonal μ
  nonneg : ∀ j, 0 ≤ μ j
  alphaStar : pc.alphaStar = α
  rls : ∀ i, pc.rls i = α * ((fun p => R p i) ⬝ᵥ (nysInv G α μ *ᵥ fun p => R p i))
  s : pc.s = ∑ i, pc.rls i
  z : pc.z = ∑ j, α * μ j / (α * μ j + 1)
  logdet : pc.logdetIA = ∑ j, Real.log (1 + α * μ j)
  rej : pc.rejToFirst = 0

theorem vfxConstants_ok (hn : NumericsSpec num) (hR : L = Rᵀ * R) (hB : (B : Matrix _ _ ℝ) = Qᵀ * R) (hQ : Qᵀ * Q = 1)
    {α : ℝ} (hα : 0 < α) (hα1 : α ≤ 1) (hc : (1 + L.trace) * n * num.eps < 1) :
    ∃ pc, vfxConstants num L B (num.eigh m (iAmm B)).2 (num.eigh m (iAmm B)).1 α = .ok pc ∧
      VfxConst L R (vfxG num B Q) (fun j => (num.eigh m (iAmm B)).1 j - 1) α pc := by
  have hG := vfxG_gram (B := B) hn hQ
  have hge := eig_ge hn B
  have hμ : ∀ j, 0 ≤ (num.eigh m (iAmm B)).1 j - 1 := fun j => sub_nonneg.2 (hge j)
  have hrls := vfxRls_eq (num := num) (Q := Q) hn hR hB hα
  have hnn : ∀ i, 0 ≤ vfxRls L B (num.eigh m (iAmm B)).2 (fun j => (num.eigh m (iAmm B)).1 j + (1 / α - 1)) (List.finRange m) α i := by
    intro i
    rw [hrls]
    exact mul_nonneg hα.le (nysInv_quad_nonneg hG hα.le hμ _)
  have hlog : ∑ j, Real.log (α * ((num.eigh m (iAmm B)).1 j + (1 / α - 1))) = ∑ j, Real.log (1 + α * ((num.eigh m (iAmm B)).1 j - 1)) := by
    refine Finset.sum_congr rfl fun j _ => ?_
    congr 1
    field_simp
    ring
  unfold vfxConstants
  simp only [stableKeep_all hn hR hB hQ hα hα1 hc]
  rw [if_neg (by push Not; exact hnn), if_neg (not_lt.2 (Finset.sum_nonneg fun i _ => hnn i)), if_neg]
  · refine ⟨_, rfl, hG, hμ, rfl, hrls, rfl, ?_, hlog, rfl⟩
    change ∑ j, ((num.eigh m (iAmm B)).1 j + (1 / α - 1) - 1 / α) / ((num.eigh m (iAmm B)).1 j + (1 / α - 1)) = _
    refine Finset.sum_congr rfl fun j _ => ?_
    have h5 : 0 < α * ((num.eigh m (iAmm B)).1 j - 1) + 1 := by
      have := mul_nonneg hα.le (hμ j)
      linarith
    have h4 : (num.eigh m (iAmm B)).1 j + (1 / α - 1) = (α * ((num.eigh m (iAmm B)).1 j - 1) + 1) / α := by
      field_simp
      ring
    simp only [h4]
    field_simp
    ring
  · rw [hlog, not_lt]
    refine Finset.sum_nonneg fun j _ => Real.log_nonneg ?_
    have := mul_nonneg hα.le (hμ j)
    linarith

variable {G : Matrix (Fin n) (Fin m) ℝ} {μ : Fin m → ℝ} {α : ℝ} {pc : VfxInfo n}

theorem VfxConst.rls_nonneg (h : VfxConst L R G μ α pc) (hα : 0 < α) (i : Fin n) : 0 ≤ pc.rls i := by
  rw [h.rls]
  exact mul_nonneg hα.le (nysInv_quad_nonneg h.gram hα.le h.nonneg _)

theorem VfxConst.rls_zero (h : VfxConst L R G μ α pc) (hR : L = Rᵀ * R) (hα : 0 < α) {i : Fin n} (h0 : pc.rls i = 0) :
    L i i = 0 := by
  rw [h.rls] at h0
  rcases mul_eq_zero.1 h0 with h1 | h1
  · exact absurd h1 hα.ne'
  · exact col_zero hR (nysInv_quad_zero h.gram hα.le h.nonneg h1)

theorem VfxConst.s_pos (h : VfxConst L R G μ α pc) (hL : L.PosSemidef) (hR : L = Rᵀ * R) (hα : 0 < α) {i : Fin n}
    (hi : 0 < L i i) : 0 < pc.s := by
  rw [h.s]
  refine Finset.sum_pos' (fun i _ => h.rls_nonneg hα i) ⟨i, Finset.mem_univ i, ?_⟩
  refine lt_of_le_of_ne (h.rls_nonneg hα i) fun h0 => ?_
  rw [h.rls_zero hR hα h0.symm] at hi
  exact lt_irrefl _ hi

theorem VfxConst.ok (h : VfxConst L R G μ α pc) (hL : L.PosSemidef) (hR : L = Rᵀ * R) (hα : 0 < α) {i : Fin n}
    (hi : 0 < L i i) {q : ℝ} (hq : 0 < q) : VfxOK L { pc with q := q } := by
  have hs := h.s_pos hL hR hα hi
  have hb : VfxBase L { pc with q := q } :=
    ⟨hL, by rw [h.alphaStar]; exact hα, hq, hs, h.rls_nonneg hα, h.s.symm, fun i => h.rls_zero hR hα⟩
  refine ⟨hb, fun σ hσ => ?_⟩
  have h1 := exp_vfxAcc hb hσ σ.length
  have hdet : 0 < (1 + tildeM L pc.alphaStar (vfxWt { pc with q := q } (countsOf σ)) (countsOf σ)).det :=
    det_one_add_pos (tildeM_psd hL (by rw [h.alphaStar]; exact hα.le))
  have h2 := tilde_acc hR h.gram hα.le h.nonneg (vfxWt { pc with q := q } (countsOf σ)) (countsOf σ)
    fun i hi => (hb.wt_pos hσ hi).le
  simp_rw [← h.rls] at h2
  rw [sum_uniq (countsOf σ) fun i => vfxWt { pc with q := q } (countsOf σ) i * pc.rls i] at h2
  have h3 : ∑ i, (if 0 < countsOf σ i then vfxWt { pc with q := q } (countsOf σ) i * pc.rls i else 0)
      = σ.length * (pc.s / q) := by
    have h4 : ∀ i, (if 0 < countsOf σ i then vfxWt { pc with q := q } (countsOf σ) i * pc.rls i else 0)
        = pc.s / q * countsOf σ i := by
      intro i
      split
      · rename_i hi
        have h5 := hσ i (List.count_pos_iff.1 hi)
        unfold vfxWt
        simp only
        field_simp
      · rename_i hi
        have : countsOf σ i = 0 := by omega
        rw [this]; simp
    simp_rw [h4]
    rw [← Finset.mul_sum, mul_comm]
    congr 1
    unfold countsOf
    rw [← Nat.cast_sum]
    have := Multiset.toFinset_sum_count_eq (σ : Multiset (Fin n))
    congr 1
    rw [← List.sum_toFinset_count_eq_length σ]
    refine (Finset.sum_subset (Finset.subset_univ _) fun x _ hx => ?_).symm
    rw [List.mem_toFinset] at hx
    exact List.count_eq_zero_of_not_mem hx
  rw [h3, ← h.z, ← h.logdet] at h2
  have h6 : vfxAcc L { pc with q := q } σ.length (countsOf σ)
      = pc.z + Real.log (1 + tildeM L α (vfxWt { pc with q := q } (countsOf σ)) (countsOf σ)).det - pc.logdetIA
        - σ.length * (pc.s / q) := by
    rw [← Real.log_exp (vfxAcc _ _ _ _), h1, Real.log_mul (by positivity) hdet.ne', Real.log_mul (by positivity) (by positivity),
      Real.log_exp, Real.log_pow, Real.log_exp, h.alphaStar]
    simp only
    ring
  rw [h6]
  exact h2

/-- `s` is the value whose root is searched -/
theorem vfxRoot_eq (hn : NumericsSpec num) (hα : 0 < α) (d : ℝ) :
    vfxRootFun L B (num.eigh m (iAmm B)).1 d α
      = (∑ i, vfxRls L B (num.eigh m (iAmm B)).2 (fun j => (num.eigh m (iAmm B)).1 j + (1 / α - 1)) (List.finRange m) α i) - d := by
  unfold vfxRootFun vfxRls
  have hge := eig_ge hn B
  congr 1
  rw [Finset.sum_add_distrib, Finset.sum_sub_distrib, ← Finset.sum_mul, ← Finset.sum_mul, mul_comm α, mul_comm α]
  congr 1
  have h0 : ∀ i, (List.map (fun j => (1 / Real.sqrt ((num.eigh m (iAmm B)).1 j + (1 / α - 1)) *
      ∑ a, (num.eigh m (iAmm B)).2 a j * B a i) ^ 2) (List.finRange m)).sum = ∑ j, (1 / Real.sqrt ((num.eigh m (iAmm B)).1 j + (1 / α - 1)) *
      ∑ a, (num.eigh m (iAmm B)).2 a j * B a i) ^ 2 := fun i => by rw [← List.ofFn_eq_map, List.sum_ofFn]
  simp_rw [h0]
  rw [Finset.sum_comm]
  refine Finset.sum_congr rfl fun j _ => ?_
  have h1 := eig_quad hn B j j
  rw [if_pos rfl] at h1
  have h3 : 0 < (num.eigh m (iAmm B)).1 j + (1 / α - 1) := by
    have := hge j
    have : 0 < 1 / α := by positivity
    linarith
  simp_rw [mul_pow, div_pow, one_pow, Real.sq_sqrt h3.le, sq (∑ a, _)]
  rw [← Finset.mul_sum, h1]
  rw [show (num.eigh m (iAmm B)).1 j - 1 + 1 / α = (num.eigh m (iAmm B)).1 j + (1 / α - 1) by ring]
  field_simp

theorem vfxNatural_eq (hn : NumericsSpec num) (d : ℝ) :
    vfxNatural L B (num.eigh m (iAmm B)).1 = vfxRootFun L B (num.eigh m (iAmm B)).1 d 1 + d := by
  unfold vfxNatural vfxRootFun
  simp

/-- The pre-computation either refuses the desired size, or it is correct. -/
theorem vfxPrecompute_cases (hn : NumericsSpec num) (hL : L.PosSemidef) (hc : (1 + L.trace) * n * num.eps < 1)
    {D : Centers n} (hD : ∃ e, 0 < L (D.idx e) (D.idx e)) (desired : Option ℝ) :
    (vfxPrecompute num L D desired = .valueError ∧ ∃ d, desired = some d ∧
      (vfxNatural L (bBar num L D (stableKeep num.eps (num.svd _ (dictMat L D)).2)) (num.eigh _ (iAmm (bBar num L D (stableKeep num.eps (num.svd _ (dictMat L D)).2)))).1 ≤ d ∨
        num.brentq (vfxRootFun L (bBar num L D (stableKeep num.eps (num.svd _ (dictMat L D)).2)) (num.eigh _ (iAmm (bBar num L D (stableKeep num.eps (num.svd _ (dictMat L D)).2)))).1 d) (10 * num.eps) 1 = none)) ∨
    ∃ pc, vfxPrecompute num L D desired = .ok pc ∧ 0 < pc.alphaStar ∧ pc.alphaStar ≤ 1 ∧
      (desired = none → pc.alphaStar = 1) ∧ (∀ d, desired = some d → pc.s = d) ∧ pc.rejToFirst = 0 ∧
      (∀ q, 0 < q → VfxOK L { pc with q := q }) ∧
      pc.s = vfxRootFun L (bBar num L D (stableKeep num.eps (num.svd _ (dictMat L D)).2))
        (num.eigh _ (iAmm (bBar num L D (stableKeep num.eps (num.svd _ (dictMat L D)).2)))).1 0 pc.alphaStar := by
  obtain ⟨e0, he0⟩ := hD
  obtain ⟨R, hR⟩ := psd_factor hL
  have hS := (hn.svd _ _ (dictMat_psd hL D)).1
  have hex : ∃ j, 0 < (num.svd _ (dictMat L D)).2 j := by
    by_contra hno
    push Not at hno
    obtain ⟨-, -, V, -, hV⟩ := hn.svd _ _ (dictMat_psd hL D)
    have h1 := hV e0 e0
    have h2 : ∀ a, (num.svd _ (dictMat L D)).2 a = 0 := fun a => le_antisymm (hno a) (hS a)
    simp only [h2, zero_mul, Finset.sum_const_zero] at h1
    exact he0.ne' h1
  obtain ⟨j0, hj0⟩ := hex
  have hk := stableKeep_nodup num.eps (num.svd _ (dictMat L D)).2
  have hpos : ∀ j ∈ stableKeep num.eps (num.svd _ (dictMat L D)).2, 0 < (num.svd _ (dictMat L D)).2 j :=
    fun j hj => stableKeep_pos hn.eps.le hS hj
  have hQ := bQ_gram hn hL hR hk hpos
  have hB := bBar_eq (num := num) hR D (stableKeep num.eps (num.svd _ (dictMat L D)).2)
  have hgt := eig_gt hn hL hk hpos
  unfold vfxPrecompute
  rw [stableFilter_ok hn.eps hS hj0]
  simp only
  rw [if_neg (by push Not; exact hgt)]
  have hnat : ¬ vfxNatural L (bBar num L D (stableKeep num.eps (num.svd _ (dictMat L D)).2))
      (num.eigh _ (iAmm (bBar num L D (stableKeep num.eps (num.svd _ (dictMat L D)).2)))).1 < 0 := by
    rw [vfxNatural_eq hn 0, vfxRoot_eq hn one_pos, add_zero, sub_zero, not_lt]
    refine Finset.sum_nonneg fun i _ => ?_
    rw [vfxRls_eq hn hR hB one_pos]
    exact mul_nonneg zero_le_one (nysInv_quad_nonneg (vfxG_gram hn hQ) zero_le_one (fun j => sub_nonneg.2 (eig_ge hn _ j)) _)
  rw [if_neg hnat]
  cases desired with
  | none =>
    right
    obtain ⟨pc, h1, h2⟩ := vfxConstants_ok hn hR hB hQ one_pos le_rfl hc
    simp only [vfxAlphaStar]
    refine ⟨pc, h1, by rw [h2.alphaStar]; exact one_pos, by rw [h2.alphaStar], fun _ => h2.alphaStar, by simp, h2.rej, fun q hq => ?_, ?_⟩
    · exact h2.ok hL hR one_pos he0 hq
    · rw [h2.alphaStar, vfxRoot_eq hn one_pos, h2.s, sub_zero]
      simp_rw [h2.rls, ← vfxRls_eq hn hR hB one_pos]
  | some d =>
    simp only [vfxAlphaStar]
    split
    · rename_i e he
      left
      split at he
      · rename_i hle
        simp only [Outcome.valueError, Outcome.raise.injEq] at he
        exact ⟨by rw [← he], d, rfl, Or.inl hle⟩
      · split at he
        · exact absurd he (by simp)
        · rename_i hnone
          simp only [Outcome.valueError, Outcome.raise.injEq] at he
          exact ⟨by rw [← he], d, rfl, Or.inr hnone⟩
    · rename_i a ha
      right
      split at ha
      · exact absurd ha (by simp)
      · split at ha
        · rename_i x hx
          simp only [Outcome.ok.injEq] at ha
          subst ha
          obtain ⟨b1, b2, b3⟩ := hn.brentq _ _ _ _ hx
          have hx0 : 0 < x := by have := hn.eps; linarith
          obtain ⟨pc, h1, h2⟩ := vfxConstants_ok hn hR hB hQ hx0 b2 hc
          refine ⟨pc, h1, by rw [h2.alphaStar]; exact hx0, by rw [h2.alphaStar]; exact b2, by simp, ?_, h2.rej, fun q hq => ?_, ?_⟩
          · intro d' hd'
            simp only [Option.some.injEq] at hd'
            subst hd'
            rw [vfxRoot_eq hn hx0] at b3
            rw [h2.s]
            simp_rw [h2.rls, ← vfxRls_eq hn hR hB hx0]
            linarith
          · exact h2.ok hL hR hx0 he0 hq
          · rw [h2.alphaStar, vfxRoot_eq hn hx0, h2.s, sub_zero]
            simp_rw [h2.rls, ← vfxRls_eq hn hR hB hx0]
        · exact absurd ha (by simp)

end Verif
