import Verif.Lemmas.SubDict

/-! The vfx pre-computation on orthogonal points, for a dictionary of some of the points. -/

namespace Verif.Lemmas.SubVfx
open Verif Verif.Spec Verif.Model Matrix

variable {n : ℕ} {num : Numerics}

theorem dictMat_sub {x p : ℝ} (U : Fin n → Bool) (over : ℝ) (e f : Fin (subDict U p over).items.length) :
    dictMat (scal n x) (subDict U p over) e f = if e = f then x else 0 := by
  unfold dictMat
  rw [scal_apply]
  by_cases hef : e = f
  · rw [if_pos hef, if_pos (by rw [hef])]
  · rw [if_neg hef, if_neg fun h => hef (subDict_inj U p over h)]

theorem bBar_sub (hn : NumericsSpec num) {x p : ℝ} (hx : 0 < x) (U : Fin n → Bool) (over : ℝ) (a : Fin (List.finRange _).length)
    (i : Fin n) :
    bBar num (scal n x) (subDict U p over) (List.finRange _) a i
      = Real.sqrt x * ∑ e, (num.svd _ (dictMat (scal n x) (subDict U p over))).1 e ((List.finRange _).get a) *
          if (subDict U p over).idx e = i then 1 else 0 := by
  unfold bBar
  rw [svd_scal hn hx.le (dictMat_sub U over)]
  simp_rw [scal_apply]
  have h := Real.mul_self_sqrt hx.le
  have hs := Real.sqrt_pos.2 hx
  rw [Finset.mul_sum, Finset.mul_sum]
  refine Finset.sum_congr rfl fun e _ => ?_
  split
  · field_simp
    rw [sq, h, mul_comm]
  · simp

theorem iAmm_sub (hn : NumericsSpec num) {x p : ℝ} (hx : 0 < x) (U : Fin n → Bool) (over : ℝ) (a b : Fin (List.finRange _).length) :
    iAmm (bBar num (scal n x) (subDict U p over) (List.finRange _)) a b = if a = b then x + 1 else 0 := by
  have hA := dictMat_sub (n := n) (x := x) (p := p) U over
  have hU := (hn.svd _ _ (psd_of_scal hx.le hA)).2.1
  obtain ⟨W, hW⟩ : ∃ W, W = (num.svd _ (dictMat (scal n x) (subDict U p over))).1 := ⟨_, rfl⟩
  unfold iAmm
  simp_rw [bBar_sub hn hx]
  rw [← hW] at hU ⊢
  have h1 : ∀ i, Real.sqrt x * (∑ e, W e ((List.finRange _).get a) * if (subDict U p over).idx e = i then 1 else 0) *
      (Real.sqrt x * ∑ e, W e ((List.finRange _).get b) * if (subDict U p over).idx e = i then 1 else 0)
      = x * ∑ e, if (subDict U p over).idx e = i then W e ((List.finRange _).get a) * W e ((List.finRange _).get b) else 0 := by
    intro i
    have h := Real.mul_self_sqrt hx.le
    rw [mul_mul_mul_comm, h]
    congr 1
    rw [Finset.sum_mul_sum]
    refine Finset.sum_congr rfl fun e _ => ?_
    rw [Finset.sum_eq_single e]
    · split <;> simp
    · intro f _ hf
      by_cases he : (subDict U p over).idx e = i
      · rw [if_neg (c := (subDict U p over).idx f = i)]
        · simp
        · intro h'
          exact hf (subDict_inj U p over (h'.trans he.symm))
      · rw [if_neg he]; simp
    · simp
  simp_rw [h1]
  rw [← Finset.mul_sum, Finset.sum_comm]
  simp only [Finset.sum_ite_eq, Finset.mem_univ, if_true]
  rw [hU]
  simp only [finRange_get_inj]
  split <;> simp

theorem sum_bBar_sub (hn : NumericsSpec num) {x p : ℝ} (hx : 0 < x) (U : Fin n → Bool) (over : ℝ) :
    ∑ i, ∑ a, bBar num (scal n x) (subDict U p over) (List.finRange _) a i ^ 2 = (selOnes U).length * x := by
  have h := iAmm_sub (n := n) (p := p) hn hx U over
  rw [Finset.sum_comm]
  have h1 : ∀ a, ∑ i, bBar num (scal n x) (subDict U p over) (List.finRange _) a i ^ 2 = x := by
    intro a
    have := h a a
    unfold iAmm at this
    rw [if_pos rfl, if_pos rfl] at this
    simp_rw [sq]
    linarith
  simp_rw [h1]
  rw [Finset.sum_const, Finset.card_univ, Fintype.card_fin, List.length_finRange, subDict_length, nsmul_eq_mul]

/-- the estimated size: the points outside of the dictionary count for `a x` instead of `a x / (a x + 1)` -/
theorem vfxRootFun_sub (hn : NumericsSpec num) {x p : ℝ} (hx : 0 < x) (U : Fin n → Bool) (over : ℝ) {a : ℝ} (ha : 0 < a) (d : ℝ) :
    vfxRootFun (scal n x) (bBar num (scal n x) (subDict U p over) (List.finRange _))
        (num.eigh _ (iAmm (bBar num (scal n x) (subDict U p over) (List.finRange _)))).1 d a
      = (n - (selOnes U).length) * (a * x) + (selOnes U).length * (a * x / (a * x + 1)) - d := by
  unfold vfxRootFun
  simp_rw [eigh_scal hn (iAmm_sub (n := n) (p := p) hn hx U over)]
  rw [sum_bBar_sub hn hx, show ∑ i, scal n x i i = n * x from scal_trace x, Finset.sum_const, Finset.card_univ, Fintype.card_fin,
    List.length_finRange, subDict_length, nsmul_eq_mul]
  have h1 : a * x + 1 ≠ 0 := by positivity
  have h2 : x + 1 - 1 + 1 / a = (a * x + 1) / a := by field_simp; ring
  rw [h2, add_sub_cancel_right, div_div_eq_mul_div]
  ring

theorem keep_vfx_sub (hn : NumericsSpec num) {x p : ℝ} (hx : 0 < x) (heps : n * num.eps < 1) (U : Fin n → Bool) (over : ℝ) :
    stableKeep num.eps (num.svd _ (dictMat (scal n x) (subDict U p over))).2 = List.finRange _ := by
  have hlen : (selOnes U).length ≤ n := (List.length_filter_le _ _).trans (by simp)
  refine stableKeep_const hx ?_ (svd_scal hn hx.le (dictMat_sub U over))
  rw [subDict_length]
  have h1 := hn.eps
  have h2 : ((selOnes U).length : ℝ) ≤ n := by exact_mod_cast hlen
  nlinarith

/-- The outcome of the pre-computation, for a size `d`: refused exactly when it is at least the estimated size of `L`. -/
theorem vfxPrecompute_sub (hn : NumericsSpec num)
    (hb : ∀ f a b, (∃ x, a ≤ x ∧ x ≤ b ∧ f x = 0) → ∃ x, num.brentq f a b = some x)
    {x p : ℝ} (hx : 0 < x) (hc : (1 + n * x) * n * num.eps < 1) {U : Fin n → Bool} (hne : selOnes U ≠ []) (over : ℝ) {d a : ℝ}
    (ha : 10 * num.eps ≤ a) (ha1 : a ≤ 1) (hd : d = (n - (selOnes U).length) * (a * x) + (selOnes U).length * (a * x / (a * x + 1)))
    (hlt : d < (n - (selOnes U).length) * x + (selOnes U).length * (x / (x + 1))) :
    ∃ pc, vfxPrecompute num (scal n x) (subDict U p over) (some d) = .ok pc := by
  have hc' : (1 + (scal n x).trace) * n * num.eps < 1 := by rw [scal_trace]; exact hc
  have hee := hn.eps
  have ha0 : 0 < a := by linarith
  have heps : n * num.eps < 1 := eps_of_scal hn hx hc
  have hkeep := keep_vfx_sub (n := n) (p := p) hn hx heps U over
  have hnat : vfxNatural (scal n x) (bBar num (scal n x) (subDict U p over) (List.finRange _))
      (num.eigh _ (iAmm (bBar num (scal n x) (subDict U p over) (List.finRange _)))).1
        = (n - (selOnes U).length) * x + (selOnes U).length * (x / (x + 1)) := by
    have := vfxRootFun_sub (n := n) (p := p) hn hx U over one_pos 0
    rw [vfxNatural_eq hn 0, this]
    simp
  obtain ⟨x1, hx1⟩ := hb (vfxRootFun (scal n x) (bBar num (scal n x) (subDict U p over) (List.finRange _))
      (num.eigh _ (iAmm (bBar num (scal n x) (subDict U p over) (List.finRange _)))).1 d) (10 * num.eps) 1
    ⟨a, ha, ha1, by rw [vfxRootFun_sub hn hx U over ha0, hd, sub_self]⟩
  have hex : ∃ e, 0 < scal n x ((subDict U p over).idx e) ((subDict U p over).idx e) := by
    have : 0 < (subDict U p over).items.length := by rw [subDict_length]; exact List.length_pos_iff.2 hne
    exact ⟨⟨0, this⟩, by rw [scal_apply, if_pos rfl]; exact hx⟩
  rcases vfxPrecompute_cases hn (scal_psd hx.le) hc' hex (some d) with ⟨-, d', hd', h⟩ | ⟨pc, h, -⟩
  swap
  · exact ⟨pc, h⟩
  exfalso
  rw [Option.some.injEq] at hd'
  subst hd'
  rw [hkeep, hnat, hx1] at h
  rcases h with h | h
  · linarith
  · exact absurd h (by simp)

/-- the rescaling found for the size `d` -/
theorem vfxPrecompute_sub_s (hn : NumericsSpec num) {x p : ℝ} (hx : 0 < x) (hc : (1 + n * x) * n * num.eps < 1) {U : Fin n → Bool}
    (hne : selOnes U ≠ []) (over : ℝ) {desired : Option ℝ} {pc : VfxInfo n}
    (h : vfxPrecompute num (scal n x) (subDict U p over) desired = .ok pc) :
    pc.s = (n - (selOnes U).length) * (pc.alphaStar * x) + (selOnes U).length * (pc.alphaStar * x / (pc.alphaStar * x + 1)) := by
  have hc' : (1 + (scal n x).trace) * n * num.eps < 1 := by rw [scal_trace]; exact hc
  have heps : n * num.eps < 1 := eps_of_scal hn hx hc
  have hex : ∃ e, 0 < scal n x ((subDict U p over).idx e) ((subDict U p over).idx e) := by
    have : 0 < (subDict U p over).items.length := by rw [subDict_length]; exact List.length_pos_iff.2 hne
    exact ⟨⟨0, this⟩, by rw [scal_apply, if_pos rfl]; exact hx⟩
  rcases vfxPrecompute_cases hn (scal_psd hx.le) hc' hex desired with ⟨h4, -⟩ | ⟨pc1, h4, h5, -, -, -, -, -, h11⟩
  · rw [h4] at h; exact absurd h (by simp)
  rw [h4, Outcome.ok.injEq] at h
  subst h
  rw [keep_vfx_sub (n := n) hn hx heps U over, vfxRootFun_sub hn hx U over h5, sub_zero] at h11
  exact h11

end Verif.Lemmas.SubVfx
