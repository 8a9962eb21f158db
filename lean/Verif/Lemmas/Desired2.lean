import Verif.Lemmas.Desired
import Verif.Lemmas.SubVfx
import Verif.Lemmas.Ties2
import Verif.Lemmas.Session
import Verif.Model.Desired

/-! `sample_exact(mode='vfx', desired_expected_size=d)`: support and expected sizes. -/

namespace Verif.Lemmas.Desired
open Verif Verif.Spec Verif.Model Verif.Lemmas.MeanSize Verif.Lemmas.SubVfx Matrix
open scoped ENNReal

variable {n : ℕ} {L : Matrix (Fin n) (Fin n) ℝ} {num : Numerics} {env : SessEnv n}

/-! ### expected sizes of programs -/

/-- the number of items returned -/
noncomputable def cardOk {β : Type*} : Outcome (List (Fin n) × β) → ℝ≥0∞
  | .ok (l, _) => (l.toFinset.card : ℝ≥0∞)
  | .raise _ => 0

theorem meanCard_eq {β : Type*} (p : PMF (Outcome (List (Fin n) × β))) : meanCard p = PE p cardOk := by
  classical
  unfold meanCard
  simp_rw [PP_draws, ← PE_mul_left]
  rw [← PE_sum]
  congr 1
  funext o
  cases o with
  | raise e => simp [hitDraw, cardOk]
  | ok a => obtain ⟨l, b⟩ := a; simp [hitDraw, cardOk]

theorem meanCard_law {β : Type*} {p : PMF (Outcome (List (Fin n) × β))} {w : Finset (Fin n) → ℝ} (h : LawIs p w)
    (hw : ∀ S, 0 ≤ w S) : meanCard p = PP p Succeeds * ENNReal.ofReal (meanSize w) := by
  unfold meanCard meanSize
  rw [ENNReal.ofReal_sum_of_nonneg fun S _ => mul_nonneg (Nat.cast_nonneg _) (hw S), Finset.mul_sum]
  refine Finset.sum_congr rfl fun S _ => ?_
  rw [h S, ENNReal.ofReal_mul (Nat.cast_nonneg _), ENNReal.ofReal_natCast]
  ring

theorem meanCard_andThen_le {α β : Type*} {p : PMF (Outcome α)} {k : α → PMF (Outcome (List (Fin n) × β))} {c : ℝ≥0∞}
    (h : ∀ a, .ok a ∈ p.support → meanCard (k a) ≤ PP (k a) Succeeds * c) :
    meanCard (PMF.andThen p k) ≤ PP (PMF.andThen p k) Succeeds * c := by
  rw [meanCard_eq, PP_succeeds, PE_andThen, PE_andThen, ← PE_mul_right]
  refine PE_mono fun o ho => ?_
  cases o with
  | raise e => simp [cardOk, hitOk]
  | ok a =>
    have := h a ho
    rwa [meanCard_eq, PP_succeeds] at this

theorem meanCard_store {β : Type*} (f : β → Cache n) (p : PMF (Outcome (List (Fin n) × β))) :
    meanCard (store f p) = meanCard p := by
  unfold meanCard
  simp_rw [store_draws]

/-! ### the pre-computation -/

/-- how the pre-computed data were obtained -/
theorem vfxPre_mem (hn : NumericsSpec num) (hL : L.PosSemidef) {over : ℝ}
    (ho : 0 < over) {dict : PMF (Outcome (Centers n))} (hd : ∀ D, .ok D ∈ dict.support → 0 < D.lam) {params : VfxParams}
    {desired : Option ℝ} {pc : VfxInfo n} (h : .ok pc ∈ (vfxPre num L over dict params desired).support) :
    ∃ D DA pc0, .ok D ∈ dict.support ∧ .ok DA ∈ (reduceLambda num L D D.lam (some over)).support ∧ ValidDict L DA ∧
      vfxPrecompute num L DA desired = .ok pc0 ∧ pc.s = pc0.s ∧ pc.alphaStar = pc0.alphaStar := by
  unfold vfxPre at h
  split at h
  · exact absurd h (by simp)
  rw [mem_support_andThen] at h
  rcases h with ⟨D, hD, h⟩ | ⟨e, -, h⟩
  swap
  · exact absurd h (by simp)
  rw [mem_support_andThen] at h
  rcases h with ⟨DA, hDA, h⟩ | ⟨e, -, h⟩
  swap
  · exact absurd h (by simp)
  have h1 : 0 < (some over).getD D.over := ho
  rcases reduceLambda_support hL (hd D hD) h1 hDA with h2 | ⟨DA', h2, hv, -⟩
  · exact absurd h2 (by simp)
  simp only [Outcome.ok.injEq] at h2
  subst h2
  rw [mem_support_andThen] at h
  rcases h with ⟨pc0, h3, h⟩ | ⟨e, -, h⟩
  swap
  · exact absurd h (by simp)
  rw [liftOut, PMF.support_pure, Set.mem_singleton_iff] at h3
  rw [PMF.support_pure, Set.mem_singleton_iff, Outcome.ok.injEq] at h
  exact ⟨D, DA, pc0, hD, hDA, hv, h3.symm, by rw [h], by rw [h]⟩

/-- the estimated size is between the expected size of the DPP of `α L` and the trace of `α L` -/
theorem vfxPrecompute_bound (hn : NumericsSpec num) (hL : L.PosSemidef) (hc : (1 + L.trace) * n * num.eps < 1)
    {D : Centers n} (hD : ValidDict L D) {desired : Option ℝ} {pc : VfxInfo n} (h : vfxPrecompute num L D desired = .ok pc) :
    meanSize (lDppProb (pc.alphaStar • L)) ≤ pc.s ∧ pc.s ≤ pc.alphaStar * L.trace ∧
      (D.items.length < L.rank → meanSize (lDppProb (pc.alphaStar • L)) < pc.s) := by
  rcases vfxPrecompute_cases hn hL hc hD.exists_pos desired with ⟨h4, -⟩ | ⟨pc1, h4, h5, -, -, -, -, -, h11⟩
  · rw [h4] at h; exact absurd h (by simp)
  rw [h4, Outcome.ok.injEq] at h
  subst h
  have hS := (hn.svd _ _ (dictMat_psd hL D)).1
  have hk := stableKeep_nodup num.eps (num.svd _ (dictMat L D)).2
  have hpos : ∀ j ∈ stableKeep num.eps (num.svd _ (dictMat L D)).2, 0 < (num.svd _ (dictMat L D)).2 j :=
    fun j hj => stableKeep_pos hn.eps.le hS hj
  obtain ⟨h6, h7⟩ := rootFun_bound hn hL hk hpos h5
  rw [h11]
  refine ⟨h6, ?_, fun hr => h7 (lt_of_le_of_lt ?_ hr)⟩
  · obtain ⟨B, hB⟩ : ∃ B, B = bBar num L D (stableKeep num.eps (num.svd _ (dictMat L D)).2) := ⟨_, rfl⟩
    rw [← hB, rootFun_hat hn B h5]
    have hG : ((nysHat num B)ᵀ)ᵀ * (nysHat num B)ᵀ = diagonal fun j => (num.eigh _ (iAmm B)).1 j - 1 := by
      rw [transpose_transpose, nysHat_gram hn]
    have hμ : ∀ j, 0 ≤ (num.eigh _ (iAmm B)).1 j - 1 := fun j => sub_nonneg.2 (eig_ge hn B j)
    have h1 := nysInv_mul hG h5.le hμ
    rw [transpose_transpose] at h1
    rw [Matrix.inv_eq_left_inv h1, trace_nysInv hG]
    have h2 : ((nysHat num B)ᵀ * nysHat num B).trace = ∑ j, ((num.eigh _ (iAmm B)).1 j - 1) := by
      rw [trace_mul_comm, nysHat_gram hn, trace_diagonal]
    have h3 : ∑ j, pc1.alphaStar * ((num.eigh _ (iAmm B)).1 j - 1) / (pc1.alphaStar * ((num.eigh _ (iAmm B)).1 j - 1) + 1)
        ≤ pc1.alphaStar * ∑ j, ((num.eigh _ (iAmm B)).1 j - 1) := by
      rw [Finset.mul_sum]
      refine Finset.sum_le_sum fun j _ => div_le_self (mul_nonneg h5.le (hμ j)) ?_
      have := mul_nonneg h5.le (hμ j)
      linarith
    rw [h2, mul_sub]
    linarith
  · have := (List.length_filter_le (fun i => decide (stableThresh num.eps (num.svd _ (dictMat L D)).2 < (num.svd _ (dictMat L D)).2 i))
      (List.finRange D.items.length))
    have h8 : (stableKeep num.eps (num.svd _ (dictMat L D)).2).length ≤ (List.finRange D.items.length).length :=
      List.length_filter_le _ _
    rwa [List.length_finRange] at h8

/-- the pre-computation with a desired size, for an object -/
theorem vfxPre_bound (h : GoodEnv env) {p : VfxParams} {d : ℝ} {pc : VfxInfo n}
    (hpc : .ok pc ∈ (vfxPre env.num env.L env.over env.dict p (some d)).support) :
    meanSize (lDppProb (pc.alphaStar • env.L)) ≤ d ∧ d ≤ pc.alphaStar * env.L.trace ∧ pc.s = d := by
  obtain ⟨h1, -, -, h4, -⟩ := vfxPre_support h.num h.psd h.eps h.over h.dict hpc
  have hs : pc.s = d := h4 d rfl
  obtain ⟨D, DA, pc0, -, -, hv, hp, h5, h6⟩ := vfxPre_mem h.num h.psd h.over h.dict hpc
  obtain ⟨h7, h8, -⟩ := vfxPrecompute_bound h.num h.psd h.eps hv hp
  rw [← h5, ← h6, hs] at h7
  rw [← h5, ← h6, hs] at h8
  exact ⟨h7, h8, hs⟩

end Verif.Lemmas.Desired
