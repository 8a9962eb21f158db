import Verif.Lemmas.FiniteRun
import Verif.Props.Spectral

/-!
`compute_K` and `compute_L` on coherent objects.
-/

set_option linter.unusedSectionVars false

namespace Verif.Model
open Verif Verif.Spec Verif.Props Matrix Relation

variable {N : ℕ} {Info : Type} {env : Env N Info} (hqr : QRSpec env.qr) (heigh : EighSpec env.eigh)

theorem det_one_sub_ker {M : ℕ} {U : Fin N → Fin M → ℝ} {v : Fin M → ℝ} (h : OrthOn U v) :
    (1 - ker U v).det = ∏ a, (1 - v a) := by
  have h1 : OrthOn U (fun a => - v a) := h.congr (fun a ha => by simp [ha])
  have e : ker U (fun a => - v a) = - ker U v := by
    ext i j; simp [ker, Finset.sum_neg_distrib]
  have := det_one_add_ker U (fun a => - v a) h1
  rw [e, ← sub_eq_add_neg] at this
  rw [this]
  exact Finset.prod_congr rfl (fun a _ => by ring)

theorem someOne_iff {o : Obj N Info} {E : EigVecs N} {v : ℕ → ℝ} (hE : o.vecs = some E)
    (h : EigOK E v) : someOne v (nbCols o) = true ↔ (1 - kerOf E v).det = 0 := by
  rw [kerOf, det_one_sub_ker h.orth, Finset.prod_eq_zero_iff]
  simp only [someOne, nbCols, hE, decide_eq_true_eq, Finset.mem_univ, true_and]
  constructor
  · rintro ⟨a, ha, h1⟩; exact ⟨⟨a, ha⟩, by simp [h1]⟩
  · rintro ⟨a, ha⟩; exact ⟨a.val, a.isLt, by linarith⟩

theorem tol8_nonneg : 0 ≤ tol8 := by rw [tol8]; norm_num

theorem someNeg_false {v : ℕ → ℝ} {M : ℕ} (h : ∀ a : Fin M, 0 ≤ v a.val) : someNeg v M = false := by
  simp only [someNeg, decide_eq_false_iff_not, not_exists, not_and, not_lt]
  intro a ha
  have := h ⟨a, ha⟩
  have h1 := tol8_nonneg
  simp only at this
  linarith

theorem someNotIn01_false {v : ℕ → ℝ} {M : ℕ} (h : ∀ a : Fin M, 0 ≤ v a.val ∧ v a.val ≤ 1) :
    someNotIn01 v M = false := by
  simp only [someNotIn01, decide_eq_false_iff_not, not_exists, not_and, not_or, not_lt]
  intro a ha
  have := h ⟨a, ha⟩
  have h1 := tol8_nonneg
  simp only at this
  constructor <;> linarith

/-- the call of `compute_K` succeeded -/
def KOk (r : Obj N Info × Outcome Unit) : Prop := r.2 = .ok () ∧ r.1.K ≠ none
/-- the call of `compute_L` succeeded -/
def LOk (r : Obj N Info × Outcome Unit) : Prop := r.2 = .ok () ∧ r.1.L ≠ none

include hqr heigh

theorem computeKF_1 {o : Obj N Info} {K0 : Mat N} (h : Coh o K0) (f : ℕ)
    (hs : o.K ≠ none ∨ o.Kvals ≠ none ∨ o.zono ≠ none) : KOk (computeKF env (f + 1) o) := by
  rw [computeKF]
  split
  · rename_i A hA; exact ⟨rfl, by simp [hA]⟩
  split
  · rename_i v hv
    obtain ⟨E, hE, _⟩ := h.Kv v hv
    simp [hE, KOk]
  split
  · exact ⟨rfl, by simp⟩
  · simp_all

theorem computeKF_2 {o : Obj N Info} {K0 : Mat N} (h : Coh o K0) (f : ℕ)
    (hs : o.Lvals ≠ none) : KOk (computeKF env (f + 2) o) := by
  by_cases h1 : o.K ≠ none ∨ o.Kvals ≠ none ∨ o.zono ≠ none
  · exact computeKF_1 hqr heigh h (f + 1) h1
  push Not at h1
  obtain ⟨v, hv⟩ := Option.ne_none_iff_exists'.1 hs
  rw [computeKF]
  have q := computeKF_1 hqr heigh (h.upd hqr heigh (.kOfL o v h1.2.1 hv)) f (Or.inr (Or.inl (by simp)))
  simpa only [h1.1, h1.2.1, h1.2.2, hv] using q

theorem computeKF_3 {o : Obj N Info} {K0 : Mat N} (h : Coh o K0) (f : ℕ)
    (hs : o.L ≠ none) : KOk (computeKF env (f + 3) o) := by
  by_cases h1 : o.K ≠ none ∨ o.Kvals ≠ none ∨ o.zono ≠ none
  · exact computeKF_1 hqr heigh h (f + 2) h1
  by_cases h2 : o.Lvals ≠ none
  · exact computeKF_2 hqr heigh h (f + 1) h2
  push Not at h1 h2
  obtain ⟨A, hA⟩ := Option.ne_none_iff_exists'.1 hs
  rcases h.L A hA with ⟨L, rfl, hL⟩ | ⟨_, _, h3⟩
  swap
  · exact absurd h2 h3
  have hc := h.upd hqr heigh (.eighL o L h1.2.1 h2 hA)
  obtain ⟨E, hE, _, h4, _⟩ := hc.Lv _ rfl
  simp only [Option.some.injEq] at hE
  subst hE
  rw [computeKF]
  have q := computeKF_2 hqr heigh hc f (by simp)
  simpa only [h1.1, h1.2.1, h1.2.2, h2, hA, eighMat, someNeg_false h4, Bool.false_eq_true, if_false] using q

theorem computeKF_4 {o : Obj N Info} {K0 : Mat N} (h : Coh o K0) (f : ℕ) :
    KOk (computeKF env (f + 4) o) := by
  by_cases h1 : o.K ≠ none ∨ o.Kvals ≠ none ∨ o.zono ≠ none
  · exact computeKF_1 hqr heigh h (f + 3) h1
  by_cases h2 : o.Lvals ≠ none
  · exact computeKF_2 hqr heigh h (f + 2) h2
  by_cases h3 : o.L ≠ none
  · exact computeKF_3 hqr heigh h (f + 1) h3
  push Not at h1 h2 h3
  have hc : o.corr = false := by
    by_contra hc
    have := h.corrK (by simpa using hc)
    simp [h1] at this
  have hL := h.likL hc
  simp only [h3, h2, ne_eq, not_true_eq_false, false_or] at hL
  rw [computeKF]
  simp only [h1.1, h1.2.1, h1.2.2, h2, h3]
  cases hg : o.gram with
  | some Phi =>
    have e : computeLF env (f + 3) o = ({ o with L := some (.num (gramMat Phi)) }, .ok ()) := by
      rw [computeLF]; simp [h3, hc, h2, hg]
    rw [e]
    exact computeKF_3 hqr heigh (h.upd hqr heigh (.gram o Phi h3 (by simp [hc]) hg)) f (by simp)
  | none =>
    rw [hg] at hL
    simp only [ne_eq, not_true_eq_false, false_or] at hL
    obtain ⟨A, hA⟩ := Option.ne_none_iff_exists'.1 hL
    have e : computeLF env (f + 3) o = ({ o with L := some (.num A) }, .ok ()) := by
      rw [computeLF]; simp [h3, hc, h2, hg, hA]
    rw [e]
    exact computeKF_3 hqr heigh (h.upd hqr heigh (.evalL o A h3 (by simp [hc]) hA)) f (by simp)

theorem computeK_ok {o : Obj N Info} {K0 : Mat N} (h : Coh o K0) : KOk (computeK env o) :=
  computeKF_4 hqr heigh h 996

/-! `compute_L` -/

/-- expected outcome of `compute_L` on an object that is not a projection correlation kernel -/
def LRes (K0 : Mat N) (r : Obj N Info × Outcome Unit) : Prop :=
  ((1 - K0).det ≠ 0 ∧ LOk r) ∨ ((1 - K0).det = 0 ∧ r.2 = .raise .floatingPointError)

theorem computeLF_proj {o : Obj N Info} {K0 : Mat N} (h : Coh o K0) (f : ℕ) (hc : o.corr = true)
    (hp : o.projection = true) : computeLF env (f + 1) o = (o, .valueError) := by
  rw [computeLF]
  simp [(h.cp hc hp).2.1, hc, hp]

theorem det_of_likelihood {o : Obj N Info} {K0 : Mat N} (h : Coh o K0)
    (hs : (∃ L, o.L = some (.num L)) ∨ o.Lvals ≠ none ∨ o.gram ≠ none ∨ o.evalL ≠ none) :
    (1 - K0).det ≠ 0 := by
  rcases hs with ⟨L, hL⟩ | hs | hs | hs
  · rcases h.L _ hL with ⟨L', _, h2⟩ | ⟨h1, _⟩
    · exact h2.det_ne
    · cases h1
  · obtain ⟨v, hv⟩ := Option.ne_none_iff_exists'.1 hs
    obtain ⟨E, _, _, _, h1⟩ := h.Lv v hv
    exact h1.det_ne
  · obtain ⟨v, hv⟩ := Option.ne_none_iff_exists'.1 hs
    exact (h.gram v hv).det_ne
  · obtain ⟨v, hv⟩ := Option.ne_none_iff_exists'.1 hs
    exact (h.evalL v hv).det_ne

theorem computeLF_1 {o : Obj N Info} {K0 : Mat N} (h : Coh o K0) (f : ℕ)
    (hcp : (o.corr && o.projection) = false)
    (hs : o.L ≠ none ∨ o.Lvals ≠ none ∨ o.gram ≠ none ∨ o.evalL ≠ none) :
    LRes K0 (computeLF env (f + 1) o) := by
  left
  constructor
  · apply det_of_likelihood hqr heigh h
    rcases hs with hs | hs
    · obtain ⟨A, hA⟩ := Option.ne_none_iff_exists'.1 hs
      rcases h.L A hA with ⟨L, rfl, _⟩ | ⟨_, _, h3⟩
      · exact Or.inl ⟨L, hA⟩
      · exact Or.inr (Or.inl h3)
    · exact Or.inr hs
  rw [computeLF]
  split
  · rename_i A hA; exact ⟨rfl, by simp [hA]⟩
  simp only [hcp]
  split
  · rename_i v hv
    simp at hv
  split
  · rename_i v hv
    obtain ⟨E, hE, _⟩ := h.Lv v hv
    simp [hE, LOk]
  split
  · exact ⟨rfl, by simp⟩
  split
  · exact ⟨rfl, by simp⟩
  · simp_all

theorem computeLF_2 {o : Obj N Info} {K0 : Mat N} (h : Coh o K0) (f : ℕ)
    (hcp : (o.corr && o.projection) = false) (hs : o.Kvals ≠ none) :
    LRes K0 (computeLF env (f + 2) o) := by
  by_cases h1 : o.L ≠ none ∨ o.Lvals ≠ none ∨ o.gram ≠ none ∨ o.evalL ≠ none
  · exact computeLF_1 hqr heigh h (f + 1) hcp h1
  push Not at h1
  obtain ⟨v, hv⟩ := Option.ne_none_iff_exists'.1 hs
  obtain ⟨E, hE, h2, h3, h4⟩ := h.Kv v hv
  rw [computeLF]
  simp only [h1.1, h1.2.1, h1.2.2.1, h1.2.2.2, hv, hcp]
  by_cases hone : someOne v (nbCols o) = true
  · right
    refine ⟨?_, by simp [hone]⟩
    rw [h4]; exact (someOne_iff hE h2).1 hone
  · have hf : someOne v (nbCols o) = false := by simpa using hone
    have q := computeLF_1 hqr heigh (h.upd hqr heigh (.lOfK o v hcp h1.2.1 hv hf)) f hcp
      (Or.inr (Or.inl (by simp)))
    simpa only [hf, h1.1, h1.2.1, h1.2.2.1, h1.2.2.2, hv, Bool.false_eq_true, if_false] using q

theorem computeLF_3 {o : Obj N Info} {K0 : Mat N} (h : Coh o K0) (f : ℕ)
    (hcp : (o.corr && o.projection) = false) :
    LRes K0 (computeLF env (f + 3) o) := by
  by_cases h1 : o.L ≠ none ∨ o.Lvals ≠ none ∨ o.gram ≠ none ∨ o.evalL ≠ none
  · exact computeLF_1 hqr heigh h (f + 2) hcp h1
  by_cases h2 : o.Kvals ≠ none
  · exact computeLF_2 hqr heigh h (f + 1) hcp h2
  have hc : o.corr = true := by
    by_contra hc
    have := h.likL (by simpa using hc)
    exact h1 this
  push Not at h1 h2
  have hK : o.K ≠ none := by
    rcases h.corrK hc with h3 | h3 | h3
    · exact h3
    · exact absurd h2 h3
    · obtain ⟨A, hA⟩ := Option.ne_none_iff_exists'.1 h3
      have := (h.zono A hA).2.1
      simp [hc, this] at hcp
  obtain ⟨A, hA⟩ := Option.ne_none_iff_exists'.1 hK
  rcases h.K A hA with rfl | ⟨_, _, h3⟩
  swap
  · exact absurd h2 h3
  have hu := h.upd hqr heigh (.eighK o K0 h2 h1.2.1 hA)
  obtain ⟨E, hE, _, h4, _⟩ := hu.Kv _ rfl
  simp only [Option.some.injEq] at hE
  subst hE
  rw [computeLF]
  have q := computeLF_2 hqr heigh hu f hcp (by simp)
  simpa only [h1.1, h1.2.1, h1.2.2.1, h1.2.2.2, h2, hA, hcp, eighMat, someNotIn01_false h4,
    Bool.false_eq_true, if_false] using q

theorem computeL_res {o : Obj N Info} {K0 : Mat N} (h : Coh o K0)
    (hcp : (o.corr && o.projection) = false) : LRes K0 (computeL env o) :=
  computeLF_3 hqr heigh h 997 hcp

theorem computeL_proj {o : Obj N Info} {K0 : Mat N} (h : Coh o K0) (hc : o.corr = true)
    (hp : o.projection = true) : computeL env o = (o, .valueError) :=
  computeLF_proj hqr heigh h 999 hc hp

end Verif.Model
