import Verif.Lemmas.Session
import Verif.Lemmas.Scal2
import Mathlib.Analysis.Complex.ExponentialBounds

/-!
Laws that differ, and a concrete environment: orthogonal points with the dictionary of all the points.
-/

namespace Verif
open Verif Verif.Spec Verif.Model Matrix
open scoped ENNReal

variable {n : ℕ} {num : Numerics}

/-! ### laws that differ -/

theorem LawIs.unique {β : Type*} {p : PMF (Outcome (List (Fin n) × β))} {w w' : Finset (Fin n) → ℝ} (h : LawIs p w) (h' : LawIs p w')
    (hp : PP p Succeeds ≠ 0) (hw : ∀ T, 0 ≤ w T) (hw' : ∀ T, 0 ≤ w' T) (T : Finset (Fin n)) : w T = w' T := by
  have h1 := (h T).symm.trans (h' T)
  have h2 : PP p Succeeds ≠ ∞ := ne_top_of_le_ne_top ENNReal.one_ne_top (PP_le_one _ _)
  have h3 := (ENNReal.mul_right_inj hp h2).1 h1
  rwa [ENNReal.ofReal_eq_ofReal_iff (hw T) (hw' T)] at h3

theorem lDppProb_nonneg {L : Matrix (Fin n) (Fin n) ℝ} (hL : L.PosSemidef) (T : Finset (Fin n)) : 0 ≤ lDppProb L T :=
  div_nonneg (minor_nonneg hL T) (det_one_add_pos hL).le

/-- the probability of the empty set decreases strictly when the kernel is scaled up -/
theorem det_smul_lt {L : Matrix (Fin n) (Fin n) ℝ} (hL : L.PosSemidef) {i : Fin n} (hi : 0 < L i i) {c d : ℝ} (hc : 0 ≤ c)
    (hcd : c < d) : (1 + c • L).det < (1 + d • L).det := by
  rw [← sum_lDppProb (psd_smul hL hc), ← sum_lDppProb (psd_smul hL (hc.trans hcd.le))]
  refine Finset.sum_lt_sum (fun S _ => ?_) ⟨{i}, Finset.mem_univ _, ?_⟩
  · rw [minor_smul, minor_smul]
    exact mul_le_mul_of_nonneg_right (pow_le_pow_left₀ hc hcd.le _) (minor_nonneg hL S)
  · rw [minor_singleton, minor_singleton, Matrix.smul_apply, Matrix.smul_apply]
    exact mul_lt_mul_of_pos_right hcd hi

theorem lDppProb_smul_ne {L : Matrix (Fin n) (Fin n) ℝ} (hL : L.PosSemidef) {i : Fin n} (hi : 0 < L i i) {c : ℝ} (hc : 0 ≤ c)
    (h1 : c ≠ 1) : lDppProb (c • L) ∅ ≠ lDppProb L ∅ := by
  unfold lDppProb
  rw [minor_empty, minor_empty]
  intro h
  rw [one_div, one_div, _root_.inv_inj] at h
  have h2 : (1 + L).det = (1 + (1:ℝ) • L).det := by rw [one_smul]
  rw [h2] at h
  rcases lt_or_gt_of_ne h1 with h3 | h3
  · exact absurd h (det_smul_lt hL hi hc h3).ne
  · exact absurd h (det_smul_lt hL hi zero_le_one h3).ne'

theorem PP_draws_le {β : Type*} (p : PMF (Outcome (List (Fin n) × β))) (T : Finset (Fin n)) : PP p (Draws T) ≤ PP p Succeeds := by
  rw [PP_succeeds_sum]
  exact Finset.single_le_sum (f := fun T => PP p (Draws T)) (fun _ _ => zero_le) (Finset.mem_univ T)

/-- the vfx loop succeeds with positive probability -/
theorem vfxLoop_succeeds_pos {L : Matrix (Fin n) (Fin n) ℝ} {inner : DppSampler} (hin : InnerSpec inner) {pc : VfxInfo n}
    (h : VfxOK L pc) {m : ℕ} (hm : 0 < m) : 0 < PP (vfxLoop inner L pc m 0) Succeeds := by
  obtain ⟨k, rfl⟩ := Nat.exists_eq_succ_of_ne_zero hm.ne'
  refine lt_of_lt_of_le ?_ (PP_draws_le _ ∅)
  rw [vfxLoop_draws hin h, minor_empty, ENNReal.ofReal_one, mul_one]
  exact vfxK_pos k

/-- a round rejects with probability less than one -/
theorem vfxRound_reject_lt {L : Matrix (Fin n) (Fin n) ℝ} {pc : VfxInfo n} (h : VfxOK L pc) :
    PP (vfxRound L pc) (fun o => o = .ok none) < 1 := by
  obtain ⟨inner, hin⟩ := exists_innerSpec
  have h1 := vfxLoop_success hin h 1 0
  have h2 := vfxLoop_succeeds_pos hin h one_pos
  rw [pow_one] at h1
  refine lt_of_le_of_ne (PP_le_one _ _) fun h3 => ?_
  rw [h3] at h1
  have h4 : PP (vfxLoop inner L pc 1 0) Succeeds = 0 := by
    have := ENNReal.add_right_inj (a := 1) (b := PP (vfxLoop inner L pc 1 0) Succeeds) (c := 0) ENNReal.one_ne_top
    rw [add_zero, add_comm] at this
    exact this.1 h1
  exact absurd h4 h2.ne'

/-! ### the concrete environment -/

/-- no parameter given -/
def noParams : VfxParams := ⟨none, none, none⟩

/-- `n` orthogonal points with the same norm, BLESS returns all the points -/
noncomputable def scalEnv (num : Numerics) (inner : DppSampler) (n : ℕ) (x over : ℝ) : SessEnv n where
  num := num
  inner := inner
  L := scal n x
  over := over
  dict := PMF.pure (.ok (fullDict n over))
  dictK := fun _ => PMF.pure (.ok
    { lamMax := 1
      lamMin := 1
      lamNew := 1
      deff := 1
      dict := fullDict n over })

theorem scalEnv_good (hn : NumericsSpec num) {inner : DppSampler} (hin : InnerSpec inner) {x over : ℝ} (hx : 0 < x) (ho : 0 < over)
    (hc : (1 + n * x) * n * num.eps < 1) : GoodEnv (scalEnv num inner n x over) where
  num := hn
  inner := hin
  psd := scal_psd hx.le
  over := ho
  eps := by change (1 + (scal n x).trace) * n * num.eps < 1; rw [scal_trace]; exact hc
  dict := by
    intro D hD
    simp only [scalEnv, PMF.support_pure, Set.mem_singleton_iff, Outcome.ok.injEq] at hD
    rw [hD]; exact one_pos
  dictK := by
    intro k D hD
    simp only [scalEnv, PMF.support_pure, Set.mem_singleton_iff, Outcome.ok.injEq] at hD
    rw [hD]; exact ⟨one_pos, one_pos, one_pos⟩

theorem andThen_pure {α β : Type*} (a : α) (k : α → PMF (Outcome β)) : PMF.andThen (PMF.pure (.ok a)) k = k a := by
  unfold PMF.andThen
  rw [PMF.pure_bind]

theorem eps_of_scal (hn : NumericsSpec num) {x : ℝ} (hx : 0 < x) (hc : (1 + n * x) * n * num.eps < 1) : n * num.eps < 1 := by
  refine lt_of_le_of_lt ?_ hc
  have h1 := hn.eps
  have h2 : 0 ≤ (n : ℝ) * x * (n * num.eps) := by positivity
  nlinarith

/-- the pre-computation of vfx in this environment -/
theorem vfxPre_scal (hn : NumericsSpec num) {x over : ℝ} (hx : 0 < x) (hpos : 0 < n)
    (hc : (1 + n * x) * n * num.eps < 1) (ho : 1 ≤ over * (x / (x + 1))) {d : Option ℝ}
    (hok : ∃ pc, vfxPrecompute num (scal n x) (fullDict n over) d = .ok pc) :
    ∃ pc, vfxPre num (scal n x) over (PMF.pure (.ok (fullDict n over))) noParams d = PMF.pure (.ok pc) ∧
      0 < pc.alphaStar ∧ pc.s = n * (pc.alphaStar * x / (pc.alphaStar * x + 1)) ∧ pc.q = pc.s * pc.s := by
  obtain ⟨pc, h⟩ := hok
  obtain ⟨h1, h2⟩ := vfxPrecompute_scal_s hn hx hpos hc over h
  refine ⟨{ pc with q := pc.s * pc.s }, ?_, h1, h2, rfl⟩
  unfold vfxPre
  rw [if_neg (by simp [noParams]), andThen_pure]
  have h3 : (fullDict n over).lam = 1 := rfl
  rw [h3, reduceLambda_scal hn hx hpos (eps_of_scal hn hx hc) over over ho, andThen_pure, h, liftOut, andThen_pure]
  rfl

/-- the pre-computation of alpha-dpp in this environment -/
theorem alphaPre_scal (hn : NumericsSpec num) {x over : ℝ} (hx : 0 < x) (hpos : 0 < n)
    (hc : (1 + n * x) * n * num.eps < 1) (ho : 1 ≤ over * (x / (x + 1))) :
    alphaPre num (scal n x) over (PMF.pure (.ok (fullDict n over)))
      = PMF.pure (.ok (alphaInfoOf (scal n x) (scalNys num n x over) none 1)) := by
  unfold alphaPre
  rw [andThen_pure]
  have h3 : (fullDict n over).lam = 1 := rfl
  rw [h3, reduceLambda_scal hn hx hpos (eps_of_scal hn hx hc) over over ho, andThen_pure,
    alphaPrecompute_scal hn hx hpos (eps_of_scal hn hx hc), liftOut]

end Verif
