import Verif.Model.Desired2
import Verif.Lemmas.Desired2
import Verif.Props.KAlphaTies
import Verif.Props.Bless

/-!
C110: `sample_exact(mode='alpha', desired_expected_size=d)`.
-/

namespace Verif.Props
open Verif Verif.Spec Verif.Model Verif.Lemmas.MeanSize Verif.Lemmas.Desired Matrix
open scoped ENNReal

variable {n : ℕ} {env : SessEnv n}

/-- the first call: no intermediate sample has an acceptance probability exactly one -/
def DesiredTieFree (env : SessEnv n) (d : ℕ) (rFunc : ℝ → ℝ) : Prop :=
  ∀ pc, .ok pc ∈ (alphaKPre env.num env.L env.over (env.dictK d) d).support →
    0 < rFunc (nysDeff pc.dict pc.alphaHat) ∧ ∀ a, 0 < a → NoTie env.L pc.dict a (rFunc (nysDeff pc.dict pc.alphaHat))

/-- the information computed by a first call -/
theorem alphaDesired_pre (h : GoodEnv env) {d : ℕ} {rFunc : ℝ → ℝ} (ht : DesiredTieFree env d rFunc) {pc : AlphaInfo n}
    (hpc : .ok pc ∈ (withR rFunc (alphaKPre env.num env.L env.over (env.dictK d) d)).support) :
    AlphaFamOK env.L pc ∧ pc.alphaHat ≤ 1 := by
  obtain ⟨pc0, h1, rfl⟩ := mem_withR hpc
  obtain ⟨h2, -, -, -, h5, -⟩ := alphaKPre_support h.num h.psd h.eps' h.over (h.dictK d) h1
  obtain ⟨h6, h7⟩ := ht pc0 h1
  exact ⟨h5 _ h6 h7, h2⟩

/-- the cache after a first call -/
theorem alphaDesired_first (h : GoodEnv env) {d : ℕ} {rFunc : ℝ → ℝ} (ht : DesiredTieFree env d rFunc) {m : ℕ} {l : List (Fin n)}
    {c : Cache n} (ho : .ok (l, c) ∈ (exactAlphaDesired env d rFunc m .empty).support) :
    ∃ pc, c = .alpha pc ∧ AlphaFamOK env.L pc ∧ pc.alphaHat ≤ 1 ∧ l.Nodup := by
  change _ ∈ (store Cache.alpha (alphaDesired env d rFunc m none)).support at ho
  rw [mem_store] at ho
  rcases ho with ⟨l', b, h1, h2⟩ | ⟨e, -, h2⟩
  swap
  · exact absurd h2 (by simp)
  simp only [Outcome.ok.injEq, Prod.mk.injEq] at h2
  unfold alphaDesired at h1
  rw [mem_support_andThen] at h1
  rcases h1 with ⟨pc, h3, h1⟩ | ⟨e, -, h1⟩
  swap
  · exact absurd h1 (by simp)
  rw [mem_support_andThen] at h1
  rcases h1 with ⟨r, hr, h1⟩ | ⟨e, -, h1⟩
  swap
  · exact absurd h1 (by simp)
  simp only [PMF.support_pure, Set.mem_singleton_iff, Outcome.ok.injEq, Prod.mk.injEq] at h1
  obtain ⟨h4, h5⟩ := alphaDesired_pre h ht h3
  rcases alphaLoop_support h.inner m 0 pc h4.now _ hr with h6 | ⟨l', r', b', v', h6, hnd, h7, -⟩
  · exact absurd h6 (by simp)
  · simp only [Outcome.ok.injEq] at h6
    subst h6
    refine ⟨_, by rw [h2.2, h1.2], h4.bounds h7, h5, ?_⟩
    rw [h2.1, h1.1]
    exact hnd

/-- the rescaling does not change in later calls of `sample_exact` -/
theorem alpha_kept (h : GoodEnv env) {pc : AlphaInfo n} (hpc : SessInv env (.alpha pc)) {hist : List SessCall} {c : Cache n}
    (hr : SessReachFrom env (.alpha pc) hist c) (hex : ∀ call ∈ hist, call.isExact) :
    ∃ pc', c = .alpha pc' ∧ pc'.alphaHat = pc.alphaHat ∧ SessInv env (.alpha pc') := by
  induction hr with
  | init => exact ⟨pc, rfl, rfl, hpc⟩
  | @returned hist c c' call l hc hs ih =>
    obtain ⟨pc', rfl, h1, h2⟩ := ih fun call hcall => hex call (List.mem_append_left _ hcall)
    have hcall := hex call (List.mem_append_right _ List.mem_cons_self)
    cases call with
    | exactVfx p => exact absurd hs (by simp [sessCall, exactVfx])
    | kVfx p size => exact absurd hcall (by simp [SessCall.isExact])
    | kAlpha rFunc size m ms es => exact absurd hcall (by simp [SessCall.isExact])
    | exactAlpha rFunc m =>
      replace hs : .ok (l, c') ∈ (exactAlpha env rFunc m (.alpha pc')).support := hs
      obtain ⟨pc1, b, v, r, rfl, h3, h4⟩ := exactAlpha_ok hs
      simp only [alphaOf, alphaInfoFor, PMF.support_pure, Set.mem_singleton_iff, Outcome.ok.injEq] at h3
      subst h3
      refine ⟨_, rfl, h1, ?_⟩
      rcases alphaLoop_support h.inner m 0 pc1 h2.1 _ h4 with h5 | ⟨l', r', b', v', h5, -, h6, -⟩
      · exact absurd h5 (by simp)
      · simp only [Outcome.ok.injEq, Prod.mk.injEq] at h5
        rw [h5.2.2]
        exact ⟨h6, h2.2.imp id fun h7 => h7.bounds h6⟩
  | raised hc hs ih => exact ih fun call hcall => hex call (List.mem_append_left _ hcall)

theorem sessInv_from (h : GoodEnv env) {c0 : Cache n} (h0 : SessInv env c0) {hist : List SessCall} {c : Cache n}
    (hr : SessReachFrom env c0 hist c) (ht : ∀ call ∈ hist, TieFree env call) : SessInv env c := by
  induction hr with
  | init => exact h0
  | returned hc hs ih =>
    exact sessInv_step h (ih fun call hcall => ht call (List.mem_append_left _ hcall))
      (ht _ (List.mem_append_right _ List.mem_cons_self)) hs
  | raised hc hs ih => exact ih fun call hcall => ht call (List.mem_append_left _ hcall)

theorem alphaDesired_some_law (h : GoodEnv env) {pc : AlphaInfo n} (hpc : SessInv env (.alpha pc)) (d m : ℕ) (rFunc : ℝ → ℝ) :
    LawIs (alphaDesired env d rFunc m (some pc)) (lDppProb (pc.alphaHat • env.L)) := by
  unfold alphaDesired
  simp only
  rw [andThen_pure]
  exact (alphaLoop_law h.inner hpc.1 m).1.relabel fun r => r.2.2

theorem alphaSampler_some_law (h : GoodEnv env) {pc : AlphaInfo n} (hpc : SessInv env (.alpha pc)) (m : ℕ) (rFunc : ℝ → ℝ) :
    LawIs (alphaDppSampler env.num env.inner env.L env.over env.dict rFunc m (some pc)) (lDppProb (pc.alphaHat • env.L)) := by
  unfold alphaDppSampler
  simp only [alphaInfoFor]
  rw [andThen_pure]
  exact (alphaLoop_law h.inner hpc.1 m).1.relabel fun r => r.2.2

theorem meanSize_smul_le (h : GoodEnv env) {a : ℝ} (ha : 0 < a) (ha1 : a ≤ 1) :
    meanSize (lDppProb (a • env.L)) ≤ meanSize (lDppProb env.L) := by
  have h1 := (meanSize_smul_bounds h.psd ha.le (b := 1 / a) (by rw [le_div_iff₀ ha]; linarith)).1
  rwa [one_div, inv_mul_cancel₀ ha.ne', one_smul] at h1

/-- C110, the part that holds, for an `r_func` without ties: once `sample_exact(mode='alpha', desired_expected_size=d)` has
returned on a new object, there is a rescaling `0 < α ≤ 1` such that, after any later history of calls of `sample_exact`, every
call of `sample_exact` with mode `alpha`, with any desired size or none, samples the DPP of `α L`, which has at most as
many items in expectation as the DPP of `L`; and after any later history of calls without ties, `sample_exact_k_dpp` with mode
`alpha` samples the k-DPP of `L`, whatever the size. -/
theorem C110_alpha_desired_law_partial (h : GoodEnv env) (d : ℕ) (rFunc : ℝ → ℝ) (ht : DesiredTieFree env d rFunc) (m : ℕ)
    (l : List (Fin n)) (c : Cache n) (ho : .ok (l, c) ∈ (exactAlphaDesired env d rFunc m .empty).support) :
    l.Nodup ∧
    (∃ α : ℝ, 0 < α ∧ α ≤ 1 ∧ meanSize (lDppProb (α • env.L)) ≤ meanSize (lDppProb env.L) ∧
      ∀ hist c', SessReachFrom env c hist c' → (∀ call ∈ hist, call.isExact) → ∀ rFunc' m',
        LawIs (sessCall env c' (.exactAlpha rFunc' m')) (lDppProb (α • env.L)) ∧
        ∀ d', LawIs (exactAlphaDesired env d' rFunc' m' c') (lDppProb (α • env.L))) ∧
    ∀ hist c', SessReachFrom env c hist c' → (∀ call ∈ hist, TieFree env call) → ∀ rFunc' size m' ms es,
      TieFree env (.kAlpha rFunc' size m' ms es) →
      LawIs (sessCall env c' (.kAlpha rFunc' size m' ms es)) (kDppProb env.L size) := by
  obtain ⟨pc, rfl, hfam, h1, hnd⟩ := alphaDesired_first h ht ho
  have hinv : SessInv env (.alpha pc) := ⟨hfam.now, Or.inr hfam⟩
  have hpos : 0 < pc.alphaHat := hfam.now.alpha
  refine ⟨hnd, ⟨pc.alphaHat, hpos, h1, meanSize_smul_le h hpos h1, ?_⟩, ?_⟩
  · intro hist c' hr hex rFunc' m'
    obtain ⟨pc', rfl, h2, h3⟩ := alpha_kept h hinv hr hex
    refine ⟨?_, fun d' => ?_⟩
    · rw [← h2]
      exact store_law (alphaSampler_some_law h h3 m' rFunc')
    · rw [← h2]
      exact store_law (alphaDesired_some_law h h3 d' m' rFunc')
  · intro hist c' hr hts rFunc' size m' ms es ht'
    have h3 := sessInv_from h hinv hr hts
    rcases kAlpha_cases env rFunc' size m' ms es c' with ⟨e, h4⟩ | h4
    · change LawIs (kAlpha env rFunc' size m' ms es c') _
      rw [h4]
      exact LawIs.raise _ _
    · change LawIs (kAlpha env rFunc' size m' ms es c') _
      rw [h4]
      exact store_law (alphaKDppSampler_law h ht' (alphaOf_inv h3))

/-- C110: the mean number of items returned by a first call is at most the expected number of items of the DPP of `L`, times the
probability that the call returns. -/
theorem C110_alpha_desired_mean_partial (h : GoodEnv env) (d : ℕ) (rFunc : ℝ → ℝ) (ht : DesiredTieFree env d rFunc) (m : ℕ) :
    meanCard (exactAlphaDesired env d rFunc m .empty)
      ≤ PP (exactAlphaDesired env d rFunc m .empty) Succeeds * ENNReal.ofReal (meanSize (lDppProb env.L)) := by
  change meanCard (store _ (alphaDesired env d rFunc m none)) ≤ PP (store _ (alphaDesired env d rFunc m none)) Succeeds * _
  rw [meanCard_store, store_succeeds]
  unfold alphaDesired
  refine meanCard_andThen_le fun pc hpc => ?_
  obtain ⟨hfam, h1⟩ := alphaDesired_pre h ht hpc
  have hpos : 0 < pc.alphaHat := hfam.now.alpha
  have hlaw := (alphaLoop_law h.inner hfam.now m).1.relabel fun r => r.2.2
  rw [meanCard_law hlaw fun S => lDppProb_nonneg (h.psd.smul hpos.le) S]
  gcongr
  exact meanSize_smul_le h hpos h1

/-- C110: the desired size one is always refused, because `bless_size` divides by `size_final - 1`. -/
theorem C110_one_refused (rFunc : ℝ → ℝ) (m : ℕ) (over : ℝ) (nbIter : Option ℕ)
    (hb : env.dictK 1 = blessSize env.num env.L ((1:ℕ):ℝ) over nbIter) :
    exactAlphaDesired env 1 rFunc m .empty = PMF.pure .valueError := by
  change store Cache.alpha (alphaDesired env 1 rFunc m none) = _
  unfold alphaDesired alphaKPre withR store
  rw [hb, Nat.cast_one, blessSize, if_pos rfl]
  simp only [Outcome.valueError, PMF.andThen, PMF.pure_bind]

/-! ### the claim is false -/

theorem five_inv (c : ℝ) (hc : 0 ≤ c) : (1 + c • FivePts.ker)⁻¹ = diagonal fun i => 1 / (1 + c * FivePts.ell i) := by
  refine Matrix.inv_eq_left_inv ?_
  have h1 : 1 + c • FivePts.ker = diagonal fun i => 1 + c * FivePts.ell i := by
    unfold FivePts.ker
    rw [← diagonal_one, ← diagonal_smul, diagonal_add]
    rfl
  rw [h1, diagonal_mul_diagonal, ← diagonal_one]
  congr 1
  funext i
  have := mul_nonneg hc (FivePts.ell_pos i).le
  field_simp

/-- the DPP of the five points has 17/15 items in expectation -/
theorem meanSize_five : meanSize (lDppProb FivePts.ker) = 17 / 15 := by
  rw [meanSize_lDpp FivePts.ker_psd]
  have h1 := five_inv 1 one_pos.le
  rw [one_smul] at h1
  rw [h1, trace_diagonal, Fin.sum_univ_five]
  rw [FivePts.ell_other (i := 0) (by decide), FivePts.ell_other (i := 1) (by decide), FivePts.ell_other (i := 2) (by decide),
    FivePts.ell_other (i := 3) (by decide), FivePts.ell_last (i := 4) (by decide)]
  norm_num

theorem five_tieFree {num : Numerics} (hn : NumericsSpec num) (heps : 100 * num.eps < 1) {inner : DppSampler} (hin : InnerSpec inner) :
    DesiredTieFree (fiveEnv num inner) 2 fun x => x / 2 := by
  intro pc hpc
  have h := fiveEnv_good hn heps hin
  obtain ⟨-, h1, -, -, -, h2⟩ := alphaKPre_support h.num h.psd h.eps' h.over (h.dictK 2) hpc
  have h3 : nysDeff pc.dict pc.alphaHat / 2 = 1 := by rw [h1]; norm_num
  simp only
  rw [h3]
  exact ⟨one_pos, fun a ha => h2 a 1 ha one_pos (Or.inl le_rfl)⟩

/-- C110 does not hold: five orthogonal points, the dictionaries of BLESS, desired size 2, an `r_func` without ties.  The DPP of
`L` has 17/15 items in expectation, so that the documentation promises an exception; a call returns with positive probability, and
the expected number of items of the sets that are returned is at most 17/15: it is not the desired one. -/
theorem C110_alpha_desired_refuted (num : Numerics) (hn : NumericsSpec num) (heps : 100 * num.eps < 1)
    (hb : ∀ f a b, (∃ x, a ≤ x ∧ x ≤ b ∧ f x = 0) → ∃ x, num.brentq f a b = some x) (inner : DppSampler) (hin : InnerSpec inner)
    (m : ℕ) (hm : 0 < m) :
    GoodEnv (fiveEnv num inner) ∧ (fiveEnv num inner).dictK 2 = blessSize num (fiveEnv num inner).L ((2:ℕ):ℝ) 4 none ∧
    DesiredTieFree (fiveEnv num inner) 2 (fun x => x / 2) ∧
    meanSize (lDppProb (fiveEnv num inner).L) = 17 / 15 ∧
    0 < PP (exactAlphaDesired (fiveEnv num inner) 2 (fun x => x / 2) m .empty) Succeeds ∧
    meanCard (exactAlphaDesired (fiveEnv num inner) 2 (fun x => x / 2) m .empty)
      ≤ PP (exactAlphaDesired (fiveEnv num inner) 2 (fun x => x / 2) m .empty) Succeeds * ENNReal.ofReal (17 / 15) ∧
    meanCard (exactAlphaDesired (fiveEnv num inner) 2 (fun x => x / 2) m .empty)
      < PP (exactAlphaDesired (fiveEnv num inner) 2 (fun x => x / 2) m .empty) Succeeds * ENNReal.ofReal 2 := by
  have h := fiveEnv_good hn heps hin
  have ht := five_tieFree hn heps hin
  have h1 : meanSize (lDppProb (fiveEnv num inner).L) = 17 / 15 := meanSize_five
  have h2 : 0 < PP (exactAlphaDesired (fiveEnv num inner) 2 (fun x => x / 2) m .empty) Succeeds := by
    obtain ⟨pc, hpc⟩ : ∃ pc, .ok pc ∈ (alphaKPre (fiveEnv num inner).num (fiveEnv num inner).L (fiveEnv num inner).over
        ((fiveEnv num inner).dictK 2) 2).support := by
      rw [fiveEnv_dictK]
      exact ⟨_, FivePts.alphaKPre_four hn heps hb⟩
    have hmem : .ok { pc with r := nysDeff pc.dict pc.alphaHat / 2 } ∈ (withR (fun x => x / 2) (alphaKPre (fiveEnv num inner).num
        (fiveEnv num inner).L (fiveEnv num inner).over ((fiveEnv num inner).dictK 2) 2)).support := by
      unfold withR
      rw [mem_support_andThen]
      exact Or.inl ⟨pc, hpc, by simp⟩
    obtain ⟨hfam, -⟩ := alphaDesired_pre h ht hmem
    have h5 : 0 < PP (alphaLoop (fiveEnv num inner).inner (fiveEnv num inner).L m 0 { pc with r := nysDeff pc.dict pc.alphaHat / 2 })
        Succeeds := by
      rw [(alphaLoop_law h.inner hfam.now m).2, ENNReal.ofReal_pos]
      have h6 := alphaP_pos hfam.now
      have h7 := alphaP_le_one h.inner hfam.now
      have h8 := pow_lt_one₀ (by linarith : 0 ≤ 1 - alphaP (fiveEnv num inner).L { pc with r := nysDeff pc.dict pc.alphaHat / 2 })
        (by linarith) hm.ne'
      linarith
    change 0 < PP (store _ (alphaDesired (fiveEnv num inner) 2 (fun x => x / 2) m none)) Succeeds
    rw [store_succeeds, PP_succeeds]
    unfold alphaDesired
    rw [PE_andThen]
    refine lt_of_lt_of_le ?_ (ENNReal.le_tsum (.ok { pc with r := nysDeff pc.dict pc.alphaHat / 2 }))
    refine ENNReal.mul_pos ((PMF.mem_support_iff _ _).1 hmem) (ne_of_gt ?_)
    refine lt_of_lt_of_eq h5 ?_
    change PP _ Succeeds = PE (PMF.andThen _ _) hitOk
    rw [PP_succeeds, PE_andThen]
    congr 1
    funext o
    cases o with
    | raise e => simp [hitOk]
    | ok a => simp only [PE_pure]; rfl
  have h3 := C110_alpha_desired_mean_partial h 2 _ ht m
  rw [h1] at h3
  refine ⟨h, fiveEnv_dictK num inner, ht, h1, h2, h3, lt_of_le_of_lt h3 ?_⟩
  refine ENNReal.mul_lt_mul_right h2.ne' (ne_of_lt (lt_of_le_of_lt (PP_le_one _ _) ENNReal.one_lt_top)) ?_
  exact (ENNReal.ofReal_lt_ofReal_iff (by norm_num)).2 (by norm_num)

end Verif.Props
