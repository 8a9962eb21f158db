import Verif.Lemmas.Scal3

/-!
# Intermediate samplers vfx and alpha-dpp (C32, C33, C34, C42, C43, C64, C65, C66, C67, C69, C70)

The calls `sample_exact(mode='vfx' | 'alpha')` and `sample_exact_k_dpp(size, mode='vfx' | 'alpha')` of an object defined by
`L_eval_X_data` are `sessCall env c call`, where `c` is the attribute `intermediate_sample_info` left by the previous
calls (`SessReach env hist c`).
-/

namespace Verif.Props
open Verif Verif.Spec Verif.Model Matrix
open scoped ENNReal

variable {n : ℕ} {env : SessEnv n}

/-! ### helpers -/

/-- after any history the cached vfx data satisfy the invariant -/
theorem vfx_reach (h : GoodEnv env) {hist : List SessCall} {c : Cache n} (hr : SessReach env hist c) :
    ∀ pc, c = .vfx pc → SessInv env (.vfx pc) := by
  induction hr with
  | init => intro pc h0; exact absurd h0 (by simp)
  | raised hc hs ih => exact ih
  | @returned hist c c' call l hc hs ih =>
    intro pc h0
    subst h0
    have hv : ∀ pc, vfxOf c = some pc → SessInv env (.vfx pc) := by
      intro pc1 h1
      cases c <;> simp only [vfxOf, reduceCtorEq, Option.some.injEq] at h1
      subst h1
      exact ih _ rfl
    cases call with
    | exactVfx p =>
      obtain ⟨pc1, h1, h2⟩ := exactVfx_ok hs
      rw [h1]
      exact vfxInfoFor_inv h hv h2
    | kVfx p size =>
      obtain ⟨-, pc1, j, h1, h2⟩ := kVfx_ok hs
      obtain ⟨h3, h4, h5⟩ := kVfxInfoFor_inv h hv h2
      rw [h1]
      exact ⟨⟨⟨h3.psd, h3.alpha, h3.q, h3.s, h3.rls, h3.sum, h3.zero⟩, h3.acc⟩, h4, h5⟩
    | exactAlpha r m =>
      obtain ⟨pc1, b, v, r, h1, -⟩ := exactAlpha_ok hs
      exact absurd h1 (by simp)
    | kAlpha r size m ms es =>
      obtain ⟨pc1, i, h1, -⟩ := kAlpha_ok hs
      exact absurd h1 (by simp)

/-- the vfx data in the cache, if any -/
theorem vfx_reach_of (h : GoodEnv env) {hist : List SessCall} {c : Cache n} (hr : SessReach env hist c) :
    ∀ pc, vfxOf c = some pc → SessInv env (.vfx pc) := by
  intro pc h1
  cases c <;> simp only [vfxOf, reduceCtorEq, Option.some.injEq] at h1
  subst h1
  exact vfx_reach h hr _ rfl

/-- the number of rounds allowed by the parameters -/
theorem exactVfx_some_succeeds (h : GoodEnv env) {pc : VfxInfo n} (hpc : SessInv env (.vfx pc)) (p : VfxParams) :
    PP (sessCall env (.vfx pc) (.exactVfx p)) Succeeds = PP (vfxLoop env.inner env.L pc (p.maxIter.getD 1000) 0) Succeeds := by
  change PP (store _ (dppVfxSampler _ _ _ _ _ _ (some pc))) _ = _
  rw [store_succeeds]
  unfold dppVfxSampler vfxInfoFor
  rw [andThen_pure, PP_succeeds, PP_succeeds, PE_andThen]
  congr 1
  funext o
  cases o with
  | raise e => simp [hitOk]
  | ok a => simp only [PE_pure]; rfl

/-- the law of a vfx call that uses cached data -/
theorem exactVfx_some_law (h : GoodEnv env) {pc : VfxInfo n} (hpc : SessInv env (.vfx pc)) (p : VfxParams) :
    LawIs (sessCall env (.vfx pc) (.exactVfx p)) (lDppProb ((vfxBias pc * pc.alphaStar) • env.L)) :=
  store_law (dppVfxSampler_some_law h hpc p)

/-! ### C33, C69, C70: k-DPP by rejection -/

/-- C33: whatever the kernel, the numerical routines, the sampler of the small DPP, the cached data and the parameters,
`sample_exact_k_dpp(size, mode='vfx')` that returns gives exactly `size` items. -/
theorem C33_vfx_size (env : SessEnv n) (c : Cache n) (p : VfxParams) (size : ℕ) (l : List (Fin n)) (c' : Cache n)
    (ho : .ok (l, c') ∈ (sessCall env c (.kVfx p size)).support) : l.length = size :=
  (kVfx_ok ho).1

/-- C33: the same for `sample_exact_k_dpp(size, mode='alpha')`. -/
theorem C33_alpha_size (env : SessEnv n) (c : Cache n) (rFunc : ℝ → ℝ) (size maxIter maxSize : ℕ) (es : Bool) (l : List (Fin n))
    (c' : Cache n) (ho : .ok (l, c') ∈ (sessCall env c (.kAlpha rFunc size maxIter maxSize es)).support) : l.length = size := by
  obtain ⟨pc, info', -, -, h⟩ := kAlpha_ok ho
  have h0 : KLen size (kCountInit size pc) :=
    ⟨fun l h => absurd h (by simp [kCountInit]), fun h => absurd h (by simp [kCountInit])⟩
  rcases alphaKLoop_gen _ _ _ _ _ _ _ _ h0 _ h with ⟨e, h1⟩ | ⟨l', i, h1, h2, -⟩
  · exact absurd h1 (by simp)
  · simp only [Outcome.ok.injEq, Prod.mk.injEq] at h1
    rw [h1.1]; exact h2

/-- C69: after any history of calls, a successful `sample_exact_k_dpp(size, mode='vfx')` returns `T` with the probability
of the k-DPP of `L`; the bias of vfx does not depend on the set of a given size. -/
theorem C69_kvfx_law (h : GoodEnv env) (hist : List SessCall) (c : Cache n) (hr : SessReach env hist c) (p : VfxParams) (size : ℕ) :
    LawIs (sessCall env c (.kVfx p size)) (kDppProb env.L size) := by
  change LawIs (kVfx env p size c) _
  rcases kVfx_cases env p size c with ⟨e, h1⟩ | h1
  · rw [h1]; exact LawIs.raise e _
  · rw [h1]; exact store_law (kDppVfxSampler_law h (vfx_reach_of h hr) p size)

/-- a law that only charges sets of `size` items -/
theorem card_of_law {β : Type*} {L : Matrix (Fin n) (Fin n) ℝ} {size : ℕ} {p : PMF (Outcome (List (Fin n) × β))}
    (hp : LawIs p (kDppProb L size)) {l : List (Fin n)} {b : β} (ho : .ok (l, b) ∈ p.support) : l.toFinset.card = size := by
  by_contra hne
  have h1 := hp l.toFinset
  unfold kDppProb at h1
  rw [if_neg hne, ENNReal.ofReal_zero, mul_zero] at h1
  classical
  unfold PP at h1
  rw [PE_eq_zero] at h1
  have h2 := h1 _ ho
  rw [if_pos ⟨l, b, rfl, rfl⟩] at h2
  exact one_ne_zero h2

/-- C69: and the items are distinct. -/
theorem C69_kvfx_nodup (h : GoodEnv env) (hist : List SessCall) (c : Cache n) (hr : SessReach env hist c) (p : VfxParams) (size : ℕ)
    (l : List (Fin n)) (c' : Cache n) (ho : .ok (l, c') ∈ (sessCall env c (.kVfx p size)).support) : l.Nodup := by
  have h1 := card_of_law (C69_kvfx_law h hist c hr p size) ho
  have h2 := C33_vfx_size env c p size l c' ho
  exact Multiset.coe_nodup.1 (Multiset.toFinset_card_eq_card_iff_nodup.1 (h1.trans h2.symm))

/-- C70: after any history of calls without ties, a successful `sample_exact_k_dpp(size, mode='alpha')` without ties returns
`T` with the probability of the k-DPP of `L`, although the rescaling is adapted to the sizes of the previous draws
(C66 shows that ties do happen: partial). -/
theorem C70_kalpha_law_partial (h : GoodEnv env) (hist : List SessCall) (c : Cache n) (hr : SessReach env hist c)
    (ht : ∀ call ∈ hist, TieFree env call) (rFunc : ℝ → ℝ) (size maxIter maxSize : ℕ) (es : Bool)
    (htf : TieFree env (.kAlpha rFunc size maxIter maxSize es)) :
    LawIs (sessCall env c (.kAlpha rFunc size maxIter maxSize es)) (kDppProb env.L size) := by
  change LawIs (kAlpha env rFunc size maxIter maxSize es c) _
  rcases kAlpha_cases env rFunc size maxIter maxSize es c with ⟨e, h1⟩ | h1
  · rw [h1]; exact LawIs.raise e _
  · rw [h1]; exact store_law (alphaKDppSampler_law h htf (alphaOf_inv (sessInv_reach h hr ht)))

/-! ### C34: the search interval of alpha-dpp -/

/-- C34: one update of the interval (`0 < alpha_min <= alpha_hat <= alpha_max` before): the lower end moves to the current
rescaling if more samples were too small than too large, the upper end otherwise; the other end does not move, the new
rescaling is the geometric mean of the new ends, inside the new interval, which is inside the old one. -/
theorem C34_update (st : KCount n) (a : AlphaInfo n) (h0 : 0 < a.alphaMin) (h1 : a.alphaMin ≤ a.alphaHat)
    (h2 : a.alphaHat ≤ a.alphaMax) :
    (if st.over < st.under then (kReset (kBracket st a)).alphaMin = a.alphaHat ∧ (kReset (kBracket st a)).alphaMax = a.alphaMax
      else (kReset (kBracket st a)).alphaMax = a.alphaHat ∧ (kReset (kBracket st a)).alphaMin = a.alphaMin) ∧
    (kReset (kBracket st a)).alphaHat ^ 2 = (kReset (kBracket st a)).alphaMin * (kReset (kBracket st a)).alphaMax ∧
    0 < a.alphaMin ∧ a.alphaMin ≤ (kReset (kBracket st a)).alphaMin ∧
    (kReset (kBracket st a)).alphaMin ≤ (kReset (kBracket st a)).alphaHat ∧
    (kReset (kBracket st a)).alphaHat ≤ (kReset (kBracket st a)).alphaMax ∧ (kReset (kBracket st a)).alphaMax ≤ a.alphaMax := by
  have hr := (kReset_refines st h0).bracket h1 h2
  refine ⟨?_, ?_, h0, hr⟩
  · by_cases hc : st.over < st.under
    · rw [if_pos hc]
      simp only [kReset, kBracket, gt_iff_lt, if_pos hc, and_self]
    · rw [if_neg hc]
      simp only [kReset, kBracket, gt_iff_lt, if_neg hc, and_self]
  · have hm : 0 ≤ (kBracket st a).alphaMin * (kBracket st a).alphaMax := by
      unfold kBracket
      split
      · exact mul_nonneg (h0.le.trans h1) (h0.le.trans (h1.trans h2))
      · exact mul_nonneg h0.le (h0.le.trans h1)
    change Real.sqrt _ ^ 2 = _
    rw [Real.sq_sqrt hm]
    rfl

/-- C34: over a whole call that returns, whatever the sampler of the small DPP: the interval of the cached data only shrinks
and still contains the rescaling, if the data the call starts from (cached, or computed by the call) have their rescaling
in their interval (missing: that the pre-computation puts it there). -/
theorem C34_call_partial (env : SessEnv n) (c : Cache n) (rFunc : ℝ → ℝ) (size maxIter maxSize : ℕ) (es : Bool) (l : List (Fin n))
    (c' : Cache n) (ho : .ok (l, c') ∈ (sessCall env c (.kAlpha rFunc size maxIter maxSize es)).support) :
    ∃ pc info', c' = .alpha info' ∧
      .ok pc ∈ (alphaKInfoFor env.num env.L env.over (env.dictK size) rFunc size (alphaOf c)).support ∧
      (0 < pc.alphaMin → pc.alphaMin ≤ pc.alphaHat → pc.alphaHat ≤ pc.alphaMax →
        pc.alphaMin ≤ info'.alphaMin ∧ info'.alphaMin ≤ info'.alphaHat ∧ info'.alphaHat ≤ info'.alphaMax ∧
          info'.alphaMax ≤ pc.alphaMax) := by
  obtain ⟨pc, info', h1, h2, h3⟩ := kAlpha_ok ho
  refine ⟨pc, info', h1, h2, fun ha hb hc => ?_⟩
  have h0 : KLen size (kCountInit size pc) :=
    ⟨fun l h => absurd h (by simp [kCountInit]), fun h => absurd h (by simp [kCountInit])⟩
  rcases alphaKLoop_gen _ _ _ _ _ _ _ _ h0 _ h3 with ⟨e, h4⟩ | ⟨l', i, h4, -, h5⟩
  · exact absurd h4 (by simp)
  · simp only [Outcome.ok.injEq, Prod.mk.injEq] at h4
    rw [h4.2]
    exact (h5 ha hb hc).bracket hb hc

/-! ### C42: the vfx loop -/

/-- C42: whatever the sampler of the small DPP and the constants, a sample returned after `r` rejections comes from an
accepted intermediate sample: its items were drawn, and `r` is below the allowed number of passes. -/
theorem C42_vfx_loop (inner : DppSampler) (L : Matrix (Fin n) (Fin n) ℝ) (pc : VfxInfo n) (m : ℕ) (l : List (Fin n)) (r : ℕ)
    (ho : .ok (l, r) ∈ (vfxLoop inner L pc m 0).support) :
    r < m ∧ ∃ counts : Fin n → ℕ, .ok (some counts) ∈ (vfxRound L pc).support ∧ ∀ i ∈ l, 0 < counts i := by
  have key : ∀ m rej, .ok (l, r) ∈ (vfxLoop inner L pc m rej).support →
      r < rej + m ∧ ∃ counts : Fin n → ℕ, .ok (some counts) ∈ (vfxRound L pc).support ∧ ∀ i ∈ l, 0 < counts i := by
    intro m
    induction m with
    | zero => intro rej h; rw [vfxLoop] at h; exact absurd h (by simp)
    | succ m ih =>
      intro rej h
      rw [vfxLoop, mem_support_andThen] at h
      rcases h with ⟨a, ha, h⟩ | ⟨e, -, h⟩
      swap
      · exact absurd h (by simp)
      cases a with
      | none =>
        obtain ⟨h1, h2⟩ := ih (rej + 1) h
        exact ⟨by omega, h2⟩
      | some counts =>
        simp only at h
        rw [PMF.mem_support_map_iff] at h
        obtain ⟨o', ho', h⟩ := h
        unfold vfxFinish at ho'
        rw [PMF.mem_support_map_iff] at ho'
        obtain ⟨o'', -, ho'⟩ := ho'
        cases o'' with
        | raise e => rw [← ho'] at h; exact absurd h (by simp [Outcome.map])
        | ok l0 =>
          rw [← ho'] at h
          simp only [Outcome.map, Outcome.ok.injEq, Prod.mk.injEq] at h
          refine ⟨by omega, counts, ha, fun i hi => ?_⟩
          rw [← h.1, List.mem_map] at hi
          obtain ⟨a, -, rfl⟩ := hi
          exact mem_uniq.1 (List.get_mem _ _)
  have := key m 0 ho
  rwa [zero_add] at this

/-- C42: with an exact sampler of the small DPP, the loop returns distinct items of positive leverage score, or raises
`ValueError`. -/
theorem C42_vfx_outcomes (inner : DppSampler) (hin : InnerSpec inner) (L : Matrix (Fin n) (Fin n) ℝ) (hL : L.PosSemidef)
    (pc : VfxInfo n) (hα : 0 ≤ pc.alphaStar) (hs : 0 ≤ pc.s) (m : ℕ) (o : Outcome (List (Fin n) × ℕ))
    (ho : o ∈ (vfxLoop inner L pc m 0).support) :
    o = .valueError ∨ ∃ l r, o = .ok (l, r) ∧ l.Nodup ∧ (∀ i ∈ l, 0 < pc.rls i / pc.s) ∧ r < m := by
  rcases vfxLoop_support hin hL hα hs m 0 o ho with h | ⟨l, r, h1, h2, h3, -, h5⟩
  · exact Or.inl h
  · exact Or.inr ⟨l, r, h1, h2, h3, by omega⟩

/-- C42: in every state of the cache reached by any history, a call with `max_iter` passes fails exactly when all the passes
reject, which happens with probability `R ^ max_iter` with `R < 1`. -/
theorem C42_vfx_failure_probability (h : GoodEnv env) (hist : List SessCall) (pc : VfxInfo n) (hr : SessReach env hist (.vfx pc)) :
    PP (vfxRound env.L pc) (fun o => o = .ok none) < 1 ∧ ∀ p : VfxParams,
      PP (sessCall env (.vfx pc) (.exactVfx p)) Succeeds
        + PP (vfxRound env.L pc) (fun o => o = .ok none) ^ p.maxIter.getD 1000 = 1 := by
  have hpc := vfx_reach h hr pc rfl
  refine ⟨vfxRound_reject_lt hpc.1, fun p => ?_⟩
  rw [exactVfx_some_succeeds h hpc]
  exact vfxLoop_success h.inner hpc.1 _ _

/-! ### C43: the bounds of alpha-dpp -/

/-- C43: over a call `sample_exact(mode='alpha')` that returns and used cached data, whatever the sampler of the small DPP:
the bounds do not increase, and certified bounds stay certified and unchanged. -/
theorem C43_bounds (env : SessEnv n) (pc : AlphaInfo n) (rFunc : ℝ → ℝ) (maxIter : ℕ) (l : List (Fin n)) (c' : Cache n)
    (ho : .ok (l, c') ∈ (sessCall env (.alpha pc) (.exactAlpha rFunc maxIter)).support) :
    ∃ pc', c' = .alpha pc' ∧ (∀ i, pc'.bound i ≤ pc.bound i) ∧
      ∀ i, pc.valid i = true → pc'.valid i = true ∧ pc'.bound i = pc.bound i := by
  obtain ⟨pc1, b, v, r, h1, h2, h3⟩ := exactAlpha_ok (c := .alpha pc) ho
  simp only [alphaOf, alphaInfoFor, PMF.support_pure, Set.mem_singleton_iff, Outcome.ok.injEq] at h2
  subst h2
  rcases alphaLoop_gen _ _ _ _ _ _ h3 with ⟨e, h4⟩ | ⟨l', r', b', v', h4, h5, h6, -⟩
  · exact absurd h4 (by simp)
  · simp only [Outcome.ok.injEq, Prod.mk.injEq] at h4
    refine ⟨_, h1, ?_, ?_⟩
    · rw [h4.2.2]; exact h5
    · rw [h4.2.2]; exact h6

/-- C43: the same at every pass of the loop. -/
theorem C43_bounds_pass (L : Matrix (Fin n) (Fin n) ℝ) (pc : AlphaInfo n) (o : Outcome (AlphaInfo n × Option (Fin n → ℕ)))
    (ho : o ∈ (alphaRound L pc).support) : o = .valueError ∨ ∃ pc' x, o = .ok (pc', x) ∧ (∀ i, pc'.bound i ≤ pc.bound i) ∧
      ∀ i, pc.valid i = true → pc'.valid i = true ∧ pc'.bound i = pc.bound i := by
  rcases alphaRound_gen ho with h | ⟨b, v, x, h1, h2, h3⟩
  · exact Or.inl h
  · exact Or.inr ⟨_, x, h1, h2, h3⟩

/-- C43: an intermediate sample is accepted with the probability computed by the code, which is below one: otherwise the
test raises. -/
theorem C43_acceptance (L : Matrix (Fin n) (Fin n) ℝ) (D : Nystrom n) (alpha r : ℝ) (bound : Fin n → ℝ) (counts : Fin n → ℕ) :
    alphaTest L D alpha r bound counts = PMF.pure .valueError ∨
      (Real.exp (alphaAcc L D alpha r bound counts) < 1 ∧
        PP (alphaTest L D alpha r bound counts) (fun o => o = .ok true)
          = ENNReal.ofReal (Real.exp (alphaAcc L D alpha r bound counts))) := by
  unfold alphaTest
  split
  · exact Or.inl rfl
  · split
    · exact Or.inl rfl
    · rename_i _ h
      rw [ge_iff_le, not_le] at h
      have h1 := Real.exp_lt_one_iff.2 h
      refine Or.inr ⟨h1, ?_⟩
      unfold PP
      rw [PE_map, PE_coin (Real.exp_pos _).le h1.le]
      simp

/-! ### C64: the law of vfx -/

/-- C64, the part that holds: after any history of `sample_exact` calls, a call with mode `vfx` that uses cached data returns
`T` with the probability of the DPP with likelihood `b L`, where the bias `b` is at least one and below
`1 + 4 exp(-2)`, and is one exactly when `s ** 2 * exp(1 / s)` is an integer (`s` is the estimated size; this number is
rounded up by the code). -/
theorem C64_vfx_law_partial (h : GoodEnv env) (hist : List SessCall) (hex : ∀ call ∈ hist, call.isExact) (pc : VfxInfo n)
    (hr : SessReach env hist (.vfx pc)) : ∃ b : ℝ, 1 ≤ b ∧ b < 1 + 4 * Real.exp (-2) ∧
      (b = 1 ↔ ∃ k : ℤ, pc.s ^ 2 * Real.exp (1 / pc.s) = k) ∧
      ∀ p, LawIs (sessCall env (.vfx pc) (.exactVfx p)) (lDppProb (b • env.L)) := by
  have hpc := vfx_reach h hr pc rfl
  have h1 : pc.alphaStar = 1 := sessOne_reach h hr hex
  obtain ⟨h2, h3, -⟩ := hpc
  have hs := h2.s
  have h4 : pc.s / pc.q = 1 / pc.s := by rw [h3]; field_simp
  refine ⟨vfxBias pc, vfxBias_ge h2.q, ?_, ?_, fun p => ?_⟩
  · refine (vfxBias_lt h2.q).trans_le ?_
    rw [h3]
    have := exp_bias_le hs
    linarith
  · rw [vfxBias_eq_one h2.q, h4, h3, sq]
  · have := exactVfx_some_law h (vfx_reach h hr pc rfl) p
    rwa [h1, mul_one] at this

/-- the law of a vfx call of random size, as a mixture over the pre-computed data -/
theorem exactVfx_mixture (env : SessEnv n) (c : Cache n) (p : VfxParams) :
    (∃ e, sessCall env c (.exactVfx p) = PMF.pure (.raise e)) ∨ ∀ T,
      PP (sessCall env c (.exactVfx p)) (Draws T)
        = PP (PMF.andThen (vfxInfoFor env.num env.L env.over env.dict p (vfxOf c)) fun pc =>
            vfxLoop env.inner env.L pc (p.maxIter.getD 1000) 0) (Draws T) ∧
      PP (sessCall env c (.exactVfx p)) Succeeds
        = PP (PMF.andThen (vfxInfoFor env.num env.L env.over env.dict p (vfxOf c)) fun pc =>
            vfxLoop env.inner env.L pc (p.maxIter.getD 1000) 0) Succeeds := by
  rcases exactVfx_cases env p c with ⟨e, h1⟩ | h1
  · exact Or.inl ⟨e, h1⟩
  refine Or.inr fun T => ?_
  change PP (exactVfx env p c) _ = _ ∧ PP (exactVfx env p c) _ = _
  rw [h1, store_draws, store_succeeds]
  unfold dppVfxSampler
  constructor
  · rw [PP_draws, PP_draws, PE_andThen, PE_andThen]
    congr 1
    funext o
    cases o with
    | raise e => simp [hitDraw]
    | ok a =>
      simp only
      rw [PE_andThen]
      congr 1
      funext o
      cases o with
      | raise e => simp [hitDraw]
      | ok a => simp only [PE_pure]; rfl
  · rw [PP_succeeds, PP_succeeds, PE_andThen, PE_andThen]
    congr 1
    funext o
    cases o with
    | raise e => simp [hitOk]
    | ok a =>
      simp only
      rw [PE_andThen]
      congr 1
      funext o
      cases o with
      | raise e => simp [hitOk]
      | ok a => simp only [PE_pure]; rfl

/-- C64, the part that holds: after any history of `sample_exact` calls (in particular none), the probability of each set in
a successful call is the one of the DPP of `L` up to a factor `(1 + 4 exp(-2)) ^ n`, whatever the dictionary. -/
theorem C64_vfx_bias_bounds_partial (h : GoodEnv env) (hist : List SessCall) (hex : ∀ call ∈ hist, call.isExact) (c : Cache n)
    (hr : SessReach env hist c) (p : VfxParams) (T : Finset (Fin n)) :
    PP (sessCall env c (.exactVfx p)) Succeeds * ENNReal.ofReal (lDppProb env.L T / (1 + 4 * Real.exp (-2)) ^ n)
      ≤ PP (sessCall env c (.exactVfx p)) (Draws T) ∧
    PP (sessCall env c (.exactVfx p)) (Draws T)
      ≤ PP (sessCall env c (.exactVfx p)) Succeeds * ENNReal.ofReal ((1 + 4 * Real.exp (-2)) ^ n * lDppProb env.L T) := by
  rcases exactVfx_mixture env c p with ⟨e, h1⟩ | h1
  · rw [h1, PP_draws, PP_succeeds, PE_pure, PE_pure]; simp [hitDraw, hitOk]
  rw [(h1 T).1, (h1 T).2]
  have hk : ∀ pc, .ok pc ∈ (vfxInfoFor env.num env.L env.over env.dict p (vfxOf c)).support →
      PP (vfxLoop env.inner env.L pc (p.maxIter.getD 1000) 0) (Draws T)
        = PP (vfxLoop env.inner env.L pc (p.maxIter.getD 1000) 0) Succeeds * ENNReal.ofReal (lDppProb (vfxBias pc • env.L) T) ∧
      1 ≤ vfxBias pc ∧ vfxBias pc ≤ 1 + 4 * Real.exp (-2) := by
    intro pc hpc
    obtain ⟨h2, h3, -⟩ := vfxInfoFor_inv h (vfx_reach_of h hr) hpc
    have h5 := vfxInfoFor_one h (vfxOf_one (sessOne_reach h hr hex)) hpc
    have h6 := vfxLoop_law h.inner h2 (p.maxIter.getD 1000) T
    rw [h5, mul_one] at h6
    refine ⟨h6, vfxBias_ge h2.q, ((vfxBias_lt h2.q).trans_le ?_).le⟩
    rw [h3]
    have := exp_bias_le h2.s
    linarith
  constructor
  · refine PP_andThen_ge T fun pc hpc => ?_
    obtain ⟨h2, h3, h4⟩ := hk pc hpc
    rw [h2]
    gcongr
    exact (lDppProb_smul_bounds h.psd h3 h4 T).1
  · refine PP_andThen_le T fun pc hpc => ?_
    obtain ⟨h2, h3, h4⟩ := hk pc hpc
    rw [h2]
    gcongr
    exact (lDppProb_smul_bounds h.psd h3 h4 T).2

/-- C64, the part that holds exactly: after any history of calls (of any mode, k-DPP or not), two sets of the same size
have probabilities in the ratio of their determinants: conditionally on its size the sample is an exact k-DPP. -/
theorem C64_vfx_given_size (h : GoodEnv env) (hist : List SessCall) (c : Cache n)
    (hr : SessReach env hist c) (p : VfxParams) (S T : Finset (Fin n)) (hcard : S.card = T.card) :
    PP (sessCall env c (.exactVfx p)) (Draws S) * ENNReal.ofReal (minor env.L T)
      = PP (sessCall env c (.exactVfx p)) (Draws T) * ENNReal.ofReal (minor env.L S) := by
  rcases exactVfx_mixture env c p with ⟨e, h1⟩ | h1
  · rw [h1, PP_draws, PP_draws, PE_pure, PE_pure]; simp [hitDraw]
  rw [(h1 S).1, (h1 T).1]
  refine PP_andThen_ratio S T fun pc hpc => ?_
  obtain ⟨h2, -⟩ := vfxInfoFor_inv h (vfx_reach_of h hr) hpc
  rw [vfxLoop_draws h.inner h2, vfxLoop_draws h.inner h2, minor_smul, minor_smul, hcard]
  have hb : 0 ≤ vfxBias pc * pc.alphaStar := (mul_pos (vfxBias_pos h2) h2.alpha).le
  rw [ENNReal.ofReal_mul (pow_nonneg hb _), ENNReal.ofReal_mul (pow_nonneg hb _)]
  ring

/-- C64 does not hold: with a single point and `L = 1`, whatever the exact sampler of the small DPP, the empty set is returned
with probability `1 / (1 + 8 exp(-2))` instead of `1 / 2`. -/
theorem C64_vfx_not_exact (num : Numerics) (hn : NumericsSpec num) (hc : 2 * num.eps < 1) (inner : DppSampler)
    (hin : InnerSpec inner) :
    GoodEnv (scalEnv num inner 1 1 2) ∧ (scalEnv num inner 1 1 2).L = 1 ∧
    LawIs (sessCall (scalEnv num inner 1 1 2) .empty (.exactVfx noParams)) (lDppProb ((8 * Real.exp (-2)) • (scalEnv num inner 1 1 2).L)) ∧
    ¬ LawIs (sessCall (scalEnv num inner 1 1 2) .empty (.exactVfx noParams)) (lDppProb (scalEnv num inner 1 1 2).L) := by
  have hc' : (1 + ((1:ℕ):ℝ) * 1) * (1:ℕ) * num.eps < 1 := by push_cast; linarith
  have hgood : GoodEnv (scalEnv num inner 1 1 2) := scalEnv_good hn hin one_pos two_pos hc'
  obtain ⟨pc, h1, h2, h3, h4⟩ := vfxPre_scal (n := 1) (over := 2) hn one_pos one_pos hc' (by norm_num) (d := none)
    (vfxPrecompute_scal_ok hn one_pos one_pos hc' 2)
  have hmem : .ok pc ∈ (vfxPre (scalEnv num inner 1 1 2).num (scalEnv num inner 1 1 2).L (scalEnv num inner 1 1 2).over
      (scalEnv num inner 1 1 2).dict noParams none).support := by
    change _ ∈ (vfxPre num (scal 1 1) 2 (PMF.pure (.ok (fullDict 1 2))) noParams none).support
    rw [h1]; simp
  have hinv := vfxPre_inv hgood hmem
  have hone : pc.alphaStar = 1 := (vfxPre_support hgood.num hgood.psd hgood.eps hgood.over hgood.dict hmem).2.2.1 rfl
  have hs : pc.s = 1 / 2 := by rw [h3, hone]; norm_num
  have hq : pc.q = 1 / 4 := by rw [h4, hs]; norm_num
  have hbias : vfxBias pc = 8 * Real.exp (-2) := by
    unfold vfxBias
    rw [hq, hs]
    have h5 : (1 / 2 : ℝ) / (1 / 4) = 2 := by norm_num
    have h6 : ⌈(1 / 4 : ℝ) * Real.exp 2⌉ = 2 := by
      rw [Int.ceil_eq_iff]
      have he : Real.exp 2 = Real.exp 1 * Real.exp 1 := by rw [← Real.exp_add]; norm_num
      have h7 := Real.exp_one_gt_d9
      have h8 := Real.exp_one_lt_d9
      rw [he]
      constructor <;> push_cast <;> nlinarith
    rw [h5, h6]
    push_cast
    ring
  have heq : sessCall (scalEnv num inner 1 1 2) .empty (.exactVfx noParams)
      = store .vfx (PMF.andThen (vfxLoop inner (scal 1 1) pc 1000 0) fun r => PMF.pure (.ok (r.1, pc))) := by
    change store .vfx (dppVfxSampler num inner (scal 1 1) 2 (PMF.pure (.ok (fullDict 1 2))) noParams none) = _
    unfold dppVfxSampler vfxInfoFor
    rw [h1, andThen_pure]
    rfl
  have hlaw : LawIs (sessCall (scalEnv num inner 1 1 2) .empty (.exactVfx noParams))
      (lDppProb ((8 * Real.exp (-2)) • (scalEnv num inner 1 1 2).L)) := by
    rw [heq]
    refine store_law (LawIs.relabel (w := _) ?_ fun _ => pc)
    have := vfxLoop_law hin hinv.1 1000
    rwa [hbias, hone, mul_one] at this
  have hsucc : PP (sessCall (scalEnv num inner 1 1 2) .empty (.exactVfx noParams)) Succeeds ≠ 0 := by
    rw [heq, store_succeeds]
    have h5 := vfxLoop_succeeds_pos hin hinv.1 (m := 1000) (by norm_num)
    rw [PP_succeeds] at h5 ⊢
    rw [PE_andThen]
    refine ne_of_gt (lt_of_lt_of_eq h5 ?_)
    congr 1
    funext o
    cases o with
    | raise e => simp [hitOk]
    | ok a => simp only [PE_pure]; rfl
  refine ⟨hgood, one_smul _ _, hlaw, fun hbad => ?_⟩
  have hb0 : (0:ℝ) ≤ 8 * Real.exp (-2) := by positivity
  have hne : (8:ℝ) * Real.exp (-2) ≠ 1 := by
    intro h0
    rw [Real.exp_neg] at h0
    have he : Real.exp 2 = Real.exp 1 * Real.exp 1 := by rw [← Real.exp_add]; norm_num
    have h5 : Real.exp 2 = 8 := by
      have := Real.exp_pos 2
      field_simp at h0
      linarith
    have h8 := Real.exp_one_lt_d9
    have h7 := Real.exp_pos 1
    rw [he] at h5
    nlinarith
  refine lDppProb_smul_ne hgood.psd (i := 0) ?_ hb0 hne (LawIs.unique hlaw hbad hsucc (lDppProb_nonneg (psd_smul hgood.psd hb0))
    (lDppProb_nonneg hgood.psd) ∅)
  change 0 < scal 1 1 0 0
  rw [scal_apply, if_pos rfl]
  exact one_pos

/-- the hypotheses of `C64_vfx_not_exact` can be met -/
example : ∃ num inner, NumericsSpec num ∧ 2 * num.eps < 1 ∧ InnerSpec inner := by
  obtain ⟨num, h1, h2, -⟩ := exists_numericsSpec_eps (eps := 1 / 4) (by norm_num)
  obtain ⟨inner, h3⟩ := exists_innerSpec
  exact ⟨num, inner, h1, by rw [h2]; norm_num, h3⟩

/-! ### C65: the law of alpha-dpp -/

/-- C65, the part that holds: after any history of `sample_exact` calls without ties, a call with mode `alpha` without ties
returns `T` with the probability of the DPP of `L`, whatever the dictionary and the cached bounds. -/
theorem C65_alpha_law_partial (h : GoodEnv env) (hist : List SessCall) (hex : ∀ call ∈ hist, call.isExact)
    (ht : ∀ call ∈ hist, TieFree env call) (c : Cache n) (hr : SessReach env hist c) (rFunc : ℝ → ℝ) (maxIter : ℕ)
    (htf : TieFree env (.exactAlpha rFunc maxIter)) :
    LawIs (sessCall env c (.exactAlpha rFunc maxIter)) (lDppProb env.L) := by
  change LawIs (exactAlpha env rFunc maxIter c) _
  rcases exactAlpha_cases env rFunc maxIter c with ⟨e, h1⟩ | h1
  · rw [h1]; exact LawIs.raise e _
  · rw [h1]
    exact store_law (alphaDppSampler_law h htf (alphaOf_inv (sessInv_reach h hr ht)) (alphaOf_one (sessOne_reach h hr hex)))

/-- C65: a call that uses cached data succeeds with probability `1 - (1 - P) ^ max_iter`, where `P > 0` is the same for all
the calls. -/
theorem C65_alpha_success_partial (h : GoodEnv env) (hist : List SessCall)
    (ht : ∀ call ∈ hist, TieFree env call) (pc : AlphaInfo n) (hr : SessReach env hist (.alpha pc)) :
    ∃ P : ℝ, 0 < P ∧ P ≤ 1 ∧ ∀ rFunc maxIter,
      PP (sessCall env (.alpha pc) (.exactAlpha rFunc maxIter)) Succeeds = ENNReal.ofReal (1 - (1 - P) ^ maxIter) := by
  have hpc : SessInv env (.alpha pc) := sessInv_reach h hr ht
  refine ⟨alphaP env.L pc, alphaP_pos hpc.1, alphaP_le_one h.inner hpc.1, fun rFunc m => ?_⟩
  change PP (store _ (alphaDppSampler _ _ _ _ _ _ _ (some pc))) _ = _
  rw [store_succeeds, ← (alphaLoop_law h.inner hpc.1 m).2]
  unfold alphaDppSampler alphaInfoFor
  rw [andThen_pure, PP_succeeds, PP_succeeds, PE_andThen]
  congr 1
  funext o
  cases o with
  | raise e => simp [hitOk]
  | ok a => simp only [PE_pure]; rfl

/-- C65: there is no tie when `r` is at most one, or when `r` times the effective dimension is not an integer. -/
theorem C65_no_tie (h : GoodEnv env) (rFunc : ℝ → ℝ) (maxIter : ℕ)
    (hr : ∀ pc, .ok pc ∈ (alphaPre env.num env.L env.over env.dict).support → 0 < rFunc (nysDeff pc.dict pc.alphaHat) ∧
      (rFunc (nysDeff pc.dict pc.alphaHat) ≤ 1 ∨
        ∀ k : ℕ, rFunc (nysDeff pc.dict pc.alphaHat) * nysDeff pc.dict pc.alphaHat ≠ k)) :
    TieFree env (.exactAlpha rFunc maxIter) := by
  intro pc hpc
  obtain ⟨h1, h2⟩ := hr pc hpc
  obtain ⟨h3, -, -, -, h5⟩ := alphaPre_support h.num h.psd h.eps' h.over h.dict hpc
  exact ⟨h1, h5 _ _ (by rw [h3]; exact one_pos) h1 h2⟩

/-- the data pre-computed by alpha-dpp on orthogonal points -/
theorem alphaPre_scalEnv {num : Numerics} (hn : NumericsSpec num) (inner : DppSampler) {x over : ℝ} (hx : 0 < x) (hpos : 0 < n)
    (hc : (1 + n * x) * n * num.eps < 1) (ho : 1 ≤ over * (x / (x + 1))) {pc : AlphaInfo n}
    (hpc : .ok pc ∈ (alphaPre (scalEnv num inner n x over).num (scalEnv num inner n x over).L (scalEnv num inner n x over).over
      (scalEnv num inner n x over).dict).support) : nysDeff pc.dict pc.alphaHat = n * (x / (x + 1)) := by
  change _ ∈ (alphaPre num (scal n x) over (PMF.pure (.ok (fullDict n over)))).support at hpc
  rw [alphaPre_scal hn hx hpos hc ho, PMF.support_pure, Set.mem_singleton_iff, Outcome.ok.injEq] at hpc
  rw [hpc]
  have := nysDeff_scal (n := n) hn hx over one_pos
  rw [one_mul] at this
  exact this

/-- The hypotheses of C65 hold for three orthogonal points and the default `r_func`: the effective dimension is 3/2, its square
is not an integer.  And a first call succeeds. -/
theorem C65_alpha_law_example : ∃ env : SessEnv 3, GoodEnv env ∧ TieFree env (.exactAlpha id 1000) ∧
    LawIs (sessCall env .empty (.exactAlpha id 1000)) (lDppProb (1 : Matrix (Fin 3) (Fin 3) ℝ)) ∧
    0 < PP (sessCall env .empty (.exactAlpha id 1000)) Succeeds := by
  obtain ⟨num, hn, he, -⟩ := exists_numericsSpec_eps (eps := 1 / 100) (by norm_num)
  obtain ⟨inner, hin⟩ := exists_innerSpec
  have hc : (1 + ((3:ℕ):ℝ) * 1) * (3:ℕ) * num.eps < 1 := by rw [he]; norm_num
  have ho : (1:ℝ) ≤ 2 * (1 / (1 + 1)) := by norm_num
  have hgood : GoodEnv (scalEnv num inner 3 1 2) := scalEnv_good hn hin one_pos two_pos hc
  have htf : TieFree (scalEnv num inner 3 1 2) (.exactAlpha id 1000) := by
    refine C65_no_tie hgood id 1000 fun pc hpc => ?_
    rw [alphaPre_scalEnv hn inner one_pos (by norm_num) hc ho hpc]
    refine ⟨by norm_num, Or.inr fun k hk => ?_⟩
    simp only [id] at hk
    have h1 : (9 : ℝ) = 4 * k := by push_cast at hk; linarith
    have h2 : 9 = 4 * k := by exact_mod_cast h1
    omega
  refine ⟨_, hgood, htf, ?_, ?_⟩
  · have := C65_alpha_law_partial hgood [] (by simp) (by simp) .empty .init id 1000 htf
    have h1 : (scalEnv num inner 3 1 2).L = 1 := one_smul _ _
    rwa [h1] at this
  · set pc0 := { alphaInfoOf (scal 3 1) (scalNys num 3 1 2) none 1 with r := nysDeff (scalNys num 3 1 2) 1 } with hpc0
    have heq : alphaInfoFor num (scal 3 1) 2 (PMF.pure (.ok (fullDict 3 2))) id none = PMF.pure (.ok pc0) := by
      unfold alphaInfoFor withR
      rw [alphaPre_scal hn one_pos (by norm_num) hc ho, andThen_pure]
      rfl
    have hinv : SessInv (scalEnv num inner 3 1 2) (.alpha pc0) := by
      refine alphaInfoFor_inv hgood htf (info := none) (by simp) ?_
      change _ ∈ (alphaInfoFor num (scal 3 1) 2 (PMF.pure (.ok (fullDict 3 2))) id none).support
      rw [heq]; simp
    change 0 < PP (store _ (alphaDppSampler num inner (scal 3 1) 2 (PMF.pure (.ok (fullDict 3 2))) id 1000 none)) Succeeds
    rw [store_succeeds]
    unfold alphaDppSampler
    rw [heq, andThen_pure]
    have h1 := (alphaLoop_law hin hinv.1 1000).2
    have h2 : PP (PMF.andThen (alphaLoop inner (scal 3 1) 1000 0 pc0) fun r => PMF.pure (.ok (r.1, r.2.2))) Succeeds
        = PP (alphaLoop inner (scal 3 1) 1000 0 pc0) Succeeds := by
      rw [PP_succeeds, PP_succeeds, PE_andThen]
      congr 1
      funext o
      cases o with
      | raise e => simp [hitOk]
      | ok a => simp only [PE_pure]; rfl
    rw [h2]
    refine lt_of_lt_of_eq ?_ h1.symm
    rw [ENNReal.ofReal_pos, sub_pos]
    have h3 := alphaP_pos hinv.1
    have h4 := alphaP_le_one hin hinv.1
    exact pow_lt_one₀ (by linarith) (by linarith) (by norm_num)

/-! ### C66: the acceptance tests -/

/-- C66 for vfx: with the data of any call after any history, the passes of the loop never raise: the acceptance test is a
probability. -/
theorem C66_vfx_rounds_never_raise (h : GoodEnv env) (hist : List SessCall) (c : Cache n) (hr : SessReach env hist c) (p : VfxParams)
    (size : ℕ) (pc : VfxInfo n)
    (hpc : .ok pc ∈ (vfxInfoFor env.num env.L env.over env.dict p (vfxOf c)).support ∨
      .ok pc ∈ (kVfxInfoFor env.num env.L env.over env.dict p size (vfxOf c)).support)
    (o : Outcome (Option (Fin n → ℕ))) (ho : o ∈ (vfxRound env.L pc).support) : ∃ x, o = .ok x := by
  rcases hpc with hpc | hpc
  · exact vfxRound_ok (vfxInfoFor_inv h (vfx_reach_of h hr) hpc).1 ho
  · exact vfxRound_ok (kVfxInfoFor_inv h (vfx_reach_of h hr) hpc).1 ho

/-- C66 for alpha-dpp, without ties. -/
theorem C66_alpha_rounds_never_raise_partial (h : GoodEnv env) (hist : List SessCall) (ht : ∀ call ∈ hist, TieFree env call)
    (c : Cache n) (hr : SessReach env hist c) (rFunc : ℝ → ℝ) (maxIter : ℕ) (htf : TieFree env (.exactAlpha rFunc maxIter))
    (pc : AlphaInfo n) (hpc : .ok pc ∈ (alphaInfoFor env.num env.L env.over env.dict rFunc (alphaOf c)).support)
    (o : Outcome (AlphaInfo n × Option (Fin n → ℕ))) (ho : o ∈ (alphaRound env.L pc).support) : ∃ x, o = .ok x := by
  obtain ⟨sv, x, h1⟩ := alphaRound_support_ok (alphaInfoFor_inv h htf (alphaOf_inv (sessInv_reach h hr ht)) hpc).1 ho
  exact ⟨_, h1⟩

/-- C66 does not hold for alpha-dpp: on four orthogonal points (`L = I`) with the default `r_func`, the first call raises
`ValueError` with a probability bounded below whatever `max_iter`: when each point is drawn once, the acceptance
probability is exactly one, and the test `acc_thresh >= 0` raises. -/
theorem C66_alpha_raises_on_ties (num : Numerics) (hn : NumericsSpec num) (hc : 20 * num.eps < 1) (inner : DppSampler)
    (hin : InnerSpec inner) :
    GoodEnv (scalEnv num inner 4 1 2) ∧ (scalEnv num inner 4 1 2).L = 1 ∧ ∃ P : ℝ≥0∞, 0 < P ∧ ∀ maxIter, 0 < maxIter →
      P ≤ PP (sessCall (scalEnv num inner 4 1 2) .empty (.exactAlpha id maxIter)) (fun o => o = .valueError) := by
  classical
  have hc' : (1 + ((4:ℕ):ℝ) * 1) * (4:ℕ) * num.eps < 1 := by push_cast; linarith
  have ho : (1:ℝ) ≤ 2 * (1 / (1 + 1)) := by norm_num
  refine ⟨scalEnv_good hn hin one_pos two_pos hc', one_smul _ _, ?_⟩
  have hr : nysDeff (scalNys num 4 1 2) 1 = 2 := by
    rw [nysDeff_scal hn one_pos 2 one_pos]; norm_num
  set pc0 := { alphaInfoOf (scal 4 1) (scalNys num 4 1 2) none 1 with r := 2 } with hpc0
  have heq : alphaInfoFor num (scal 4 1) 2 (PMF.pure (.ok (fullDict 4 2))) id none = PMF.pure (.ok pc0) := by
    unfold alphaInfoFor withR
    rw [alphaPre_scal hn one_pos (by norm_num) hc' ho, andThen_pure, hpc0, ← hr]
    rfl
  have hmem : .valueError ∈ (alphaRound (scal 4 1) pc0).support := alphaRound_scal_raises hn one_pos 2 (by norm_num)
  refine ⟨PP (alphaRound (scal 4 1) pc0) (fun o => o = .valueError), ?_, fun m hm => ?_⟩
  · rw [pos_iff_ne_zero]
    intro h0
    unfold PP at h0
    rw [PE_eq_zero] at h0
    have := h0 _ hmem
    simp at this
  · obtain ⟨k, rfl⟩ := Nat.exists_eq_succ_of_ne_zero hm.ne'
    change _ ≤ PP (store _ (alphaDppSampler num inner (scal 4 1) 2 (PMF.pure (.ok (fullDict 4 2))) id (k + 1) none)) _
    unfold alphaDppSampler store
    rw [heq, andThen_pure, alphaLoop]
    unfold PP
    rw [PE_andThen, PE_andThen, PE_andThen]
    refine PE_mono fun o _ => ?_
    by_cases h0 : o = .valueError
    · rw [h0]; simp
    · rw [if_neg h0]; exact zero_le

/-- the hypotheses of `C66_alpha_raises_on_ties` can be met -/
example : ∃ num inner, NumericsSpec num ∧ 20 * num.eps < 1 ∧ InnerSpec inner := by
  obtain ⟨num, h1, h2, -⟩ := exists_numericsSpec_eps (eps := 1 / 100) (by norm_num)
  obtain ⟨inner, h3⟩ := exists_innerSpec
  exact ⟨num, inner, h1, by rw [h2]; norm_num, h3⟩

/-! ### C67: documented parameters -/

/-- C67 does not hold: as long as nothing is cached, giving `q_func`, `max_iter` or `max_iter_size_rejection` to the vfx
samplers raises `TypeError`, whatever the kernel and the values. -/
theorem C67_documented_parameters_refuted (env : SessEnv n) (p : VfxParams) (size : ℕ)
    (hp : p.qFunc.isSome ∨ p.maxIter.isSome ∨ p.maxSize.isSome) :
    sessCall env .empty (.exactVfx p) = PMF.pure (.raise .typeError) ∧
    sessCall env .empty (.kVfx p size) = PMF.pure (.raise .typeError) := by
  have hp' : (p.qFunc.isSome || p.maxIter.isSome || p.maxSize.isSome) = true := by
    rcases hp with h | h | h <;> simp [h]
  have h1 : ∀ d, vfxPre env.num env.L env.over env.dict p d = PMF.pure (.raise .typeError) := by
    intro d; unfold vfxPre; rw [if_pos hp']
  constructor
  · change store _ (dppVfxSampler _ _ _ _ _ _ none) = _
    unfold dppVfxSampler vfxInfoFor store PMF.andThen
    rw [h1, PMF.pure_bind, PMF.pure_bind]
  · change store _ (kDppVfxSampler _ _ _ _ _ _ _ none) = _
    unfold kDppVfxSampler kVfxInfoFor store PMF.andThen
    rw [h1, PMF.pure_bind, PMF.pure_bind]

/-- C67: once data are cached by a call without parameters, `max_iter` is accepted and used by `sample_exact(mode='vfx')`,
but `q_func` is ignored: the law only depends on the cached data. -/
theorem C67_cached_parameters (env : SessEnv n) (pc : VfxInfo n) (p p' : VfxParams) (hp : p.maxIter = p'.maxIter) :
    sessCall env (.vfx pc) (.exactVfx p) = sessCall env (.vfx pc) (.exactVfx p') := by
  change store _ (dppVfxSampler _ _ _ _ _ _ (some pc)) = store _ (dppVfxSampler _ _ _ _ _ _ (some pc))
  unfold dppVfxSampler vfxInfoFor
  rw [andThen_pure, andThen_pure, hp]

/-! ### C32: the cache -/

/-- C32, the part that holds: after any history of `sample_exact` calls (with modes `vfx` and `alpha` mixed), the cached data
have rescaling one. -/
theorem C32_rescaling_one_partial (h : GoodEnv env) (hist : List SessCall) (hex : ∀ call ∈ hist, call.isExact) (c : Cache n)
    (hr : SessReach env hist c) : match c with
      | .empty => True
      | .vfx pc => pc.alphaStar = 1
      | .alpha pc => pc.alphaHat = 1 := by
  have := sessOne_reach h hr hex
  cases c with
  | empty => trivial
  | vfx pc => exact this
  | alpha pc => exact this

/-- C32 does not hold: after a call with one of the two modes that returned, every call with the other mode raises
`AttributeError` for ever (`ValueError` for a vfx call without passes), whatever the calls in between. -/
theorem C32_modes_cannot_be_mixed_refuted (env : SessEnv n) :
    (∀ pc hist' c', SessReachFrom env (.vfx pc) hist' c' → (∃ pc', c' = .vfx pc') ∧ ∀ r m ms k es,
      sessCall env c' (.exactAlpha r m) = PMF.pure (.raise .attributeError) ∧
      sessCall env c' (.kAlpha r k m ms es) = PMF.pure (.raise .attributeError)) ∧
    (∀ pc hist' c', SessReachFrom env (.alpha pc) hist' c' → (∃ pc', c' = .alpha pc') ∧ ∀ p k, p.maxIter ≠ some 0 →
      sessCall env c' (.exactVfx p) = PMF.pure (.raise .attributeError) ∧
      sessCall env c' (.kVfx p k) = PMF.pure (.raise .attributeError)) := by
  constructor
  · intro pc hist' c' hr'
    have hv : ∃ pc', c' = .vfx pc' := by
      induction hr' with
      | init => exact ⟨pc, rfl⟩
      | raised _ _ ih => exact ih
      | @returned h2 c1 c2 call l h3 hs ih =>
        obtain ⟨pc', rfl⟩ := ih
        cases call with
        | exactVfx p => obtain ⟨pc2, h4, -⟩ := exactVfx_ok (c := .vfx pc') hs; exact ⟨pc2, h4⟩
        | kVfx p k => obtain ⟨-, pc2, j, h4, -⟩ := kVfx_ok (c := .vfx pc') hs; exact ⟨_, h4⟩
        | exactAlpha r m =>
          change _ ∈ (PMF.pure _ : PMF (Outcome (List (Fin n) × Cache n))).support at hs
          exact absurd hs (by simp)
        | kAlpha r k m ms es =>
          change _ ∈ (PMF.pure _ : PMF (Outcome (List (Fin n) × Cache n))).support at hs
          exact absurd hs (by simp)
    obtain ⟨pc', rfl⟩ := hv
    exact ⟨⟨pc', rfl⟩, fun r m ms k es => ⟨rfl, rfl⟩⟩
  · intro pc hist' c' hr'
    have hv : ∃ pc', c' = .alpha pc' := by
      induction hr' with
      | init => exact ⟨pc, rfl⟩
      | raised _ _ ih => exact ih
      | @returned h2 c1 c2 call l h3 hs ih =>
        obtain ⟨pc', rfl⟩ := ih
        cases call with
        | exactAlpha r m => obtain ⟨pc2, b, v, r, h4, -⟩ := exactAlpha_ok (c := .alpha pc') hs; exact ⟨_, h4⟩
        | kAlpha r k m ms es => obtain ⟨pc2, i, h4, -⟩ := kAlpha_ok (c := .alpha pc') hs; exact ⟨_, h4⟩
        | exactVfx p =>
          change _ ∈ (PMF.pure _ : PMF (Outcome (List (Fin n) × Cache n))).support at hs
          exact absurd hs (by simp)
        | kVfx p k =>
          change _ ∈ (PMF.pure _ : PMF (Outcome (List (Fin n) × Cache n))).support at hs
          exact absurd hs (by simp)
    obtain ⟨pc', rfl⟩ := hv
    refine ⟨⟨pc', rfl⟩, fun p k hp => ⟨?_, rfl⟩⟩
    change PMF.pure (Outcome.raise (if p.maxIter.getD 1000 = 0 then PyErr.valueError else PyErr.attributeError)) = _
    rw [if_neg]
    cases hm : p.maxIter with
    | none => simp
    | some m => intro h0; exact hp (by rw [hm]; simp at h0; rw [h0])

/-- C32 does not hold within one mode: on two orthogonal points with `L = 3 I`, `sample_exact_k_dpp(1, mode='vfx')` returns with
positive probability and then `sample_exact(mode='vfx')` samples from the DPP with likelihood `exp(-1) L` instead of `L`. -/
theorem C32_kdpp_then_dpp_refuted (num : Numerics) (hn : NumericsSpec num) (hc : 30 * num.eps < 1)
    (hb : ∀ f a b, (∃ x, a ≤ x ∧ x ≤ b ∧ f x = 0) → ∃ x, num.brentq f a b = some x) (inner : DppSampler) (hin : InnerSpec inner) :
    GoodEnv (scalEnv num inner 2 3 2) ∧ ∃ c, SessReach (scalEnv num inner 2 3 2) [.kVfx noParams 1] c ∧
      LawIs (sessCall (scalEnv num inner 2 3 2) c (.exactVfx noParams)) (lDppProb (Real.exp (-1) • (scalEnv num inner 2 3 2).L)) ∧
      ¬ LawIs (sessCall (scalEnv num inner 2 3 2) c (.exactVfx noParams)) (lDppProb (scalEnv num inner 2 3 2).L) := by
  have hee := hn.eps
  have hc' : (1 + ((2:ℕ):ℝ) * 3) * (2:ℕ) * num.eps < 1 := by push_cast; linarith
  have hgood : GoodEnv (scalEnv num inner 2 3 2) := scalEnv_good hn hin three_pos two_pos hc'
  refine ⟨hgood, ?_⟩
  have hok := vfxPrecompute_scal_some (n := 2) (x := 3) hn hb three_pos two_pos hc' 2 (d := ((1:ℕ):ℝ)) (a := 1 / 3)
    (by linarith) (by norm_num) (by norm_num)
  obtain ⟨pc, h1, h2, h3, h4⟩ := vfxPre_scal (n := 2) (over := 2) hn three_pos two_pos hc' (by norm_num) hok
  have hmem : .ok pc ∈ (vfxPre (scalEnv num inner 2 3 2).num (scalEnv num inner 2 3 2).L (scalEnv num inner 2 3 2).over
      (scalEnv num inner 2 3 2).dict noParams (some ((1:ℕ):ℝ))).support := by
    change _ ∈ (vfxPre num (scal 2 3) 2 (PMF.pure (.ok (fullDict 2 2))) noParams (some ((1:ℕ):ℝ))).support
    rw [h1]; simp
  have hinv := vfxPre_inv hgood hmem
  have hs : pc.s = 1 := by
    have := (vfxPre_support hgood.num hgood.psd hgood.eps hgood.over hgood.dict hmem).2.2.2.1 _ rfl
    rw [this]; norm_num
  have hq : pc.q = 1 := by rw [h4, hs]; norm_num
  have ha : pc.alphaStar = 1 / 3 := by
    rw [hs] at h3
    have h5 : pc.alphaStar * 3 + 1 ≠ 0 := by positivity
    push_cast at h3
    field_simp at h3
    linarith
  have hbias : vfxBias pc = 3 * Real.exp (-1) := by
    unfold vfxBias
    have h6 : ⌈(1 : ℝ) * Real.exp (1 / 1)⌉ = 3 := by
      rw [Int.ceil_eq_iff, div_one]
      have h7 := Real.exp_one_gt_d9
      have h8 := Real.exp_one_lt_d9
      constructor <;> push_cast <;> linarith
    rw [hq, hs, h6]
    norm_num
  -- the k-DPP call returns
  have hlawk := C69_kvfx_law hgood [] .empty .init noParams 1
  have hfirst : ∃ l c, .ok (l, c) ∈ (sessCall (scalEnv num inner 2 3 2) .empty (.kVfx noParams 1)).support := by
    have hdraw := vfxLoop_draws hin hinv.1 ({0} : Finset (Fin 2)) 1000 0
    have hpos : 0 < PP (vfxLoop inner (scal 2 3) pc 1000 0) (Draws ({0} : Finset (Fin 2))) := by
      refine lt_of_lt_of_eq ?_ hdraw.symm
      rw [minor_singleton, hbias, ha]
      change 0 < vfxK (scal 2 3) pc (999 + 1) * ENNReal.ofReal ((3 * Real.exp (-1) * (1 / 3)) * scal 2 3 0 0)
      rw [scal_apply, if_pos rfl]
      refine ENNReal.mul_pos (vfxK_pos 999).ne' ?_
      rw [Ne, ENNReal.ofReal_eq_zero, not_le]
      positivity
    have hex : ∃ l r, .ok (l, r) ∈ (vfxLoop inner (scal 2 3) pc 1000 0).support ∧ l.toFinset = {0} := by
      classical
      by_contra hcon
      push Not at hcon
      refine hpos.ne' ?_
      unfold PP
      rw [PE_eq_zero]
      intro o ho
      rw [if_neg]
      rintro ⟨l, r, rfl, hl⟩
      exact hcon l r ho hl
    obtain ⟨l, r, hl, hl0⟩ := hex
    have hnd : l.length = 1 := by
      rcases vfxLoop_support hin hgood.psd hinv.1.alpha.le hinv.1.s.le 1000 0 _ hl with h | ⟨l', r', h, hn', -⟩
      · exact absurd h (by simp)
      · simp only [Outcome.ok.injEq, Prod.mk.injEq] at h
        rw [← h.1] at hn'
        rw [← List.toFinset_card_of_nodup hn', hl0]
        rfl
    refine ⟨l, .vfx { pc with rejToFirst := pc.rejToFirst + r }, ?_⟩
    change _ ∈ (store _ (kDppVfxSampler num inner (scal 2 3) 2 (PMF.pure (.ok (fullDict 2 2))) noParams 1 none)).support
    rw [mem_store]
    refine Or.inl ⟨l, _, ?_, rfl⟩
    unfold kDppVfxSampler kVfxInfoFor
    rw [h1, andThen_pure]
    change _ ∈ (kVfxLoop inner (scal 2 3) 1 1000 (99 + 1) pc).support
    rw [kVfxLoop, mem_support_andThen]
    refine Or.inl ⟨(l, r), hl, ?_⟩
    rw [if_pos hnd]
    simp
  obtain ⟨l, c, hfirst⟩ := hfirst
  have hreach : SessReach (scalEnv num inner 2 3 2) [.kVfx noParams 1] c := .returned (h := []) .init hfirst
  obtain ⟨-, pc1, j, rfl, h5⟩ := kVfx_ok (c := .empty) hfirst
  have h6 : pc1 = pc := by
    change .ok pc1 ∈ (vfxPre num (scal 2 3) 2 (PMF.pure (.ok (fullDict 2 2))) noParams (some ((1:ℕ):ℝ))).support at h5
    rw [h1, PMF.support_pure, Set.mem_singleton_iff, Outcome.ok.injEq] at h5
    exact h5
  subst h6
  have hinv' := vfx_reach hgood hreach _ rfl
  have hlaw := exactVfx_some_law hgood hinv' noParams
  have hb' : vfxBias { pc1 with rejToFirst := j } * pc1.alphaStar = Real.exp (-1) := by
    have : vfxBias { pc1 with rejToFirst := j } = vfxBias pc1 := rfl
    rw [this, hbias, ha]; ring
  rw [hb'] at hlaw
  refine ⟨_, hreach, hlaw, fun hbad => ?_⟩
  have hsucc : PP (sessCall (scalEnv num inner 2 3 2) (.vfx { pc1 with rejToFirst := j }) (.exactVfx noParams)) Succeeds ≠ 0 := by
    rw [exactVfx_some_succeeds hgood hinv']
    exact (vfxLoop_succeeds_pos hin hinv'.1 (by norm_num [noParams])).ne'
  have hb0 : (0:ℝ) ≤ Real.exp (-1) := by positivity
  have hne : Real.exp (-1) ≠ 1 := by
    have : Real.exp (-1) < 1 := Real.exp_lt_one_iff.2 (by norm_num)
    exact this.ne
  refine lDppProb_smul_ne hgood.psd (i := 0) ?_ hb0 hne (LawIs.unique hlaw hbad hsucc (lDppProb_nonneg (psd_smul hgood.psd hb0))
    (lDppProb_nonneg hgood.psd) ∅)
  change 0 < scal 2 3 0 0
  rw [scal_apply, if_pos rfl]
  exact three_pos

/-- the hypotheses of `C32_kdpp_then_dpp_refuted` can be met -/
example : ∃ num inner, NumericsSpec num ∧ 30 * num.eps < 1 ∧
    (∀ f a b, (∃ x, a ≤ x ∧ x ≤ b ∧ f x = 0) → ∃ x, num.brentq f a b = some x) ∧ InnerSpec inner := by
  obtain ⟨num, h1, h2, h3⟩ := exists_numericsSpec_eps (eps := 1 / 100) (by norm_num)
  obtain ⟨inner, h4⟩ := exists_innerSpec
  exact ⟨num, inner, h1, by rw [h2]; norm_num, h3, h4⟩

end Verif.Props
