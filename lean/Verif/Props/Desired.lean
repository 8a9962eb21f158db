import Verif.Lemmas.Desired2

/-!
C109: `sample_exact(mode='vfx', desired_expected_size=d)`.
-/

namespace Verif.Props
open Verif Verif.Spec Verif.Model Verif.Lemmas.MeanSize Verif.Lemmas.Desired Verif.Lemmas.SubVfx Matrix
open scoped ENNReal

variable {n : ℕ} {env : SessEnv n}

/-- the bias due to the rounding up of the Poisson rate `d ** 2 * exp(1 / d)` -/
noncomputable def desBias (d : ℝ) : ℝ := (⌈d ^ 2 * Real.exp (1 / d)⌉ : ℝ) / (d ^ 2 * Real.exp (1 / d))

theorem desBias_eq {pc : VfxInfo n} {d : ℝ} (hd : 0 < d) (hs : pc.s = d) (hq : pc.q = pc.s * pc.s) : vfxBias pc = desBias d := by
  unfold vfxBias desBias
  have h1 : d / (d * d) = 1 / d := by field_simp
  have h2 := Real.exp_pos (1 / d)
  rw [hq, hs, h1, Real.exp_neg, ← sq]
  field_simp

theorem desBias_bounds {d : ℝ} (hd : 0 < d) : 1 ≤ desBias d ∧ desBias d < 1 + 4 * Real.exp (-2) := by
  obtain ⟨pc, hpc⟩ : ∃ pc : VfxInfo 0, pc.s = d ∧ pc.q = d * d := ⟨⟨1, 0, d * d, d, 0, fun _ => 0, 0⟩, rfl, rfl⟩
  have h1 := desBias_eq (pc := pc) hd hpc.1 (by rw [hpc.1, hpc.2])
  have hq : 0 < pc.q := by rw [hpc.2]; positivity
  rw [← h1]
  refine ⟨vfxBias_ge hq, (vfxBias_lt hq).trans_le ?_⟩
  rw [hpc.1, hpc.2]
  have := exp_bias_le hd
  linarith

/-- the pre-computed data of a first call -/
theorem desired_first {d : ℝ} {l : List (Fin n)} {c : Cache n}
    (ho : .ok (l, c) ∈ (exactVfxDesired env d .empty).support) :
    ∃ pc, c = .vfx pc ∧ .ok pc ∈ (vfxPre env.num env.L env.over env.dict ⟨none, none, none⟩ (some d)).support := by
  change _ ∈ (store Cache.vfx (vfxDesired env d none)).support at ho
  unfold store at ho
  rw [mem_support_andThen] at ho
  rcases ho with ⟨r, h1, h2⟩ | ⟨e, -, h2⟩
  swap
  · exact absurd h2 (by simp)
  rw [PMF.support_pure, Set.mem_singleton_iff, Outcome.ok.injEq, Prod.mk.injEq] at h2
  unfold vfxDesired at h1
  rw [mem_support_andThen] at h1
  rcases h1 with ⟨pc, h3, h4⟩ | ⟨e, -, h2⟩
  swap
  · exact absurd h2 (by simp)
  rw [mem_support_andThen] at h4
  rcases h4 with ⟨r', -, h5⟩ | ⟨e, -, h2⟩
  swap
  · exact absurd h2 (by simp)
  rw [PMF.support_pure, Set.mem_singleton_iff, Outcome.ok.injEq] at h5
  exact ⟨pc, by rw [h2.2, h5], h3⟩

theorem desired_pos (h : GoodEnv env) {d : ℝ} {pc : VfxInfo n}
    (hpc : .ok pc ∈ (vfxPre env.num env.L env.over env.dict ⟨none, none, none⟩ (some d)).support) :
    0 < d ∧ vfxBias pc = desBias d := by
  obtain ⟨h1, h2, -⟩ := vfxPre_inv h hpc
  have h3 := (vfxPre_bound h hpc).2.2
  have hd : 0 < d := by rw [← h3]; exact h1.s
  exact ⟨hd, desBias_eq hd h3 h2⟩

/-- one run of the loop with known data -/
theorem desired_some_law (h : GoodEnv env) {pc : VfxInfo n} (hpc : SessInv env (.vfx pc)) (d : ℝ) :
    LawIs (vfxDesired env d (some pc)) (lDppProb ((vfxBias pc * pc.alphaStar) • env.L)) := by
  unfold vfxDesired
  simp only
  rw [andThen_pure]
  exact (vfxLoop_law h.inner hpc.1 _).relabel fun _ => pc

/-- C109, the part that holds: once `sample_exact(mode='vfx', desired_expected_size=d)` has returned on a new object, there is
a rescaling `0 < α ≤ 1` such that every later call of `sample_exact` with mode `vfx`, with the same desired size, with another
one or with none (and any other parameters), samples the DPP of `b α L`; the DPP of `α L` has at most `d` items in expectation,
the one that is sampled at most `b d`, where `b` is a factor between 1 and `1 + 4 exp(-2)` that depends on `d` only; and
`0 < d ≤ tr L`. -/
theorem C109_desired_law_partial (h : GoodEnv env) (d : ℝ) (l : List (Fin n)) (c : Cache n)
    (ho : .ok (l, c) ∈ (exactVfxDesired env d .empty).support) :
    0 < d ∧ d ≤ env.L.trace ∧ 1 ≤ desBias d ∧ desBias d < 1 + 4 * Real.exp (-2) ∧
    ∃ α : ℝ, 0 < α ∧ α ≤ 1 ∧ meanSize (lDppProb (α • env.L)) ≤ d ∧
      meanSize (lDppProb ((desBias d * α) • env.L)) ≤ desBias d * d ∧
      (∀ d', LawIs (exactVfxDesired env d' c) (lDppProb ((desBias d * α) • env.L))) ∧
      (∀ p, LawIs (sessCall env c (.exactVfx p)) (lDppProb ((desBias d * α) • env.L))) := by
  obtain ⟨pc, rfl, hpc⟩ := desired_first ho
  have hinv := vfxPre_inv h hpc
  obtain ⟨hd, hb⟩ := desired_pos h hpc
  obtain ⟨h1, h2, h3⟩ := vfxPre_bound h hpc
  have hα : 0 < pc.alphaStar := hinv.1.alpha
  have hα1 : pc.alphaStar ≤ 1 := hinv.2.2
  have htr : 0 ≤ env.L.trace := h.psd.trace_nonneg
  obtain ⟨hb1, hb2⟩ := desBias_bounds hd
  have h5 := (meanSize_smul_bounds h.psd hα.le hb1).2
  refine ⟨hd, h2.trans (mul_le_of_le_one_left htr hα1), hb1, hb2, pc.alphaStar, hα, hα1, h1, h5.trans ?_, fun d' => ?_, fun p => ?_⟩
  · exact mul_le_mul_of_nonneg_left h1 (by linarith)
  · rw [← hb]
    exact store_law (desired_some_law h hinv d')
  · rw [← hb]
    exact store_law (dppVfxSampler_some_law h hinv p)

/-- C109: the mean number of items returned by a first call, over the random dictionaries and the samples, is at most `b d`
times the probability that it returns. -/
theorem C109_desired_mean_partial (h : GoodEnv env) (d : ℝ) :
    meanCard (exactVfxDesired env d .empty) ≤ PP (exactVfxDesired env d .empty) Succeeds * ENNReal.ofReal (desBias d * d) := by
  change meanCard (store _ (vfxDesired env d none)) ≤ PP (store _ (vfxDesired env d none)) Succeeds * _
  rw [meanCard_store, store_succeeds]
  unfold vfxDesired
  refine meanCard_andThen_le fun pc hpc => ?_
  have hinv := vfxPre_inv h hpc
  obtain ⟨hd, hb⟩ := desired_pos h hpc
  obtain ⟨h1, h2, h3⟩ := vfxPre_bound h hpc
  have hα : 0 < pc.alphaStar := hinv.1.alpha
  obtain ⟨hb1, hb2⟩ := desBias_bounds hd
  have hlaw := (vfxLoop_law h.inner hinv.1 1000).relabel fun _ => pc
  have hpsd : ((vfxBias pc * pc.alphaStar) • env.L).PosSemidef := h.psd.smul (mul_nonneg (by rw [hb]; linarith) hα.le)
  rw [meanCard_law hlaw fun S => lDppProb_nonneg hpsd S]
  gcongr
  rw [hb]
  refine (meanSize_smul_bounds h.psd hα.le hb1).2.trans ?_
  exact mul_le_mul_of_nonneg_left h1 (by linarith)

/-- C109: a desired size that is not positive, or larger than `tr L`, is always refused. -/
theorem C109_desired_refused (h : GoodEnv env) (d : ℝ) (hd : d ≤ 0 ∨ env.L.trace < d) :
    PP (exactVfxDesired env d .empty) Succeeds = 0 := by
  by_contra hne
  obtain ⟨o, ho, a, rfl⟩ : ∃ o ∈ (exactVfxDesired env d .empty).support, Succeeds o := by
    by_contra hno
    push Not at hno
    apply hne
    classical
    unfold PP
    rw [PE_congr (g := fun _ => 0) fun o ho => if_neg (hno o ho)]
    simp [PE]
  obtain ⟨l, c⟩ := a
  obtain ⟨h1, h2, -⟩ := C109_desired_law_partial h d l c ho
  rcases hd with h3 | h3
  · linarith
  · linarith

/-! ### the claim is false -/

/-- two orthogonal points of norm one, dictionaries drawn among the two points -/
noncomputable def twoEnv (num : Numerics) (inner : DppSampler) : SessEnv 2 where
  num := num
  inner := inner
  L := scal 2 1
  over := 1
  dict := PMF.pure (.ok (fullDict 2 1))
  dictK := fun _ => PMF.pure .valueError

theorem twoEnv_good {num : Numerics} (hn : NumericsSpec num) (heps : 100 * num.eps < 1) {inner : DppSampler} (hin : InnerSpec inner) :
    GoodEnv (twoEnv num inner) where
  num := hn
  inner := hin
  psd := scal_psd one_pos.le
  over := one_pos
  eps := by
    change (1 + (scal 2 1).trace) * ((2:ℕ):ℝ) * num.eps < 1
    rw [scal_trace]
    have := hn.eps
    push_cast
    linarith
  dict := by
    intro D hD
    simp only [twoEnv, PMF.support_pure, Set.mem_singleton_iff, Outcome.ok.injEq] at hD
    rw [hD]; exact one_pos
  dictK := by
    intro k D hD
    exact absurd hD (by simp [twoEnv, Outcome.valueError])

/-- the expected size of the DPPs of two orthogonal points -/
theorem meanSize_two {c : ℝ} (hc : 0 ≤ c) : meanSize (lDppProb (c • scal 2 1)) = 2 * (c / (c + 1)) := by
  rw [meanSize_lDpp ((scal_psd one_pos.le).smul hc)]
  have h1 : (1 + c • scal 2 1) = (c + 1) • (1 : Matrix (Fin 2) (Fin 2) ℝ) := by
    ext i j
    rw [Matrix.add_apply, Matrix.smul_apply, scal_apply, Matrix.smul_apply, one_apply]
    split <;> simp [add_comm]
  have hne : c + 1 ≠ 0 := by positivity
  have h2 : (1 + c • scal 2 1)⁻¹ = (c + 1)⁻¹ • (1 : Matrix (Fin 2) (Fin 2) ℝ) := by
    refine Matrix.inv_eq_left_inv ?_
    rw [h1, Matrix.smul_mul, Matrix.one_mul, smul_smul, inv_mul_cancel₀ hne, one_smul]
  rw [h2, trace_smul, trace_one, smul_eq_mul]
  simp only [Fintype.card_fin]
  push_cast
  field_simp
  ring

/-- the dictionaries drawn in this environment -/
theorem two_reduce {num : Numerics} (hn : NumericsSpec num) (heps : 100 * num.eps < 1) :
    reduceLambda num (scal 2 1) (fullDict 2 1) 1 (some 1)
      = (indep fun _ : Fin 2 => coin (1 * (1 / (1 + 1)))).map fun U =>
        if selOnes U = [] then .valueError else .ok (subDict U (1 * (1 / (1 + 1))) 1) :=
  reduceLambda_sub hn one_pos (by norm_num) (by have := hn.eps; push_cast; linarith) one_pos (by norm_num)

theorem two_len (U : Fin 2 → Bool) : (selOnes U).length ≤ 2 := (List.length_filter_le _ _).trans (by simp)

/-- the rescaling found for the size 33/28 -/
theorem two_alpha {num : Numerics} (hn : NumericsSpec num) (heps : 100 * num.eps < 1) {inner : DppSampler} (hin : InnerSpec inner)
    {pc : VfxInfo 2} (hpc : .ok pc ∈ (vfxPre (twoEnv num inner).num (twoEnv num inner).L (twoEnv num inner).over (twoEnv num inner).dict
      ⟨none, none, none⟩ (some (33 / 28))).support) : pc.alphaStar = 3 / 4 := by
  have h := twoEnv_good hn heps hin
  obtain ⟨h1, -, h3⟩ := vfxPre_inv h hpc
  have hα : 0 < pc.alphaStar := h1.alpha
  have hs := (vfxPre_bound h hpc).2.2
  obtain ⟨D, DA, pc0, hD, hDA, hv, hp, h5, h6⟩ := vfxPre_mem h.num h.psd h.over h.dict hpc
  simp only [twoEnv, PMF.support_pure, Set.mem_singleton_iff, Outcome.ok.injEq] at hD
  subst hD
  change _ ∈ (reduceLambda num (scal 2 1) (fullDict 2 1) 1 (some 1)).support at hDA
  rw [two_reduce hn heps, PMF.mem_support_map_iff] at hDA
  obtain ⟨U, -, hU⟩ := hDA
  split at hU
  · exact absurd hU (by simp [Outcome.valueError])
  rename_i hne
  rw [Outcome.ok.injEq] at hU
  subst hU
  have h7 := vfxPrecompute_sub_s (n := 2) hn one_pos (by have := hn.eps; push_cast; linarith) hne 1 hp
  rw [← h5, ← h6, hs, mul_one] at h7
  have hlen := two_len U
  have hpos : 0 < (selOnes U).length := List.length_pos_iff.2 hne
  have hc : (selOnes U).length = 1 ∨ (selOnes U).length = 2 := by omega
  have hne1 : pc.alphaStar + 1 ≠ 0 := by positivity
  rcases hc with hc | hc
  · rw [hc] at h7
    push_cast at h7
    field_simp at h7
    have h8 : (pc.alphaStar - 3 / 4) * (28 * pc.alphaStar + 44) = 0 := by nlinarith
    rcases mul_eq_zero.1 h8 with h9 | h9
    · linarith
    · linarith
  · rw [hc] at h7
    push_cast at h7
    field_simp at h7
    nlinarith

/-- a first call with size 33/28 returns with positive probability -/
theorem two_succeeds {num : Numerics} (hn : NumericsSpec num) (heps : 100 * num.eps < 1)
    (hb : ∀ f a b, (∃ x, a ≤ x ∧ x ≤ b ∧ f x = 0) → ∃ x, num.brentq f a b = some x) {inner : DppSampler} (hin : InnerSpec inner) :
    0 < PP (exactVfxDesired (twoEnv num inner) (33 / 28) .empty) Succeeds := by
  have h := twoEnv_good hn heps hin
  have hee := hn.eps
  have hU : selOnes (fun i : Fin 2 => decide (i = 0)) = [0] := by decide +kernel
  obtain ⟨pc, hpc⟩ := vfxPrecompute_sub (n := 2) (x := 1) (p := 1 * (1 / (1 + 1))) (U := fun i : Fin 2 => decide (i = 0))
    (d := 33 / 28) (a := 3 / 4) hn hb one_pos
    (by push_cast; linarith) (by rw [hU]; simp) 1 (by linarith) (by norm_num) (by rw [hU]; norm_num) (by rw [hU]; norm_num)
  have hred : .ok (subDict (fun i : Fin 2 => decide (i = 0)) (1 * (1 / (1 + 1))) 1)
      ∈ (reduceLambda num (scal 2 1) (fullDict 2 1) 1 (some 1)).support := by
    rw [two_reduce hn heps, PMF.mem_support_map_iff]
    refine ⟨fun i : Fin 2 => decide (i = 0), ?_, ?_⟩
    · refine indep_support _ _ fun i => ?_
      have hp1 : (0:ℝ) < 1 * (1 / (1 + 1)) := by norm_num
      have hp2 : (1 * (1 / (1 + 1)) : ℝ) < 1 := by norm_num
      exact coin_support hp1 hp2 _
    · rw [hU]; simp
  have hmem : .ok { pc with q := pc.s * pc.s } ∈ (vfxPre num (scal 2 1) 1 (PMF.pure (.ok (fullDict 2 1))) ⟨none, none, none⟩
      (some (33 / 28))).support := by
    unfold vfxPre
    rw [if_neg (by simp), andThen_pure, mem_support_andThen]
    refine Or.inl ⟨_, hred, ?_⟩
    rw [hpc, liftOut, andThen_pure]
    simp
  change 0 < PP (store _ (vfxDesired (twoEnv num inner) (33 / 28) none)) Succeeds
  rw [store_succeeds, PP_succeeds]
  unfold vfxDesired
  rw [PE_andThen]
  have hinv := vfxPre_inv h hmem
  have h5 := vfxLoop_succeeds_pos (L := (twoEnv num inner).L) hin hinv.1 (m := 1000) (by norm_num)
  refine lt_of_lt_of_le ?_ (ENNReal.le_tsum (.ok { pc with q := pc.s * pc.s }))
  refine ENNReal.mul_pos ((PMF.mem_support_iff _ _).1 hmem) (ne_of_gt ?_)
  refine lt_of_lt_of_eq h5 ?_
  change PP _ Succeeds = PE (PMF.andThen _ _) hitOk
  rw [PP_succeeds, PE_andThen]
  congr 1
  funext o
  cases o with
  | raise e => simp [hitOk]
  | ok a => simp only [PE_pure]; rfl

/-- C109 does not hold: two orthogonal points, `L = 1`, dictionaries of BLESS of one or two points, desired size 33/28.  The DPP of
`L` has one item in expectation, so that the documentation promises an exception; a call returns with positive probability, and the
expected number of items of the sets that are returned is at most 11/10: it is not the desired one. -/
theorem C109_desired_refuted (num : Numerics) (hn : NumericsSpec num) (heps : 100 * num.eps < 1)
    (hb : ∀ f a b, (∃ x, a ≤ x ∧ x ≤ b ∧ f x = 0) → ∃ x, num.brentq f a b = some x) (inner : DppSampler) (hin : InnerSpec inner) :
    GoodEnv (twoEnv num inner) ∧ meanSize (lDppProb (twoEnv num inner).L) = 1 ∧
    0 < PP (exactVfxDesired (twoEnv num inner) (33 / 28) .empty) Succeeds ∧
    meanCard (exactVfxDesired (twoEnv num inner) (33 / 28) .empty)
      ≤ PP (exactVfxDesired (twoEnv num inner) (33 / 28) .empty) Succeeds * ENNReal.ofReal (11 / 10) ∧
    meanCard (exactVfxDesired (twoEnv num inner) (33 / 28) .empty)
      < PP (exactVfxDesired (twoEnv num inner) (33 / 28) .empty) Succeeds * ENNReal.ofReal (33 / 28) := by
  have h := twoEnv_good hn heps hin
  have h1 : meanSize (lDppProb (twoEnv num inner).L) = 1 := by
    have := meanSize_two one_pos.le
    rw [one_smul] at this
    exact this.trans (by norm_num)
  have h2 := two_succeeds hn heps hb hin
  have h3 : meanCard (exactVfxDesired (twoEnv num inner) (33 / 28) .empty)
      ≤ PP (exactVfxDesired (twoEnv num inner) (33 / 28) .empty) Succeeds * ENNReal.ofReal (11 / 10) := by
    change meanCard (store _ (vfxDesired (twoEnv num inner) (33 / 28) none))
      ≤ PP (store _ (vfxDesired (twoEnv num inner) (33 / 28) none)) Succeeds * _
    rw [meanCard_store, store_succeeds]
    unfold vfxDesired
    refine meanCard_andThen_le fun pc hpc => ?_
    have hinv := vfxPre_inv h hpc
    have hα : pc.alphaStar = 3 / 4 := two_alpha hn heps hin hpc
    obtain ⟨hd, hbi⟩ := desired_pos h hpc
    obtain ⟨hb1, hb2⟩ := desBias_bounds hd
    have hlaw := (vfxLoop_law h.inner hinv.1 1000).relabel fun _ => pc
    have hnn : 0 ≤ vfxBias pc * pc.alphaStar := by rw [hbi, hα]; linarith
    have hpsd : ((vfxBias pc * pc.alphaStar) • (twoEnv num inner).L).PosSemidef := h.psd.smul hnn
    rw [meanCard_law hlaw fun S => lDppProb_nonneg hpsd S]
    gcongr
    refine (le_of_eq (meanSize_two hnn)).trans ?_
    rw [hbi, hα]
    have he : Real.exp (-2) < 1 / 7 := by
      have he1 : Real.exp 2 = Real.exp 1 * Real.exp 1 := by rw [← Real.exp_add]; norm_num
      have h7 := Real.exp_one_gt_d9
      rw [Real.exp_neg, he1, ← one_div]
      exact one_div_lt_one_div_of_lt (by norm_num) (by nlinarith)
    have h8 : desBias (33 / 28) < 11 / 7 := by linarith
    obtain ⟨b, hbd⟩ : ∃ b, b = desBias (33 / 28) := ⟨_, rfl⟩
    rw [← hbd] at hb1 h8 ⊢
    rw [mul_div_assoc', div_le_div_iff₀ (by linarith) (by norm_num)]
    linarith
  refine ⟨h, h1, h2, h3, lt_of_le_of_lt h3 ?_⟩
  refine ENNReal.mul_lt_mul_right h2.ne' (ne_of_lt (lt_of_le_of_lt (PP_le_one _ _) ENNReal.one_lt_top)) ?_
  exact (ENNReal.ofReal_lt_ofReal_iff (by norm_num)).2 (by norm_num)

/-- the expected size of the DPPs of one point -/
theorem meanSize_one {x c : ℝ} (hx : 0 ≤ x) (hc : 0 ≤ c) : meanSize (lDppProb (c • scal 1 x)) = c * x / (c * x + 1) := by
  rw [meanSize_lDpp ((scal_psd hx).smul hc)]
  have h1 : (1 + c • scal 1 x) = (c * x + 1) • (1 : Matrix (Fin 1) (Fin 1) ℝ) := by
    ext i j
    rw [Matrix.add_apply, Matrix.smul_apply, scal_apply, Matrix.smul_apply, one_apply]
    split <;> simp [add_comm]
  have hne : c * x + 1 ≠ 0 := by positivity
  have h2 : (1 + c • scal 1 x)⁻¹ = (c * x + 1)⁻¹ • (1 : Matrix (Fin 1) (Fin 1) ℝ) := by
    refine Matrix.inv_eq_left_inv ?_
    rw [h1, Matrix.smul_mul, Matrix.one_mul, smul_smul, inv_mul_cancel₀ hne, one_smul]
  rw [h2, trace_smul, trace_one, smul_eq_mul]
  simp only [Fintype.card_fin]
  push_cast
  field_simp
  ring

theorem desBias_half : desBias (1 / 2) = 8 * Real.exp (-2) := by
  unfold desBias
  have h5 : (1 : ℝ) / (1 / 2) = 2 := by norm_num
  have h6 : ⌈((1 / 2 : ℝ)) ^ 2 * Real.exp 2⌉ = 2 := by
    rw [Int.ceil_eq_iff]
    have he : Real.exp 2 = Real.exp 1 * Real.exp 1 := by rw [← Real.exp_add]; norm_num
    have h7 := Real.exp_one_gt_d9
    have h8 := Real.exp_one_lt_d9
    rw [he]
    constructor <;> push_cast <;> nlinarith
  rw [h5, h6, Real.exp_neg]
  have := Real.exp_pos 2
  push_cast
  field_simp
  norm_num

/-- C109 does not hold in the other direction either: one point with `L = 3` (the dictionary always contains it), desired size 1/2.
The DPP of `α L` has exactly 1/2 item in expectation, but more items are returned, because of the rounding of the Poisson rate:
with probability `b / (1 + b)`, `b = 8 exp(-2) > 1`. -/
theorem C109_desired_exceeded (num : Numerics) (hn : NumericsSpec num) (heps : 100 * num.eps < 1)
    (hb : ∀ f a b, (∃ x, a ≤ x ∧ x ≤ b ∧ f x = 0) → ∃ x, num.brentq f a b = some x) (inner : DppSampler) (hin : InnerSpec inner) :
    GoodEnv (scalEnv num inner 1 3 2) ∧
    0 < PP (exactVfxDesired (scalEnv num inner 1 3 2) (1 / 2) .empty) Succeeds ∧
    meanCard (exactVfxDesired (scalEnv num inner 1 3 2) (1 / 2) .empty)
      = PP (exactVfxDesired (scalEnv num inner 1 3 2) (1 / 2) .empty) Succeeds
        * ENNReal.ofReal (8 * Real.exp (-2) / (8 * Real.exp (-2) + 1)) ∧
    PP (exactVfxDesired (scalEnv num inner 1 3 2) (1 / 2) .empty) Succeeds * ENNReal.ofReal (1 / 2)
      < meanCard (exactVfxDesired (scalEnv num inner 1 3 2) (1 / 2) .empty) := by
  have hee := hn.eps
  have hc' : (1 + ((1:ℕ):ℝ) * 3) * (1:ℕ) * num.eps < 1 := by push_cast; linarith
  have hgood : GoodEnv (scalEnv num inner 1 3 2) := scalEnv_good hn hin (by norm_num) two_pos hc'
  obtain ⟨pc, h1, h2, h3, h4⟩ := vfxPre_scal (n := 1) (over := 2) (x := 3) hn (by norm_num) one_pos hc' (by norm_num) (d := some (1 / 2))
    (vfxPrecompute_scal_some hn hb (by norm_num) one_pos hc' 2 (a := 1 / 3) (by linarith) (by norm_num) (by norm_num))
  have hmem : .ok pc ∈ (vfxPre (scalEnv num inner 1 3 2).num (scalEnv num inner 1 3 2).L (scalEnv num inner 1 3 2).over
      (scalEnv num inner 1 3 2).dict ⟨none, none, none⟩ (some (1 / 2))).support := by
    change _ ∈ (vfxPre num (scal 1 3) 2 (PMF.pure (.ok (fullDict 1 2))) noParams (some (1 / 2))).support
    rw [h1]; simp
  have hinv := vfxPre_inv hgood hmem
  have hs := (vfxPre_bound hgood hmem).2.2
  obtain ⟨-, hbi⟩ := desired_pos hgood hmem
  have hα : pc.alphaStar = 1 / 3 := by
    rw [hs] at h3
    push_cast at h3
    have : pc.alphaStar * 3 + 1 ≠ 0 := by positivity
    field_simp at h3
    linarith
  have heq : exactVfxDesired (scalEnv num inner 1 3 2) (1 / 2) .empty
      = store .vfx (PMF.andThen (vfxLoop inner (scal 1 3) pc 1000 0) fun r => PMF.pure (.ok (r.1, pc))) := by
    change store .vfx (PMF.andThen (vfxPre num (scal 1 3) 2 (PMF.pure (.ok (fullDict 1 2))) noParams (some (1 / 2))) _) = _
    rw [h1, andThen_pure]
    rfl
  have hlaw : LawIs (exactVfxDesired (scalEnv num inner 1 3 2) (1 / 2) .empty)
      (lDppProb ((8 * Real.exp (-2) * (1 / 3)) • scal 1 3)) := by
    rw [heq]
    refine store_law (LawIs.relabel (w := _) ?_ fun _ => pc)
    have := vfxLoop_law hin hinv.1 1000
    rwa [hbi, hα, desBias_half] at this
  have hsucc : 0 < PP (exactVfxDesired (scalEnv num inner 1 3 2) (1 / 2) .empty) Succeeds := by
    rw [heq, store_succeeds]
    have h5 := vfxLoop_succeeds_pos hin hinv.1 (m := 1000) (by norm_num)
    rw [PP_succeeds] at h5 ⊢
    rw [PE_andThen]
    refine lt_of_lt_of_eq h5 ?_
    congr 1
    funext o
    cases o with
    | raise e => simp [hitOk]
    | ok a => simp only [PE_pure]; rfl
  have hpsd : ((8 * Real.exp (-2) * (1 / 3)) • scal 1 3).PosSemidef :=
    (scal_psd (by norm_num)).smul (by have := Real.exp_pos (-2); positivity)
  have hmean := meanCard_law hlaw fun S => lDppProb_nonneg hpsd S
  rw [meanSize_one (by norm_num) (by have := Real.exp_pos (-2); positivity),
    show 8 * Real.exp (-2) * (1 / 3) * 3 = 8 * Real.exp (-2) by ring] at hmean
  refine ⟨hgood, hsucc, hmean, ?_⟩
  rw [hmean]
  refine ENNReal.mul_lt_mul_right hsucc.ne' (ne_of_lt (lt_of_le_of_lt (PP_le_one _ _) ENNReal.one_lt_top)) ?_
  have h9 : 1 < 8 * Real.exp (-2) := by
    rw [Real.exp_neg]
    have he : Real.exp 2 = Real.exp 1 * Real.exp 1 := by rw [← Real.exp_add]; norm_num
    have h7 := Real.exp_one_lt_d9
    have h8 := Real.exp_pos 1
    rw [he, ← div_eq_mul_inv, lt_div_iff₀ (by positivity)]
    nlinarith
  refine (ENNReal.ofReal_lt_ofReal_iff (by positivity)).2 ?_
  rw [div_lt_div_iff₀ (by norm_num) (by linarith)]
  linarith

end Verif.Props
