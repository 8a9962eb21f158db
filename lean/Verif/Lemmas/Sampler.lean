import Verif.Spec.Session
import Verif.Lemmas.AlphaK
import Verif.Lemmas.NoTie
import Verif.Lemmas.Precompute3
import Verif.Lemmas.Bless2

/-!
The samplers built on intermediate sampling: laws of mixtures, states of the cached information.
-/

namespace Verif
open Verif Verif.Spec Verif.Model Matrix
open scoped ENNReal

variable {n : ℕ} {L : Matrix (Fin n) (Fin n) ℝ} {num : Numerics}

/-! ### Mixtures -/

/-- indicator of success -/
noncomputable def hitOk {α : Type*} : Outcome α → ℝ≥0∞
  | .ok _ => 1
  | .raise _ => 0

theorem PP_succeeds {α : Type*} (p : PMF (Outcome α)) : PP p Succeeds = PE p hitOk := by
  classical
  unfold PP
  congr 1
  funext o
  cases o with
  | raise e => simp [Succeeds, hitOk]
  | ok a => simp [Succeeds, hitOk]

theorem _root_.Verif.Spec.LawIs.andThen {α β : Type*} {p : PMF (Outcome α)} {k : α → PMF (Outcome (List (Fin n) × β))}
    {w : Finset (Fin n) → ℝ} (h : ∀ a, .ok a ∈ p.support → LawIs (k a) w) : LawIs (PMF.andThen p k) w := by
  intro T
  rw [PP_draws, PP_succeeds, PE_andThen, PE_andThen, ← PE_mul_right]
  refine PE_congr fun o ho => ?_
  cases o with
  | raise e => simp [hitDraw, hitOk]
  | ok a =>
    have := h a ho T
    rw [PP_draws, PP_succeeds] at this
    exact this

theorem _root_.Verif.Spec.LawIs.raise {β : Type*} (e : PyErr) (w : Finset (Fin n) → ℝ) :
    LawIs (PMF.pure (.raise e) : PMF (Outcome (List (Fin n) × β))) w := by
  intro T
  rw [PP_draws, PP_succeeds, PE_pure, PE_pure]; simp [hitDraw, hitOk]

/-- keeping the set and changing the data returned with it -/
theorem _root_.Verif.Spec.LawIs.relabel {β γ : Type*} {p : PMF (Outcome (List (Fin n) × β))} {w : Finset (Fin n) → ℝ} (h : LawIs p w)
    (g : List (Fin n) × β → γ) : LawIs (PMF.andThen p fun r => PMF.pure (.ok (r.1, g r))) w := by
  intro T
  have h1 := h T
  rw [PP_draws, PP_succeeds] at h1 ⊢
  rw [PE_andThen, PE_andThen]
  refine Eq.trans ?_ (h1.trans ?_)
  · congr 1; funext o
    cases o with
    | raise e => simp [hitDraw]
    | ok a => simp only [PE_pure]; rfl
  · congr 2; funext o
    cases o with
    | raise e => simp [hitOk]
    | ok a => simp only [PE_pure]; rfl

theorem PP_succeeds_sum {β : Type*} (p : PMF (Outcome (List (Fin n) × β))) : PP p Succeeds = ∑ T, PP p (Draws T) := by
  classical
  simp_rw [PP_draws, PP_succeeds]
  rw [← PE_sum]
  congr 1
  funext o
  cases o with
  | raise e => simp [hitOk, hitDraw]
  | ok a => obtain ⟨l, b⟩ := a; simp [hitOk, hitDraw]

theorem sum_kW (hL : L.PosSemidef) (size : ℕ) : ∑ T, kW L size T
    = ENNReal.ofReal (∑ S ∈ (Finset.univ : Finset (Fin n)).powersetCard size, minor L S) := by
  classical
  rw [ENNReal.ofReal_sum_of_nonneg fun S _ => minor_nonneg hL S]
  unfold kW
  rw [← Finset.sum_filter]
  refine Finset.sum_congr ?_ fun _ _ => rfl
  ext S; simp [Finset.mem_powersetCard]

theorem law_of_kweights {β : Type*} {p : PMF (Outcome (List (Fin n) × β))} (hL : L.PosSemidef) {K : ℝ≥0∞} {size : ℕ}
    (h : ∀ T, PP p (Draws T) = K * kW L size T) : LawIs p (kDppProb L size) := by
  classical
  intro T
  rw [PP_succeeds_sum]
  simp_rw [h]
  rw [← Finset.mul_sum, sum_kW hL]
  set Z := ∑ S ∈ (Finset.univ : Finset (Fin n)).powersetCard size, minor L S with hZ
  unfold kW kDppProb
  by_cases hT : T.card = size
  · rw [if_pos hT, if_pos hT]
    have h0 : ∀ S, 0 ≤ minor L S := minor_nonneg hL
    have hle : minor L T ≤ Z := Finset.single_le_sum (fun S _ => h0 S) (by simp [Finset.mem_powersetCard, hT])
    rcases (h0 T).eq_or_lt with hz | hz
    · rw [← hz]; simp
    · have hZpos := hz.trans_le hle
      rw [mul_assoc, ← ENNReal.ofReal_mul hZpos.le, ← hZ, mul_div_cancel₀ _ hZpos.ne']
  · rw [if_neg hT, if_neg hT]; simp

/-! ### vfx -/

theorem vfxLoop_law {inner : DppSampler} (hin : InnerSpec inner) {pc : VfxInfo n} (h : VfxOK L pc) (m : ℕ) :
    LawIs (vfxLoop inner L pc m 0) (lDppProb ((vfxBias pc * pc.alphaStar) • L)) :=
  (law_of_weights (psd_smul h.psd (mul_pos (vfxBias_pos h) h.alpha).le) fun T => vfxLoop_draws hin h T m 0).2

theorem kVfxLoop_law {inner : DppSampler} (hin : InnerSpec inner) {pc : VfxInfo n} (h : VfxOK L pc) (size m fuel : ℕ) :
    LawIs (kVfxLoop inner L size m fuel pc) (kDppProb L size) := by
  have hb : 0 ≤ vfxBias pc * pc.alphaStar := (mul_pos (vfxBias_pos h) h.alpha).le
  refine law_of_kweights (K := kVfxK inner L pc size m fuel * ENNReal.ofReal ((vfxBias pc * pc.alphaStar) ^ size)) h.psd
    fun T => ?_
  have h1 := kVfxLoop_draws hin h T size m fuel pc.rejToFirst
  refine h1.trans ?_
  rw [mul_assoc]
  congr 1
  unfold kW
  by_cases hT : T.card = size
  · rw [if_pos hT, if_pos hT, minor_smul, hT, ENNReal.ofReal_mul (pow_nonneg hb _)]
  · simp [hT]

/-- a valid dictionary has a point of positive similarity -/
theorem _root_.Verif.Spec.ValidDict.exists_pos {D : Centers n} (h : ValidDict L D) : ∃ e, 0 < L (D.idx e) (D.idx e) := by
  have := List.length_pos_iff.2 h.nonempty
  exact ⟨⟨0, this⟩, h.diag _ (List.get_mem _ _)⟩

theorem vfxPre_support (hn : NumericsSpec num) (hL : L.PosSemidef) (hc : (1 + L.trace) * n * num.eps < 1) {over : ℝ}
    (ho : 0 < over) {dict : PMF (Outcome (Centers n))} (hd : ∀ D, .ok D ∈ dict.support → 0 < D.lam) {params : VfxParams}
    {desired : Option ℝ} {pc : VfxInfo n} (h : .ok pc ∈ (vfxPre num L over dict params desired).support) :
    VfxOK L pc ∧ pc.alphaStar ≤ 1 ∧ (desired = none → pc.alphaStar = 1) ∧ (∀ d, desired = some d → pc.s = d) ∧
      pc.q = pc.s * pc.s ∧ pc.rejToFirst = 0 := by
  unfold vfxPre at h
  split at h
  · exact absurd h (by simp)
  rename_i hp
  have hq : params.qFunc = none := by
    cases hq : params.qFunc with
    | none => rfl
    | some f => rw [hq] at hp; simp at hp
  rw [mem_support_andThen] at h
  rcases h with ⟨D, hD, h⟩ | ⟨e, -, h⟩
  swap
  · exact absurd h (by simp)
  rw [mem_support_andThen] at h
  rcases h with ⟨DA, hDA, h⟩ | ⟨e, -, h⟩
  swap
  · exact absurd h (by simp)
  have h1 : 0 < (some over).getD D.over := ho
  rcases reduceLambda_support hL (hd D hD) h1 hDA with h2 | ⟨DA', h2, hv, -⟩
  · exact absurd h2 (by simp)
  simp only [Outcome.ok.injEq] at h2
  subst h2
  rw [mem_support_andThen] at h
  rcases h with ⟨pc0, h3, h⟩ | ⟨e, -, h⟩
  swap
  · exact absurd h (by simp)
  rw [liftOut, PMF.support_pure, Set.mem_singleton_iff] at h3
  rw [PMF.support_pure, Set.mem_singleton_iff, Outcome.ok.injEq] at h
  rcases vfxPrecompute_cases hn hL hc hv.exists_pos desired with ⟨h4, -⟩ | ⟨pc1, h4, h5, h6, h7, h8, h9, h10, -⟩
  · rw [h4] at h3; exact absurd h3 (by simp)
  rw [h4, Outcome.ok.injEq] at h3
  subst h3
  subst h
  rw [hq]
  have hs : 0 < pc0.s := (h10 1 one_pos).s
  exact ⟨h10 _ (mul_pos hs hs), h6, h7, h8, rfl, h9⟩

/-! ### alpha -/

theorem _root_.Verif.Spec.ValidDict.length_le {D : Centers n} (h : ValidDict L D) : D.items.length ≤ n := by
  have h1 : (D.items.map Prod.fst).Nodup := h.increasing.imp fun hab => ne_of_lt hab
  have := h1.length_le_card
  simpa using this

/-- the largest eigenvalue is kept by `stable_filter` -/
theorem stableKeep_ne_nil {m : ℕ} {eps : ℝ} {v : Fin m → ℝ} (hv : ∀ i, 0 ≤ v i) {i : Fin m} (hi : 0 < v i)
    (hm : m * eps < 1) : stableKeep eps v ≠ [] := by
  classical
  have : Nonempty (Fin m) := ⟨i⟩
  obtain ⟨j, -, hj⟩ := Finset.exists_max_image Finset.univ v Finset.univ_nonempty
  have hjpos : 0 < v j := hi.trans_le (hj i (Finset.mem_univ i))
  have hfold : ∀ (l : List ℝ) (a : ℝ), a ≤ v j → (∀ x ∈ l, x ≤ v j) → l.foldl max a ≤ v j := by
    intro l
    induction l with
    | nil => intro a ha _; exact ha
    | cons x l ih => intro a ha hl; exact ih _ (max_le ha (hl x List.mem_cons_self)) fun y hy => hl y (List.mem_cons_of_mem _ hy)
  have h1 : (List.ofFn fun i => |v i|).foldl max 0 ≤ v j := by
    refine hfold _ 0 hjpos.le fun x hx => ?_
    rw [List.mem_ofFn] at hx
    obtain ⟨k, rfl⟩ := hx
    simp only [abs_of_nonneg (hv k)]
    exact hj k (Finset.mem_univ k)
  have h2 : stableThresh eps v < |v j| := by
    rw [abs_of_pos hjpos]
    unfold stableThresh
    rw [mul_assoc]
    have h0 := (foldl_max_ge (List.ofFn fun i => |v i|) 0).1
    rcases le_or_gt 0 ((m:ℝ) * eps) with h3 | h3
    · calc _ ≤ v j * (m * eps) := mul_le_mul_of_nonneg_right h1 h3
        _ < v j * 1 := mul_lt_mul_of_pos_left hm hjpos
        _ = v j := mul_one _
    · exact (mul_nonpos_of_nonneg_of_nonpos h0 h3.le).trans_lt hjpos
  intro h
  have : j ∈ stableKeep eps v := by
    unfold stableKeep
    rw [List.mem_filter]
    exact ⟨List.mem_finRange j, by simpa using h2⟩
  rw [h] at this
  simp at this

/-- the Nystrom approximation is not trivial -/
theorem nys_pos (hn : NumericsSpec num) (hL : L.PosSemidef) {D : Centers n} (hD : ValidDict L D) (heps : n * num.eps < 1) :
    0 < (nysOf num L D (stableKeep num.eps (num.eigh _ (lHat L D)).1)).m' ∧
    ∀ j, 0 < (nysOf num L D (stableKeep num.eps (num.eigh _ (lHat L D)).1)).eigvals j := by
  have hpsd := lHat_psd hL D
  obtain ⟨-, h0, h2⟩ := psd_eig hpsd hn.eigh
  have hex : ∃ j, 0 < (num.eigh _ (lHat L D)).1 j := by
    by_contra hno
    push Not at hno
    have h3 : ∀ a, (num.eigh _ (lHat L D)).1 a = 0 := fun a => le_antisymm (hno a) (h0 a)
    have e0 : Fin D.items.length := ⟨0, List.length_pos_iff.2 hD.nonempty⟩
    have h4 := congrFun (congrFun h2 e0) e0
    have h5 : ker (num.eigh _ (lHat L D)).2 (num.eigh _ (lHat L D)).1 e0 e0 = 0 := by
      simp [ker, h3]
    rw [h5] at h4
    have hp : 0 < D.probs e0 := hD.pos _ (List.get_mem _ _)
    have hl : 0 < L (D.idx e0) (D.idx e0) := hD.diag _ (List.get_mem _ _)
    have : 0 < lHat L D e0 e0 := by
      unfold lHat
      have := Real.sqrt_pos.2 hp
      positivity
    rw [h4] at this
    exact lt_irrefl _ this
  obtain ⟨j, hj⟩ := hex
  have hlen : (D.items.length : ℝ) * num.eps < 1 := by
    have : (D.items.length : ℝ) ≤ n := by exact_mod_cast hD.length_le
    exact (mul_le_mul_of_nonneg_right this hn.eps.le).trans_lt heps
  refine ⟨List.length_pos_iff.2 (stableKeep_ne_nil h0 hj hlen), fun k => ?_⟩
  exact stableKeep_pos hn.eps.le h0 (List.get_mem _ _)

theorem nysDeff_pos {N : Nystrom n} (hm : 0 < N.m') (hp : ∀ j, 0 < N.eigvals j) {a : ℝ} (ha : 0 < a) : 0 < nysDeff N a := by
  have : Nonempty (Fin N.m') := ⟨⟨0, hm⟩⟩
  unfold nysDeff
  refine Finset.sum_pos (fun j _ => ?_) Finset.univ_nonempty
  have := mul_pos ha (hp j)
  rw [sub_pos, div_lt_one (by linarith)]
  linarith

/-- the bracket given to the pre-computation is positive -/
def SizePos : Option (ℤ × ℝ × ℝ) → Prop
  | none => True
  | some s => 0 < s.2.1 ∧ 0 < s.2.2

/-- what the pre-computation for alpha-dpp returns on a valid dictionary -/
theorem alphaPrecompute_fam (hn : NumericsSpec num) (hL : L.PosSemidef) {D : Centers n} (hD : ValidDict L D)
    (heps : n * num.eps < 1) {size : Option (ℤ × ℝ × ℝ)} (hsize : SizePos size) {pc : AlphaInfo n}
    (h : alphaPrecompute num L D size = .ok pc) :
    pc.alphaHat ≤ 1 ∧ (size = none → pc.alphaHat = 1 ∧ pc.k = -1) ∧ (∀ s, size = some s → nysDeff pc.dict pc.alphaHat = s.1 ∧ pc.k = s.1) ∧
      0 < nysDeff pc.dict pc.alphaHat ∧ 0 < pc.alphaHat ∧
      (∀ r, 0 < r → NoTie L pc.dict pc.alphaHat r → AlphaOK L { pc with r := r }) ∧
      (∀ r, 0 < r → (∀ a, 0 < a → NoTie L pc.dict a r) → AlphaFamOK L { pc with r := r }) ∧
      (∀ a r, 0 < a → 0 < r → (r ≤ 1 ∨ ∀ k : ℕ, r * nysDeff pc.dict a ≠ k) → NoTie L pc.dict a r) := by
  have hpre := h
  obtain ⟨hm, hp⟩ := nys_pos hn hL hD heps
  obtain ⟨N, a, rfl, hN, ha0, ha1, hnone, hsome⟩ := alphaPrecompute_ok hn hL h
  have hNeq : N = nysOf num L D (stableKeep num.eps (num.eigh _ (lHat L D)).1) := by
    unfold alphaPrecompute at h
    rcases stableFilter_cases num.eps (num.eigh _ (lHat L D)).1 with h1 | h1
    · rw [h1] at h; exact absurd h (by simp)
    · rw [h1] at h
      simp only at h
      split at h
      · exact absurd h (by simp)
      split at h
      · exact absurd h (by simp)
      split at h
      · exact absurd h (by simp)
      · simp only [Outcome.ok.injEq] at h
        have := congrArg AlphaInfo.dict h
        exact this.symm
  rw [← hNeq] at hm hp
  have hneg : ∀ b r, 0 < b → 0 < r → NoTie L N b r → ∀ c : Fin n → ℕ, (∀ i, 0 < c i → 0 < nysRls L N b i) →
      alphaAcc L N b r (nysRls L N b) c < 0 :=
    fun b r hb hr ht c hc => lt_of_le_of_ne (alphaAcc_nonpos hN hL hb hr hc) (ht c hc)
  have hok : ∀ r, 0 < r → NoTie L N a r → AlphaOK L { alphaInfoOf L N size a with r := r } := by
    intro r hr hr1
    exact ⟨⟨hL, ha0, hr, nysRls_nonneg hN hL ha0.le, fun i => nysRls_zero hN hL ha0, fun i => nysRls_le L N ha0.le i,
      fun i hi => absurd hi (by simp [alphaInfoOf]), fun c hc => alphaAcc_nonpos hN hL ha0 hr hc⟩, hneg a r ha0 hr hr1⟩
  refine ⟨ha1, fun h0 => ⟨hnone h0, by subst h0; rfl⟩, ?_, nysDeff_pos hm hp ha0, ha0, hok, ?_,
    fun b r hb hr h1 c hc => (alphaAcc_neg hN hL hm hp hb hr h1 hc).ne⟩
  · rintro s rfl
    exact ⟨hsome s rfl, rfl⟩
  · intro r hr hr1
    refine ⟨hok r hr (hr1 a ha0), fun i => rfl, ?_, ?_, fun b hb i => nysRls_nonneg hN hL hb.le i,
      fun b hb i => nysRls_zero hN hL hb, fun b hb c hc => hneg b r hb hr (hr1 b hb) c hc⟩
    · cases size with
      | none => exact ha0
      | some s => exact one_div_pos.2 hsize.1
    · cases size with
      | none => exact ha0
      | some s => exact one_div_pos.2 hsize.2

theorem alphaLoop_law {inner : DppSampler} (hin : InnerSpec inner) {pc : AlphaInfo n} (h : AlphaOK L pc) (m : ℕ) :
    LawIs (alphaLoop inner L m 0 pc) (lDppProb (pc.alphaHat • L)) ∧
      PP (alphaLoop inner L m 0 pc) Succeeds = ENNReal.ofReal (1 - (1 - alphaP L pc) ^ m) := by
  have hpsd := psd_smul h.psd h.alpha.le
  obtain ⟨h1, h2⟩ := law_of_weights hpsd fun T => alphaLoop_draws hin T m 0 pc h
  refine ⟨h2, h1.trans ?_⟩
  have hdet := det_one_add_pos hpsd
  rw [mul_comm, ← ENNReal.ofReal_mul hdet.le]
  congr 1
  have h3 := geom_sum_mul (1 - alphaP L pc) m
  have h4 : alphaP L pc = alphaC L pc * (1 + pc.alphaHat • L).det := rfl
  rw [← mul_assoc, mul_comm _ (alphaC L pc), ← h4]
  linear_combination -h3

/-- the outcomes of the pre-computation -/
theorem alphaPre_support (hn : NumericsSpec num) (hL : L.PosSemidef) (heps : n * num.eps < 1) {over : ℝ}
    (ho : 0 < over) {dict : PMF (Outcome (Centers n))} (hd : ∀ D, .ok D ∈ dict.support → 0 < D.lam)
    {pc : AlphaInfo n} (h : .ok pc ∈ (alphaPre num L over dict).support) :
    pc.alphaHat = 1 ∧ pc.k = -1 ∧ 0 < nysDeff pc.dict pc.alphaHat ∧
      (∀ r, 0 < r → NoTie L pc.dict pc.alphaHat r → AlphaOK L { pc with r := r }) ∧
      (∀ a r, 0 < a → 0 < r → (r ≤ 1 ∨ ∀ k : ℕ, r * nysDeff pc.dict a ≠ k) → NoTie L pc.dict a r) := by
  unfold alphaPre at h
  rw [mem_support_andThen] at h
  rcases h with ⟨D, hD, h⟩ | ⟨e, -, h⟩
  swap
  · exact absurd h (by simp)
  rw [mem_support_andThen] at h
  rcases h with ⟨DA, hDA, h⟩ | ⟨e, -, h⟩
  swap
  · exact absurd h (by simp)
  have h1 : 0 < (some over).getD D.over := ho
  rcases reduceLambda_support hL (hd D hD) h1 hDA with h2 | ⟨DA', h2, hv, -⟩
  · exact absurd h2 (by simp)
  simp only [Outcome.ok.injEq] at h2
  subst h2
  rw [liftOut, PMF.support_pure, Set.mem_singleton_iff] at h
  obtain ⟨-, h3, -, h4, -, h5, -, h6⟩ := alphaPrecompute_fam hn hL hv heps (size := none) trivial h.symm
  exact ⟨(h3 rfl).1, (h3 rfl).2, h4, h5, h6⟩

theorem alphaKPre_support (hn : NumericsSpec num) (hL : L.PosSemidef) (heps : n * num.eps < 1) {over : ℝ}
    (ho : 0 < over) {dict : PMF (Outcome (SizeState n))}
    (hd : ∀ D, .ok D ∈ dict.support → 0 < D.dict.lam ∧ 0 < D.lamMin ∧ 0 < D.lamMax) {size : ℕ}
    {pc : AlphaInfo n} (h : .ok pc ∈ (alphaKPre num L over dict size).support) :
    pc.alphaHat ≤ 1 ∧ nysDeff pc.dict pc.alphaHat = size ∧ pc.k = size ∧ 0 < (size : ℝ) ∧
      (∀ r, 0 < r → (∀ a, 0 < a → NoTie L pc.dict a r) → AlphaFamOK L { pc with r := r }) ∧
      (∀ a r, 0 < a → 0 < r → (r ≤ 1 ∨ ∀ k : ℕ, r * nysDeff pc.dict a ≠ k) → NoTie L pc.dict a r) := by
  unfold alphaKPre at h
  rw [mem_support_andThen] at h
  rcases h with ⟨D, hD, h⟩ | ⟨e, -, h⟩
  swap
  · exact absurd h (by simp)
  rw [mem_support_andThen] at h
  rcases h with ⟨DA, hDA, h⟩ | ⟨e, -, h⟩
  swap
  · exact absurd h (by simp)
  have h1 : 0 < (some over).getD D.dict.over := ho
  obtain ⟨hd1, hd2, hd3⟩ := hd D hD
  rcases reduceLambda_support hL hd1 h1 hDA with h2 | ⟨DA', h2, hv, -⟩
  · exact absurd h2 (by simp)
  simp only [Outcome.ok.injEq] at h2
  subst h2
  rw [liftOut, PMF.support_pure, Set.mem_singleton_iff] at h
  obtain ⟨h6, -, h3, h4, -, -, h5, h9⟩ := alphaPrecompute_fam hn hL hv heps (size := some _) ⟨hd3, hd2⟩ h.symm
  obtain ⟨h7, h8⟩ := h3 _ rfl
  simp only [Int.cast_natCast] at h7
  rw [h7] at h4
  exact ⟨h6, h7, h8, h4, h5, h9⟩

/-! ### the k-DPP loop -/

/-- how the cached information may change during the search: nothing changes but the bracket, which only shrinks -/
structure Refines (a b : AlphaInfo n) : Prop where
  dict : b.dict = a.dict
  r : b.r = a.r
  k : b.k = a.k
  diag : b.diagL = a.diagL
  bracket : a.alphaMin ≤ a.alphaHat → a.alphaHat ≤ a.alphaMax → a.alphaMin ≤ b.alphaMin ∧ b.alphaMin ≤ b.alphaHat ∧
    b.alphaHat ≤ b.alphaMax ∧ b.alphaMax ≤ a.alphaMax

theorem Refines.refl (a : AlphaInfo n) : Refines a a :=
  ⟨rfl, rfl, rfl, rfl, fun h1 h2 => ⟨le_rfl, h1, h2, le_rfl⟩⟩

theorem Refines.trans {a b c : AlphaInfo n} (h : Refines a b) (h' : Refines b c) : Refines a c := by
  refine ⟨h'.dict.trans h.dict, h'.r.trans h.r, h'.k.trans h.k, h'.diag.trans h.diag, fun h1 h2 => ?_⟩
  obtain ⟨b1, b2, b3, b4⟩ := h.bracket h1 h2
  obtain ⟨c1, c2, c3, c4⟩ := h'.bracket b2 b3
  exact ⟨b1.trans c1, c2, c3, c4.trans b4⟩

/-- only fields that `Refines` does not look at changed -/
theorem Refines.stats (a : AlphaInfo n) (bd : Fin n → ℝ) (v : Fin n → Bool) (t j s : ℕ) : Refines a { a with
    bound := bd
    valid := v
    trialToFirst := t
    rejToFirst := j
    switches := s } :=
  ⟨rfl, rfl, rfl, rfl, fun h1 h2 => ⟨le_rfl, h1, h2, le_rfl⟩⟩

theorem kRecordInfo_refines (size : ℕ) (l : List (Fin n)) (st : KCount n) (a : AlphaInfo n) :
    Refines a (kRecordInfo size l st a) := by
  unfold kRecordInfo
  split
  · exact Refines.stats a _ _ _ _ _
  · exact Refines.refl a

theorem kRej_refines (rej : ℕ) (a : AlphaInfo n) : Refines a (kRej rej a) := by
  unfold kRej
  split
  · exact Refines.stats a _ _ _ _ _
  · exact Refines.refl a

theorem kReset_refines (st : KCount n) {a : AlphaInfo n} (hpos : 0 < a.alphaMin) : Refines a (kReset (kBracket st a)) := by
  refine ⟨?_, ?_, ?_, ?_, fun h1 h2 => ?_⟩
  · unfold kBracket kReset; split <;> rfl
  · unfold kBracket kReset; split <;> rfl
  · unfold kBracket kReset; split <;> rfl
  · unfold kBracket kReset; split <;> rfl
  · have hh := hpos.trans_le h1
    have hM := hh.trans_le h2
    have key : ∀ x y : ℝ, 0 < x → x ≤ y → x ≤ Real.sqrt (x * y) ∧ Real.sqrt (x * y) ≤ y := by
      intro x y hx hxy
      constructor
      · refine Real.le_sqrt_of_sq_le ?_
        rw [sq]; exact mul_le_mul_of_nonneg_left hxy hx.le
      · refine Real.sqrt_le_iff.2 ⟨hx.le.trans hxy, ?_⟩
        rw [sq]; exact mul_le_mul_of_nonneg_right hxy (hx.le.trans hxy)
    unfold kBracket kReset
    split
    · exact ⟨h1, (key _ _ hh h2).1, (key _ _ hh h2).2, le_rfl⟩
    · exact ⟨le_rfl, (key _ _ hpos h1).1, (key _ _ hpos h1).2, h2⟩

theorem kFinal_refines (st : KCount n) (a : AlphaInfo n) : Refines a (kFinal st a) := by
  unfold kFinal
  split
  · exact ⟨rfl, rfl, rfl, rfl, fun h1 h2 => ⟨h1, le_rfl, le_rfl, h2⟩⟩
  · exact Refines.refl a

theorem kFinal_ok {pc : AlphaInfo n} (h : AlphaFamOK L pc) (st : KCount n) : AlphaFamOK L (kFinal st pc) := by
  unfold kFinal
  split
  · exact ⟨⟨⟨h.now.psd, h.now.alpha, h.now.r, h.now.est_nonneg, h.now.est_zero, h.now.est_le, h.now.valid_eq, h.now.acc_nonpos⟩,
      h.now.acc⟩,
      h.diag, h.now.alpha, h.now.alpha, h.est_nonneg, h.est_zero, h.acc⟩
  · exact h

/-- the kept sample, if any, has the right size; there is one once one was counted -/
structure KInv (size : ℕ) (st : KCount n) : Prop where
  out : ∀ l, st.out = some l → l.length = size ∧ l.Nodup
  some : 0 < st.sampleCount → st.out ≠ none

/-- what is known of an outcome of the k-DPP sampler started from `info` -/
def KOutcome (L : Matrix (Fin n) (Fin n) ℝ) (size : ℕ) (info : AlphaInfo n) (o : Outcome (List (Fin n) × AlphaInfo n)) : Prop :=
  o = .valueError ∨ ∃ l info', o = .ok (l, info') ∧ l.length = size ∧ l.Nodup ∧ AlphaFamOK L info' ∧ Refines info info'

theorem KOutcome.of_refines {size : ℕ} {a b : AlphaInfo n} (h : Refines a b) {o : Outcome (List (Fin n) × AlphaInfo n)}
    (ho : KOutcome L size b o) : KOutcome L size a o := by
  rcases ho with rfl | ⟨l, info', h1, h2, h3, h4, h5⟩
  · exact Or.inl rfl
  · exact Or.inr ⟨l, info', h1, h2, h3, h4, h.trans h5⟩

theorem kReturn_outcome {size : ℕ} {st : KCount n} {info : AlphaInfo n} (hst : KInv size st) (hs : st.out ≠ none)
    (h : AlphaFamOK L info) {o : Outcome (List (Fin n) × AlphaInfo n)} (ho : o ∈ (kReturn st info).support) :
    KOutcome L size info o := by
  unfold kReturn at ho
  cases hout : st.out with
  | none => exact absurd hout hs
  | some l =>
    rw [hout] at ho
    simp only [PMF.support_pure, Set.mem_singleton_iff] at ho
    exact Or.inr ⟨l, _, ho, (hst.out l hout).1, (hst.out l hout).2, kFinal_ok h st, kFinal_refines st info⟩

theorem alphaKLoop_support {inner : DppSampler} (hin : InnerSpec inner) (size m : ℕ) (es : Bool) :
    ∀ (f : ℕ) (st : KCount n) (info : AlphaInfo n), KInv size st → AlphaFamOK L info →
      ∀ o ∈ (alphaKLoop inner L size m es f st info).support, KOutcome L size info o
  | 0, st, info, _, _, o, ho => by
    rw [alphaKLoop] at ho
    left; simpa using ho
  | f + 1, st, info, hst, hinfo, o, ho => by
    rw [alphaKLoop_succ, mem_support_andThen] at ho
    rcases ho with ⟨d, hd, ho⟩ | ⟨e, he, rfl⟩
    swap
    · rcases alphaLoop_support hin m 0 info hinfo.now _ he with h | ⟨l, r, b, v, h, -⟩
      · left
        simp only [Outcome.valueError, Outcome.raise.injEq] at h
        rw [h]
      · exact absurd h (by simp)
    rcases alphaLoop_support hin m 0 info hinfo.now _ hd with h | ⟨l, r, b, v, h, hnd, hok, -⟩
    · exact absurd h (by simp)
    rw [Outcome.ok.injEq] at h
    subst h
    simp only at ho
    have hfam := hinfo.bounds hok
    have hR0 : Refines info { info with
        bound := b
        valid := v } := Refines.stats info b v _ _ _
    obtain ⟨g1, -⟩ := kRecordInfo_ok hfam size l (kRecord size l st)
    have hR1 := hR0.trans (kRecordInfo_refines size l (kRecord size l st) _)
    obtain ⟨g3, -⟩ := kRej_ok g1 r
    have hR2 := hR1.trans (kRej_refines r _)
    have hst1 : KInv size (kRecord size l st) := by
      refine ⟨fun l' hl' => ?_, fun h0 => ?_⟩
      · simp only [kRecord] at hl'
        split at hl'
        · rename_i hlen
          rw [Option.some.injEq] at hl'
          subst hl'
          exact ⟨hlen, hnd⟩
        · exact hst.out l' hl'
      · simp only [kRecord] at h0 ⊢
        split
        · simp
        · rename_i hlen
          rw [if_neg hlen] at h0
          exact hst.some h0
    have hst2 : KInv size (kUnderOver size l (kRecord size l st)) := ⟨hst1.out, hst1.some⟩
    split at ho
    · rename_i hlen
      refine KOutcome.of_refines hR1 (kReturn_outcome hst1 ?_ g1 ho)
      simp only [kRecord, hlen.1, if_true]
      simp
    · refine KOutcome.of_refines hR2 ?_
      unfold kCont at ho
      split at ho
      · rename_i h2
        exact kReturn_outcome (st := { kUnderOver size l (kRecord size l st) with found := true })
          ⟨hst2.out, hst2.some⟩ (hst2.some (by rw [h2]; exact two_pos)) g3 ho
      split at ho
      · have hR3 := kReset_refines (kUnderOver size l (kRecord size l st)) g3.min_pos
        have g4 := (g3.bracket (kUnderOver size l (kRecord size l st))).reset
        split at ho
        · rename_i h3
          exact KOutcome.of_refines hR3 (kReturn_outcome (st := { kUnderOver size l (kRecord size l st) with found := true })
            ⟨hst2.out, hst2.some⟩ (hst2.some h3.2) g4 ho)
        · refine KOutcome.of_refines hR3 ?_
          refine KOutcome.of_refines (Refines.stats _ _ _ _ _ _) (alphaKLoop_support hin size m es f _ _ ?_ (g4.stats _ _ _) o ho)
          exact ⟨hst2.out, hst2.some⟩
      · exact alphaKLoop_support hin size m es f _ _ hst2 g3 o ho

theorem alphaKLoop_law {inner : DppSampler} (hin : InnerSpec inner) (size m : ℕ) (es : Bool) (f : ℕ) {st : KCount n}
    (hst : st.out = none) {info : AlphaInfo n} (h : AlphaFamOK L info) :
    LawIs (alphaKLoop inner L size m es f st info) (kDppProb L size) := by
  obtain ⟨K1, K2, hK⟩ := alphaKLoop_splits (L := L) hin size m es f st info
  refine law_of_kweights (K := K1) h.now.psd fun T => ?_
  have h1 := hK info ⟨rfl, rfl, rfl, rfl, rfl, rfl⟩ h none T
  rw [PP_draws]
  have h2 : st = { st with out := none } := by rw [← hst]
  rw [h2]
  refine h1.trans ?_
  simp [keptIs]

end Verif
