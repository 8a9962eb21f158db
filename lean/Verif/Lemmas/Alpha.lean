import Verif.Lemmas.Vfx

/-!
The law of the alpha-DPP rejection loop.
-/

namespace Verif
open Verif Verif.Spec Verif.Model Matrix
open scoped ENNReal NNReal

variable {n : ℕ} {L : Matrix (Fin n) (Fin n) ℝ} {pc : AlphaInfo n}

/-- The facts about the pre-computed constants and the current bounds that hold with or without ties. -/
structure AlphaBase (L : Matrix (Fin n) (Fin n) ℝ) (pc : AlphaInfo n) : Prop where
  psd : L.PosSemidef
  alpha : 0 < pc.alphaHat
  r : 0 < pc.r
  est_nonneg : ∀ i, 0 ≤ nysRls L pc.dict pc.alphaHat i
  est_zero : ∀ i, nysRls L pc.dict pc.alphaHat i = 0 → L i i = 0
  est_le : ∀ i, nysRls L pc.dict pc.alphaHat i ≤ pc.bound i
  valid_eq : ∀ i, pc.valid i = true → pc.bound i = nysRls L pc.dict pc.alphaHat i
  acc_nonpos : ∀ c : Fin n → ℕ, (∀ i, 0 < c i → 0 < nysRls L pc.dict pc.alphaHat i) →
    alphaAcc L pc.dict pc.alphaHat pc.r (nysRls L pc.dict pc.alphaHat) c ≤ 0

/-- The facts about the pre-computed constants and the current bounds that the law relies on. -/
structure AlphaOK (L : Matrix (Fin n) (Fin n) ℝ) (pc : AlphaInfo n) : Prop extends AlphaBase L pc where
  acc : ∀ c : Fin n → ℕ, (∀ i, 0 < c i → 0 < nysRls L pc.dict pc.alphaHat i) →
    alphaAcc L pc.dict pc.alphaHat pc.r (nysRls L pc.dict pc.alphaHat) c < 0

/-- the state after a round in which the counts `sv` were drawn -/
noncomputable def alphaUpd (L : Matrix (Fin n) (Fin n) ℝ) (pc : AlphaInfo n) (sv : Fin n → ℕ) : AlphaInfo n :=
  { pc with
      bound := newBound (nysRls L pc.dict pc.alphaHat) pc.bound pc.valid sv
      valid := newValid pc.valid sv }

theorem AlphaBase.upd (h : AlphaBase L pc) (sv : Fin n → ℕ) : AlphaBase L (alphaUpd L pc sv) where
  psd := h.psd
  alpha := h.alpha
  r := h.r
  est_nonneg := h.est_nonneg
  est_zero := h.est_zero
  est_le := by
    intro i
    change _ ≤ newBound _ _ _ _ i
    unfold newBound
    split
    · exact le_rfl
    · exact h.est_le i
  valid_eq := by
    intro i hi
    change newValid _ _ i = true at hi
    change newBound _ _ _ _ i = _
    unfold newBound
    unfold newValid at hi
    split
    · rfl
    · rename_i hn
      rw [if_neg hn] at hi
      exact h.valid_eq i hi
  acc_nonpos := h.acc_nonpos

theorem AlphaOK.upd (h : AlphaOK L pc) (sv : Fin n → ℕ) : AlphaOK L (alphaUpd L pc sv) where
  toAlphaBase := h.toAlphaBase.upd sv
  acc := h.acc

theorem newBound_active (h : AlphaBase L pc) {sv : Fin n → ℕ} {i : Fin n} (hi : 0 < sv i) :
    newBound (nysRls L pc.dict pc.alphaHat) pc.bound pc.valid sv i = nysRls L pc.dict pc.alphaHat i := by
  unfold newBound
  split
  · rfl
  · rename_i hn
    refine h.valid_eq i ?_
    by_contra hv
    exact hn ⟨hi, by simpa using hv⟩

/-- weight of item `i` in the intermediate sample -/
noncomputable def alphaWt (r : ℝ) (est : Fin n → ℝ) (c : Fin n → ℕ) (i : Fin n) : ℝ := c i / (r * est i)

theorem alphaTilde_eq {alpha r : ℝ} {b est : Fin n → ℝ} {c : Fin n → ℕ} (hb : ∀ i, 0 < c i → b i = est i) :
    alphaTilde L alpha r b c = tildeM L alpha (alphaWt r est c) c := by
  ext x y
  unfold alphaTilde tildeM alphaA alphaWt uniqEmb
  simp only [of_apply, submatrix_apply, Function.Embedding.coeFn_mk]
  rw [hb _ (mem_uniq.1 ((uniq c).get_mem x)), hb _ (mem_uniq.1 ((uniq c).get_mem y))]
  ring

theorem alphaAcc_congr {D : Nystrom n} {alpha r : ℝ} {b est : Fin n → ℝ} {c : Fin n → ℕ}
    (hb : ∀ i, 0 < c i → b i = est i) : alphaAcc L D alpha r b c = alphaAcc L D alpha r est c := by
  unfold alphaAcc
  rw [alphaTilde_eq hb, alphaTilde_eq (b := est) fun _ _ => rfl]

theorem exp_alphaAcc {D : Nystrom n} {alpha r : ℝ} {est : Fin n → ℝ} {c : Fin n → ℕ} (hL : L.PosSemidef)
    (hα : 0 ≤ alpha) :
    Real.exp (alphaAcc L D alpha r est c) = Real.exp (nysDeff D alpha - nysLogdet D alpha) *
      (∏ i, Real.exp (-(1 / r)) ^ c i) * (1 + tildeM L alpha (alphaWt r est c) c).det := by
  have hdet := det_one_add_pos (tildeM_psd (w := alphaWt r est c) (c := c) hL hα)
  unfold alphaAcc
  rw [alphaTilde_eq (est := est) fun _ _ => rfl, add_comm (tildeM _ _ _ _) 1, abs_of_pos hdet,
    Finset.prod_pow_eq_pow_sum, ← Real.exp_nat_mul]
  have : nysDeff D alpha + Real.log (1 + tildeM L alpha (alphaWt r est c) c).det - nysLogdet D alpha - (∑ i, (c i : ℝ)) / r
      = (nysDeff D alpha - nysLogdet D alpha) + ((∑ i, c i : ℕ) : ℝ) * -(1 / r)
        + Real.log (1 + tildeM L alpha (alphaWt r est c) c).det := by
    push_cast; ring
  rw [this, Real.exp_add, Real.exp_add, Real.exp_log hdet]

theorem alphaLam_nonneg (h : AlphaBase L pc) (i : Fin n) : 0 ≤ alphaLam pc.r pc.bound i := by
  have h1 := h.r
  have h2 := (h.est_nonneg i).trans (h.est_le i)
  unfold alphaLam; positivity

theorem binom_zero_support {s c : ℕ} (h : c ∈ (binom 0 s).support) : c = 0 := by
  induction s generalizing c with
  | zero => rw [binom, PMF.support_pure] at h; simpa using h
  | succ s ih =>
    rw [binom, PMF.mem_support_bind_iff] at h
    obtain ⟨b, hb, h⟩ := h
    rw [PMF.mem_support_map_iff] at h
    obtain ⟨c', hc', rfl⟩ := h
    have := ih hc'
    subst this
    cases b with
    | false => rfl
    | true => simp [coin, PMF.mem_support_iff, PMF.bernoulli_apply] at hb

/-- the thinned counts: at most the drawn ones, and zero where the estimate is zero -/
theorem thinned_support (h : AlphaBase L pc) {sv c : Fin n → ℕ}
    (hsv : sv ∈ (indep fun i => poisson (alphaLam pc.r pc.bound i).toNNReal).support)
    (hc : c ∈ (thinned (nysRls L pc.dict pc.alphaHat) pc.bound pc.valid sv).support) (i : Fin n) :
    c i ≤ sv i ∧ (0 < c i → 0 < nysRls L pc.dict pc.alphaHat i) := by
  have h1 := mem_support_indep _ _ hc i
  split at h1
  · rename_i ht
    refine ⟨binom_support h1, fun hi => ?_⟩
    rcases (h.est_nonneg i).eq_or_lt with h0 | h0
    · exfalso
      have : newBound (nysRls L pc.dict pc.alphaHat) pc.bound pc.valid sv i / pc.bound i = 0 := by
        unfold newBound; rw [if_pos ht, ← h0, zero_div]
      rw [this] at h1
      have := binom_zero_support h1
      omega
    · exact h0
  · rename_i ht
    rw [PMF.support_pure] at h1
    simp only [Set.mem_singleton_iff] at h1
    refine ⟨h1.le, fun hi => ?_⟩
    rw [h1] at hi
    have hb := newBound_active h hi
    unfold newBound at hb
    rw [if_neg ht] at hb
    rcases (h.est_nonneg i).eq_or_lt with h0 | h0
    · exfalso
      have h2 := mem_support_indep _ _ hsv i
      rw [PMF.mem_support_iff] at h2
      apply h2
      change ENNReal.ofReal (poissonW _ _) = 0
      rw [alphaLam, hb, ← h0]
      simp only [mul_zero, Real.toNNReal_zero, NNReal.coe_zero, poissonW]
      rw [zero_pow (by omega)]
      simp
    · exact h0

/-- one round, unfolded: it never raises -/
theorem PE_alphaRound (h : AlphaOK L pc) (f : Outcome (AlphaInfo n × Option (Fin n → ℕ)) → ℝ≥0∞) :
    PE (alphaRound L pc) f = PE (indep fun i => poisson (alphaLam pc.r pc.bound i).toNNReal) fun sv =>
      PE (thinned (nysRls L pc.dict pc.alphaHat) pc.bound pc.valid sv) fun c =>
        PE (coin (Real.exp (alphaAcc L pc.dict pc.alphaHat pc.r (nysRls L pc.dict pc.alphaHat) c))) fun b =>
          f (.ok (alphaUpd L pc sv, if b then some c else none)) := by
  unfold alphaRound
  rw [if_neg (by push Not; exact alphaLam_nonneg h.toAlphaBase), PE_bind]
  refine PE_congr fun sv hsv => ?_
  rw [if_neg (by rintro ⟨i, -, hi⟩; exact absurd (h.est_nonneg i) (not_le.2 hi)),
    if_neg (by rintro ⟨i, -, hi⟩; exact absurd (h.est_le i) (not_le.2 hi)), PE_bind]
  refine PE_congr fun c hc => ?_
  have hs := thinned_support h.toAlphaBase hsv hc
  have hb : ∀ i, 0 < c i → newBound (nysRls L pc.dict pc.alphaHat) pc.bound pc.valid sv i
      = nysRls L pc.dict pc.alphaHat i := fun i hi => newBound_active h.toAlphaBase (hi.trans_le (hs i).1)
  rw [PE_map]
  unfold alphaTest
  have hdet := det_one_add_pos (tildeM_psd (w := alphaWt pc.r (nysRls L pc.dict pc.alphaHat) c) (c := c) h.psd h.alpha.le)
  rw [alphaAcc_congr hb, alphaTilde_eq hb, add_comm (tildeM _ _ _ _) 1, if_neg (not_lt.2 hdet.le),
    if_neg (not_le.2 (h.acc c fun i hi => (hs i).2 hi)), PE_map]
  rfl

/-- what an accepted intermediate sample contributes to the event "`T` is returned" -/
noncomputable def alphaHit (inner : DppSampler) (L : Matrix (Fin n) (Fin n) ℝ) (T : Finset (Fin n)) :
    Outcome (AlphaInfo n × Option (Fin n → ℕ)) → ℝ≥0∞
  | .ok (pc', some c) => PP (alphaFinish inner L pc' c) (Returns T)
  | _ => 0

/-- the part of the probability of a round that does not depend on the returned set; it does not depend on the
bounds either -/
noncomputable def alphaC (L : Matrix (Fin n) (Fin n) ℝ) (pc : AlphaInfo n) : ℝ :=
  Real.exp (nysDeff pc.dict pc.alphaHat - nysLogdet pc.dict pc.alphaHat) *
    ∏ i, Real.exp (pc.r * nysRls L pc.dict pc.alphaHat i - pc.r * Real.exp (1 / pc.r) * nysRls L pc.dict pc.alphaHat i)

theorem alphaC_pos : 0 < alphaC L pc := by
  unfold alphaC
  refine mul_pos (Real.exp_pos _) (Finset.prod_pos fun i _ => Real.exp_pos _)

/-- thinned counts have the law of Poisson counts of rate given by the estimates, whatever the bounds: the two
expectations that matter -/
theorem thin_item (h : AlphaBase L pc) (T : Finset (Fin n)) (i : Fin n) :
    PE (poisson (alphaLam pc.r pc.bound i).toNNReal) (fun s =>
      PE (if 0 < s ∧ pc.valid i = false then
          binom ((if 0 < s ∧ pc.valid i = false then nysRls L pc.dict pc.alphaHat i else pc.bound i) / pc.bound i) s
        else PMF.pure s) fun c =>
        ENNReal.ofReal ((if i ∈ T then (c : ℝ) else 1) * Real.exp (-(1 / pc.r)) ^ c))
      = ENNReal.ofReal ((if i ∈ T then pc.r * nysRls L pc.dict pc.alphaHat i else 1) *
        Real.exp (pc.r * nysRls L pc.dict pc.alphaHat i - pc.r * Real.exp (1 / pc.r) * nysRls L pc.dict pc.alphaHat i)) := by
  set est := nysRls L pc.dict pc.alphaHat i with hest
  have he0 : 0 ≤ est := h.est_nonneg i
  have hle : est ≤ pc.bound i := h.est_le i
  set p : ℝ := est / pc.bound i with hp
  have hb0 : 0 ≤ pc.bound i := he0.trans hle
  have hp0 : 0 ≤ p := div_nonneg he0 hb0
  have hp1 : p ≤ 1 := div_le_one_of_le₀ hle hb0
  have hpb : p * pc.bound i = est := by
    rcases hb0.eq_or_lt with h0 | h0
    · have : est = 0 := le_antisymm (by rw [h0]; exact hle) he0
      rw [← h0, this, mul_zero]
    · rw [hp, div_mul_cancel₀ _ h0.ne']
  have hx : 0 < Real.exp (-(1 / pc.r)) := Real.exp_pos _
  have hlam0 := alphaLam_nonneg h i
  have hlamp : alphaLam pc.r pc.bound i * p = pc.r * Real.exp (1 / pc.r) * est := by
    unfold alphaLam; rw [← hpb]; ring
  have hlampx : alphaLam pc.r pc.bound i * p * Real.exp (-(1 / pc.r)) = pc.r * est := by
    have h1 : Real.exp (1 / pc.r) * Real.exp (-(1 / pc.r)) = 1 := by rw [← Real.exp_add]; simp
    rw [hlamp]
    calc pc.r * Real.exp (1 / pc.r) * est * Real.exp (-(1 / pc.r))
        = pc.r * est * (Real.exp (1 / pc.r) * Real.exp (-(1 / pc.r))) := by ring
      _ = _ := by rw [h1, mul_one]
  -- both cases are a thinning with probability `p`
  have hcomp : ∀ s : ℕ, ∀ f : ℕ → ℝ≥0∞, PE (if 0 < s ∧ pc.valid i = false then
        binom ((if 0 < s ∧ pc.valid i = false then est else pc.bound i) / pc.bound i) s else PMF.pure s) f
      = if pc.valid i = true then f s else PE (binom p s) f := by
    intro s f
    cases hv : pc.valid i with
    | true => simp [PE_pure]
    | false =>
      rcases Nat.eq_zero_or_pos s with rfl | hs
      · simp [binom]
      · simp [hs]
        rfl
  simp_rw [hcomp]
  cases hv : pc.valid i with
  | true =>
    simp only [if_true]
    have hbe : pc.bound i = est := h.valid_eq i hv
    have hlam2 : alphaLam pc.r pc.bound i = pc.r * Real.exp (1 / pc.r) * est := by unfold alphaLam; rw [hbe]
    have hlam3 : alphaLam pc.r pc.bound i * Real.exp (-(1 / pc.r)) = pc.r * est := by
      have h1 : Real.exp (1 / pc.r) * Real.exp (-(1 / pc.r)) = 1 := by rw [← Real.exp_add]; simp
      rw [hlam2]
      calc pc.r * Real.exp (1 / pc.r) * est * Real.exp (-(1 / pc.r))
          = pc.r * est * (Real.exp (1 / pc.r) * Real.exp (-(1 / pc.r))) := by ring
        _ = _ := by rw [h1, mul_one]
    by_cases hT : i ∈ T
    · simp only [hT, if_true]
      have := PE_poisson_descFactorial (alphaLam pc.r pc.bound i).toNNReal hx.le 1
      rw [Real.coe_toNNReal _ hlam0, hlam3, pow_one, hlam2] at this
      rw [hlam2, ← this]
      congr 1
      funext t
      rw [Nat.descFactorial_one, mul_comm (t : ℝ), ENNReal.ofReal_mul (by positivity), ENNReal.ofReal_natCast]
    · simp only [hT, if_false]
      have := PE_poisson_descFactorial (alphaLam pc.r pc.bound i).toNNReal hx.le 0
      rw [Real.coe_toNNReal _ hlam0, hlam3, pow_zero, hlam2] at this
      rw [hlam2, ← this]
      congr 1
      funext t
      rw [Nat.descFactorial_zero, Nat.cast_one, mul_one, one_mul]
  | false =>
    simp only [Bool.false_eq_true, if_false]
    by_cases hT : i ∈ T
    · simp only [hT, if_true]
      rw [PE_thin_mul_pow _ hp0 hp1 hx, Real.coe_toNNReal _ hlam0, hlampx, hlamp]
    · simp only [hT, if_false, one_mul]
      rw [PE_thin_pow _ hp0 hp1 hx.le, Real.coe_toNNReal _ hlam0, hlampx, hlamp]

/-- the factor of the weight of an intermediate sample that only depends on the returned set -/
noncomputable def alphaFac (L : Matrix (Fin n) (Fin n) ℝ) (pc : AlphaInfo n) (T : Finset (Fin n)) : ℝ :=
  Real.exp (nysDeff pc.dict pc.alphaHat - nysLogdet pc.dict pc.alphaHat) *
    (pc.alphaHat ^ T.card * (∏ i ∈ T, 1 / (pc.r * nysRls L pc.dict pc.alphaHat i)) * minor L T)

theorem alphaFac_nonneg (h : AlphaBase L pc) (T : Finset (Fin n)) : 0 ≤ alphaFac L pc T := by
  have hr := h.r
  have hα := h.alpha
  have hmin := minor_nonneg h.psd T
  have : 0 ≤ ∏ i ∈ T, 1 / (pc.r * nysRls L pc.dict pc.alphaHat i) := Finset.prod_nonneg fun i _ => by
    have := h.est_nonneg i; positivity
  unfold alphaFac; positivity

/-- an intermediate sample is accepted and `T` is returned -/
theorem alpha_item {inner : DppSampler} (hin : InnerSpec inner) (h : AlphaBase L pc) (T : Finset (Fin n)) {sv c : Fin n → ℕ}
    (hb : ∀ i, 0 < c i → newBound (nysRls L pc.dict pc.alphaHat) pc.bound pc.valid sv i = nysRls L pc.dict pc.alphaHat i) :
    ENNReal.ofReal (Real.exp (alphaAcc L pc.dict pc.alphaHat pc.r (nysRls L pc.dict pc.alphaHat) c)) *
        PP (alphaFinish inner L (alphaUpd L pc sv) c) (Returns T)
      = ENNReal.ofReal (alphaFac L pc T) *
        ∏ i, ENNReal.ofReal ((if i ∈ T then (c i : ℝ) else 1) * Real.exp (-(1 / pc.r)) ^ c i) := by
  classical
  have hr := h.r
  have hα := h.alpha
  have hmin := minor_nonneg h.psd T
  have hfac := alphaFac_nonneg h T
  set est := nysRls L pc.dict pc.alphaHat with hest
  set x : ℝ := Real.exp (-(1 / pc.r)) with hx
  have hx0 : 0 < x := Real.exp_pos _
  have hlaw := tilde_law (c := c) (w := alphaWt pc.r est c) hin h.psd hα.le
    (fun i => by have := h.est_nonneg i; unfold alphaWt; positivity)
    (fun i hi => by unfold alphaWt; rw [hi]; simp) T
  rw [exp_alphaAcc h.psd hα.le, ENNReal.ofReal_mul (by positivity), mul_assoc]
  unfold alphaFinish
  change _ * (_ * PP ((inner _ (alphaTilde L pc.alphaHat pc.r (newBound est pc.bound pc.valid sv) c)).map _) _) = _
  rw [alphaTilde_eq hb, hlaw, ← ENNReal.ofReal_mul (by positivity),
    ← ENNReal.ofReal_prod_of_nonneg (fun i _ => by positivity), ← ENNReal.ofReal_mul hfac]
  congr 1
  have h2 : ∏ i ∈ T, alphaWt pc.r est c i = (∏ i ∈ T, (c i : ℝ)) * ∏ i ∈ T, 1 / (pc.r * est i) := by
    rw [← Finset.prod_mul_distrib]
    refine Finset.prod_congr rfl fun i _ => ?_
    unfold alphaWt; ring
  have h3 : ∏ i, ((if i ∈ T then (c i : ℝ) else 1) * x ^ c i) = (∏ i ∈ T, (c i : ℝ)) * ∏ i, x ^ c i := by
    rw [Finset.prod_mul_distrib, Finset.prod_ite_mem, Finset.univ_inter]
  rw [h2, h3, alphaFac, ← hest]
  ring

/-- the weights of all the intermediate samples -/
theorem alpha_mass (h : AlphaBase L pc) (T : Finset (Fin n)) :
    (PE (indep fun i => poisson (alphaLam pc.r pc.bound i).toNNReal) fun sv => ENNReal.ofReal (alphaFac L pc T) *
      PE (thinned (nysRls L pc.dict pc.alphaHat) pc.bound pc.valid sv) fun c =>
        ∏ i, ENNReal.ofReal ((if i ∈ T then (c i : ℝ) else 1) * Real.exp (-(1 / pc.r)) ^ c i))
      = ENNReal.ofReal (alphaC L pc * minor (pc.alphaHat • L) T) := by
  classical
  have hr := h.r
  have hfac := alphaFac_nonneg h T
  set est := nysRls L pc.dict pc.alphaHat with hest
  set x : ℝ := Real.exp (-(1 / pc.r)) with hx
  rw [PE_mul_left]
  have h4 : ∀ sv, PE (thinned est pc.bound pc.valid sv) (fun c =>
        ∏ i, ENNReal.ofReal ((if i ∈ T then (c i : ℝ) else 1) * x ^ c i))
      = ∏ i, PE (if 0 < sv i ∧ pc.valid i = false then
          binom ((if 0 < sv i ∧ pc.valid i = false then est i else pc.bound i) / pc.bound i) (sv i)
        else PMF.pure (sv i)) fun c => ENNReal.ofReal ((if i ∈ T then (c : ℝ) else 1) * x ^ c) := by
    intro sv
    unfold thinned
    rw [PE_indep_prod _ (fun i (c : ℕ) => ENNReal.ofReal ((if i ∈ T then (c : ℝ) else 1) * x ^ c))]
    rfl
  simp_rw [h4]
  rw [PE_indep_prod (fun i => poisson (alphaLam pc.r pc.bound i).toNNReal) (fun i s =>
    PE (if 0 < s ∧ pc.valid i = false then
          binom ((if 0 < s ∧ pc.valid i = false then est i else pc.bound i) / pc.bound i) s
        else PMF.pure s) fun c => ENNReal.ofReal ((if i ∈ T then (c : ℝ) else 1) * x ^ c))]
  have h5 := fun i => thin_item h T i
  simp only [← hest, ← hx] at h5
  simp_rw [h5]
  have hnn : ∀ i, 0 ≤ (if i ∈ T then pc.r * est i else 1) := fun i => by
    split
    · have := h.est_nonneg i; positivity
    · exact zero_le_one
  rw [← ENNReal.ofReal_prod_of_nonneg (fun i _ => mul_nonneg (hnn i) (Real.exp_pos _).le),
    ← ENNReal.ofReal_mul hfac, Finset.prod_mul_distrib, Finset.prod_ite_mem, Finset.univ_inter, minor_smul]
  congr 1
  by_cases hT : ∀ i ∈ T, est i ≠ 0
  · have h7 : (∏ i ∈ T, 1 / (pc.r * est i)) * ∏ i ∈ T, pc.r * est i = 1 := by
      rw [← Finset.prod_mul_distrib]
      refine Finset.prod_eq_one fun i hi => ?_
      have := hT i hi
      field_simp
    rw [alphaFac, alphaC, ← hest]
    linear_combination (Real.exp (nysDeff pc.dict pc.alphaHat - nysLogdet pc.dict pc.alphaHat) *
      pc.alphaHat ^ T.card * minor L T *
      ∏ i, Real.exp (pc.r * est i - pc.r * Real.exp (1 / pc.r) * est i)) * h7
  · push Not at hT
    obtain ⟨i, hi, h0⟩ := hT
    rw [alphaFac, minor_diag_zero h.psd (h.est_zero i h0) hi]
    simp

/-- The sub-probability of one round: it accepts and the DPP restricted to the intermediate sample returns `T`. -/
theorem alphaRound_hit {inner : DppSampler} (hin : InnerSpec inner) (h : AlphaOK L pc) (T : Finset (Fin n)) :
    PE (alphaRound L pc) (alphaHit inner L T) = ENNReal.ofReal (alphaC L pc * minor (pc.alphaHat • L) T) := by
  rw [PE_alphaRound h, ← alpha_mass h.toAlphaBase T]
  refine PE_congr fun sv hsv => ?_
  rw [← PE_mul_left]
  refine PE_congr fun c hc => ?_
  have hs := thinned_support h.toAlphaBase hsv hc
  rw [PE_coin (Real.exp_pos _).le (Real.exp_le_one_iff.2 (h.acc c fun i hi => (hs i).2 hi).le)]
  simp only [if_true, Bool.false_eq_true, if_false, alphaHit, mul_zero, add_zero]
  exact alpha_item hin h.toAlphaBase T fun i hi => newBound_active h.toAlphaBase (hi.trans_le (hs i).1)

/-- acceptance probability of a round -/
noncomputable def alphaP (L : Matrix (Fin n) (Fin n) ℝ) (pc : AlphaInfo n) : ℝ :=
  alphaC L pc * (1 + pc.alphaHat • L).det

theorem alphaFinish_eq {inner : DppSampler} (h : AlphaOK L pc) {c : Fin n → ℕ}
    (hb : ∀ i, 0 < c i → pc.bound i = nysRls L pc.dict pc.alphaHat i) :
    alphaFinish inner L pc c = (inner _ (tildeM L pc.alphaHat (alphaWt pc.r (nysRls L pc.dict pc.alphaHat) c) c)).map
      (Outcome.map (List.map (uniq c).get)) := by
  unfold alphaFinish
  rw [alphaTilde_eq hb]

theorem alphaFinish_support {inner : DppSampler} (hin : InnerSpec inner) (hL : L.PosSemidef) (hα : 0 ≤ pc.alphaHat)
    {c : Fin n → ℕ} {o : Outcome (List (Fin n))} (ho : o ∈ (alphaFinish inner L pc c).support) :
    ∃ l, o = .ok l ∧ l.Nodup ∧ ∀ i ∈ l, 0 < c i := by
  unfold alphaFinish at ho
  rw [alphaTilde_eq (est := pc.bound) fun _ _ => rfl] at ho
  exact tilde_nodup hin hL hα ho

/-- every possible outcome of a round: bounds only decrease, certified bounds are kept -/
theorem alphaRound_support {o : Outcome (AlphaInfo n × Option (Fin n → ℕ))}
    (ho : o ∈ (alphaRound L pc).support) : o = .valueError ∨ ∃ sv x, o = .ok (alphaUpd L pc sv, x) ∧
      (∀ i, toRecompute pc.valid sv i → 0 ≤ nysRls L pc.dict pc.alphaHat i ∧ nysRls L pc.dict pc.alphaHat i ≤ pc.bound i) ∧
      ∀ c, x = some c → ∀ i, c i ≤ sv i := by
  unfold alphaRound at ho
  split at ho
  · left; simpa using ho
  · rw [PMF.mem_support_bind_iff] at ho
    obtain ⟨sv, -, ho⟩ := ho
    split at ho
    · left; simpa using ho
    · rename_i hn1
      split at ho
      · left; simpa using ho
      · rename_i hn2
        rw [PMF.mem_support_bind_iff] at ho
        obtain ⟨c, hc, ho⟩ := ho
        rw [PMF.mem_support_map_iff] at ho
        obtain ⟨o', ho', rfl⟩ := ho
        cases o' with
        | raise e =>
          left
          unfold alphaTest at ho'
          split at ho'
          · simp at ho'; rw [ho']; rfl
          · split at ho'
            · simp at ho'; rw [ho']; rfl
            · rw [PMF.mem_support_map_iff] at ho'
              obtain ⟨b, -, hb⟩ := ho'
              simp at hb
        | ok b =>
          right
          refine ⟨sv, if b then some c else none, rfl, ?_, ?_⟩
          · intro i hi
            push Not at hn1 hn2
            exact ⟨hn1 i hi, hn2 i hi⟩
          · intro c' hc' i
            have : c = c' := by
              cases b with
              | false => simp at hc'
              | true => simpa using hc'
            subst this
            have h1 := mem_support_indep _ _ hc i
            split at h1
            · exact binom_support h1
            · rw [PMF.support_pure] at h1
              simp only [Set.mem_singleton_iff] at h1
              exact h1.le

theorem alphaRound_support_ok (h : AlphaOK L pc) {o : Outcome (AlphaInfo n × Option (Fin n → ℕ))}
    (ho : o ∈ (alphaRound L pc).support) : ∃ sv x, o = .ok (alphaUpd L pc sv, x) := by
  classical
  rcases alphaRound_support ho with rfl | ⟨sv, x, rfl, -⟩
  · exfalso
    have h1 : PE (alphaRound L pc) (fun o => match o with | .raise _ => 1 | .ok _ => 0) = 0 := by
      rw [PE_alphaRound h]
      simp only [PE_const]
    rw [PE_eq_zero] at h1
    have := h1 _ ho
    simp at this
  · exact ⟨sv, x, rfl⟩

theorem sum_hit {inner : DppSampler} (hin : InnerSpec inner) (hL : L.PosSemidef) (hα : 0 ≤ pc.alphaHat) (c : Fin n → ℕ) :
    ∑ T, PP (alphaFinish inner L pc c) (Returns T) = 1 := by
  classical
  unfold PP
  rw [← PE_sum]
  refine Eq.trans (PE_congr (g := fun _ => 1) fun o ho => ?_) (PE_const _ 1)
  obtain ⟨l, rfl, -⟩ := alphaFinish_support hin hL hα ho
  simp [Returns]

/-- A round accepts with probability `alphaP`, whatever the bounds. -/
theorem alphaRound_accept {inner : DppSampler} (hin : InnerSpec inner) (h : AlphaOK L pc) :
    PP (alphaRound L pc) (fun o => ∃ pc' c, o = .ok (pc', some c)) = ENNReal.ofReal (alphaP L pc) := by
  classical
  have hpsd := psd_smul h.psd h.alpha.le
  have h1 : ENNReal.ofReal (alphaP L pc) = ∑ T, PE (alphaRound L pc) (alphaHit inner L T) := by
    simp_rw [alphaRound_hit hin h]
    rw [← ENNReal.ofReal_sum_of_nonneg fun T _ => mul_nonneg alphaC_pos.le (minor_nonneg hpsd T), ← Finset.mul_sum,
      sum_lDppProb hpsd]
    rfl
  rw [h1, ← PE_sum]
  refine PE_congr fun o ho => ?_
  obtain ⟨sv, x, rfl⟩ := alphaRound_support_ok h ho
  cases x with
  | none => simp [alphaHit]
  | some c =>
    have := sum_hit (pc := alphaUpd L pc sv) hin h.psd h.alpha.le c
    simp [alphaHit, this]

theorem alphaP_le_one {inner : DppSampler} (hin : InnerSpec inner) (h : AlphaOK L pc) : alphaP L pc ≤ 1 := by
  have := PP_le_one (alphaRound L pc) (fun o => ∃ pc' c, o = .ok (pc', some c))
  rw [alphaRound_accept hin h] at this
  rwa [ENNReal.ofReal_le_one] at this

theorem alphaP_pos (h : AlphaOK L pc) : 0 < alphaP L pc :=
  mul_pos alphaC_pos (det_one_add_pos (psd_smul h.psd h.alpha.le))

theorem alphaRound_reject {inner : DppSampler} (hin : InnerSpec inner) (h : AlphaOK L pc) :
    PP (alphaRound L pc) (fun o => ∃ pc', o = .ok (pc', none)) = ENNReal.ofReal (1 - alphaP L pc) := by
  classical
  have h1 : PP (alphaRound L pc) (fun o => ∃ pc', o = .ok (pc', none))
      + PP (alphaRound L pc) (fun o => ∃ pc' c, o = .ok (pc', some c)) = 1 := by
    unfold PP
    rw [← PE_add]
    refine Eq.trans (PE_congr (g := fun _ => 1) fun o ho => ?_) (PE_const _ 1)
    obtain ⟨sv, x, rfl⟩ := alphaRound_support_ok h ho
    cases x <;> simp
  rw [alphaRound_accept hin h] at h1
  rw [ENNReal.ofReal_sub _ (alphaP_pos h).le, ENNReal.ofReal_one]
  exact ENNReal.eq_sub_of_add_eq ENNReal.ofReal_ne_top h1

/-- law of the loop, whatever the bounds -/
theorem alphaLoop_draws {inner : DppSampler} (hin : InnerSpec inner) (T : Finset (Fin n)) :
    ∀ m rej pc, AlphaOK L pc → PP (alphaLoop inner L m rej pc) (Draws T)
      = ENNReal.ofReal (alphaC L pc * ∑ j ∈ Finset.range m, (1 - alphaP L pc) ^ j)
        * ENNReal.ofReal (minor (pc.alphaHat • L) T)
  | 0, rej, pc, h => by
    rw [PP_draws, alphaLoop, PE_pure]; simp [hitDraw]
  | m + 1, rej, pc, h => by
    classical
    have ih := fun sv => alphaLoop_draws hin T m (rej + 1) (alphaUpd L pc sv) (h.upd sv)
    have hmin := minor_nonneg (psd_smul h.psd h.alpha.le) T
    have hq : 0 ≤ 1 - alphaP L pc := by have := alphaP_le_one hin h; linarith
    have hC : 0 < alphaC L pc := alphaC_pos
    simp only [PP_draws] at ih ⊢
    rw [alphaLoop, PE_andThen]
    refine (PE_congr (g := fun o => alphaHit inner L T o + (if ∃ pc', o = .ok (pc', none) then 1 else 0) *
          (ENNReal.ofReal (alphaC L pc * ∑ j ∈ Finset.range m, (1 - alphaP L pc) ^ j)
            * ENNReal.ofReal (minor (pc.alphaHat • L) T))) fun o ho => ?_).trans ?_
    · obtain ⟨sv, x, rfl⟩ := alphaRound_support_ok h ho
      cases x with
      | none =>
        simp only [alphaHit, Outcome.ok.injEq, Prod.mk.injEq, and_true, exists_eq', if_true, zero_add, one_mul]
        exact ih sv
      | some c => simp [alphaHit, PE_map_hitDraw]
    rw [PE_add, PE_mul_right, alphaRound_hit hin h]
    have h2 := alphaRound_reject hin h
    unfold PP at h2
    rw [h2, Finset.sum_range_succ', pow_zero, ENNReal.ofReal_mul hC.le, ← mul_assoc, ← add_mul,
      ← ENNReal.ofReal_mul hq, ← ENNReal.ofReal_add hC.le (by positivity)]
    congr 2
    simp_rw [pow_succ]
    rw [← Finset.sum_mul]
    ring

/-- the possible outcomes of the loop -/
theorem alphaLoop_support {inner : DppSampler} (hin : InnerSpec inner) : ∀ m rej pc, AlphaOK L pc →
    ∀ o ∈ (alphaLoop inner L m rej pc).support, o = .valueError ∨ ∃ l r b v, o = .ok (l, r, { pc with
      bound := b
      valid := v }) ∧ l.Nodup ∧ AlphaOK L { pc with
        bound := b
        valid := v } ∧ rej ≤ r ∧ r < rej + m ∧ (∀ i, b i ≤ pc.bound i) ∧
        (∀ i, pc.valid i = true → v i = true ∧ b i = pc.bound i) ∧ ∀ i ∈ l, v i = true
  | 0, rej, pc, h, o, ho => by
    rw [alphaLoop] at ho; left; simpa using ho
  | m + 1, rej, pc, h, o, ho => by
    rw [alphaLoop, mem_support_andThen] at ho
    rcases ho with ⟨a, ha, ho⟩ | ⟨e, he, rfl⟩
    · rcases alphaRound_support ha with h1 | ⟨sv, x, h1, h2, h3⟩
      · simp at h1
      · simp only [Outcome.ok.injEq] at h1
        subst h1
        have hle : ∀ i, (alphaUpd L pc sv).bound i ≤ pc.bound i := by
          intro i
          change newBound _ _ _ _ i ≤ _
          unfold newBound
          split
          · exact h.est_le i
          · exact le_rfl
        have hv : ∀ i, pc.valid i = true → (alphaUpd L pc sv).valid i = true ∧ (alphaUpd L pc sv).bound i = pc.bound i := by
          intro i hi
          have hn : ¬ toRecompute pc.valid sv i := by rintro ⟨-, h0⟩; rw [hi] at h0; simp at h0
          constructor
          · change newValid _ _ i = true
            unfold newValid; rw [if_neg hn, hi]
          · change newBound _ _ _ _ i = _
            unfold newBound; rw [if_neg hn]
        cases x with
        | none =>
          rcases alphaLoop_support hin m (rej + 1) (alphaUpd L pc sv) (h.upd sv) o ho with h4 | ⟨l, r, b, v, h4, h5, h6, h7, h8, h9, h10, h11⟩
          · exact Or.inl h4
          · refine Or.inr ⟨l, r, b, v, h4, h5, h6, by omega, by omega, fun i => (h9 i).trans (hle i), fun i hi => ?_, h11⟩
            obtain ⟨g1, g2⟩ := hv i hi
            obtain ⟨g3, g4⟩ := h10 i g1
            exact ⟨g3, g4.trans g2⟩
        | some c =>
          right
          simp only at ho
          rw [PMF.mem_support_map_iff] at ho
          obtain ⟨o', ho', rfl⟩ := ho
          obtain ⟨l, rfl, h4, h5⟩ := alphaFinish_support (pc := alphaUpd L pc sv) hin h.psd h.alpha.le ho'
          refine ⟨l, rej, (alphaUpd L pc sv).bound, (alphaUpd L pc sv).valid, rfl, h4, h.upd sv, le_rfl, by omega, hle, hv,
            fun i hi => ?_⟩
          have hpos : 0 < sv i := (h5 i hi).trans_le (h3 c rfl i)
          change newValid _ _ i = true
          unfold newValid
          split
          · rfl
          · rename_i hn
            by_contra hf
            exact hn ⟨hpos, by simpa using hf⟩
    · obtain ⟨sv, x, h1⟩ := alphaRound_support_ok h he
      simp at h1

end Verif
