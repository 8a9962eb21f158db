import Verif.Lemmas.Scal3

/-!
The rounds of alpha-dpp when the acceptance probability of some intermediate samples is exactly one.
-/

namespace Verif
open Verif Verif.Spec Verif.Model Matrix
open scoped ENNReal NNReal

variable {n : ℕ} {L : Matrix (Fin n) (Fin n) ℝ} {pc : AlphaInfo n}

/-- probability of the intermediate samples with acceptance probability one, weighted by the probability that the DPP
restricted to them is `T` -/
noncomputable def alphaLoss (L : Matrix (Fin n) (Fin n) ℝ) (pc : AlphaInfo n) (T : Finset (Fin n)) : ℝ≥0∞ := by
  classical
  exact PE (indep fun i => poisson (alphaLam pc.r pc.bound i).toNNReal) fun sv =>
    PE (thinned (nysRls L pc.dict pc.alphaHat) pc.bound pc.valid sv) fun c =>
      if alphaAcc L pc.dict pc.alphaHat pc.r (nysRls L pc.dict pc.alphaHat) c = 0 then
        ENNReal.ofReal (alphaFac L pc T) *
          ∏ i, ENNReal.ofReal ((if i ∈ T then (c i : ℝ) else 1) * Real.exp (-(1 / pc.r)) ^ c i)
      else 0

open Classical in
/-- one round, unfolded: it raises on the ties only -/
theorem PE_alphaRound_base (h : AlphaBase L pc) (f : Outcome (AlphaInfo n × Option (Fin n → ℕ)) → ℝ≥0∞) :
    PE (alphaRound L pc) f = PE (indep fun i => poisson (alphaLam pc.r pc.bound i).toNNReal) fun sv =>
      PE (thinned (nysRls L pc.dict pc.alphaHat) pc.bound pc.valid sv) fun c =>
        if alphaAcc L pc.dict pc.alphaHat pc.r (nysRls L pc.dict pc.alphaHat) c = 0 then f .valueError else
        PE (coin (Real.exp (alphaAcc L pc.dict pc.alphaHat pc.r (nysRls L pc.dict pc.alphaHat) c))) fun b =>
          f (.ok (alphaUpd L pc sv, if b then some c else none)) := by
  unfold alphaRound
  rw [if_neg (by push Not; exact alphaLam_nonneg h), PE_bind]
  refine PE_congr fun sv hsv => ?_
  rw [if_neg (by rintro ⟨i, -, hi⟩; exact absurd (h.est_nonneg i) (not_le.2 hi)),
    if_neg (by rintro ⟨i, -, hi⟩; exact absurd (h.est_le i) (not_le.2 hi)), PE_bind]
  refine PE_congr fun c hc => ?_
  have hs := thinned_support h hsv hc
  have hb : ∀ i, 0 < c i → newBound (nysRls L pc.dict pc.alphaHat) pc.bound pc.valid sv i
      = nysRls L pc.dict pc.alphaHat i := fun i hi => newBound_active h (hi.trans_le (hs i).1)
  rw [PE_map]
  unfold alphaTest
  have hdet := det_one_add_pos (tildeM_psd (w := alphaWt pc.r (nysRls L pc.dict pc.alphaHat) c) (c := c) h.psd h.alpha.le)
  rw [alphaAcc_congr hb, alphaTilde_eq hb, add_comm (tildeM _ _ _ _) 1, if_neg (not_lt.2 hdet.le)]
  have hle := h.acc_nonpos c fun i hi => (hs i).2 hi
  by_cases h0 : alphaAcc L pc.dict pc.alphaHat pc.r (nysRls L pc.dict pc.alphaHat) c = 0
  · rw [if_pos h0, if_pos h0.ge, PE_pure]; rfl
  · rw [if_neg h0, if_neg (not_le.2 (lt_of_le_of_ne hle h0)), PE_map]
    rfl

/-- What a round returns, and what it loses by raising on the ties. -/
theorem alphaRound_hit_base {inner : DppSampler} (hin : InnerSpec inner) (h : AlphaBase L pc) (T : Finset (Fin n)) :
    PE (alphaRound L pc) (alphaHit inner L T) + alphaLoss L pc T
      = ENNReal.ofReal (alphaC L pc * minor (pc.alphaHat • L) T) := by
  classical
  rw [PE_alphaRound_base h, ← alpha_mass h T]
  unfold alphaLoss
  rw [← PE_add]
  refine PE_congr fun sv hsv => ?_
  rw [← PE_add, ← PE_mul_left]
  refine PE_congr fun c hc => ?_
  have hs := thinned_support h hsv hc
  by_cases h0 : alphaAcc L pc.dict pc.alphaHat pc.r (nysRls L pc.dict pc.alphaHat) c = 0
  · rw [if_pos h0, if_pos h0]
    change 0 + _ = _
    rw [zero_add]
  · rw [if_neg h0, if_neg h0, add_zero,
      PE_coin (Real.exp_pos _).le (Real.exp_le_one_iff.2 (h.acc_nonpos c fun i hi => (hs i).2 hi))]
    simp only [if_true, Bool.false_eq_true, if_false, alphaHit, mul_zero, add_zero]
    exact alpha_item hin h T fun i hi => newBound_active h (hi.trans_le (hs i).1)

theorem alphaLoss_eq_zero (h : AlphaBase L pc) {T : Finset (Fin n)} (ht : NoTieOn L pc.dict pc.alphaHat pc.r T) :
    alphaLoss L pc T = 0 := by
  classical
  unfold alphaLoss
  rw [PE_eq_zero]
  intro sv hsv
  rw [PE_eq_zero]
  intro c hc
  have hs := thinned_support h hsv hc
  split
  · rename_i h0
    by_cases hT : ∀ i ∈ T, 0 < c i
    · exact absurd h0 (ht c (fun i hi => (hs i).2 hi) hT)
    · push Not at hT
      obtain ⟨i, hi, hci⟩ := hT
      rw [Finset.prod_eq_zero (Finset.mem_univ i) (by rw [if_pos hi, Nat.le_zero.1 hci]; simp), mul_zero]
  · rfl

/-- the loop, comparing two sets: the one that no tie contains is returned too often -/
theorem alphaLoop_compare {inner : DppSampler} (hin : InnerSpec inner) (T₁ T₂ : Finset (Fin n)) :
    ∀ m rej pc, AlphaBase L pc → NoTieOn L pc.dict pc.alphaHat pc.r T₁ →
      PP (alphaLoop inner L m rej pc) (Draws T₂) * ENNReal.ofReal (minor (pc.alphaHat • L) T₁)
          ≤ PP (alphaLoop inner L m rej pc) (Draws T₁) * ENNReal.ofReal (minor (pc.alphaHat • L) T₂) ∧
      (0 < m → alphaLoss L pc T₂ ≠ 0 → 0 < minor (pc.alphaHat • L) T₁ →
        PP (alphaLoop inner L m rej pc) (Draws T₂) * ENNReal.ofReal (minor (pc.alphaHat • L) T₁)
          < PP (alphaLoop inner L m rej pc) (Draws T₁) * ENNReal.ofReal (minor (pc.alphaHat • L) T₂))
  | 0, rej, pc, h, ht => by
    refine ⟨?_, fun h0 => absurd h0 (lt_irrefl _)⟩
    rw [PP_draws, PP_draws, alphaLoop, PE_pure, PE_pure]; simp [hitDraw]
  | m + 1, rej, pc, h, ht => by
    classical
    have hpsd := psd_smul h.psd h.alpha.le
    obtain ⟨μ₁, hμ₁⟩ : ∃ μ, μ = ENNReal.ofReal (minor (pc.alphaHat • L) T₁) := ⟨_, rfl⟩
    obtain ⟨μ₂, hμ₂⟩ : ∃ μ, μ = ENNReal.ofReal (minor (pc.alphaHat • L) T₂) := ⟨_, rfl⟩
    obtain ⟨rejD, hrej⟩ : ∃ rejD : Finset (Fin n) → Outcome (AlphaInfo n × Option (Fin n → ℕ)) → ℝ≥0∞, rejD = fun T o =>
        match o with
        | .ok (pc', none) => PP (alphaLoop inner L m (rej + 1) pc') (Draws T)
        | _ => 0 := ⟨_, rfl⟩
    have hsplit : ∀ T, PP (alphaLoop inner L (m + 1) rej pc) (Draws T)
        = PE (alphaRound L pc) (alphaHit inner L T) + PE (alphaRound L pc) (rejD T) := by
      intro T
      rw [PP_draws, alphaLoop, PE_andThen, ← PE_add]
      refine PE_congr fun o ho => ?_
      rw [hrej]
      rcases alphaRound_support ho with rfl | ⟨sv, x, rfl, -⟩
      · simp [alphaHit, hitDraw, Outcome.valueError]
      · cases x with
        | none => simp only [alphaHit, zero_add, PP_draws]
        | some c => simp [alphaHit, PE_map_hitDraw]
    have h1 := alphaRound_hit_base hin h T₁
    have h2 := alphaRound_hit_base hin h T₂
    rw [alphaLoss_eq_zero h ht, add_zero, ENNReal.ofReal_mul alphaC_pos.le, ← hμ₁] at h1
    rw [ENNReal.ofReal_mul alphaC_pos.le, ← hμ₂] at h2
    have hrec : PE (alphaRound L pc) (rejD T₂) * μ₁ ≤ PE (alphaRound L pc) (rejD T₁) * μ₂ := by
      rw [← PE_mul_right, ← PE_mul_right]
      refine PE_mono fun o ho => ?_
      rw [hrej]
      rcases alphaRound_support ho with rfl | ⟨sv, x, rfl, -⟩
      · simp [Outcome.valueError]
      · cases x with
        | none =>
          rw [hμ₁, hμ₂]
          exact (alphaLoop_compare hin T₁ T₂ m (rej + 1) (alphaUpd L pc sv) (h.upd sv) ht).1
        | some c => simp
    have hhit : PE (alphaRound L pc) (alphaHit inner L T₂) * μ₁ + alphaLoss L pc T₂ * μ₁
        = PE (alphaRound L pc) (alphaHit inner L T₁) * μ₂ := by
      rw [← add_mul, h2, h1]; ring
    rw [hsplit, hsplit, ← hμ₁, ← hμ₂, add_mul, add_mul, ← hhit]
    constructor
    · exact add_le_add le_self_add hrec
    · intro _ hl hm
      have hfin : PE (alphaRound L pc) (alphaHit inner L T₂) * μ₁ ≠ ∞ := by
        refine ENNReal.mul_ne_top ?_ (by rw [hμ₁]; exact ENNReal.ofReal_ne_top)
        have : PE (alphaRound L pc) (alphaHit inner L T₂) ≤ ENNReal.ofReal (alphaC L pc) * μ₂ := by
          rw [← h2]; exact le_self_add
        refine ne_top_of_le_ne_top (ENNReal.mul_ne_top ENNReal.ofReal_ne_top ?_) this
        rw [hμ₂]; exact ENNReal.ofReal_ne_top
      have hfin2 : PE (alphaRound L pc) (rejD T₂) * μ₁ ≠ ∞ := by
        refine ENNReal.mul_ne_top ?_ (by rw [hμ₁]; exact ENNReal.ofReal_ne_top)
        have : PE (alphaRound L pc) (rejD T₂) ≤ PP (alphaLoop inner L (m + 1) rej pc) (Draws T₂) := by
          rw [hsplit]; exact le_add_self
        exact ne_top_of_le_ne_top ENNReal.one_ne_top (this.trans (PP_le_one _ _))
      refine ENNReal.add_lt_add_of_lt_of_le hfin2 (ENNReal.lt_add_right hfin ?_) hrec
      rw [hμ₁]
      refine mul_ne_zero hl ?_
      rw [ne_eq, ENNReal.ofReal_eq_zero, not_le]
      exact hm

theorem PE_lt {α : Type*} {p : PMF α} {f g : α → ℝ≥0∞} (h : ∀ a ∈ p.support, f a ≤ g a) (hf : PE p f ≠ ∞) {a : α}
    (ha : a ∈ p.support) (hlt : f a < g a) : PE p f < PE p g := by
  unfold PE at hf ⊢
  refine ENNReal.tsum_lt_tsum hf (fun b => ?_) (i := a) ?_
  · by_cases hb : p b = 0
    · simp [hb]
    · exact mul_le_mul_right (h b (by rwa [PMF.mem_support_iff])) _
  · have h1 : p a ≠ 0 := by rwa [PMF.mem_support_iff] at ha
    exact ENNReal.mul_lt_mul_right h1 (p.apply_ne_top a) hlt

end Verif
