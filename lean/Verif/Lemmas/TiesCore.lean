import Verif.Lemmas.TiesK
import Verif.Lemmas.Thin

/-!
The draws of alpha-dpp do not depend on the current bounds, with or without ties; the k-DPP sampler with and without `early_stop`.
-/

namespace Verif
open Verif Verif.Spec Verif.Model Matrix
open scoped ENNReal NNReal

variable {n : ℕ} {L : Matrix (Fin n) (Fin n) ℝ} {pc : AlphaInfo n} {env : SessEnv n}

/-- law of the counts of one item: a Poisson variable of rate given by the estimate, whatever the bound -/
theorem item_law (h : AlphaBase L pc) (i : Fin n) : (poisson (alphaLam pc.r pc.bound i).toNNReal).bind (fun s =>
      if 0 < s ∧ pc.valid i = false then
        binom ((if 0 < s ∧ pc.valid i = false then nysRls L pc.dict pc.alphaHat i else pc.bound i) / pc.bound i) s
      else PMF.pure s)
    = poisson (pc.r * Real.exp (1 / pc.r) * nysRls L pc.dict pc.alphaHat i).toNNReal := by
  obtain ⟨est, hest⟩ : ∃ e, e = nysRls L pc.dict pc.alphaHat i := ⟨_, rfl⟩
  have he0 : 0 ≤ est := by rw [hest]; exact h.est_nonneg i
  have hle : est ≤ pc.bound i := by rw [hest]; exact h.est_le i
  have hv' := h.valid_eq i
  rw [← hest] at hv' ⊢
  have hb0 : 0 ≤ pc.bound i := he0.trans hle
  cases hv : pc.valid i with
  | true =>
    simp only [Bool.true_eq_false, and_false, if_false]
    rw [PMF.bind_pure]
    unfold alphaLam
    rw [hv' hv]
  | false =>
    have h1 : ∀ s : ℕ, (if 0 < s ∧ false = false then
        binom ((if 0 < s ∧ false = false then est else pc.bound i) / pc.bound i) s else PMF.pure s) = binom (est / pc.bound i) s := by
      intro s
      rcases Nat.eq_zero_or_pos s with rfl | hs
      · simp [binom]
      · simp [hs]
    rw [show (fun s : ℕ => (if 0 < s ∧ false = false then
        binom ((if 0 < s ∧ false = false then est else pc.bound i) / pc.bound i) s else PMF.pure s)) = binom (est / pc.bound i)
      from funext h1]
    have hp0 : 0 ≤ est / pc.bound i := div_nonneg he0 hb0
    have hp1 : est / pc.bound i ≤ 1 := div_le_one_of_le₀ hle hb0
    have hpb : pc.bound i * (est / pc.bound i) = est := by
      rcases hb0.eq_or_lt with h0 | h0
      · have : est = 0 := le_antisymm (by rw [h0]; exact hle) he0
        rw [← h0, this, zero_mul]
      · rw [mul_div_cancel₀ _ h0.ne']
    have hlam0 : 0 ≤ alphaLam pc.r pc.bound i := alphaLam_nonneg h i
    refine (poisson_thin _ hp0 hp1).trans ?_
    rw [Real.coe_toNNReal _ hlam0]
    unfold alphaLam
    rw [mul_assoc, hpb]

/-- law of the counts of an intermediate sample -/
theorem PE_counts (h : AlphaBase L pc) (φ : (Fin n → ℕ) → ℝ≥0∞) :
    PE (indep fun i => poisson (alphaLam pc.r pc.bound i).toNNReal) (fun sv =>
        PE (thinned (nysRls L pc.dict pc.alphaHat) pc.bound pc.valid sv) φ)
      = PE (indep fun i => poisson (pc.r * Real.exp (1 / pc.r) * nysRls L pc.dict pc.alphaHat i).toNNReal) φ := by
  simp_rw [← item_law h]
  rw [← PE_indep_bind]
  rfl

theorem alphaLoss_core {a b : AlphaInfo n} (h : CoreEq a b) (ha : AlphaBase L a) (hb : AlphaBase L b) (T : Finset (Fin n)) :
    alphaLoss L a T = alphaLoss L b T := by
  obtain ⟨h1, -, -, h4, -, h6⟩ := h
  unfold alphaLoss
  rw [PE_counts ha, PE_counts hb]
  unfold alphaFac
  rw [h1, h4, h6]

open Classical in
/-- rejection of a round -/
theorem alphaRound_none (h : AlphaBase L pc) : PE (alphaRound L pc) (fun o => match o with
      | .ok (_, none) => 1
      | _ => 0)
    = PE (indep fun i => poisson (pc.r * Real.exp (1 / pc.r) * nysRls L pc.dict pc.alphaHat i).toNNReal) (fun c =>
        if alphaAcc L pc.dict pc.alphaHat pc.r (nysRls L pc.dict pc.alphaHat) c = 0 then 0 else
        PE (coin (Real.exp (alphaAcc L pc.dict pc.alphaHat pc.r (nysRls L pc.dict pc.alphaHat) c))) fun b => if b then 0 else 1) := by
  rw [PE_alphaRound_base h, ← PE_counts h]
  refine congrArg _ (funext fun sv => congrArg _ (funext fun c => ?_))
  split
  · rfl
  · refine congrArg _ (funext fun b => ?_)
    cases b <;> rfl

theorem alphaUpd_core {a b : AlphaInfo n} (h : CoreEq a b) (sv : Fin n → ℕ) : CoreEq (alphaUpd L a sv) b :=
  ⟨h.hat, h.min, h.max, h.dict, h.diag, h.r⟩

theorem loss_ne_top {inner : DppSampler} (hin : InnerSpec inner) (h : AlphaBase L pc) (T : Finset (Fin n)) : alphaLoss L pc T ≠ ∞ := by
  have := alphaRound_hit_base hin h T
  refine ne_top_of_le_ne_top (b := ENNReal.ofReal (alphaC L pc * minor (pc.alphaHat • L) T)) ENNReal.ofReal_ne_top ?_
  rw [← this]
  exact le_add_self

/-- the draws do not depend on the bounds -/
theorem alphaLoop_core {inner : DppSampler} (hin : InnerSpec inner) (T : Finset (Fin n)) : ∀ m rej rej' (a b : AlphaInfo n), CoreEq a b →
    AlphaBase L a → AlphaBase L b → PP (alphaLoop inner L m rej a) (Draws T) = PP (alphaLoop inner L m rej' b) (Draws T)
  | 0, rej, rej', a, b, _, _, _ => by
    rw [PP_draws, PP_draws, alphaLoop, alphaLoop]
  | m + 1, rej, rej', a, b, hc, ha, hb => by
    classical
    have hsplit : ∀ rej (pc : AlphaInfo n), CoreEq pc b → AlphaBase L pc → PP (alphaLoop inner L (m + 1) rej pc) (Draws T)
        = PE (alphaRound L pc) (alphaHit inner L T) + PE (alphaRound L pc) (fun o => match o with
          | .ok (_, none) => 1
          | _ => 0) * PP (alphaLoop inner L m 0 b) (Draws T) := by
      intro rej pc hpc hbase
      rw [PP_draws, alphaLoop, PE_andThen, ← PE_mul_right, ← PE_add]
      refine PE_congr fun o ho => ?_
      rcases alphaRound_support ho with rfl | ⟨sv, x, rfl, -⟩
      · simp [alphaHit, hitDraw]
      · cases x with
        | none =>
          simp only [alphaHit, zero_add, one_mul]
          rw [← PP_draws]
          exact alphaLoop_core hin T m (rej + 1) 0 (alphaUpd L pc sv) b (alphaUpd_core hpc sv) (hbase.upd sv) hb
        | some c => simp [alphaHit, PE_map_hitDraw]
    have hhit : PE (alphaRound L a) (alphaHit inner L T) = PE (alphaRound L b) (alphaHit inner L T) := by
      have h1 := alphaRound_hit_base hin ha T
      have h2 := alphaRound_hit_base hin hb T
      rw [alphaLoss_core hc ha hb] at h1
      have h3 : alphaC L a * minor (a.alphaHat • L) T = alphaC L b * minor (b.alphaHat • L) T := by
        obtain ⟨e1, -, -, e4, -, e6⟩ := hc
        unfold alphaC
        rw [e1, e4, e6]
      rw [h3, ← h2] at h1
      exact (ENNReal.add_left_inj (loss_ne_top hin hb T)).1 h1
    rw [hsplit rej a hc ha, hsplit rej' b ⟨rfl, rfl, rfl, rfl, rfl, rfl⟩ hb, hhit, alphaRound_none ha, alphaRound_none hb]
    obtain ⟨e1, -, -, e4, -, e6⟩ := hc
    rw [e1, e4, e6]

end Verif
