import Verif.Lemmas.TiesCore

/-!
The k-DPP sampler of alpha-dpp with ties, with and without `early_stop`.
-/

namespace Verif
open Verif Verif.Spec Verif.Model Matrix
open scoped ENNReal NNReal

variable {n : ℕ} {L : Matrix (Fin n) (Fin n) ℝ} {pc : AlphaInfo n} {env : SessEnv n}

theorem CoreEq.refl (a : AlphaInfo n) : CoreEq a a := ⟨rfl, rfl, rfl, rfl, rfl, rfl⟩

theorem kRecordInfo_core (size : ℕ) (l : List (Fin n)) (st : KCount n) : CoreEq (kRecordInfo size l st pc) pc := by
  unfold kRecordInfo
  split <;> exact ⟨rfl, rfl, rfl, rfl, rfl, rfl⟩

theorem kRej_core (rej : ℕ) : CoreEq (kRej rej pc) pc := by
  unfold kRej
  split <;> exact ⟨rfl, rfl, rfl, rfl, rfl, rfl⟩

/-- what is to be shown about a program that starts with a kept sample: new samples compare as announced -/
structure Compares (L : Matrix (Fin n) (Fin n) ℝ) (run : Option (List (Fin n)) → AlphaInfo n →
    PMF (Outcome (List (Fin n) × AlphaInfo n))) (info0 : AlphaInfo n) (T₁ T₂ : Finset (Fin n)) (K1 : Finset (Fin n) → ℝ≥0∞) (K2 : ℝ≥0∞) :
    Prop where
  eq : ∀ info, CoreEq info info0 → AlphaFamBase L info → ∀ out T, PE (run out info) (hitDraw T) = K1 T + K2 * keptIs T out
  le : K1 T₂ * ENNReal.ofReal (minor L T₁) ≤ K1 T₁ * ENNReal.ofReal (minor L T₂)

/-- the sampler stops with the next sample of the right size -/
def StopsNext (es : Bool) (st : KCount n) : Prop := es = true ∨ st.sampleCount = 1

theorem kCont_compares {inner : DppSampler} {size m : ℕ} {es : Bool} {f : ℕ} {T₁ T₂ : Finset (Fin n)}
    (ih : ∀ (st : KCount n) (info0 : AlphaInfo n), AlphaFamBase L info0 → NoTieAny L info0 T₁ → ∃ K1 K2,
      Compares L (fun out info => alphaKLoop inner L size m es f { st with out := out } info) info0 T₁ T₂ K1 K2)
    (st : KCount n) (info0 : AlphaInfo n) (hb : AlphaFamBase L info0) (ht : NoTieAny L info0 T₁) : ∃ K1 K2,
    Compares L (fun out info => kCont inner L size m es f { st with out := out } info) info0 T₁ T₂ K1 K2 := by
  classical
  by_cases h1 : st.sampleCount = 2
  · refine ⟨0, 1, fun info _ _ out T => ?_, by simp⟩
    simp only [kCont]
    rw [if_pos h1, kReturn_hit]; simp
  · by_cases h2 : st.trialCount = numberTrialSearch size
    · have hbr : ∀ out info, kReset (kBracket { st with out := out } info) = kReset (kBracket st info) := fun _ _ => rfl
      by_cases h3 : (kReset (kBracket st info0)).alphaMax / (kReset (kBracket st info0)).alphaMin ≤ stoppingRatio size
          ∧ st.sampleCount > 0
      · refine ⟨0, 1, fun info hc _ out T => ?_, by simp⟩
        have hc' := hc.bracketReset st
        simp only [kCont]
        rw [if_neg h1, if_pos h2, hbr, if_pos (by rw [hc'.max, hc'.min]; exact h3), kReturn_hit]; simp
      · obtain ⟨K1, K2, hK, hle⟩ := ih (kNext st) (kReset (kBracket st info0)) ((hb.bracket st).reset)
          (ht.congr (kResetBracket_ties st info0))
        refine ⟨K1, K2, fun info hc hf out T => ?_, hle⟩
        have hc' := hc.bracketReset st
        have h4 : PE (kCont inner L size m es f { st with out := out } info) (hitDraw T)
            = PE (alphaKLoop inner L size m es f { kNext st with out := out } { kReset (kBracket st info) with
              switches := (kReset (kBracket st info)).switches + 1 }) (hitDraw T) := by
          unfold kCont
          rw [if_neg h1, if_pos h2, hbr, if_neg (by rw [hc'.max, hc'.min]; exact h3)]
          rfl
        have hf' : AlphaFamBase L { kReset (kBracket st info) with
            switches := (kReset (kBracket st info)).switches + 1 } := ((hf.bracket st).reset).stats _ _ _
        exact h4.trans (hK { kReset (kBracket st info) with
            switches := (kReset (kBracket st info)).switches + 1 }
          ⟨hc'.hat, hc'.min, hc'.max, hc'.dict, hc'.diag, hc'.r⟩ hf' out T)
    · obtain ⟨K1, K2, hK, hle⟩ := ih st info0 hb ht
      refine ⟨K1, K2, fun info hc hf out T => ?_, hle⟩
      simp only [kCont]
      rw [if_neg h1, if_neg h2]
      exact hK info hc hf out T

/-- the probability of a draw -/
noncomputable def drawP (inner : DppSampler) (L : Matrix (Fin n) (Fin n) ℝ) (m : ℕ) (pc : AlphaInfo n) (T : Finset (Fin n)) : ℝ≥0∞ :=
  PP (alphaLoop inner L m 0 pc) (Draws T)

theorem PE_loop_sum_base {inner : DppSampler} {m : ℕ}
    (g : Finset (Fin n) → ℝ≥0∞) {F : Outcome (List (Fin n) × ℕ × AlphaInfo n) → ℝ≥0∞}
    (hF : ∀ o ∈ (alphaLoop inner L m 0 pc).support, F o = match o with
      | .ok d => g d.1.toFinset
      | .raise _ => 0) :
    PE (alphaLoop inner L m 0 pc) F = ∑ S, drawP inner L m pc S * g S := by
  classical
  rw [PE_congr hF]
  have h1 : ∀ o : Outcome (List (Fin n) × ℕ × AlphaInfo n), (match o with
      | .ok d => g d.1.toFinset
      | .raise _ => 0) = ∑ S, hitDraw S o * g S := by
    intro o
    cases o with
    | raise e => simp [hitDraw]
    | ok d => obtain ⟨l, b⟩ := d; simp [hitDraw]
  simp_rw [h1]
  rw [PE_sum]
  refine Finset.sum_congr rfl fun S _ => ?_
  rw [PE_mul_right, ← PP_draws]
  rfl

/-- one pass, given what happens after each kind of draw -/
theorem alphaKLoop_pass {inner : DppSampler} (hin : InnerSpec inner) (size m : ℕ) (es : Bool) (f : ℕ) (st : KCount n) {info0 : AlphaInfo n}
    (hb0 : AlphaFamBase L info0) {a1 b1 c1 : Finset (Fin n) → ℝ≥0∞} {a2 b2 c2 : ℝ≥0∞}
    (ha : ∀ info, CoreEq info info0 → AlphaFamBase L info → ∀ out T, PE (kCont inner L size m es f { st with
      trialCount := st.trialCount + 1
      overall := st.overall + 1
      under := st.under + 1
      out := out } info) (hitDraw T) = a1 T + a2 * keptIs T out)
    (hb : ∀ info, CoreEq info info0 → AlphaFamBase L info → ∀ out T, PE (kCont inner L size m es f { st with
      trialCount := st.trialCount + 1
      overall := st.overall + 1
      over := st.over + 1
      out := out } info) (hitDraw T) = b1 T + b2 * keptIs T out)
    (hc : ∀ info, CoreEq info info0 → AlphaFamBase L info → ∀ (l : List (Fin n)) T,
      (if es = true then keptIs T (some l) else PE (kCont inner L size m es f { st with
        trialCount := st.trialCount + 1
        overall := st.overall + 1
        sampleCount := st.sampleCount + 1
        out := some l } info) (hitDraw T)) = c1 T + c2 * keptIs T (some l))
    {info : AlphaInfo n} (hcore : CoreEq info info0) (hfam : AlphaFamBase L info) (out : Option (List (Fin n))) (T : Finset (Fin n)) :
    PE (alphaKLoop inner L size m es (f + 1) { st with out := out } info) (hitDraw T)
      = ((∑ S, drawP inner L m info0 S * if S.card = size then c1 T else if S.card < size then a1 T else b1 T)
          + c2 * (if T.card = size then drawP inner L m info0 T else 0))
        + (∑ S, drawP inner L m info0 S * (if S.card = size then 0 else if S.card < size then a2 else b2)) * keptIs T out := by
  classical
  rw [alphaKLoop_succ, PE_andThen]
  rw [PE_loop_sum_base (g := fun S => if S.card = size then c1 T + c2 * (if S = T then 1 else 0)
    else if S.card < size then a1 T + a2 * keptIs T out else b1 T + b2 * keptIs T out)]
  · have h1 : ∀ S : Finset (Fin n), drawP inner L m info S * (if S.card = size then c1 T + c2 * (if S = T then 1 else 0)
          else if S.card < size then a1 T + a2 * keptIs T out else b1 T + b2 * keptIs T out)
        = (drawP inner L m info0 S * if S.card = size then c1 T else if S.card < size then a1 T else b1 T)
          + (drawP inner L m info0 S * (if S.card = size then 0 else if S.card < size then a2 else b2)) * keptIs T out
          + c2 * (if S = T then (if S.card = size then drawP inner L m info0 S else 0) else 0) := by
      intro S
      rw [show drawP inner L m info S = drawP inner L m info0 S from alphaLoop_core hin S m 0 0 info info0 hcore hfam.now hb0.now]
      by_cases hS : S.card = size
      · by_cases hT : S = T
        · subst hT
          simp only [hS, if_true, mul_one, mul_zero, zero_mul, add_zero]; ring
        · simp only [hS, hT, if_true, if_false, mul_zero, zero_mul, add_zero]
      · by_cases hlt : S.card < size
        · simp only [hS, hlt, if_true, if_false, ite_self, mul_zero, add_zero]; ring
        · simp only [hS, hlt, if_false, ite_self, mul_zero, add_zero]; ring
    simp_rw [h1]
    rw [Finset.sum_add_distrib, Finset.sum_add_distrib, ← Finset.sum_mul, ← Finset.mul_sum]
    rw [Finset.sum_ite_eq' Finset.univ T, if_pos (Finset.mem_univ T)]
    ring
  · intro o ho
    cases o with
    | raise e => simp [hitDraw]
    | ok d =>
      obtain ⟨b, v, hd, hnd, hok⟩ := alphaLoop_base hin m 0 info hfam.now d ho
      obtain ⟨l, r, i⟩ := d
      simp only at hd hnd ⊢
      subst hd
      have hlen : l.toFinset.card = l.length := List.toFinset_card_of_nodup hnd
      have hfam' := hfam.bounds hok
      have hcore' : CoreEq { info with
          bound := b
          valid := v } info0 := ⟨hcore.hat, hcore.min, hcore.max, hcore.dict, hcore.diag, hcore.r⟩
      have g1 := (kRecordInfo_base hfam' size l (kRecord size l { st with out := out })).1
      have g2 := kRecordInfo_core (pc := { info with
          bound := b
          valid := v }) size l (kRecord size l { st with out := out })
      have g3 := (kRej_base g1 r).1
      have g5 := ((kRej_core r).trans g2).trans hcore'
      rw [hlen]
      by_cases hS : l.length = size
      · rw [if_pos hS]
        have hcc := hc _ g5 g3 l T
        rw [keptIs] at hcc
        rw [← hcc]
        by_cases hes : es = true
        · rw [if_pos ⟨hS, hes⟩, if_pos hes, kReturn_hit]
          simp only [kRecord, hS, if_true, keptIs]
        · rw [if_neg (fun h => hes h.2), if_neg hes]
          have hst2 : kUnderOver size l (kRecord size l { st with out := out }) = { st with
              trialCount := st.trialCount + 1
              overall := st.overall + 1
              sampleCount := st.sampleCount + 1
              out := some l } := by
            simp only [kUnderOver, kRecord, hS, lt_irrefl, gt_iff_lt, if_false, if_true]
          rw [hst2]
      · rw [if_neg (fun h => hS h.1), if_neg hS]
        rcases lt_or_gt_of_ne hS with hlt | hgt
        · rw [if_pos hlt]
          have hst2 : kUnderOver size l (kRecord size l { st with out := out }) = { st with
              trialCount := st.trialCount + 1
              overall := st.overall + 1
              under := st.under + 1
              out := out } := by
            simp only [kUnderOver, kRecord, hS, hlt, if_false, if_true, gt_iff_lt, not_lt_of_gt hlt]
          rw [hst2]
          exact ha _ g5 g3 out T
        · rw [if_neg (not_lt_of_gt hgt)]
          have hst2 : kUnderOver size l (kRecord size l { st with out := out }) = { st with
              trialCount := st.trialCount + 1
              overall := st.overall + 1
              over := st.over + 1
              out := out } := by
            simp only [kUnderOver, kRecord, hS, if_false, gt_iff_lt, not_lt_of_gt hgt]
            rw [if_pos hgt]
          rw [hst2]
          exact hb _ g5 g3 out T

theorem drawP_compare {inner : DppSampler} (hin : InnerSpec inner) {size m : ℕ} {T₁ T₂ : Finset (Fin n)} (h1 : T₁.card = size)
    (h2 : T₂.card = size) (h : AlphaFamBase L pc) (ht : NoTieAny L pc T₁) :
    drawP inner L m pc T₂ * ENNReal.ofReal (minor L T₁) ≤ drawP inner L m pc T₁ * ENNReal.ofReal (minor L T₂) ∧
    (0 < m → alphaLoss L pc T₂ ≠ 0 → 0 < minor L T₁ →
      drawP inner L m pc T₂ * ENNReal.ofReal (minor L T₁) < drawP inner L m pc T₁ * ENNReal.ofReal (minor L T₂)) := by
  have ha := h.now.alpha
  have hpow : (0:ℝ) < pc.alphaHat ^ size := by positivity
  have hp0 : ENNReal.ofReal (pc.alphaHat ^ size) ≠ 0 := by
    rw [ne_eq, ENNReal.ofReal_eq_zero, not_le]; exact hpow
  have hmin : ∀ T : Finset (Fin n), T.card = size → ENNReal.ofReal (minor (pc.alphaHat • L) T)
      = ENNReal.ofReal (pc.alphaHat ^ size) * ENNReal.ofReal (minor L T) := by
    intro T hT
    rw [minor_smul, hT, ENNReal.ofReal_mul hpow.le]
  obtain ⟨c1, c2⟩ := alphaLoop_compare hin T₁ T₂ m 0 pc h.now (ht _ ha)
  rw [hmin T₁ h1, hmin T₂ h2] at c1 c2
  have hswap : ∀ x y : ℝ≥0∞, x * (ENNReal.ofReal (pc.alphaHat ^ size) * y) = ENNReal.ofReal (pc.alphaHat ^ size) * (x * y) :=
    fun x y => by ring
  rw [hswap, hswap] at c1 c2
  refine ⟨(ENNReal.mul_le_mul_iff_right hp0 ENNReal.ofReal_ne_top).1 c1, fun hm hl hpos => ?_⟩
  exact (ENNReal.mul_lt_mul_iff_right hp0 ENNReal.ofReal_ne_top).1 (c2 hm hl (by
      rw [minor_smul, h1]; exact mul_pos hpow hpos))

theorem alphaKLoop_compares {inner : DppSampler} (hin : InnerSpec inner) (size m : ℕ) (es : Bool) {T₁ T₂ : Finset (Fin n)}
    (h1 : T₁.card = size) (h2 : T₂.card = size) :
    ∀ (f : ℕ) (st : KCount n) (info0 : AlphaInfo n), AlphaFamBase L info0 → NoTieAny L info0 T₁ → ∃ K1 K2,
      Compares L (fun out info => alphaKLoop inner L size m es f { st with out := out } info) info0 T₁ T₂ K1 K2 ∧
      (0 < m → alphaLoss L info0 T₂ ≠ 0 → 0 < minor L T₁ → (0 < f ∧ StopsNext es st ∨
          1 < f ∧ st.sampleCount = 0 ∧ st.trialCount + 1 ≠ numberTrialSearch size) →
        K1 T₂ * ENNReal.ofReal (minor L T₁) < K1 T₁ * ENNReal.ofReal (minor L T₂))
  | 0, st, info0, _, _ => by
    refine ⟨0, 0, ⟨fun info _ _ out T => ?_, by simp⟩, fun _ _ _ h => ?_⟩
    · simp only [alphaKLoop]; rw [PE_pure]; simp [hitDraw]
    · rcases h with h | h
      · exact absurd h.1 (lt_irrefl _)
      · exact absurd h.1 (by norm_num)
  | f + 1, st, info0, hb0, ht => by
    classical
    have ih' := fun (st : KCount n) (info0 : AlphaInfo n) (h : AlphaFamBase L info0) (h' : NoTieAny L info0 T₁) =>
      alphaKLoop_compares hin size m es h1 h2 f st info0 h h'
    have ih := kCont_compares (inner := inner) (size := size) (m := m) (es := es) (f := f) (T₂ := T₂)
      fun (st : KCount n) (info0 : AlphaInfo n) (h : AlphaFamBase L info0) (h' : NoTieAny L info0 T₁) => by
        obtain ⟨K1, K2, h3, -⟩ := ih' st info0 h h'
        exact ⟨K1, K2, h3⟩
    obtain ⟨a1, a2, ha, hale⟩ := ih { st with
      trialCount := st.trialCount + 1
      overall := st.overall + 1
      under := st.under + 1 } info0 hb0 ht
    obtain ⟨b1, b2, hb, hble⟩ := ih { st with
      trialCount := st.trialCount + 1
      overall := st.overall + 1
      over := st.over + 1 } info0 hb0 ht
    obtain ⟨c1, c2, hc, hcle, hcs, hcl⟩ : ∃ (c1 : Finset (Fin n) → ℝ≥0∞) (c2 : ℝ≥0∞),
        (∀ info, CoreEq info info0 → AlphaFamBase L info → ∀ (l : List (Fin n)) T,
          (if es = true then keptIs T (some l) else PE (kCont inner L size m es f { st with
            trialCount := st.trialCount + 1
            overall := st.overall + 1
            sampleCount := st.sampleCount + 1
            out := some l } info) (hitDraw T)) = c1 T + c2 * keptIs T (some l)) ∧
        c1 T₂ * ENNReal.ofReal (minor L T₁) ≤ c1 T₁ * ENNReal.ofReal (minor L T₂) ∧ (StopsNext es st → c2 = 1) ∧
        (0 < m → alphaLoss L info0 T₂ ≠ 0 → 0 < minor L T₁ → ¬ StopsNext es st → 0 < f → st.sampleCount = 0 →
          st.trialCount + 1 ≠ numberTrialSearch size →
          c1 T₂ * ENNReal.ofReal (minor L T₁) < c1 T₁ * ENNReal.ofReal (minor L T₂)) := by
      by_cases hes : es = true
      · exact ⟨0, 1, fun _ _ _ l T => by rw [if_pos hes]; simp, by simp, fun _ => rfl, fun _ _ _ h => absurd (Or.inl hes) h⟩
      · by_cases hs1 : st.sampleCount = 1
        · refine ⟨0, 1, fun info _ _ l T => ?_, by simp, fun _ => rfl, fun _ _ _ h => absurd (Or.inr hs1) h⟩
          rw [if_neg hes]
          unfold kCont
          rw [if_pos (show st.sampleCount + 1 = 2 by omega), kReturn_hit]; simp
        · have hns : ¬ StopsNext es st := by
            rintro (h | h)
            · exact hes h
            · exact hs1 h
          by_cases hcase : st.sampleCount = 0 ∧ st.trialCount + 1 ≠ numberTrialSearch size
          · obtain ⟨c1, c2, ⟨hc, hle⟩, hlt⟩ := ih' { st with
              trialCount := st.trialCount + 1
              overall := st.overall + 1
              sampleCount := st.sampleCount + 1 } info0 hb0 ht
            refine ⟨c1, c2, fun info g1 g2 l T => ?_, hle, fun h => absurd h hns, fun hm hl hp _ hf _ _ => ?_⟩
            · rw [if_neg hes]
              unfold kCont
              rw [if_neg (show st.sampleCount + 1 ≠ 2 by omega), if_neg hcase.2]
              exact hc info g1 g2 (some l) T
            · exact hlt hm hl hp (Or.inl ⟨hf, Or.inr (show st.sampleCount + 1 = 1 by omega)⟩)
          · obtain ⟨c1, c2, hc, hle⟩ := ih { st with
              trialCount := st.trialCount + 1
              overall := st.overall + 1
              sampleCount := st.sampleCount + 1 } info0 hb0 ht
            refine ⟨c1, c2, fun info g1 g2 l T => ?_, hle, fun h => absurd h hns, fun _ _ _ _ _ h h' => absurd ⟨h, h'⟩ hcase⟩
            rw [if_neg hes]
            exact hc info g1 g2 (some l) T
    obtain ⟨X, hX⟩ : ∃ X : Finset (Fin n) → Finset (Fin n) → ℝ≥0∞, X = fun S T =>
        if S.card = size then c1 T else if S.card < size then a1 T else b1 T := ⟨_, rfl⟩
    obtain ⟨μ₁, hμ₁⟩ : ∃ μ, μ = ENNReal.ofReal (minor L T₁) := ⟨_, rfl⟩
    obtain ⟨μ₂, hμ₂⟩ : ∃ μ, μ = ENNReal.ofReal (minor L T₂) := ⟨_, rfl⟩
    have hpass := fun (info : AlphaInfo n) (g1 : CoreEq info info0) (g2 : AlphaFamBase L info) (out : Option (List (Fin n)))
      (T : Finset (Fin n)) => alphaKLoop_pass hin size m es f st hb0 ha hb hc g1 g2 out T
    obtain ⟨Q, hQ⟩ : ∃ Q : Finset (Fin n) → ℝ≥0∞, Q = drawP inner L m info0 := ⟨_, rfl⟩
    have hXle : ∀ S, X S T₂ * μ₁ ≤ X S T₁ * μ₂ := by
      intro S
      rw [hX, hμ₁, hμ₂]
      simp only
      split
      · exact hcle
      · split
        · exact hale
        · exact hble
    have hterm : ∀ S, Q S * X S T₂ * μ₁ ≤ Q S * X S T₁ * μ₂ := by
      intro S
      rw [mul_assoc, mul_assoc]
      exact mul_le_mul_right (hXle S) _
    have hsum : (∑ S, Q S * X S T₂) * μ₁ ≤ (∑ S, Q S * X S T₁) * μ₂ := by
      rw [Finset.sum_mul, Finset.sum_mul]
      exact Finset.sum_le_sum fun S _ => hterm S
    obtain ⟨d1, d2⟩ := drawP_compare (m := m) hin h1 h2 hb0 ht
    rw [← hQ, ← hμ₁, ← hμ₂] at d1 d2
    have hcd : c2 * Q T₂ * μ₁ ≤ c2 * Q T₁ * μ₂ := by
      rw [mul_assoc, mul_assoc]
      exact mul_le_mul_right d1 _
    have hK : ∀ T : Finset (Fin n), T.card = size → ((∑ S, drawP inner L m info0 S * if S.card = size then c1 T else if S.card < size then a1 T
        else b1 T) + c2 * (if T.card = size then drawP inner L m info0 T else 0)) = (∑ S, Q S * X S T) + c2 * Q T := by
      intro T hT
      rw [if_pos hT, hQ, hX]
    refine ⟨_, _, ⟨hpass, ?_⟩, ?_⟩
    · rw [hK T₁ h1, hK T₂ h2, ← hμ₁, ← hμ₂, add_mul, add_mul]
      exact add_le_add hsum hcd
    · intro hm hl hpos hcase
      have hfin : ((∑ S, Q S * X S T₂) + c2 * Q T₂) * μ₁ ≠ ∞ := by
        refine ENNReal.mul_ne_top ?_ (by rw [hμ₁]; exact ENNReal.ofReal_ne_top)
        have h3 := hpass info0 (CoreEq.refl _) hb0 none T₂
        rw [hK T₂ h2] at h3
        simp only [keptIs, mul_zero, add_zero] at h3
        rw [← h3, ← PP_draws]
        exact ne_top_of_le_ne_top ENNReal.one_ne_top (PP_le_one _ _)
      rw [add_mul] at hfin
      have hfin1 := (ENNReal.add_ne_top.1 hfin).1
      have hfin2 := (ENNReal.add_ne_top.1 hfin).2
      rw [hK T₁ h1, hK T₂ h2, ← hμ₁, ← hμ₂, add_mul, add_mul]
      have d3 := d2 hm hl hpos
      by_cases hst : StopsNext es st
      · rw [hcs hst, one_mul, one_mul, add_comm, add_comm (_ * μ₂)]
        exact ENNReal.add_lt_add_of_lt_of_le hfin1 d3 hsum
      · rcases hcase with ⟨-, h⟩ | ⟨hf, hs, htc⟩
        · exact absurd h hst
        have c3 := hcl hm hl hpos hst (by omega) hs htc
        rw [← hμ₁, ← hμ₂] at c3
        refine ENNReal.add_lt_add_of_lt_of_le hfin2 ?_ hcd
        have hQ0 : Q T₁ ≠ 0 := by
          intro h0
          rw [h0, zero_mul] at d3
          exact absurd d3 not_lt_zero
        have hQt : Q T₁ ≠ ∞ := by
          rw [hQ]
          exact ne_top_of_le_ne_top ENNReal.one_ne_top (PP_le_one _ _)
        rw [Finset.sum_mul, Finset.sum_mul, ← Finset.add_sum_erase _ _ (Finset.mem_univ T₁),
          ← Finset.add_sum_erase _ (fun S => Q S * X S T₁ * μ₂) (Finset.mem_univ T₁)]
        have hXT : ∀ T, X T₁ T = c1 T := fun T => by rw [hX]; exact if_pos h1
        refine ENNReal.add_lt_add_of_lt_of_le ?_ ?_ (Finset.sum_le_sum fun S _ => hterm S)
        · refine ne_top_of_le_ne_top hfin1 ?_
          rw [Finset.sum_mul]
          exact Finset.sum_le_sum_of_subset (Finset.erase_subset _ _)
        · rw [hXT, hXT, mul_assoc, mul_assoc]
          exact (ENNReal.mul_lt_mul_iff_right hQ0 hQt).2 c3

/-- the loop, comparing two sets of the right size -/
theorem alphaKLoop_compare {inner : DppSampler} (hin : InnerSpec inner) (size m : ℕ) (es : Bool) {T₁ T₂ : Finset (Fin n)} (h1 : T₁.card = size)
    (h2 : T₂.card = size) (f : ℕ) (st : KCount n) (pc : AlphaInfo n) (h : AlphaFamBase L pc) (ht : NoTieAny L pc T₁)
    (hs : st.sampleCount = 0) (htc : st.trialCount = 0) (hout : st.out = none) :
      PP (alphaKLoop inner L size m es f st pc) (Draws T₂) * ENNReal.ofReal (minor L T₁)
          ≤ PP (alphaKLoop inner L size m es f st pc) (Draws T₁) * ENNReal.ofReal (minor L T₂) ∧
      (0 < f → (es = true ∨ 1 < f ∧ 1 ≠ numberTrialSearch size) → 0 < m → alphaLoss L pc T₂ ≠ 0 → 0 < minor L T₁ →
        PP (alphaKLoop inner L size m es f st pc) (Draws T₂) * ENNReal.ofReal (minor L T₁)
          < PP (alphaKLoop inner L size m es f st pc) (Draws T₁) * ENNReal.ofReal (minor L T₂)) := by
  obtain ⟨K1, K2, ⟨heq, hle⟩, hlt⟩ := alphaKLoop_compares hin size m es h1 h2 f st pc h ht
  have hP : ∀ T, PP (alphaKLoop inner L size m es f st pc) (Draws T) = K1 T := by
    intro T
    have h3 := heq pc (CoreEq.refl _) h none T
    simp only [keptIs, mul_zero, add_zero] at h3
    rw [← hout] at h3
    rw [PP_draws]
    exact h3
  rw [hP, hP]
  refine ⟨hle, fun hf hc hm hl hpos => hlt hm hl hpos ?_⟩
  rcases hc with hc | ⟨hc1, hc2⟩
  · exact Or.inl ⟨hf, Or.inl hc⟩
  · exact Or.inr ⟨hc1, hs, by rw [htc]; simpa using hc2⟩

/-! ### the first call -/

/-- the draws of a first call, given the pre-computed data -/
noncomputable def firstKDraws (env : SessEnv n) (rFunc : ℝ → ℝ) (size m f : ℕ) (es : Bool) (T : Finset (Fin n)) : Outcome (AlphaInfo n) → ℝ≥0∞
  | .ok pc => PP (alphaKLoop env.inner env.L size m es f (kCountInit size { pc with r := rFunc (nysDeff pc.dict pc.alphaHat) })
      { pc with r := rFunc (nysDeff pc.dict pc.alphaHat) }) (Draws T)
  | .raise _ => 0

theorem firstK_draws (env : SessEnv n) (rFunc : ℝ → ℝ) (size m f : ℕ) (es : Bool) (T : Finset (Fin n)) :
    PP (sessCall env .empty (.kAlpha rFunc size m f es)) (Draws T)
      = PE (alphaKPre env.num env.L env.over (env.dictK size) size) (firstKDraws env rFunc size m f es T) := by
  change PP (store _ (alphaKDppSampler env.num env.inner env.L env.over (env.dictK size) rFunc size m f es none)) (Draws T) = _
  rw [store_draws]
  unfold alphaKDppSampler alphaKInfoFor withR
  rw [PP_draws, PE_andThen, PE_andThen]
  refine PE_congr fun o _ => ?_
  cases o with
  | raise e => rfl
  | ok pc =>
    simp only [PE_pure, firstKDraws]
    rw [PP_draws]

theorem alphaKPre_base (h : GoodEnv env) {size : ℕ} {pc : AlphaInfo n}
    (hpc : .ok pc ∈ (alphaKPre env.num env.L env.over (env.dictK size) size).support) {r : ℝ} (hr : 0 < r) :
    AlphaFamBase env.L { pc with r := r } := by
  have hL := h.psd
  unfold alphaKPre at hpc
  rw [mem_support_andThen] at hpc
  rcases hpc with ⟨D, hD, hpc⟩ | ⟨e, -, hpc⟩
  swap
  · exact absurd hpc (by simp)
  rw [mem_support_andThen] at hpc
  rcases hpc with ⟨DA, hDA, hpc⟩ | ⟨e, -, hpc⟩
  swap
  · exact absurd hpc (by simp)
  rw [liftOut, PMF.support_pure, Set.mem_singleton_iff] at hpc
  obtain ⟨-, hd2, hd3⟩ := h.dictK size D hD
  obtain ⟨N, a, rfl, hN, ha0, ha1, -, -⟩ := alphaPrecompute_ok h.num hL hpc.symm
  refine ⟨⟨hL, ha0, hr, nysRls_nonneg hN hL ha0.le, fun i => nysRls_zero hN hL ha0, fun i => nysRls_le env.L N ha0.le i,
      fun i hi => absurd hi (by simp [alphaInfoOf]), fun c hc => alphaAcc_nonpos hN hL ha0 hr hc⟩, fun i => rfl, ?_, ?_, hN⟩
  · exact one_div_pos.2 hd3
  · exact one_div_pos.2 hd2

theorem firstK_call_compare (h : GoodEnv env) {rFunc : ℝ → ℝ} {size : ℕ} (m f : ℕ) (es : Bool) {T₁ T₂ : Finset (Fin n)} (h1 : T₁.card = size)
    (h2 : T₂.card = size)
    (hr : ∀ pc, .ok pc ∈ (alphaKPre env.num env.L env.over (env.dictK size) size).support → 0 < rFunc (nysDeff pc.dict pc.alphaHat) ∧
      ∀ a, 0 < a → NoTieOn env.L pc.dict a (rFunc (nysDeff pc.dict pc.alphaHat)) T₁) :
    PP (sessCall env .empty (.kAlpha rFunc size m f es)) (Draws T₂) * ENNReal.ofReal (minor env.L T₁)
      ≤ PP (sessCall env .empty (.kAlpha rFunc size m f es)) (Draws T₁) * ENNReal.ofReal (minor env.L T₂) ∧
    ((∃ pc, .ok pc ∈ (alphaKPre env.num env.L env.over (env.dictK size) size).support ∧
        alphaLoss env.L { pc with r := rFunc (nysDeff pc.dict pc.alphaHat) } T₂ ≠ 0) → 0 < m → 0 < f →
        (es = true ∨ 1 < f ∧ 1 ≠ numberTrialSearch size) → 0 < minor env.L T₁ →
      PP (sessCall env .empty (.kAlpha rFunc size m f es)) (Draws T₂) * ENNReal.ofReal (minor env.L T₁)
        < PP (sessCall env .empty (.kAlpha rFunc size m f es)) (Draws T₁) * ENNReal.ofReal (minor env.L T₂)) := by
  have hcomp := fun (pc : AlphaInfo n) (hpc : .ok pc ∈ (alphaKPre env.num env.L env.over (env.dictK size) size).support) =>
    alphaKLoop_compare h.inner size m es h1 h2 f (kCountInit size { pc with r := rFunc (nysDeff pc.dict pc.alphaHat) })
      { pc with r := rFunc (nysDeff pc.dict pc.alphaHat) } (alphaKPre_base h hpc (hr pc hpc).1) (hr pc hpc).2 rfl rfl rfl
  have hle : ∀ o ∈ (alphaKPre env.num env.L env.over (env.dictK size) size).support,
      firstKDraws env rFunc size m f es T₂ o * ENNReal.ofReal (minor env.L T₁)
        ≤ firstKDraws env rFunc size m f es T₁ o * ENNReal.ofReal (minor env.L T₂) := by
    intro o ho
    cases o with
    | raise e => simp [firstKDraws]
    | ok pc => exact (hcomp pc ho).1
  have hfin : PE (alphaKPre env.num env.L env.over (env.dictK size) size)
      (fun o => firstKDraws env rFunc size m f es T₂ o * ENNReal.ofReal (minor env.L T₁)) ≠ ∞ := by
    rw [PE_mul_right, ← firstK_draws]
    exact ENNReal.mul_ne_top (ne_top_of_le_ne_top ENNReal.one_ne_top (PP_le_one _ _)) ENNReal.ofReal_ne_top
  rw [firstK_draws, firstK_draws, ← PE_mul_right, ← PE_mul_right]
  refine ⟨PE_mono hle, ?_⟩
  rintro ⟨pc, hpc, hl⟩ hm hf hc hmin
  exact PE_lt hle hfin hpc ((hcomp pc hpc).2 hf hc hm hl hmin)

/-- if `T₂` is drawn too seldom compared with `T₁`, the law is not the one of the k-DPP -/
theorem not_lawIs_k {β : Type*} {p : PMF (Outcome (List (Fin n) × β))} {L : Matrix (Fin n) (Fin n) ℝ} (hL : L.PosSemidef) {size : ℕ}
    {T₁ T₂ : Finset (Fin n)} (h1 : T₁.card = size) (h2 : T₂.card = size)
    (h : PP p (Draws T₂) * ENNReal.ofReal (minor L T₁) < PP p (Draws T₁) * ENNReal.ofReal (minor L T₂)) :
    ¬ LawIs p (kDppProb L size) := by
  intro hl
  rw [hl T₁, hl T₂, mul_assoc, mul_assoc] at h
  unfold kDppProb at h
  rw [if_pos h1, if_pos h2] at h
  have hZ : 0 ≤ ∑ S ∈ (Finset.univ : Finset (Fin n)).powersetCard size, minor L S := Finset.sum_nonneg fun S _ => minor_nonneg hL S
  rw [← ENNReal.ofReal_mul (div_nonneg (minor_nonneg hL _) hZ), ← ENNReal.ofReal_mul (div_nonneg (minor_nonneg hL _) hZ),
    div_mul_eq_mul_div, div_mul_eq_mul_div, mul_comm (minor L T₂)] at h
  exact lt_irrefl _ h

end Verif
