import Verif.Lemmas.Alpha

/-!
The law of the k-DPP sampler built on alpha-DPP draws.
-/

namespace Verif
open Verif Verif.Spec Verif.Model Matrix
open scoped ENNReal NNReal

variable {n : ℕ} {L : Matrix (Fin n) (Fin n) ℝ} {pc : AlphaInfo n}

/-- The facts about the pre-computed constants that the law of the k-DPP sampler relies on: those of the current
`alpha_hat` and those of all the `alpha_hat` that the search may try. -/
structure AlphaFamOK (L : Matrix (Fin n) (Fin n) ℝ) (pc : AlphaInfo n) : Prop where
  now : AlphaOK L pc
  diag : ∀ i, pc.diagL i = L i i
  min_pos : 0 < pc.alphaMin
  max_pos : 0 < pc.alphaMax
  est_nonneg : ∀ a, 0 < a → ∀ i, 0 ≤ nysRls L pc.dict a i
  est_zero : ∀ a, 0 < a → ∀ i, nysRls L pc.dict a i = 0 → L i i = 0
  acc : ∀ a, 0 < a → ∀ c : Fin n → ℕ, (∀ i, 0 < c i → 0 < nysRls L pc.dict a i) →
    alphaAcc L pc.dict a pc.r (nysRls L pc.dict a) c < 0

/-- two infos that only differ by the bounds and the statistics -/
structure CoreEq (a b : AlphaInfo n) : Prop where
  hat : a.alphaHat = b.alphaHat
  min : a.alphaMin = b.alphaMin
  max : a.alphaMax = b.alphaMax
  dict : a.dict = b.dict
  diag : a.diagL = b.diagL
  r : a.r = b.r

theorem CoreEq.trans {a b c : AlphaInfo n} (h : CoreEq a b) (h' : CoreEq b c) : CoreEq a c :=
  ⟨h.hat.trans h'.hat, h.min.trans h'.min, h.max.trans h'.max, h.dict.trans h'.dict, h.diag.trans h'.diag, h.r.trans h'.r⟩

theorem nysRls_le (L : Matrix (Fin n) (Fin n) ℝ) (D : Nystrom n) {a : ℝ} (ha : 0 ≤ a) (i : Fin n) :
    nysRls L D a i ≤ a * L i i := by
  unfold nysRls
  refine mul_le_mul_of_nonneg_left ?_ ha
  have : 0 ≤ ∑ j, nysE L D a j i ^ 2 := Finset.sum_nonneg fun j _ => sq_nonneg _
  nlinarith [mul_nonneg ha this]

theorem AlphaFamOK.reset (h : AlphaFamOK L pc) : AlphaFamOK L (kReset pc) := by
  have hpos : 0 < Real.sqrt (pc.alphaMin * pc.alphaMax) := Real.sqrt_pos.2 (mul_pos h.min_pos h.max_pos)
  refine ⟨⟨⟨h.now.psd, hpos, h.now.r, h.est_nonneg _ hpos, h.est_zero _ hpos, ?_, ?_, fun c hc => (h.acc _ hpos c hc).le⟩,
      h.acc _ hpos⟩,
    h.diag, h.min_pos, h.max_pos, h.est_nonneg, h.est_zero, h.acc⟩
  · intro i
    change _ ≤ Real.sqrt (pc.alphaMin * pc.alphaMax) * pc.diagL i
    rw [h.diag]
    exact nysRls_le L _ hpos.le i
  · intro i hi
    exact absurd hi (by simp [kReset])

theorem AlphaFamOK.bracket (h : AlphaFamOK L pc) (st : KCount n) : AlphaFamOK L (kBracket st pc) := by
  unfold kBracket
  split
  · exact ⟨⟨⟨h.now.psd, h.now.alpha, h.now.r, h.now.est_nonneg, h.now.est_zero, h.now.est_le, h.now.valid_eq, h.now.acc_nonpos⟩,
      h.now.acc⟩,
      h.diag, h.now.alpha, h.max_pos, h.est_nonneg, h.est_zero, h.acc⟩
  · exact ⟨⟨⟨h.now.psd, h.now.alpha, h.now.r, h.now.est_nonneg, h.now.est_zero, h.now.est_le, h.now.valid_eq, h.now.acc_nonpos⟩,
      h.now.acc⟩,
      h.diag, h.min_pos, h.now.alpha, h.est_nonneg, h.est_zero, h.acc⟩

theorem AlphaFamOK.stats (h : AlphaFamOK L pc) (t j s : ℕ) : AlphaFamOK L { pc with
    trialToFirst := t
    rejToFirst := j
    switches := s } :=
  ⟨⟨⟨h.now.psd, h.now.alpha, h.now.r, h.now.est_nonneg, h.now.est_zero, h.now.est_le, h.now.valid_eq, h.now.acc_nonpos⟩,
      h.now.acc⟩,
    h.diag, h.min_pos, h.max_pos, h.est_nonneg, h.est_zero, h.acc⟩

theorem AlphaFamOK.bounds (h : AlphaFamOK L pc) {b : Fin n → ℝ} {v : Fin n → Bool} (h' : AlphaOK L { pc with
    bound := b
    valid := v }) : AlphaFamOK L { pc with
    bound := b
    valid := v } :=
  ⟨h', h.diag, h.min_pos, h.max_pos, h.est_nonneg, h.est_zero, h.acc⟩

theorem kRecordInfo_ok (h : AlphaFamOK L pc) (size : ℕ) (l : List (Fin n)) (st : KCount n) :
    AlphaFamOK L (kRecordInfo size l st pc) ∧ CoreEq (kRecordInfo size l st pc) pc := by
  unfold kRecordInfo
  split
  · exact ⟨h.stats _ _ _, ⟨rfl, rfl, rfl, rfl, rfl, rfl⟩⟩
  · exact ⟨h, ⟨rfl, rfl, rfl, rfl, rfl, rfl⟩⟩

theorem kRej_ok (h : AlphaFamOK L pc) (rej : ℕ) : AlphaFamOK L (kRej rej pc) ∧ CoreEq (kRej rej pc) pc := by
  unfold kRej
  split
  · exact ⟨h.stats _ _ _, ⟨rfl, rfl, rfl, rfl, rfl, rfl⟩⟩
  · exact ⟨h, ⟨rfl, rfl, rfl, rfl, rfl, rfl⟩⟩

theorem CoreEq.bracketReset {a b : AlphaInfo n} (h : CoreEq a b) (st : KCount n) :
    CoreEq (kReset (kBracket st a)) (kReset (kBracket st b)) := by
  obtain ⟨h1, h2, h3, h4, h5, h6⟩ := h
  unfold kBracket
  split <;> exact ⟨by simp [kReset, h1, h2, h3], by simp [kReset, h1, h2], by simp [kReset, h1, h3], by simpa [kReset] using h4,
    by simpa [kReset] using h5, by simpa [kReset] using h6⟩

/-- weights of the draws -/
noncomputable def drawW (L : Matrix (Fin n) (Fin n) ℝ) (m : ℕ) (pc : AlphaInfo n) (T : Finset (Fin n)) : ℝ≥0∞ :=
  ENNReal.ofReal (alphaC L pc * ∑ j ∈ Finset.range m, (1 - alphaP L pc) ^ j) * ENNReal.ofReal (minor (pc.alphaHat • L) T)

theorem drawW_congr {a b : AlphaInfo n} (h : CoreEq a b) (m : ℕ) (T : Finset (Fin n)) : drawW L m a T = drawW L m b T := by
  obtain ⟨h1, -, -, h4, -, h6⟩ := h
  unfold drawW alphaP alphaC
  rw [h1, h4, h6]

/-- the continuation of one pass after the counters are updated -/
noncomputable def kCont (inner : DppSampler) (L : Matrix (Fin n) (Fin n) ℝ) (size m : ℕ) (es : Bool) (f : ℕ)
    (st2 : KCount n) (info2 : AlphaInfo n) : PMF (Outcome (List (Fin n) × AlphaInfo n)) :=
  open Classical in
  if st2.sampleCount = 2 then kReturn { st2 with found := true } info2
  else if st2.trialCount = numberTrialSearch size then
    if (kReset (kBracket st2 info2)).alphaMax / (kReset (kBracket st2 info2)).alphaMin ≤ stoppingRatio size
        ∧ st2.sampleCount > 0 then
      kReturn { st2 with found := true } (kReset (kBracket st2 info2))
    else alphaKLoop inner L size m es f (kNext st2) { kReset (kBracket st2 info2) with
      switches := (kReset (kBracket st2 info2)).switches + 1 }
  else alphaKLoop inner L size m es f st2 info2

theorem alphaKLoop_succ (inner : DppSampler) (L : Matrix (Fin n) (Fin n) ℝ) (size m : ℕ) (es : Bool) (f : ℕ)
    (st : KCount n) (info : AlphaInfo n) :
    alphaKLoop inner L size m es (f + 1) st info = PMF.andThen (alphaLoop inner L m 0 info) fun d =>
      if d.1.length = size ∧ es = true then
        kReturn (kRecord size d.1 st) (kRecordInfo size d.1 (kRecord size d.1 st) d.2.2)
      else kCont inner L size m es f (kUnderOver size d.1 (kRecord size d.1 st))
        (kRej d.2.1 (kRecordInfo size d.1 (kRecord size d.1 st) d.2.2)) := by
  rw [alphaKLoop]
  rfl

/-- indicator that the sample kept so far is `T` -/
noncomputable def keptIs (T : Finset (Fin n)) : Option (List (Fin n)) → ℝ≥0∞
  | some l => if l.toFinset = T then 1 else 0
  | none => 0

theorem kReturn_hit (st : KCount n) (info : AlphaInfo n) (T : Finset (Fin n)) :
    PE (kReturn st info) (hitDraw T) = keptIs T st.out := by
  unfold kReturn
  cases h : st.out with
  | none => simp [PE_pure, hitDraw, keptIs]
  | some l => simp [PE_pure, hitDraw, keptIs]

/-- weights of the sets of the right size -/
noncomputable def kW (L : Matrix (Fin n) (Fin n) ℝ) (size : ℕ) (T : Finset (Fin n)) : ℝ≥0∞ :=
  if T.card = size then ENNReal.ofReal (minor L T) else 0

/-- what is to be shown about a program that starts with a kept sample -/
def Splits (L : Matrix (Fin n) (Fin n) ℝ) (size : ℕ) (run : Option (List (Fin n)) → AlphaInfo n →
    PMF (Outcome (List (Fin n) × AlphaInfo n))) (info0 : AlphaInfo n) : Prop :=
  ∃ K1 K2 : ℝ≥0∞, ∀ info, CoreEq info info0 → AlphaFamOK L info → ∀ out T,
    PE (run out info) (hitDraw T) = K1 * kW L size T + K2 * keptIs T out

theorem kCont_splits {inner : DppSampler} {size m : ℕ} {es : Bool} {f : ℕ}
    (ih : ∀ (st : KCount n) (info0 : AlphaInfo n), Splits L size (fun out info => alphaKLoop inner L size m es f { st with out := out } info) info0)
    (st : KCount n) (info0 : AlphaInfo n) :
    Splits L size (fun out info => kCont inner L size m es f { st with out := out } info) info0 := by
  classical
  by_cases h1 : st.sampleCount = 2
  · refine ⟨0, 1, fun info _ _ out T => ?_⟩
    simp only [kCont]
    rw [if_pos h1, kReturn_hit]; simp
  · by_cases h2 : st.trialCount = numberTrialSearch size
    · have hbr : ∀ out info, kReset (kBracket { st with out := out } info) = kReset (kBracket st info) := fun _ _ => rfl
      by_cases h3 : (kReset (kBracket st info0)).alphaMax / (kReset (kBracket st info0)).alphaMin ≤ stoppingRatio size
          ∧ st.sampleCount > 0
      · refine ⟨0, 1, fun info hc _ out T => ?_⟩
        have hc' := hc.bracketReset st
        simp only [kCont]
        rw [if_neg h1, if_pos h2, hbr, if_pos (by rw [hc'.max, hc'.min]; exact h3), kReturn_hit]; simp
      · obtain ⟨K1, K2, hK⟩ := ih (kNext st) (kReset (kBracket st info0))
        refine ⟨K1, K2, fun info hc hf out T => ?_⟩
        have hc' := hc.bracketReset st
        have h4 : PE (kCont inner L size m es f { st with out := out } info) (hitDraw T)
            = PE (alphaKLoop inner L size m es f { kNext st with out := out } { kReset (kBracket st info) with
              switches := (kReset (kBracket st info)).switches + 1 }) (hitDraw T) := by
          unfold kCont
          rw [if_neg h1, if_pos h2, hbr, if_neg (by rw [hc'.max, hc'.min]; exact h3)]
          rfl
        have hf' : AlphaFamOK L { kReset (kBracket st info) with
            switches := (kReset (kBracket st info)).switches + 1 } := ((hf.bracket st).reset).stats _ _ _
        exact h4.trans (hK { kReset (kBracket st info) with
            switches := (kReset (kBracket st info)).switches + 1 }
          ⟨hc'.hat, hc'.min, hc'.max, hc'.dict, hc'.diag, hc'.r⟩ hf' out T)
    · obtain ⟨K1, K2, hK⟩ := ih st info0
      refine ⟨K1, K2, fun info hc hf out T => ?_⟩
      simp only [kCont]
      rw [if_neg h1, if_neg h2]
      exact hK info hc hf out T

theorem PE_loop_sum {inner : DppSampler} (hin : InnerSpec inner) {m : ℕ} (h : AlphaOK L pc)
    (g : Finset (Fin n) → ℝ≥0∞) {F : Outcome (List (Fin n) × ℕ × AlphaInfo n) → ℝ≥0∞}
    (hF : ∀ o ∈ (alphaLoop inner L m 0 pc).support, F o = match o with
      | .ok d => g d.1.toFinset
      | .raise _ => 0) :
    PE (alphaLoop inner L m 0 pc) F = ∑ S, drawW L m pc S * g S := by
  classical
  rw [PE_congr hF]
  have h1 : ∀ o : Outcome (List (Fin n) × ℕ × AlphaInfo n), (match o with
      | .ok d => g d.1.toFinset
      | .raise _ => 0) = ∑ S, hitDraw S o * g S := by
    intro o
    cases o with
    | raise e => simp [hitDraw]
    | ok d => obtain ⟨l, b⟩ := d; simp [hitDraw]
  simp_rw [h1]
  rw [PE_sum]
  refine Finset.sum_congr rfl fun S _ => ?_
  rw [PE_mul_right, ← PP_draws, alphaLoop_draws hin S m 0 pc h]
  rfl

theorem drawW_kW (m : ℕ) (hα : 0 ≤ pc.alphaHat) (size : ℕ) (T : Finset (Fin n)) :
    (if T.card = size then drawW L m pc T else 0)
      = ENNReal.ofReal (alphaC L pc * ∑ j ∈ Finset.range m, (1 - alphaP L pc) ^ j)
        * ENNReal.ofReal (pc.alphaHat ^ size) * kW L size T := by
  unfold kW drawW
  split
  · rename_i h
    rw [minor_smul, h, ENNReal.ofReal_mul (p := pc.alphaHat ^ size) (by positivity), mul_assoc]
  · simp

theorem alphaKLoop_splits {inner : DppSampler} (hin : InnerSpec inner) (size m : ℕ) (es : Bool) :
    ∀ (f : ℕ) (st : KCount n) (info0 : AlphaInfo n),
      Splits L size (fun out info => alphaKLoop inner L size m es f { st with out := out } info) info0
  | 0, st, info0 => ⟨0, 0, fun info _ _ out T => by
      simp only [alphaKLoop]; rw [PE_pure]; simp [hitDraw]⟩
  | f + 1, st, info0 => by
    classical
    have ih := kCont_splits (inner := inner) (size := size) (m := m) (es := es) (f := f) (L := L)
      (fun st info0 => alphaKLoop_splits hin size m es f st info0)
    -- the counters after a draw that is too small, of the right size, too large
    let stLt : KCount n := { st with
      trialCount := st.trialCount + 1
      overall := st.overall + 1
      under := st.under + 1 }
    let stGt : KCount n := { st with
      trialCount := st.trialCount + 1
      overall := st.overall + 1
      over := st.over + 1 }
    let stEq : KCount n := { st with
      trialCount := st.trialCount + 1
      overall := st.overall + 1
      sampleCount := st.sampleCount + 1 }
    obtain ⟨a1, a2, ha⟩ := ih stLt info0
    obtain ⟨b1, b2, hb⟩ := ih stGt info0
    obtain ⟨c1, c2, hc⟩ : ∃ c1 c2 : ℝ≥0∞, ∀ info, CoreEq info info0 → AlphaFamOK L info → ∀ (l : List (Fin n)) T,
        (if es = true then keptIs T (some l)
          else PE (kCont inner L size m es f { stEq with out := some l } info) (hitDraw T))
        = c1 * kW L size T + c2 * keptIs T (some l) := by
      cases es with
      | true => exact ⟨0, 1, fun _ _ _ l T => by simp⟩
      | false =>
        obtain ⟨c1, c2, hc⟩ := ih stEq info0
        exact ⟨c1, c2, fun info h1 h2 l T => by simpa using hc info h1 h2 (some l) T⟩
    refine ⟨(∑ S, drawW L m info0 S * if S.card = size then c1 else if S.card < size then a1 else b1)
        + c2 * (ENNReal.ofReal (alphaC L info0 * ∑ j ∈ Finset.range m, (1 - alphaP L info0) ^ j)
          * ENNReal.ofReal (info0.alphaHat ^ size)),
      ∑ S, drawW L m info0 S * (if S.card = size then 0 else if S.card < size then a2 else b2), ?_⟩
    intro info hcore hfam out T
    simp only
    rw [alphaKLoop_succ, PE_andThen]
    rw [PE_loop_sum (g := fun S => if S.card = size then c1 * kW L size T + c2 * (if S = T then 1 else 0)
      else if S.card < size then a1 * kW L size T + a2 * keptIs T out else b1 * kW L size T + b2 * keptIs T out) hin hfam.now]
    · have h1 : ∀ S : Finset (Fin n), drawW L m info S * (if S.card = size then c1 * kW L size T + c2 * (if S = T then 1 else 0)
            else if S.card < size then a1 * kW L size T + a2 * keptIs T out else b1 * kW L size T + b2 * keptIs T out)
          = (drawW L m info0 S * if S.card = size then c1 else if S.card < size then a1 else b1) * kW L size T
            + (drawW L m info0 S * (if S.card = size then 0 else if S.card < size then a2 else b2)) * keptIs T out
            + c2 * (if S = T then (if S.card = size then drawW L m info0 S else 0) else 0) := by
        intro S
        rw [drawW_congr hcore]
        by_cases hS : S.card = size
        · by_cases hT : S = T
          · subst hT
            simp only [hS, if_true, mul_one, mul_zero, zero_mul, add_zero]; ring
          · simp only [hS, hT, if_true, if_false, mul_zero, zero_mul, add_zero]; ring
        · by_cases hlt : S.card < size
          · simp only [hS, hlt, if_true, if_false, ite_self, mul_zero, add_zero]; ring
          · simp only [hS, hlt, if_false, ite_self, mul_zero, add_zero]; ring
      simp_rw [h1]
      rw [Finset.sum_add_distrib, Finset.sum_add_distrib, ← Finset.sum_mul, ← Finset.sum_mul, ← Finset.mul_sum]
      rw [Finset.sum_ite_eq' Finset.univ T, if_pos (Finset.mem_univ T)]
      have hα : 0 ≤ info0.alphaHat := by rw [← hcore.hat]; exact hfam.now.alpha.le
      rw [drawW_kW m hα]
      ring
    · intro o ho
      rcases alphaLoop_support hin m 0 info hfam.now o ho with rfl | ⟨l, r, b, v, rfl, hnd, hok, -⟩
      · simp [hitDraw]
      · simp only
        have hlen : l.toFinset.card = l.length := List.toFinset_card_of_nodup hnd
        have hfam' := hfam.bounds hok
        have hcore' : CoreEq { info with
            bound := b
            valid := v } info0 := ⟨hcore.hat, hcore.min, hcore.max, hcore.dict, hcore.diag, hcore.r⟩
        obtain ⟨g1, g2⟩ := kRecordInfo_ok hfam' size l (kRecord size l { st with out := out })
        obtain ⟨g3, g4⟩ := kRej_ok g1 r
        have g5 := (g4.trans g2).trans hcore'
        rw [hlen]
        by_cases hS : l.length = size
        · rw [if_pos hS]
          have hcc := hc _ g5 g3 l T
          rw [keptIs] at hcc
          rw [← hcc]
          have hst : kRecord size l { st with out := out } = { stEq with out := some l } := by
            simp only [kRecord, hS, if_true]
            rfl
          by_cases hes : es = true
          · rw [if_pos ⟨hS, hes⟩, if_pos hes, kReturn_hit]
            simp only [kRecord, hS, if_true, keptIs]
          · rw [if_neg (fun h => hes h.2), if_neg hes]
            have hst2 : kUnderOver size l (kRecord size l { st with out := out }) = { stEq with out := some l } := by
              rw [hst]
              simp only [kUnderOver, hS, lt_irrefl, gt_iff_lt, if_false]
            rw [hst2, hst]
        · rw [if_neg (fun h => hS h.1), if_neg hS]
          rcases lt_or_gt_of_ne hS with hlt | hgt
          · rw [if_pos hlt]
            have hst2 : kUnderOver size l (kRecord size l { st with out := out }) = { stLt with out := out } := by
              simp only [kUnderOver, kRecord, hS, hlt, if_false, if_true, gt_iff_lt, not_lt_of_gt hlt]
              rfl
            rw [hst2]
            exact ha _ g5 g3 out T
          · rw [if_neg (not_lt_of_gt hgt)]
            have hst2 : kUnderOver size l (kRecord size l { st with out := out }) = { stGt with out := out } := by
              simp only [kUnderOver, kRecord, hS, if_false, if_true, gt_iff_lt, not_lt_of_gt hgt]
              rw [if_pos hgt]
            rw [hst2]
            exact hb _ g5 g3 out T

end Verif
