import Verif.Lemmas.Ties2

/-!
The data of the k-DPP sampler of alpha-dpp, when some intermediate samples have acceptance probability one.
-/

namespace Verif
open Verif Verif.Spec Verif.Model Matrix
open scoped ENNReal NNReal

variable {n : ℕ} {L : Matrix (Fin n) (Fin n) ℝ} {pc : AlphaInfo n} {env : SessEnv n}

/-- the facts about the pre-computed constants that hold with or without ties, for all the rescalings of the search -/
structure AlphaFamBase (L : Matrix (Fin n) (Fin n) ℝ) (pc : AlphaInfo n) : Prop where
  now : AlphaBase L pc
  diag : ∀ i, pc.diagL i = L i i
  min_pos : 0 < pc.alphaMin
  max_pos : 0 < pc.alphaMax
  nys : NysOK L pc.dict

theorem AlphaFamBase.reset (h : AlphaFamBase L pc) : AlphaFamBase L (kReset pc) := by
  have hpos : 0 < Real.sqrt (pc.alphaMin * pc.alphaMax) := Real.sqrt_pos.2 (mul_pos h.min_pos h.max_pos)
  refine ⟨⟨h.now.psd, hpos, h.now.r, nysRls_nonneg h.nys h.now.psd hpos.le, fun i => nysRls_zero h.nys h.now.psd hpos, ?_, ?_,
    fun c hc => alphaAcc_nonpos h.nys h.now.psd hpos h.now.r hc⟩, h.diag, h.min_pos, h.max_pos, h.nys⟩
  · intro i
    change _ ≤ Real.sqrt (pc.alphaMin * pc.alphaMax) * pc.diagL i
    rw [h.diag]
    exact nysRls_le L _ hpos.le i
  · intro i hi
    exact absurd hi (by simp [kReset])

theorem AlphaFamBase.bracket (h : AlphaFamBase L pc) (st : KCount n) : AlphaFamBase L (kBracket st pc) := by
  unfold kBracket
  split
  · exact ⟨⟨h.now.psd, h.now.alpha, h.now.r, h.now.est_nonneg, h.now.est_zero, h.now.est_le, h.now.valid_eq, h.now.acc_nonpos⟩,
      h.diag, h.now.alpha, h.max_pos, h.nys⟩
  · exact ⟨⟨h.now.psd, h.now.alpha, h.now.r, h.now.est_nonneg, h.now.est_zero, h.now.est_le, h.now.valid_eq, h.now.acc_nonpos⟩,
      h.diag, h.min_pos, h.now.alpha, h.nys⟩

theorem AlphaFamBase.stats (h : AlphaFamBase L pc) (t j s : ℕ) : AlphaFamBase L { pc with
    trialToFirst := t
    rejToFirst := j
    switches := s } :=
  ⟨⟨h.now.psd, h.now.alpha, h.now.r, h.now.est_nonneg, h.now.est_zero, h.now.est_le, h.now.valid_eq, h.now.acc_nonpos⟩,
    h.diag, h.min_pos, h.max_pos, h.nys⟩

/-- the dictionary and `r`, which the ties depend on -/
def SameTies (a b : AlphaInfo n) : Prop := a.dict = b.dict ∧ a.r = b.r

theorem kRecordInfo_base (h : AlphaFamBase L pc) (size : ℕ) (l : List (Fin n)) (st : KCount n) :
    AlphaFamBase L (kRecordInfo size l st pc) ∧ SameTies (kRecordInfo size l st pc) pc := by
  unfold kRecordInfo
  split
  · exact ⟨h.stats _ _ _, rfl, rfl⟩
  · exact ⟨h, rfl, rfl⟩

theorem kRej_base (h : AlphaFamBase L pc) (rej : ℕ) : AlphaFamBase L (kRej rej pc) ∧ SameTies (kRej rej pc) pc := by
  unfold kRej
  split
  · exact ⟨h.stats _ _ _, rfl, rfl⟩
  · exact ⟨h, rfl, rfl⟩

theorem kResetBracket_ties (st : KCount n) (a : AlphaInfo n) : SameTies (kReset (kBracket st a)) a := by
  unfold kBracket
  split <;> exact ⟨rfl, rfl⟩

theorem AlphaFamBase.bounds (h : AlphaFamBase L pc) {b : Fin n → ℝ} {v : Fin n → Bool} (h' : AlphaBase L { pc with
    bound := b
    valid := v }) : AlphaFamBase L { pc with
    bound := b
    valid := v } :=
  ⟨h', h.diag, h.min_pos, h.max_pos, h.nys⟩

theorem alphaLoop_base {inner : DppSampler} (hin : InnerSpec inner) : ∀ m rej pc, AlphaBase L pc →
    ∀ d, .ok d ∈ (alphaLoop inner L m rej pc).support → ∃ b v, d.2.2 = { pc with
      bound := b
      valid := v } ∧ d.1.Nodup ∧ AlphaBase L { pc with
        bound := b
        valid := v }
  | 0, rej, pc, h, d, hd => by
    rw [alphaLoop] at hd
    exact absurd hd (by simp)
  | m + 1, rej, pc, h, d, hd => by
    rw [alphaLoop, mem_support_andThen] at hd
    rcases hd with ⟨a, ha, hd⟩ | ⟨e, he, hd⟩
    swap
    · exact absurd hd (by simp)
    rcases alphaRound_support ha with h1 | ⟨sv, x, h1, -, -⟩
    · simp at h1
    simp only [Outcome.ok.injEq] at h1
    subst h1
    cases x with
    | none =>
      obtain ⟨b, v, h2, h3, h4⟩ := alphaLoop_base hin m (rej + 1) (alphaUpd L pc sv) (h.upd sv) d hd
      exact ⟨b, v, h2, h3, h4⟩
    | some c =>
      simp only at hd
      rw [PMF.mem_support_map_iff] at hd
      obtain ⟨o', ho', h2⟩ := hd
      obtain ⟨l, rfl, h4, h5⟩ := alphaFinish_support (pc := alphaUpd L pc sv) hin h.psd h.alpha.le ho'
      simp only [Outcome.map, Outcome.ok.injEq] at h2
      subst h2
      exact ⟨(alphaUpd L pc sv).bound, (alphaUpd L pc sv).valid, rfl, h4, h.upd sv⟩

/-- a set that no tie contains, whatever the rescaling -/
def NoTieAny (L : Matrix (Fin n) (Fin n) ℝ) (pc : AlphaInfo n) (T : Finset (Fin n)) : Prop :=
  ∀ a, 0 < a → NoTieOn L pc.dict a pc.r T

theorem NoTieAny.congr {a b : AlphaInfo n} (h : SameTies a b) {T : Finset (Fin n)} (hb : NoTieAny L b T) : NoTieAny L a T := by
  unfold NoTieAny
  rw [h.1, h.2]
  exact hb

end Verif
