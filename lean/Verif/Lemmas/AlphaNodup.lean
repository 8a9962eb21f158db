import Verif.Lemmas.Session

/-!
The samples of alpha-dpp have distinct items, with or without ties.
-/

namespace Verif
open Verif Verif.Spec Verif.Model Matrix

variable {n : ℕ} {L : Matrix (Fin n) (Fin n) ℝ} {pc : AlphaInfo n} {env : SessEnv n}

/-- the rescalings are positive -/
def Pos3 (pc : AlphaInfo n) : Prop := 0 < pc.alphaHat ∧ 0 < pc.alphaMin ∧ 0 < pc.alphaMax

theorem alphaLoop_nodup {inner : DppSampler} (hin : InnerSpec inner) (hL : L.PosSemidef) : ∀ m rej (pc : AlphaInfo n), 0 < pc.alphaHat →
    ∀ d, .ok d ∈ (alphaLoop inner L m rej pc).support → (∃ b v, d.2.2 = { pc with
      bound := b
      valid := v }) ∧ d.1.Nodup
  | 0, rej, pc, _, d, hd => by
    rw [alphaLoop] at hd
    exact absurd hd (by simp)
  | m + 1, rej, pc, h, d, hd => by
    rw [alphaLoop, mem_support_andThen] at hd
    rcases hd with ⟨a, ha, hd⟩ | ⟨e, he, hd⟩
    swap
    · exact absurd hd (by simp)
    rcases alphaRound_support ha with h1 | ⟨sv, x, h1, -, -⟩
    · simp at h1
    simp only [Outcome.ok.injEq] at h1
    subst h1
    cases x with
    | none =>
      obtain ⟨⟨b, v, h2⟩, h3⟩ := alphaLoop_nodup hin hL m (rej + 1) (alphaUpd L pc sv) h d hd
      exact ⟨⟨b, v, h2⟩, h3⟩
    | some c =>
      simp only at hd
      rw [PMF.mem_support_map_iff] at hd
      obtain ⟨o', ho', h2⟩ := hd
      obtain ⟨l, rfl, h4, -⟩ := alphaFinish_support (pc := alphaUpd L pc sv) hin hL h.le ho'
      simp only [Outcome.map, Outcome.ok.injEq] at h2
      subst h2
      exact ⟨⟨(alphaUpd L pc sv).bound, (alphaUpd L pc sv).valid, rfl⟩, h4⟩

theorem Pos3.record (h : Pos3 pc) (size : ℕ) (l : List (Fin n)) (st : KCount n) : Pos3 (kRecordInfo size l st pc) := by
  unfold kRecordInfo
  split <;> exact h

theorem Pos3.rej (h : Pos3 pc) (r : ℕ) : Pos3 (kRej r pc) := by
  unfold kRej
  split <;> exact h

theorem Pos3.reset (h : Pos3 pc) (st : KCount n) : Pos3 (kReset (kBracket st pc)) := by
  unfold kBracket
  split
  · exact ⟨Real.sqrt_pos.2 (mul_pos h.1 h.2.2), h.1, h.2.2⟩
  · exact ⟨Real.sqrt_pos.2 (mul_pos h.2.1 h.1), h.2.1, h.1⟩

theorem Pos3.final (h : Pos3 pc) (st : KCount n) : Pos3 (kFinal st pc) := by
  unfold kFinal
  split
  · exact ⟨h.1, h.1, h.1⟩
  · exact h

/-- what a return of the loop needs -/
theorem kReturn_nodup {st : KCount n} (hs : ∀ l, st.out = some l → l.Nodup) (h : Pos3 pc) {l : List (Fin n)} {info : AlphaInfo n}
    (ho : .ok (l, info) ∈ (kReturn st pc).support) : l.Nodup ∧ Pos3 info := by
  unfold kReturn at ho
  cases hout : st.out with
  | none => rw [hout] at ho; exact absurd ho (by simp)
  | some l' =>
    rw [hout] at ho
    simp only [PMF.support_pure, Set.mem_singleton_iff, Outcome.ok.injEq, Prod.mk.injEq] at ho
    rw [ho.1, ho.2]
    exact ⟨hs l' hout, h.final st⟩

theorem alphaKLoop_nodup {inner : DppSampler} (hin : InnerSpec inner) (hL : L.PosSemidef) (size m : ℕ) (es : Bool) :
    ∀ (f : ℕ) (st : KCount n) (pc : AlphaInfo n), Pos3 pc → (∀ l, st.out = some l → l.Nodup) → ∀ l info,
      .ok (l, info) ∈ (alphaKLoop inner L size m es f st pc).support → l.Nodup ∧ Pos3 info
  | 0, st, pc, _, _, l, info, ho => by
    rw [alphaKLoop] at ho
    exact absurd ho (by simp)
  | f + 1, st, pc, h, hs, l, info, ho => by
    classical
    rw [alphaKLoop_succ, mem_support_andThen] at ho
    rcases ho with ⟨d, hd, ho⟩ | ⟨e, -, ho⟩
    swap
    · exact absurd ho (by simp)
    obtain ⟨⟨b, v, h1⟩, h2⟩ := alphaLoop_nodup hin hL m 0 pc h.1 d hd
    have h3 : Pos3 d.2.2 := by rw [h1]; exact h
    have hs1 : ∀ l, (kRecord size d.1 st).out = some l → l.Nodup := by
      intro l hl
      simp only [kRecord] at hl
      split at hl
      · rw [Option.some.injEq] at hl; rw [← hl]; exact h2
      · exact hs l hl
    have h4 := h3.record size d.1 (kRecord size d.1 st)
    split at ho
    · exact kReturn_nodup hs1 h4 ho
    · have hs2 : ∀ l, (kUnderOver size d.1 (kRecord size d.1 st)).out = some l → l.Nodup := hs1
      have h5 := h4.rej d.2.1
      unfold kCont at ho
      split at ho
      · exact kReturn_nodup (st := { kUnderOver size d.1 (kRecord size d.1 st) with found := true }) hs2 h5 ho
      · split at ho
        · have h6 := h5.reset (kUnderOver size d.1 (kRecord size d.1 st))
          split at ho
          · exact kReturn_nodup (st := { kUnderOver size d.1 (kRecord size d.1 st) with found := true }) hs2 h6 ho
          · refine alphaKLoop_nodup hin hL size m es f _ _ ?_ ?_ l info ho
            · exact h6
            · exact hs2
        · exact alphaKLoop_nodup hin hL size m es f _ _ h5 hs2 l info ho

theorem withR_pos {p : PMF (Outcome (AlphaInfo n))} {rFunc : ℝ → ℝ} (hp : ∀ pc, .ok pc ∈ p.support → Pos3 pc) {pc : AlphaInfo n}
    (h : .ok pc ∈ (withR rFunc p).support) : Pos3 pc := by
  unfold withR at h
  rw [mem_support_andThen] at h
  rcases h with ⟨a, ha, h⟩ | ⟨e, -, h⟩
  · simp only [PMF.support_pure, Set.mem_singleton_iff, Outcome.ok.injEq] at h
    rw [h]
    exact hp a ha
  · exact absurd h (by simp)

theorem alphaPre_pos3 (h : GoodEnv env) {pc : AlphaInfo n} (hpc : .ok pc ∈ (alphaPre env.num env.L env.over env.dict).support) :
    Pos3 pc := by
  unfold alphaPre at hpc
  rw [mem_support_andThen] at hpc
  rcases hpc with ⟨D, hD, hpc⟩ | ⟨e, -, hpc⟩
  swap
  · exact absurd hpc (by simp)
  rw [mem_support_andThen] at hpc
  rcases hpc with ⟨DA, hDA, hpc⟩ | ⟨e, -, hpc⟩
  swap
  · exact absurd hpc (by simp)
  rw [liftOut, PMF.support_pure, Set.mem_singleton_iff] at hpc
  obtain ⟨N, a, rfl, -, ha0, -, -, -⟩ := alphaPrecompute_ok h.num h.psd hpc.symm
  exact ⟨ha0, ha0, ha0⟩

theorem alphaKPre_pos3 (h : GoodEnv env) {size : ℕ} {pc : AlphaInfo n}
    (hpc : .ok pc ∈ (alphaKPre env.num env.L env.over (env.dictK size) size).support) : Pos3 pc := by
  unfold alphaKPre at hpc
  rw [mem_support_andThen] at hpc
  rcases hpc with ⟨D, hD, hpc⟩ | ⟨e, -, hpc⟩
  swap
  · exact absurd hpc (by simp)
  rw [mem_support_andThen] at hpc
  rcases hpc with ⟨DA, hDA, hpc⟩ | ⟨e, -, hpc⟩
  swap
  · exact absurd hpc (by simp)
  rw [liftOut, PMF.support_pure, Set.mem_singleton_iff] at hpc
  obtain ⟨-, hd2, hd3⟩ := h.dictK size D hD
  obtain ⟨N, a, rfl, -, ha0, -, -, -⟩ := alphaPrecompute_ok h.num h.psd hpc.symm
  exact ⟨ha0, one_div_pos.2 hd3, one_div_pos.2 hd2⟩

/-- the attribute holds positive rescalings -/
def CachePos : Cache n → Prop
  | .alpha pc => Pos3 pc
  | _ => True

theorem alphaOf_pos {c : Cache n} (hc : CachePos c) : ∀ pc, alphaOf c = some pc → Pos3 pc := by
  intro pc h
  cases c with
  | empty => exact absurd h (by simp [alphaOf])
  | vfx v => exact absurd h (by simp [alphaOf])
  | alpha a =>
    simp only [alphaOf, Option.some.injEq] at h
    rw [← h]; exact hc

theorem alphaInfoFor_pos (h : GoodEnv env) {rFunc : ℝ → ℝ} {o : Option (AlphaInfo n)} (ho : ∀ pc, o = some pc → Pos3 pc) {pc : AlphaInfo n}
    (hpc : .ok pc ∈ (alphaInfoFor env.num env.L env.over env.dict rFunc o).support) : Pos3 pc := by
  cases o with
  | none => exact withR_pos (fun _ => alphaPre_pos3 h) hpc
  | some a =>
    simp only [alphaInfoFor, PMF.support_pure, Set.mem_singleton_iff, Outcome.ok.injEq] at hpc
    rw [hpc]; exact ho a rfl

theorem alphaKInfoFor_pos (h : GoodEnv env) {rFunc : ℝ → ℝ} {size : ℕ} {o : Option (AlphaInfo n)} (ho : ∀ pc, o = some pc → Pos3 pc)
    {pc : AlphaInfo n} (hpc : .ok pc ∈ (alphaKInfoFor env.num env.L env.over (env.dictK size) rFunc size o).support) : Pos3 pc := by
  cases o with
  | none => exact withR_pos (fun _ => alphaKPre_pos3 h) hpc
  | some a =>
    simp only [alphaKInfoFor] at hpc
    split at hpc
    · simp only [PMF.support_pure, Set.mem_singleton_iff, Outcome.ok.injEq] at hpc
      rw [hpc]; exact ho a rfl
    · exact withR_pos (fun _ => alphaKPre_pos3 h) hpc

theorem exactAlpha_nodup (h : GoodEnv env) {c : Cache n} (hc : CachePos c) {rFunc : ℝ → ℝ} {m : ℕ} {l : List (Fin n)} {c' : Cache n}
    (ho : .ok (l, c') ∈ (sessCall env c (.exactAlpha rFunc m)).support) : l.Nodup ∧ CachePos c' := by
  obtain ⟨pc, b, v, r, rfl, h1, h2⟩ := exactAlpha_ok ho
  have h3 := alphaInfoFor_pos h (alphaOf_pos hc) h1
  obtain ⟨-, h4⟩ := alphaLoop_nodup h.inner h.psd m 0 pc h3.1 _ h2
  exact ⟨h4, h3⟩

theorem kAlpha_nodup (h : GoodEnv env) {c : Cache n} (hc : CachePos c) {rFunc : ℝ → ℝ} {size m ms : ℕ} {es : Bool} {l : List (Fin n)}
    {c' : Cache n} (ho : .ok (l, c') ∈ (sessCall env c (.kAlpha rFunc size m ms es)).support) : l.Nodup ∧ CachePos c' := by
  obtain ⟨pc, info', rfl, h1, h2⟩ := kAlpha_ok ho
  have h3 := alphaKInfoFor_pos h (alphaOf_pos hc) h1
  exact alphaKLoop_nodup h.inner h.psd size m es ms _ pc h3 (fun l hl => absurd hl (by simp [kCountInit])) l info' h2

theorem cachePos_reach (h : GoodEnv env) {hist : List SessCall} {c : Cache n} (hr : SessReach env hist c) : CachePos c := by
  induction hr with
  | init => trivial
  | @returned h' c c' call l hc hs ih =>
    cases call with
    | exactVfx p => obtain ⟨pc, rfl, -⟩ := exactVfx_ok hs; trivial
    | kVfx p size => obtain ⟨-, pc, j, rfl, -⟩ := kVfx_ok hs; trivial
    | exactAlpha rFunc m => exact (exactAlpha_nodup h ih hs).2
    | kAlpha rFunc size m ms es => exact (kAlpha_nodup h ih hs).2
  | raised hc hs ih => exact ih

end Verif
