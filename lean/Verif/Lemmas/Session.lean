import Verif.Lemmas.Sampler2

/-!
Invariant of the cached information of the intermediate samplers, and laws of the calls.
-/

namespace Verif
open Verif Verif.Spec Verif.Model Matrix
open scoped ENNReal

variable {n : ℕ} {env : SessEnv n}

/-- what is known of the cached information after any history -/
def SessInv (env : SessEnv n) : Cache n → Prop
  | .empty => True
  | .vfx pc => VfxOK env.L pc ∧ pc.q = pc.s * pc.s ∧ pc.alphaStar ≤ 1
  | .alpha pc => AlphaOK env.L pc ∧ (pc.k = -1 ∨ AlphaFamOK env.L pc)

/-- what is known of the cached information after a history of calls that sample DPPs of random size -/
def SessOne : Cache n → Prop
  | .empty => True
  | .vfx pc => pc.alphaStar = 1
  | .alpha pc => pc.alphaHat = 1

theorem _root_.Verif.Spec.GoodEnv.eps' (h : GoodEnv env) : n * env.num.eps < 1 := by
  refine lt_of_le_of_lt ?_ h.eps
  have h1 := h.num.eps
  have h2 : 0 ≤ env.L.trace := h.psd.trace_nonneg
  have h3 : 0 ≤ env.L.trace * (n * env.num.eps) := by positivity
  nlinarith

theorem mem_store {β : Type*} {f : β → Cache n} {p : PMF (Outcome (List (Fin n) × β))} {o : Outcome (List (Fin n) × Cache n)} :
    o ∈ (store f p).support ↔ (∃ l b, .ok (l, b) ∈ p.support ∧ o = .ok (l, f b)) ∨ ∃ e, .raise e ∈ p.support ∧ o = .raise e := by
  unfold store
  rw [mem_support_andThen]
  constructor
  · rintro (⟨⟨l, b⟩, h1, h2⟩ | h)
    · rw [PMF.support_pure, Set.mem_singleton_iff] at h2
      exact Or.inl ⟨l, b, h1, h2⟩
    · exact Or.inr h
  · rintro (⟨l, b, h1, rfl⟩ | h)
    · exact Or.inl ⟨(l, b), h1, by simp⟩
    · exact Or.inr h

theorem store_law {β : Type*} {f : β → Cache n} {p : PMF (Outcome (List (Fin n) × β))} {w : Finset (Fin n) → ℝ} (h : LawIs p w) :
    LawIs (store f p) w := h.relabel fun r => f r.2

theorem store_succeeds {β : Type*} (f : β → Cache n) (p : PMF (Outcome (List (Fin n) × β))) :
    PP (store f p) Succeeds = PP p Succeeds := by
  rw [PP_succeeds, PP_succeeds]
  unfold store
  rw [PE_andThen]
  congr 1
  funext o
  cases o with
  | raise e => simp [hitOk]
  | ok a => simp only [PE_pure]; rfl

theorem store_draws {β : Type*} (f : β → Cache n) (p : PMF (Outcome (List (Fin n) × β))) (T : Finset (Fin n)) :
    PP (store f p) (Draws T) = PP p (Draws T) := by
  rw [PP_draws, PP_draws]
  unfold store
  rw [PE_andThen]
  congr 1
  funext o
  cases o with
  | raise e => simp [hitDraw]
  | ok a => simp only [PE_pure]; rfl

/-! ### the cached information used by the calls -/

theorem vfxPre_inv (h : GoodEnv env) {p : VfxParams} {d : Option ℝ} {pc : VfxInfo n}
    (hpc : .ok pc ∈ (vfxPre env.num env.L env.over env.dict p d).support) : SessInv env (.vfx pc) := by
  obtain ⟨h1, h2, -, -, h5, -⟩ := vfxPre_support h.num h.psd h.eps h.over h.dict hpc
  exact ⟨h1, h5, h2⟩

theorem vfxInfoFor_inv (h : GoodEnv env) {p : VfxParams} {info : Option (VfxInfo n)}
    (hi : ∀ pc, info = some pc → SessInv env (.vfx pc)) {pc : VfxInfo n}
    (ho : .ok pc ∈ (vfxInfoFor env.num env.L env.over env.dict p info).support) : SessInv env (.vfx pc) := by
  cases info with
  | none => exact vfxPre_inv h ho
  | some pc0 =>
    simp only [vfxInfoFor, PMF.support_pure, Set.mem_singleton_iff, Outcome.ok.injEq] at ho
    rw [ho]
    exact hi pc0 rfl

theorem vfxInfoFor_one (h : GoodEnv env) {p : VfxParams} {info : Option (VfxInfo n)}
    (hi : ∀ pc, info = some pc → pc.alphaStar = 1) {pc : VfxInfo n}
    (ho : .ok pc ∈ (vfxInfoFor env.num env.L env.over env.dict p info).support) : pc.alphaStar = 1 := by
  cases info with
  | none => exact (vfxPre_support h.num h.psd h.eps h.over h.dict ho).2.2.1 rfl
  | some pc0 =>
    simp only [vfxInfoFor, PMF.support_pure, Set.mem_singleton_iff, Outcome.ok.injEq] at ho
    rw [ho]
    exact hi pc0 rfl

theorem kVfxInfoFor_inv (h : GoodEnv env) {p : VfxParams} {size : ℕ} {info : Option (VfxInfo n)}
    (hi : ∀ pc, info = some pc → SessInv env (.vfx pc)) {pc : VfxInfo n}
    (ho : .ok pc ∈ (kVfxInfoFor env.num env.L env.over env.dict p size info).support) : SessInv env (.vfx pc) := by
  cases info with
  | none => exact vfxPre_inv h ho
  | some pc0 =>
    simp only [kVfxInfoFor] at ho
    split at ho
    · simp only [PMF.support_pure, Set.mem_singleton_iff, Outcome.ok.injEq] at ho
      rw [ho]
      exact hi pc0 rfl
    · exact vfxPre_inv h ho

theorem mem_withR {rFunc : ℝ → ℝ} {p : PMF (Outcome (AlphaInfo n))} {pc : AlphaInfo n} (h : .ok pc ∈ (withR rFunc p).support) :
    ∃ pc0, .ok pc0 ∈ p.support ∧ pc = { pc0 with r := rFunc (nysDeff pc0.dict pc0.alphaHat) } := by
  unfold withR at h
  rw [mem_support_andThen] at h
  rcases h with ⟨pc0, h1, h2⟩ | ⟨e, -, h2⟩
  · simp only [PMF.support_pure, Set.mem_singleton_iff, Outcome.ok.injEq] at h2
    exact ⟨pc0, h1, h2⟩
  · exact absurd h2 (by simp)

theorem alphaInfoFor_inv (h : GoodEnv env) {rFunc : ℝ → ℝ} {m : ℕ} (ht : TieFree env (.exactAlpha rFunc m))
    {info : Option (AlphaInfo n)} (hi : ∀ pc, info = some pc → SessInv env (.alpha pc)) {pc : AlphaInfo n}
    (ho : .ok pc ∈ (alphaInfoFor env.num env.L env.over env.dict rFunc info).support) : SessInv env (.alpha pc) := by
  cases info with
  | none =>
    obtain ⟨pc0, h1, rfl⟩ := mem_withR ho
    obtain ⟨-, h3, -, h5, -⟩ := alphaPre_support h.num h.psd h.eps' h.over h.dict h1
    obtain ⟨h6, h7⟩ := ht pc0 h1
    exact ⟨h5 _ h6 h7, Or.inl h3⟩
  | some pc0 =>
    simp only [alphaInfoFor, PMF.support_pure, Set.mem_singleton_iff, Outcome.ok.injEq] at ho
    rw [ho]
    exact hi pc0 rfl

theorem alphaInfoFor_one (h : GoodEnv env) {rFunc : ℝ → ℝ}
    {info : Option (AlphaInfo n)} (hi : ∀ pc, info = some pc → pc.alphaHat = 1) {pc : AlphaInfo n}
    (ho : .ok pc ∈ (alphaInfoFor env.num env.L env.over env.dict rFunc info).support) : pc.alphaHat = 1 := by
  cases info with
  | none =>
    obtain ⟨pc0, h1, rfl⟩ := mem_withR ho
    exact (alphaPre_support h.num h.psd h.eps' h.over h.dict h1).1
  | some pc0 =>
    simp only [alphaInfoFor, PMF.support_pure, Set.mem_singleton_iff, Outcome.ok.injEq] at ho
    rw [ho]
    exact hi pc0 rfl

theorem alphaKInfoFor_inv (h : GoodEnv env) {rFunc : ℝ → ℝ} {size m ms : ℕ} {es : Bool}
    (ht : TieFree env (.kAlpha rFunc size m ms es))
    {info : Option (AlphaInfo n)} (hi : ∀ pc, info = some pc → SessInv env (.alpha pc)) {pc : AlphaInfo n}
    (ho : .ok pc ∈ (alphaKInfoFor env.num env.L env.over (env.dictK size) rFunc size info).support) : AlphaFamOK env.L pc := by
  have hpre : .ok pc ∈ (withR rFunc (alphaKPre env.num env.L env.over (env.dictK size) size)).support → AlphaFamOK env.L pc := by
    intro h0
    obtain ⟨pc0, h1, rfl⟩ := mem_withR h0
    obtain ⟨-, -, -, -, h5, -⟩ := alphaKPre_support h.num h.psd h.eps' h.over (h.dictK size) h1
    obtain ⟨h6, h7⟩ := ht pc0 h1
    exact h5 _ h6 h7
  cases info with
  | none => exact hpre ho
  | some pc0 =>
    simp only [alphaKInfoFor] at ho
    split at ho
    · rename_i hk
      simp only [PMF.support_pure, Set.mem_singleton_iff, Outcome.ok.injEq] at ho
      rw [ho]
      rcases (hi pc0 rfl).2 with h1 | h1
      · rw [h1] at hk
        omega
      · exact h1
    · exact hpre ho

/-! ### the samplers as functions of an optional info -/

/-- the vfx info in the cache -/
def vfxOf : Cache n → Option (VfxInfo n)
  | .vfx pc => some pc
  | _ => none

/-- the alpha info in the cache -/
def alphaOf : Cache n → Option (AlphaInfo n)
  | .alpha pc => some pc
  | _ => none

theorem exactVfx_cases (env : SessEnv n) (p : VfxParams) (c : Cache n) :
    (∃ e, exactVfx env p c = PMF.pure (.raise e)) ∨
      exactVfx env p c = store .vfx (dppVfxSampler env.num env.inner env.L env.over env.dict p (vfxOf c)) := by
  cases c with
  | empty => exact Or.inr rfl
  | vfx pc => exact Or.inr rfl
  | alpha pc => exact Or.inl ⟨_, rfl⟩

theorem kVfx_cases (env : SessEnv n) (p : VfxParams) (size : ℕ) (c : Cache n) :
    (∃ e, kVfx env p size c = PMF.pure (.raise e)) ∨
      kVfx env p size c = store .vfx (kDppVfxSampler env.num env.inner env.L env.over env.dict p size (vfxOf c)) := by
  cases c with
  | empty => exact Or.inr rfl
  | vfx pc => exact Or.inr rfl
  | alpha pc => exact Or.inl ⟨_, rfl⟩

theorem exactAlpha_cases (env : SessEnv n) (rFunc : ℝ → ℝ) (m : ℕ) (c : Cache n) :
    (∃ e, exactAlpha env rFunc m c = PMF.pure (.raise e)) ∨
      exactAlpha env rFunc m c = store .alpha (alphaDppSampler env.num env.inner env.L env.over env.dict rFunc m (alphaOf c)) := by
  cases c with
  | empty => exact Or.inr rfl
  | alpha pc => exact Or.inr rfl
  | vfx pc => exact Or.inl ⟨_, rfl⟩

theorem kAlpha_cases (env : SessEnv n) (rFunc : ℝ → ℝ) (size m ms : ℕ) (es : Bool) (c : Cache n) :
    (∃ e, kAlpha env rFunc size m ms es c = PMF.pure (.raise e)) ∨
      kAlpha env rFunc size m ms es c
        = store .alpha (alphaKDppSampler env.num env.inner env.L env.over (env.dictK size) rFunc size m ms es (alphaOf c)) := by
  cases c with
  | empty => exact Or.inr rfl
  | alpha pc => exact Or.inr rfl
  | vfx pc => exact Or.inl ⟨_, rfl⟩

theorem vfxOf_inv {c : Cache n} (hc : SessInv env c) : ∀ pc, vfxOf c = some pc → SessInv env (.vfx pc) := by
  intro pc h
  cases c <;> simp only [vfxOf, reduceCtorEq, Option.some.injEq] at h
  rw [← h]; exact hc

theorem alphaOf_inv {c : Cache n} (hc : SessInv env c) : ∀ pc, alphaOf c = some pc → SessInv env (.alpha pc) := by
  intro pc h
  cases c <;> simp only [alphaOf, reduceCtorEq, Option.some.injEq] at h
  rw [← h]; exact hc

theorem vfxOf_one {c : Cache n} (hc : SessOne c) : ∀ pc, vfxOf c = some pc → pc.alphaStar = 1 := by
  intro pc h
  cases c <;> simp only [vfxOf, reduceCtorEq, Option.some.injEq] at h
  rw [← h]; exact hc

theorem alphaOf_one {c : Cache n} (hc : SessOne c) : ∀ pc, alphaOf c = some pc → pc.alphaHat = 1 := by
  intro pc h
  cases c <;> simp only [alphaOf, reduceCtorEq, Option.some.injEq] at h
  rw [← h]; exact hc

/-- `sample_exact(mode='vfx')` that returns -/
theorem exactVfx_ok {p : VfxParams} {c : Cache n} {l : List (Fin n)} {c' : Cache n} (ho : .ok (l, c') ∈ (exactVfx env p c).support) :
    ∃ pc, c' = .vfx pc ∧ .ok pc ∈ (vfxInfoFor env.num env.L env.over env.dict p (vfxOf c)).support := by
  rcases exactVfx_cases env p c with ⟨e, h⟩ | h
  · rw [h] at ho; exact absurd ho (by simp)
  rw [h, mem_store] at ho
  rcases ho with ⟨l', b, h1, h2⟩ | ⟨e, -, h2⟩
  swap
  · exact absurd h2 (by simp)
  simp only [Outcome.ok.injEq, Prod.mk.injEq] at h2
  refine ⟨b, h2.2, ?_⟩
  unfold dppVfxSampler at h1
  rw [mem_support_andThen] at h1
  rcases h1 with ⟨pc, h3, h1⟩ | ⟨e, -, h1⟩
  swap
  · exact absurd h1 (by simp)
  rw [mem_support_andThen] at h1
  rcases h1 with ⟨r, -, h1⟩ | ⟨e, -, h1⟩
  swap
  · exact absurd h1 (by simp)
  simp only [PMF.support_pure, Set.mem_singleton_iff, Outcome.ok.injEq, Prod.mk.injEq] at h1
  rw [h1.2]; exact h3

/-- `sample_exact_k_dpp(size, mode='vfx')` that returns -/
theorem kVfx_ok {p : VfxParams} {size : ℕ} {c : Cache n} {l : List (Fin n)} {c' : Cache n}
    (ho : .ok (l, c') ∈ (kVfx env p size c).support) :
    l.length = size ∧ ∃ pc j, c' = .vfx { pc with rejToFirst := j } ∧
      .ok pc ∈ (kVfxInfoFor env.num env.L env.over env.dict p size (vfxOf c)).support := by
  rcases kVfx_cases env p size c with ⟨e, h⟩ | h
  · rw [h] at ho; exact absurd ho (by simp)
  rw [h, mem_store] at ho
  rcases ho with ⟨l', b, h1, h2⟩ | ⟨e, -, h2⟩
  swap
  · exact absurd h2 (by simp)
  simp only [Outcome.ok.injEq, Prod.mk.injEq] at h2
  unfold kDppVfxSampler at h1
  rw [mem_support_andThen] at h1
  rcases h1 with ⟨pc, h3, h1⟩ | ⟨e, -, h1⟩
  swap
  · exact absurd h1 (by simp)
  rcases kVfxLoop_gen _ _ _ _ _ _ _ h1 with ⟨e, h5⟩ | ⟨l', j, h5, h6, -⟩
  · exact absurd h5 (by simp)
  · simp only [Outcome.ok.injEq, Prod.mk.injEq] at h5
    refine ⟨by rw [h2.1, h5.1]; exact h6, pc, j, by rw [h2.2, h5.2], h3⟩

/-- `sample_exact(mode='alpha')` that returns -/
theorem exactAlpha_ok {rFunc : ℝ → ℝ} {m : ℕ} {c : Cache n} {l : List (Fin n)} {c' : Cache n}
    (ho : .ok (l, c') ∈ (exactAlpha env rFunc m c).support) :
    ∃ pc b v r, c' = .alpha { pc with
      bound := b
      valid := v } ∧ .ok pc ∈ (alphaInfoFor env.num env.L env.over env.dict rFunc (alphaOf c)).support ∧
      .ok (l, r, { pc with
      bound := b
      valid := v }) ∈ (alphaLoop env.inner env.L m 0 pc).support := by
  rcases exactAlpha_cases env rFunc m c with ⟨e, h⟩ | h
  · rw [h] at ho; exact absurd ho (by simp)
  rw [h, mem_store] at ho
  rcases ho with ⟨l', b, h1, h2⟩ | ⟨e, -, h2⟩
  swap
  · exact absurd h2 (by simp)
  simp only [Outcome.ok.injEq, Prod.mk.injEq] at h2
  unfold alphaDppSampler at h1
  rw [mem_support_andThen] at h1
  rcases h1 with ⟨pc, h3, h1⟩ | ⟨e, -, h1⟩
  swap
  · exact absurd h1 (by simp)
  rw [mem_support_andThen] at h1
  rcases h1 with ⟨r, hr, h1⟩ | ⟨e, -, h1⟩
  swap
  · exact absurd h1 (by simp)
  simp only [PMF.support_pure, Set.mem_singleton_iff, Outcome.ok.injEq, Prod.mk.injEq] at h1
  rcases alphaLoop_gen _ _ _ _ _ _ hr with ⟨e, h5⟩ | ⟨l'', r', bd, v, h5, -⟩
  · exact absurd h5 (by simp)
  · simp only [Outcome.ok.injEq] at h5
    subst h5
    refine ⟨pc, bd, v, r', by rw [h2.2, h1.2], h3, ?_⟩
    rw [h2.1, h1.1]
    exact hr

/-- `sample_exact_k_dpp(size, mode='alpha')` that returns -/
theorem kAlpha_ok {rFunc : ℝ → ℝ} {size m ms : ℕ} {es : Bool} {c : Cache n} {l : List (Fin n)} {c' : Cache n}
    (ho : .ok (l, c') ∈ (kAlpha env rFunc size m ms es c).support) :
    ∃ pc info', c' = .alpha info' ∧
      .ok pc ∈ (alphaKInfoFor env.num env.L env.over (env.dictK size) rFunc size (alphaOf c)).support ∧
      .ok (l, info') ∈ (alphaKLoop env.inner env.L size m es ms (kCountInit size pc) pc).support := by
  rcases kAlpha_cases env rFunc size m ms es c with ⟨e, h⟩ | h
  · rw [h] at ho; exact absurd ho (by simp)
  rw [h, mem_store] at ho
  rcases ho with ⟨l', b, h1, h2⟩ | ⟨e, -, h2⟩
  swap
  · exact absurd h2 (by simp)
  simp only [Outcome.ok.injEq, Prod.mk.injEq] at h2
  unfold alphaKDppSampler at h1
  rw [mem_support_andThen] at h1
  rcases h1 with ⟨pc, h3, h1⟩ | ⟨e, -, h1⟩
  swap
  · exact absurd h1 (by simp)
  exact ⟨pc, b, h2.2, h3, by rw [h2.1]; exact h1⟩

theorem kCountInit_inv (size : ℕ) (pc : AlphaInfo n) : KInv size (kCountInit size pc) :=
  ⟨fun l h => absurd h (by simp [kCountInit]), fun h => absurd h (by simp [kCountInit])⟩

/-! ### the invariant -/

theorem sessInv_step (h : GoodEnv env) {c c' : Cache n} (hc : SessInv env c) {call : SessCall} (ht : TieFree env call)
    {l : List (Fin n)} (ho : .ok (l, c') ∈ (sessCall env c call).support) : SessInv env c' := by
  cases call with
  | exactVfx p =>
    obtain ⟨pc, rfl, h1⟩ := exactVfx_ok ho
    exact vfxInfoFor_inv h (vfxOf_inv hc) h1
  | kVfx p size =>
    obtain ⟨-, pc, j, rfl, h1⟩ := kVfx_ok ho
    obtain ⟨h2, h3, h4⟩ := kVfxInfoFor_inv h (vfxOf_inv hc) h1
    exact ⟨⟨⟨h2.psd, h2.alpha, h2.q, h2.s, h2.rls, h2.sum, h2.zero⟩, h2.acc⟩, h3, h4⟩
  | exactAlpha rFunc m =>
    obtain ⟨pc, b, v, r, rfl, h1, h2⟩ := exactAlpha_ok ho
    obtain ⟨h3, h4⟩ := alphaInfoFor_inv h ht (alphaOf_inv hc) h1
    rcases alphaLoop_support h.inner m 0 pc h3 _ h2 with h5 | ⟨l', r', b', v', h5, -, h6, -⟩
    · exact absurd h5 (by simp)
    · simp only [Outcome.ok.injEq, Prod.mk.injEq] at h5
      rw [h5.2.2]
      exact ⟨h6, h4.imp id fun h7 => h7.bounds h6⟩
  | kAlpha rFunc size m ms es =>
    obtain ⟨pc, info', rfl, h1, h2⟩ := kAlpha_ok ho
    have h3 := alphaKInfoFor_inv h ht (alphaOf_inv hc) h1
    rcases alphaKLoop_support h.inner size m es ms _ pc (kCountInit_inv size pc) h3 _ h2 with h5 | ⟨l', i', h5, -, -, h6, -⟩
    · exact absurd h5 (by simp)
    · simp only [Outcome.ok.injEq, Prod.mk.injEq] at h5
      rw [h5.2]
      exact ⟨h6.now, Or.inr h6⟩

theorem sessInv_reach (h : GoodEnv env) {hist : List SessCall} {c : Cache n} (hr : SessReach env hist c)
    (ht : ∀ call ∈ hist, TieFree env call) : SessInv env c := by
  induction hr with
  | init => trivial
  | returned hc hs ih =>
    exact sessInv_step h (ih fun call hcall => ht call (List.mem_append_left _ hcall))
      (ht _ (List.mem_append_right _ List.mem_cons_self)) hs
  | raised hc hs ih => exact ih fun call hcall => ht call (List.mem_append_left _ hcall)

theorem sessOne_step (h : GoodEnv env) {c c' : Cache n} (hc : SessOne c) {call : SessCall} (hex : call.isExact)
    {l : List (Fin n)} (ho : .ok (l, c') ∈ (sessCall env c call).support) : SessOne c' := by
  cases call with
  | exactVfx p =>
    obtain ⟨pc, rfl, h1⟩ := exactVfx_ok ho
    exact vfxInfoFor_one h (vfxOf_one hc) h1
  | kVfx p size => exact absurd hex (by simp [SessCall.isExact])
  | exactAlpha rFunc m =>
    obtain ⟨pc, b, v, r, rfl, h1, -⟩ := exactAlpha_ok ho
    have h2 : pc.alphaHat = 1 := alphaInfoFor_one h (alphaOf_one hc) h1
    exact h2
  | kAlpha rFunc size m ms es => exact absurd hex (by simp [SessCall.isExact])

theorem sessOne_reach (h : GoodEnv env) {hist : List SessCall} {c : Cache n} (hr : SessReach env hist c)
    (hex : ∀ call ∈ hist, call.isExact) : SessOne c := by
  induction hr with
  | init => trivial
  | returned hc hs ih =>
    exact sessOne_step h (ih fun call hcall => hex call (List.mem_append_left _ hcall))
      (hex _ (List.mem_append_right _ List.mem_cons_self)) hs
  | raised hc hs ih => exact ih fun call hcall => hex call (List.mem_append_left _ hcall)

/-! ### laws -/

theorem dppVfxSampler_some_law (h : GoodEnv env) {pc : VfxInfo n} (hpc : SessInv env (.vfx pc)) (p : VfxParams) :
    LawIs (dppVfxSampler env.num env.inner env.L env.over env.dict p (some pc)) (lDppProb ((vfxBias pc * pc.alphaStar) • env.L)) := by
  unfold dppVfxSampler
  refine LawIs.andThen fun a ha => ?_
  simp only [vfxInfoFor, PMF.support_pure, Set.mem_singleton_iff, Outcome.ok.injEq] at ha
  rw [ha]
  exact (vfxLoop_law h.inner hpc.1 _).relabel fun _ => pc

theorem kDppVfxSampler_law (h : GoodEnv env) {info : Option (VfxInfo n)} (hi : ∀ pc, info = some pc → SessInv env (.vfx pc))
    (p : VfxParams) (size : ℕ) :
    LawIs (kDppVfxSampler env.num env.inner env.L env.over env.dict p size info) (kDppProb env.L size) := by
  unfold kDppVfxSampler
  exact LawIs.andThen fun pc ha => kVfxLoop_law h.inner (kVfxInfoFor_inv h hi ha).1 _ _ _

theorem alphaDppSampler_law (h : GoodEnv env) {rFunc : ℝ → ℝ} {m : ℕ} (ht : TieFree env (.exactAlpha rFunc m))
    {info : Option (AlphaInfo n)} (hi : ∀ pc, info = some pc → SessInv env (.alpha pc)) (hi1 : ∀ pc, info = some pc → pc.alphaHat = 1) :
    LawIs (alphaDppSampler env.num env.inner env.L env.over env.dict rFunc m info) (lDppProb env.L) := by
  unfold alphaDppSampler
  refine LawIs.andThen fun pc ha => ?_
  have h1 := alphaInfoFor_one h hi1 ha
  have h2 := (alphaLoop_law h.inner (alphaInfoFor_inv h ht hi ha).1 m).1
  rw [h1, one_smul] at h2
  exact h2.relabel fun r => r.2.2

theorem alphaKDppSampler_law (h : GoodEnv env) {rFunc : ℝ → ℝ} {size m ms : ℕ} {es : Bool}
    (ht : TieFree env (.kAlpha rFunc size m ms es))
    {info : Option (AlphaInfo n)} (hi : ∀ pc, info = some pc → SessInv env (.alpha pc)) :
    LawIs (alphaKDppSampler env.num env.inner env.L env.over (env.dictK size) rFunc size m ms es info) (kDppProb env.L size) := by
  unfold alphaKDppSampler
  exact LawIs.andThen fun pc ha => alphaKLoop_law h.inner _ _ _ _ rfl (alphaKInfoFor_inv h ht hi ha)

end Verif
