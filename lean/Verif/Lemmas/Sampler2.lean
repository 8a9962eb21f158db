import Verif.Lemmas.Sampler
import Verif.Model.Session

/-!
Facts about the intermediate samplers used by the properties.
-/

namespace Verif
open Verif Verif.Spec Verif.Model Matrix
open scoped ENNReal

variable {n : ℕ} {L : Matrix (Fin n) (Fin n) ℝ}

/-! ### outcomes, for any sampler of the small DPP and any state -/

theorem kVfxLoop_gen (inner : DppSampler) (L : Matrix (Fin n) (Fin n) ℝ) (size m : ℕ) : ∀ (f : ℕ) (pc : VfxInfo n)
    (o : Outcome (List (Fin n) × VfxInfo n)), o ∈ (kVfxLoop inner L size m f pc).support →
    (∃ e, o = .raise e) ∨ ∃ l j, o = .ok (l, { pc with rejToFirst := j }) ∧ l.length = size ∧ pc.rejToFirst ≤ j
  | 0, pc, o, h => by
    rw [kVfxLoop] at h
    exact Or.inl ⟨_, by simpa using h⟩
  | f + 1, pc, o, h => by
    rw [kVfxLoop, mem_support_andThen] at h
    rcases h with ⟨r, -, h⟩ | ⟨e, -, rfl⟩
    · split at h
      · rename_i hl
        rw [PMF.support_pure, Set.mem_singleton_iff] at h
        exact Or.inr ⟨r.1, _, h, hl, Nat.le_add_right _ _⟩
      · rcases kVfxLoop_gen inner L size m f _ o h with h1 | ⟨l, j, h1, h2, h3⟩
        · exact Or.inl h1
        · exact Or.inr ⟨l, j, h1, h2, (Nat.le_add_right _ _).trans h3⟩
    · exact Or.inl ⟨e, rfl⟩

/-- one round of alpha-dpp: the bounds only decrease, certified bounds do not change -/
theorem alphaRound_gen {pc : AlphaInfo n} {o : Outcome (AlphaInfo n × Option (Fin n → ℕ))}
    (ho : o ∈ (alphaRound L pc).support) : o = .valueError ∨ ∃ b v x, o = .ok ({ pc with
      bound := b
      valid := v }, x) ∧ (∀ i, b i ≤ pc.bound i) ∧ ∀ i, pc.valid i = true → v i = true ∧ b i = pc.bound i := by
  rcases alphaRound_support ho with h1 | ⟨sv, x, h1, h2, -⟩
  · exact Or.inl h1
  · refine Or.inr ⟨_, _, x, h1, fun i => ?_, fun i hi => ?_⟩
    · change newBound _ _ _ _ i ≤ _
      unfold newBound
      split
      · rename_i ht
        exact (h2 i ht).2
      · exact le_rfl
    · have hn : ¬ toRecompute pc.valid sv i := by rintro ⟨-, h0⟩; rw [hi] at h0; simp at h0
      constructor
      · change newValid _ _ i = true
        unfold newValid; rw [if_neg hn, hi]
      · change newBound _ _ _ _ i = _
        unfold newBound; rw [if_neg hn]

theorem alphaLoop_gen (inner : DppSampler) (L : Matrix (Fin n) (Fin n) ℝ) : ∀ m rej pc,
    ∀ o ∈ (alphaLoop inner L m rej pc).support, (∃ e, o = .raise e) ∨ ∃ l r b v, o = .ok (l, r, { pc with
      bound := b
      valid := v }) ∧ (∀ i, b i ≤ pc.bound i) ∧ (∀ i, pc.valid i = true → v i = true ∧ b i = pc.bound i) ∧ rej ≤ r ∧ r < rej + m
  | 0, rej, pc, o, ho => by
    rw [alphaLoop] at ho; left; exact ⟨_, by simpa using ho⟩
  | m + 1, rej, pc, o, ho => by
    rw [alphaLoop, mem_support_andThen] at ho
    rcases ho with ⟨a, ha, ho⟩ | ⟨e, he, rfl⟩
    swap
    · exact Or.inl ⟨e, rfl⟩
    rcases alphaRound_gen ha with h1 | ⟨b, v, x, h1, hb, hv⟩
    · simp at h1
    simp only [Outcome.ok.injEq] at h1
    subst h1
    cases x with
    | none =>
      rcases alphaLoop_gen inner L m (rej + 1) _ o ho with h4 | ⟨l, r, b', v', h4, h5, h6, h7, h8⟩
      · exact Or.inl h4
      · refine Or.inr ⟨l, r, b', v', h4, fun i => (h5 i).trans (hb i), fun i hi => ?_, by omega, by omega⟩
        obtain ⟨h9, h10⟩ := hv i hi
        obtain ⟨h11, h12⟩ := h6 i h9
        exact ⟨h11, h12.trans h10⟩
    | some c =>
      simp only at ho
      rw [PMF.mem_support_map_iff] at ho
      obtain ⟨o', -, rfl⟩ := ho
      cases o' with
      | raise e => exact Or.inl ⟨e, rfl⟩
      | ok l => exact Or.inr ⟨l, rej, b, v, rfl, hb, hv, le_rfl, by omega⟩

/-- what is known of an outcome of the k-DPP loop, for any sampler of the small DPP and any state -/
def KGen (size : ℕ) (info : AlphaInfo n) (o : Outcome (List (Fin n) × AlphaInfo n)) : Prop :=
  (∃ e, o = .raise e) ∨ ∃ l info', o = .ok (l, info') ∧ l.length = size ∧ (0 < info.alphaMin → info.alphaMin ≤ info.alphaHat →
    info.alphaHat ≤ info.alphaMax → Refines info info')

theorem KGen.of_refines {size : ℕ} {a b : AlphaInfo n}
    (h : 0 < a.alphaMin → a.alphaMin ≤ a.alphaHat → a.alphaHat ≤ a.alphaMax → Refines a b)
    {o : Outcome (List (Fin n) × AlphaInfo n)} (ho : KGen size b o) : KGen size a o := by
  rcases ho with ho | ⟨l, info', h1, h2, h3⟩
  · exact Or.inl ho
  · refine Or.inr ⟨l, info', h1, h2, fun ha1 ha2 ha3 => ?_⟩
    have hr := h ha1 ha2 ha3
    obtain ⟨b1, b2, b3, b4⟩ := hr.bracket ha2 ha3
    exact hr.trans (h3 (ha1.trans_le b1) b2 b3)

/-- the kept sample, if any, has the right size; there is one once one was counted -/
structure KLen (size : ℕ) (st : KCount n) : Prop where
  out : ∀ l, st.out = some l → l.length = size
  some : 0 < st.sampleCount → st.out ≠ none

theorem kReturn_gen {size : ℕ} {st : KCount n} {info : AlphaInfo n} (hst : KLen size st)
    {o : Outcome (List (Fin n) × AlphaInfo n)} (ho : o ∈ (kReturn st info).support) : KGen size info o := by
  unfold kReturn at ho
  cases hout : st.out with
  | none =>
    rw [hout] at ho
    simp only [PMF.support_pure, Set.mem_singleton_iff] at ho
    exact Or.inl ⟨_, ho⟩
  | some l =>
    rw [hout] at ho
    simp only [PMF.support_pure, Set.mem_singleton_iff] at ho
    exact Or.inr ⟨l, _, ho, hst.out l hout, fun _ _ _ => kFinal_refines st info⟩

theorem alphaKLoop_gen (inner : DppSampler) (L : Matrix (Fin n) (Fin n) ℝ) (size m : ℕ) (es : Bool) :
    ∀ (f : ℕ) (st : KCount n) (info : AlphaInfo n), KLen size st →
      ∀ o ∈ (alphaKLoop inner L size m es f st info).support, KGen size info o
  | 0, st, info, _, o, ho => by
    rw [alphaKLoop] at ho
    left; exact ⟨_, by simpa using ho⟩
  | f + 1, st, info, hst, o, ho => by
    rw [alphaKLoop_succ, mem_support_andThen] at ho
    rcases ho with ⟨d, hd, ho⟩ | ⟨e, he, rfl⟩
    swap
    · exact Or.inl ⟨e, rfl⟩
    rcases alphaLoop_gen inner L m 0 info _ hd with ⟨e, h⟩ | ⟨l, r, b, v, h, -⟩
    · exact absurd h (by simp)
    rw [Outcome.ok.injEq] at h
    subst h
    simp only at ho
    have hR0 : Refines info { info with
        bound := b
        valid := v } := Refines.stats info b v _ _ _
    have hR1 := hR0.trans (kRecordInfo_refines size l (kRecord size l st) _)
    have hR2 := hR1.trans (kRej_refines r _)
    have hst1 : KLen size (kRecord size l st) := by
      refine ⟨fun l' hl' => ?_, fun h0 => ?_⟩
      · simp only [kRecord] at hl'
        split at hl'
        · rename_i hlen
          rw [Option.some.injEq] at hl'
          subst hl'
          exact hlen
        · exact hst.out l' hl'
      · simp only [kRecord] at h0 ⊢
        split
        · simp
        · rename_i hlen
          rw [if_neg hlen] at h0
          exact hst.some h0
    have hst2 : KLen size (kUnderOver size l (kRecord size l st)) := ⟨hst1.out, hst1.some⟩
    split at ho
    · exact KGen.of_refines (fun _ _ _ => hR1) (kReturn_gen hst1 ho)
    · refine KGen.of_refines (fun _ _ _ => hR2) ?_
      unfold kCont at ho
      split at ho
      · exact kReturn_gen (st := { kUnderOver size l (kRecord size l st) with found := true }) ⟨hst2.out, hst2.some⟩ ho
      split at ho
      · split at ho
        · exact KGen.of_refines (fun h _ _ => kReset_refines _ h)
            (kReturn_gen (st := { kUnderOver size l (kRecord size l st) with found := true }) ⟨hst2.out, hst2.some⟩ ho)
        · refine KGen.of_refines (fun h _ _ => kReset_refines (kUnderOver size l (kRecord size l st)) h) ?_
          have hst3 : KLen size (kNext (kUnderOver size l (kRecord size l st))) := ⟨hst2.out, hst2.some⟩
          have h5 := alphaKLoop_gen inner L size m es f _ _ hst3 o ho
          exact KGen.of_refines (fun _ _ _ => Refines.stats _ _ _ _ _ _) h5
      · exact alphaKLoop_gen inner L size m es f _ _ hst2 o ho

/-! ### the vfx loop -/

/-- the loop fails only when all the rounds reject -/
theorem vfxLoop_success {inner : DppSampler} (hin : InnerSpec inner) {pc : VfxInfo n} (h : VfxOK L pc) : ∀ m rej,
    PP (vfxLoop inner L pc m rej) Succeeds + PP (vfxRound L pc) (fun o => o = .ok none) ^ m = 1
  | 0, rej => by
    rw [PP_succeeds, vfxLoop, PE_pure]; simp [hitOk]
  | m + 1, rej => by
    classical
    have ih := vfxLoop_success hin h m (rej + 1)
    rw [PP_succeeds] at ih ⊢
    set R := PP (vfxRound L pc) (fun o => o = .ok none) with hR
    set S := PE (vfxLoop inner L pc m (rej + 1)) hitOk with hS
    have h1 : PE (vfxLoop inner L pc (m + 1) rej) hitOk
        = PE (vfxRound L pc) fun o => (if o = .ok none then 1 else 0) * S + (if o = .ok none then 0 else 1) := by
      rw [vfxLoop, PE_andThen]
      refine PE_congr fun o ho => ?_
      have hnr : o ≠ .valueError := by
        intro h0
        rw [h0] at ho
        unfold vfxRound at ho
        rw [if_neg (not_lt.2 (vfxLam_pos h).le), PMF.mem_support_bind_iff] at ho
        obtain ⟨t, -, ho⟩ := ho
        rw [dif_pos h.cat, PMF.mem_support_bind_iff] at ho
        obtain ⟨σ, hσ, ho⟩ := ho
        obtain ⟨h2, h3⟩ := support_sigma h hσ
        rw [← h2, vfxTest_eq h h3, PMF.mem_support_map_iff] at ho
        obtain ⟨b, -, hb⟩ := ho
        exact absurd hb (by simp)
      rcases vfxRound_support ho with h0 | rfl | ⟨c, rfl, -⟩
      · exact absurd h0 hnr
      · simp [hS]
      · simp only [Outcome.ok.injEq, reduceCtorEq, if_false, zero_mul, zero_add]
        rw [PE_map]
        refine Eq.trans (PE_congr (g := fun _ => 1) fun o' ho' => ?_) (PE_const _ 1)
        unfold vfxFinish at ho'
        rw [vfxTilde_eq h.s.le] at ho'
        obtain ⟨l, rfl, -⟩ := tilde_nodup hin h.psd h.alpha.le ho'
        rfl
    have h2 : R + PE (vfxRound L pc) (fun o => if o = .ok none then 0 else 1) = 1 := by
      rw [hR]
      unfold PP
      rw [← PE_add]
      refine Eq.trans (PE_congr (g := fun _ => 1) fun o _ => ?_) (PE_const _ 1)
      split <;> simp
    rw [h1, PE_add, PE_mul_right]
    have h3 : PE (vfxRound L pc) (fun o => if o = .ok none then 1 else 0) = R := by
      rw [hR]; unfold PP; congr 1; funext o; congr
    rw [h3, pow_succ]
    calc R * S + PE (vfxRound L pc) (fun o => if o = .ok none then 0 else 1) + R ^ m * R
        = R * (S + R ^ m) + PE (vfxRound L pc) (fun o => if o = .ok none then 0 else 1) := by ring
      _ = 1 := by rw [ih, mul_one, h2]

/-- the rounds of the vfx loop never raise -/
theorem vfxRound_ok {pc : VfxInfo n} (h : VfxOK L pc) {o : Outcome (Option (Fin n → ℕ))} (ho : o ∈ (vfxRound L pc).support) :
    ∃ x, o = .ok x := by
  unfold vfxRound at ho
  rw [if_neg (not_lt.2 (vfxLam_pos h).le), PMF.mem_support_bind_iff] at ho
  obtain ⟨t, -, ho⟩ := ho
  rw [dif_pos h.cat, PMF.mem_support_bind_iff] at ho
  obtain ⟨σ, hσ, ho⟩ := ho
  obtain ⟨h2, h3⟩ := support_sigma h hσ
  rw [← h2, vfxTest_eq h h3, PMF.mem_support_map_iff] at ho
  obtain ⟨b, -, hb⟩ := ho
  exact ⟨_, hb.symm⟩

/-! ### the bias of vfx -/

theorem vfxBias_ge {pc : VfxInfo n} (hq : 0 < pc.q) : 1 ≤ vfxBias pc := by
  have h1 := Int.le_ceil (pc.q * Real.exp (pc.s / pc.q))
  have h2 := Real.exp_pos (-(pc.s / pc.q))
  unfold vfxBias
  rw [le_div_iff₀ hq, one_mul]
  calc pc.q = pc.q * Real.exp (pc.s / pc.q) * Real.exp (-(pc.s / pc.q)) := by
        rw [mul_assoc, ← Real.exp_add, add_neg_cancel, Real.exp_zero, mul_one]
    _ ≤ _ := mul_le_mul_of_nonneg_right h1 h2.le

theorem vfxBias_lt {pc : VfxInfo n} (hq : 0 < pc.q) : vfxBias pc < 1 + Real.exp (-(pc.s / pc.q)) / pc.q := by
  have h1 := Int.ceil_lt_add_one (pc.q * Real.exp (pc.s / pc.q))
  have h2 := Real.exp_pos (-(pc.s / pc.q))
  unfold vfxBias
  rw [div_lt_iff₀ hq, add_mul, one_mul, div_mul_cancel₀ _ hq.ne']
  calc _ < (pc.q * Real.exp (pc.s / pc.q) + 1) * Real.exp (-(pc.s / pc.q)) := mul_lt_mul_of_pos_right h1 h2
    _ = _ := by rw [add_mul, mul_assoc, ← Real.exp_add, add_neg_cancel, Real.exp_zero, mul_one, one_mul]

/-- no bias exactly when the mean number of draws is an integer before it is rounded -/
theorem vfxBias_eq_one {pc : VfxInfo n} (hq : 0 < pc.q) :
    vfxBias pc = 1 ↔ ∃ k : ℤ, pc.q * Real.exp (pc.s / pc.q) = k := by
  have h2 := Real.exp_pos (pc.s / pc.q)
  have h3 : vfxBias pc = (⌈pc.q * Real.exp (pc.s / pc.q)⌉ : ℝ) / (pc.q * Real.exp (pc.s / pc.q)) := by
    unfold vfxBias
    rw [Real.exp_neg]
    field_simp
  rw [h3, div_eq_one_iff_eq (mul_pos hq h2).ne']
  constructor
  · intro h; exact ⟨_, h.symm⟩
  · rintro ⟨k, hk⟩
    rw [hk, Int.ceil_intCast]

/-- uniform bound for the default `q = s ** 2` -/
theorem exp_bias_le {s : ℝ} (hs : 0 < s) : Real.exp (-(s / (s * s))) / (s * s) ≤ 4 * Real.exp (-2) := by
  have h0 : s / (s * s) = 1 / s := by field_simp
  rw [h0]
  set u := 1 / s with hu
  have hup : 0 < u := by positivity
  have h1 : 1 / (s * s) = u * u := by rw [hu]; field_simp
  rw [div_eq_mul_one_div, h1]
  have h2 : u / 2 ≤ Real.exp (u / 2 - 1) := by have := Real.add_one_le_exp (u / 2 - 1); linarith
  have h3 : (u / 2) * (u / 2) ≤ Real.exp (u / 2 - 1) * Real.exp (u / 2 - 1) :=
    mul_le_mul h2 h2 (by positivity) (Real.exp_pos _).le
  rw [← Real.exp_add] at h3
  have h4 : u / 2 - 1 + (u / 2 - 1) = u + -2 := by ring
  rw [h4, Real.exp_add] at h3
  have h5 : Real.exp (-u) * Real.exp u = 1 := by rw [← Real.exp_add, neg_add_cancel, Real.exp_zero]
  calc Real.exp (-u) * (u * u) = 4 * (Real.exp (-u) * (u / 2 * (u / 2))) := by ring
    _ ≤ 4 * (Real.exp (-u) * (Real.exp u * Real.exp (-2))) := by
        refine mul_le_mul_of_nonneg_left (mul_le_mul_of_nonneg_left h3 (Real.exp_pos _).le) (by norm_num)
    _ = 4 * Real.exp (-2) := by rw [← mul_assoc (Real.exp (-u)), h5, one_mul]

/-- the DPP of a slightly larger kernel -/
theorem lDppProb_smul_bounds (hL : L.PosSemidef) {b B : ℝ} (hb : 1 ≤ b) (hB : b ≤ B) (T : Finset (Fin n)) :
    lDppProb L T / B ^ n ≤ lDppProb (b • L) T ∧ lDppProb (b • L) T ≤ B ^ n * lDppProb L T := by
  have hb0 : 0 ≤ b := zero_le_one.trans hb
  have hB1 : 1 ≤ B := hb.trans hB
  have hB0 : 0 < B := by linarith
  have hpsd := psd_smul hL hb0
  have hd := det_one_add_pos hL
  have hd' := det_one_add_pos hpsd
  have hm := minor_nonneg hL
  have hcard : ∀ S : Finset (Fin n), S.card ≤ n := fun S => (Finset.card_le_univ S).trans_eq (Fintype.card_fin n)
  have h1 : (1 + L).det ≤ (1 + b • L).det := by
    rw [← sum_lDppProb hL, ← sum_lDppProb hpsd]
    refine Finset.sum_le_sum fun S _ => ?_
    rw [minor_smul]
    exact le_mul_of_one_le_left (hm S) (one_le_pow₀ hb)
  have h2 : (1 + b • L).det ≤ B ^ n * (1 + L).det := by
    rw [← sum_lDppProb hL, ← sum_lDppProb hpsd, Finset.mul_sum]
    refine Finset.sum_le_sum fun S _ => ?_
    rw [minor_smul]
    refine mul_le_mul_of_nonneg_right ?_ (hm S)
    calc b ^ S.card ≤ B ^ S.card := pow_le_pow_left₀ hb0 hB _
      _ ≤ B ^ n := pow_le_pow_right₀ hB1 (hcard S)
  unfold lDppProb
  rw [minor_smul]
  constructor
  · rw [div_div, div_le_div_iff₀ (by positivity) hd']
    calc minor L T * (1 + b • L).det ≤ minor L T * (B ^ n * (1 + L).det) := mul_le_mul_of_nonneg_left h2 (hm T)
      _ ≤ b ^ T.card * (minor L T * (B ^ n * (1 + L).det)) := by
          refine le_mul_of_one_le_left ?_ (one_le_pow₀ hb)
          have := hm T
          positivity
      _ = b ^ T.card * minor L T * ((1 + L).det * B ^ n) := by ring
  · rw [← mul_div_assoc]
    refine div_le_div₀ (mul_nonneg (by positivity) (hm T)) ?_ hd h1
    refine mul_le_mul_of_nonneg_right ?_ (hm T)
    calc b ^ T.card ≤ B ^ T.card := pow_le_pow_left₀ hb0 hB _
      _ ≤ B ^ n := pow_le_pow_right₀ hB1 (hcard T)

/-- mixtures of laws that are close to a law -/
theorem PP_andThen_le {α β : Type*} {p : PMF (Outcome α)} {k : α → PMF (Outcome (List (Fin n) × β))} {c : ℝ≥0∞}
    (T : Finset (Fin n)) (h : ∀ a, .ok a ∈ p.support → PP (k a) (Draws T) ≤ PP (k a) Succeeds * c) :
    PP (PMF.andThen p k) (Draws T) ≤ PP (PMF.andThen p k) Succeeds * c := by
  rw [PP_draws, PP_succeeds, PE_andThen, PE_andThen, ← PE_mul_right]
  refine PE_mono fun o ho => ?_
  cases o with
  | raise e => simp [hitDraw, hitOk]
  | ok a =>
    have := h a ho
    rw [PP_draws, PP_succeeds] at this
    exact this

theorem PP_andThen_ge {α β : Type*} {p : PMF (Outcome α)} {k : α → PMF (Outcome (List (Fin n) × β))} {c : ℝ≥0∞}
    (T : Finset (Fin n)) (h : ∀ a, .ok a ∈ p.support → PP (k a) Succeeds * c ≤ PP (k a) (Draws T)) :
    PP (PMF.andThen p k) Succeeds * c ≤ PP (PMF.andThen p k) (Draws T) := by
  rw [PP_draws, PP_succeeds, PE_andThen, PE_andThen, ← PE_mul_right]
  refine PE_mono fun o ho => ?_
  cases o with
  | raise e => simp [hitDraw, hitOk]
  | ok a =>
    have := h a ho
    rw [PP_draws, PP_succeeds] at this
    exact this

/-- mixtures keep a relation between the probabilities of two sets -/
theorem PP_andThen_ratio {α β : Type*} {p : PMF (Outcome α)} {k : α → PMF (Outcome (List (Fin n) × β))} {c d : ℝ≥0∞}
    (S T : Finset (Fin n)) (h : ∀ a, .ok a ∈ p.support → PP (k a) (Draws S) * c = PP (k a) (Draws T) * d) :
    PP (PMF.andThen p k) (Draws S) * c = PP (PMF.andThen p k) (Draws T) * d := by
  rw [PP_draws, PP_draws, PE_andThen, PE_andThen, ← PE_mul_right, ← PE_mul_right]
  refine PE_congr fun o ho => ?_
  cases o with
  | raise e => simp [hitDraw]
  | ok a =>
    have := h a ho
    rw [PP_draws, PP_draws] at this
    exact this

end Verif
