import Verif.Lemmas.TiesKE
import Verif.Lemmas.FivePts2
import Verif.Props.AlphaTies

/-!
# C70: the law of the k-DPP sampler of alpha-dpp when some intermediate samples have acceptance probability one
-/

namespace Verif.Props
open Verif Verif.Spec Verif.Model Matrix
open scoped ENNReal

variable {n : ℕ} {env : SessEnv n}

/-- C70: the items of a sample of the k-DPP sampler of alpha-dpp are distinct, with or without ties, after any history of calls. -/
theorem C70_kalpha_nodup (h : GoodEnv env) (hist : List SessCall) (c : Cache n) (hr : SessReach env hist c) (rFunc : ℝ → ℝ)
    (size maxIter maxSize : ℕ) (es : Bool) (l : List (Fin n)) (c' : Cache n)
    (ho : .ok (l, c') ∈ (sessCall env c (.kAlpha rFunc size maxIter maxSize es)).support) : l.Nodup :=
  (kAlpha_nodup h (cachePos_reach h hr) ho).1

/-- C70, what the ties do, for every kernel, dictionary and `r_func`: on a first call, with or without
`early_stop`, if no intermediate sample
that contains `T₁` is a tie, whatever the rescaling, no other set of the right size is returned too often compared with `T₁`:
`P(T₂) / P(T₁) ≤ det L_{T₂} / det L_{T₁}`. -/
theorem C70_kalpha_ties_bias (h : GoodEnv env) (rFunc : ℝ → ℝ) (size maxIter maxSize : ℕ) (es : Bool) (T₁ T₂ : Finset (Fin n))
    (h1 : T₁.card = size) (h2 : T₂.card = size)
    (hr : ∀ pc, .ok pc ∈ (alphaKPre env.num env.L env.over (env.dictK size) size).support → 0 < rFunc (nysDeff pc.dict pc.alphaHat) ∧
      ∀ a, 0 < a → NoTieOn env.L pc.dict a (rFunc (nysDeff pc.dict pc.alphaHat)) T₁) :
    PP (sessCall env .empty (.kAlpha rFunc size maxIter maxSize es)) (Draws T₂) * ENNReal.ofReal (minor env.L T₁)
      ≤ PP (sessCall env .empty (.kAlpha rFunc size maxIter maxSize es)) (Draws T₁) * ENNReal.ofReal (minor env.L T₂) :=
  (firstK_call_compare h maxIter maxSize es h1 h2 hr).1

/-- C70, the sets that are in no tie: their relative frequencies are those of the k-DPP. -/
theorem C70_kalpha_ties_free_sets (h : GoodEnv env) (rFunc : ℝ → ℝ) (size maxIter maxSize : ℕ) (es : Bool) (T₁ T₂ : Finset (Fin n))
    (h1 : T₁.card = size) (h2 : T₂.card = size)
    (hr : ∀ pc, .ok pc ∈ (alphaKPre env.num env.L env.over (env.dictK size) size).support → 0 < rFunc (nysDeff pc.dict pc.alphaHat) ∧
      ∀ a, 0 < a → NoTieOn env.L pc.dict a (rFunc (nysDeff pc.dict pc.alphaHat)) T₁ ∧
        NoTieOn env.L pc.dict a (rFunc (nysDeff pc.dict pc.alphaHat)) T₂) :
    PP (sessCall env .empty (.kAlpha rFunc size maxIter maxSize es)) (Draws T₂) * ENNReal.ofReal (minor env.L T₁)
      = PP (sessCall env .empty (.kAlpha rFunc size maxIter maxSize es)) (Draws T₁) * ENNReal.ofReal (minor env.L T₂) :=
  le_antisymm
    (C70_kalpha_ties_bias h rFunc size maxIter maxSize es T₁ T₂ h1 h2 fun pc hpc => ⟨(hr pc hpc).1, fun a ha => ((hr pc hpc).2 a ha).1⟩)
    (C70_kalpha_ties_bias h rFunc size maxIter maxSize es T₂ T₁ h2 h1 fun pc hpc => ⟨(hr pc hpc).1, fun a ha => ((hr pc hpc).2 a ha).2⟩)

/-- five orthogonal points, four of squared norm 1/4 and one of squared norm 1/2, oversampling 1 for the dictionary of alpha-dpp and 4 for
BLESS.  The environment is used for `sample_exact_k_dpp(2, mode='alpha')` only; the dictionaries of the other calls are left out (they
raise). -/
noncomputable def fiveEnv (num : Numerics) (inner : DppSampler) : SessEnv 5 where
  num := num
  inner := inner
  L := FivePts.ker
  over := 1
  dict := PMF.pure .valueError
  dictK := fun k => if k = 2 then blessSize num FivePts.ker ((2:ℕ):ℝ) 4 none else PMF.pure .valueError

theorem fiveEnv_good {num : Numerics} (hn : NumericsSpec num) (heps : 100 * num.eps < 1) {inner : DppSampler} (hin : InnerSpec inner) :
    GoodEnv (fiveEnv num inner) := by
  refine ⟨hn, hin, FivePts.ker_psd, one_pos, ?_, fun D hD => absurd hD (by simp [fiveEnv, Outcome.valueError]), fun k D hD => ?_⟩
  · have h0 : (fiveEnv num inner).L.trace = 3 / 2 := FivePts.ker_sum
    have h1 : 0 < num.eps := hn.eps
    rw [h0]
    change (1 + 3 / 2) * ((5:ℕ):ℝ) * num.eps < 1
    push_cast
    linarith
  · change _ ∈ (if k = 2 then blessSize num FivePts.ker ((2:ℕ):ℝ) 4 none else PMF.pure .valueError : PMF _).support at hD
    split at hD
    · obtain ⟨h1, h2, h3⟩ := FivePts.blessSize_five hD
      refine ⟨?_, ?_, ?_⟩
      · rw [h3.lam]; norm_num
      · rw [h2]; exact one_pos
      · rw [h1]; norm_num
    · exact absurd hD (by simp [Outcome.valueError])

/-- the numerical routines of the example: BLESS is run with the size wanted -/
theorem fiveEnv_dictK (num : Numerics) (inner : DppSampler) :
    (fiveEnv num inner).dictK 2 = blessSize num FivePts.ker ((2:ℕ):ℝ) 4 none := by
  change (if (2:ℕ) = 2 then blessSize num FivePts.ker ((2:ℕ):ℝ) 4 none else PMF.pure .valueError) = _
  exact if_pos rfl

theorem numberTrialSearch_two : numberTrialSearch 2 = 2 := by
  unfold numberTrialSearch
  rw [Nat.ceil_eq_iff (by norm_num)]
  push_cast
  constructor
  · refine Real.lt_sqrt_of_sq_lt ?_
    norm_num
  · rw [Real.sqrt_le_left (by norm_num)]
    norm_num

theorem five_ties {num : Numerics} (hn : NumericsSpec num) (heps : 100 * num.eps < 1) (inner : DppSampler) (pc : AlphaInfo 5)
    (hpc : .ok pc ∈ (alphaKPre (fiveEnv num inner).num (fiveEnv num inner).L (fiveEnv num inner).over ((fiveEnv num inner).dictK 2) 2).support) :
    0 < id (nysDeff pc.dict pc.alphaHat) ∧
      ∀ a, 0 < a → ∀ j : Fin 5, j.val ≠ 4 → NoTieOn (fiveEnv num inner).L pc.dict a (id (nysDeff pc.dict pc.alphaHat)) {j, 4} := by
  rw [fiveEnv_dictK] at hpc
  obtain ⟨D, h1, h2, h3⟩ := FivePts.alphaKPre_five hn heps hpc
  rw [id, h3]
  refine ⟨two_pos, fun a ha j hj => ?_⟩
  rw [h2]
  exact FivePts.noTie_last hn h1 ha hj

/-- C70 does not hold without the hypothesis on the ties: on five orthogonal points, with the default `r_func`, the dictionaries built by
BLESS, a first successful `sample_exact_k_dpp(2, mode='alpha')` does not return a sample of the k-DPP of `L`, with or without
`early_stop`, whatever `max_iter` and `max_iter_size_rejection` (at least two draws without `early_stop`): the first two points are returned too seldom compared with the last two. -/
theorem C70_kalpha_law_refuted (num : Numerics) (hn : NumericsSpec num) (heps : 100 * num.eps < 1)
    (hb : ∀ f a b, (∃ x, a ≤ x ∧ x ≤ b ∧ f x = 0) → ∃ x, num.brentq f a b = some x) (inner : DppSampler) (hin : InnerSpec inner)
    (maxIter maxSize : ℕ) (es : Bool) (hm : 0 < maxIter) (hs : 0 < maxSize) (hes : es = true ∨ 1 < maxSize) :
    GoodEnv (fiveEnv num inner) ∧ (fiveEnv num inner).dictK 2 = blessSize num (fiveEnv num inner).L ((2:ℕ):ℝ) 4 none ∧
    PP (sessCall (fiveEnv num inner) .empty (.kAlpha id 2 maxIter maxSize es)) (Draws {0, 1})
        * ENNReal.ofReal (minor (fiveEnv num inner).L {3, 4})
      < PP (sessCall (fiveEnv num inner) .empty (.kAlpha id 2 maxIter maxSize es)) (Draws {3, 4})
        * ENNReal.ofReal (minor (fiveEnv num inner).L {0, 1}) ∧
    ¬ LawIs (sessCall (fiveEnv num inner) .empty (.kAlpha id 2 maxIter maxSize es)) (kDppProb (fiveEnv num inner).L 2) := by
  have hgood := fiveEnv_good hn heps hin
  have hlt := (firstK_call_compare hgood (rFunc := id) (size := 2) maxIter maxSize es (T₁ := {3, 4}) (T₂ := {0, 1}) (by decide) (by decide)
    fun pc hpc => ⟨(five_ties hn heps inner pc hpc).1, fun a ha => (five_ties hn heps inner pc hpc).2 a ha 3 (by decide)⟩).2
    ⟨alphaInfoOf FivePts.ker (DiagPts.fullNys num FivePts.ell FivePts.fourDict) (some (2, 3 / 2, 1)) (4 / 7), ?_, ?_⟩ hm hs
    (hes.imp id fun h => ⟨h, by rw [numberTrialSearch_two]; norm_num⟩)
    (FivePts.minor_pos _)
  · exact ⟨hgood, fiveEnv_dictK num inner, hlt, not_lawIs_k FivePts.ker_psd (by decide) (by decide) hlt⟩
  · rw [fiveEnv_dictK]
    exact FivePts.alphaKPre_four hn heps hb
  · have h2 : nysDeff (DiagPts.fullNys num FivePts.ell FivePts.fourDict) (4 / 7) = 2 := by
      rw [FivePts.nysDeff_four hn (by norm_num)]; norm_num
    exact FivePts.loss_pair hn h2

/-- the hypotheses of `C70_kalpha_ties_bias` and `C70_kalpha_ties_free_sets` are met in a case with ties: the pairs that contain the last
point, in the example of `C70_kalpha_law_refuted` -/
example (num : Numerics) (hn : NumericsSpec num) (heps : 100 * num.eps < 1) (inner : DppSampler) (hin : InnerSpec inner) (maxIter maxSize : ℕ) (es : Bool) :
    PP (sessCall (fiveEnv num inner) .empty (.kAlpha id 2 maxIter maxSize es)) (Draws {0, 4})
        * ENNReal.ofReal (minor (fiveEnv num inner).L {3, 4})
      = PP (sessCall (fiveEnv num inner) .empty (.kAlpha id 2 maxIter maxSize es)) (Draws {3, 4})
        * ENNReal.ofReal (minor (fiveEnv num inner).L {0, 4}) :=
  C70_kalpha_ties_free_sets (fiveEnv_good hn heps hin) id 2 maxIter maxSize es {3, 4} {0, 4} (by decide) (by decide) fun pc hpc =>
    ⟨(five_ties hn heps inner pc hpc).1, fun a ha => ⟨(five_ties hn heps inner pc hpc).2 a ha 3 (by decide),
      (five_ties hn heps inner pc hpc).2 a ha 0 (by decide)⟩⟩

/-- `C70_kalpha_nodup` is not void with ties: in this example the call does return -/
example (num : Numerics) (hn : NumericsSpec num) (heps : 100 * num.eps < 1)
    (hb : ∀ f a b, (∃ x, a ≤ x ∧ x ≤ b ∧ f x = 0) → ∃ x, num.brentq f a b = some x) (inner : DppSampler) (hin : InnerSpec inner) :
    PP (sessCall (fiveEnv num inner) .empty (.kAlpha id 2 1 2 false)) (Draws {3, 4}) ≠ 0 := by
  intro h0
  have h1 := (C70_kalpha_law_refuted num hn heps hb inner hin 1 2 false one_pos two_pos (Or.inr one_lt_two)).2.2.1
  rw [h0, zero_mul] at h1
  exact absurd h1 not_lt_zero

/-- the hypotheses of `C70_kalpha_law_refuted` can be met -/
example : ∃ num inner, NumericsSpec num ∧ 100 * num.eps < 1 ∧
    (∀ f a b, (∃ x, a ≤ x ∧ x ≤ b ∧ f x = 0) → ∃ x, num.brentq f a b = some x) ∧ InnerSpec inner := by
  obtain ⟨num, h1, h2, h4⟩ := exists_numericsSpec_eps (eps := 1 / 1000) (by norm_num)
  obtain ⟨inner, h3⟩ := exists_innerSpec
  exact ⟨num, inner, h1, by rw [h2]; norm_num, h4, h3⟩

end Verif.Props
