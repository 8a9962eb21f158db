import Verif.Lemmas.Ties2
import Verif.Lemmas.AlphaNodup
import Verif.Props.Intermediate

/-!
# C65: the law of alpha-dpp when some intermediate samples have acceptance probability one
-/

namespace Verif.Props
open Verif Verif.Spec Verif.Model Matrix
open scoped ENNReal

variable {n : ℕ} {env : SessEnv n}

/-- C65: the items of a sample of alpha-dpp are distinct, with or without ties, after any history of calls. -/
theorem C65_alpha_nodup (h : GoodEnv env) (hist : List SessCall) (c : Cache n) (hr : SessReach env hist c) (rFunc : ℝ → ℝ) (maxIter : ℕ)
    (l : List (Fin n)) (c' : Cache n) (ho : .ok (l, c') ∈ (sessCall env c (.exactAlpha rFunc maxIter)).support) : l.Nodup :=
  (exactAlpha_nodup h (cachePos_reach h hr) ho).1

/-- C65, what the ties do, for every kernel, dictionary and `r_func`: on a first call, if no intermediate sample that contains `T₁`
is a tie, no other set is returned too often compared with `T₁`: `P(T₂) / P(T₁) ≤ det L_{T₂} / det L_{T₁}`. -/
theorem C65_alpha_ties_bias (h : GoodEnv env) (rFunc : ℝ → ℝ) (maxIter : ℕ) (T₁ T₂ : Finset (Fin n))
    (hr : ∀ pc, .ok pc ∈ (alphaPre env.num env.L env.over env.dict).support → 0 < rFunc (nysDeff pc.dict pc.alphaHat) ∧
      NoTieOn env.L pc.dict pc.alphaHat (rFunc (nysDeff pc.dict pc.alphaHat)) T₁) :
    PP (sessCall env .empty (.exactAlpha rFunc maxIter)) (Draws T₂) * ENNReal.ofReal (minor env.L T₁)
      ≤ PP (sessCall env .empty (.exactAlpha rFunc maxIter)) (Draws T₁) * ENNReal.ofReal (minor env.L T₂) :=
  (first_call_compare h maxIter T₂ hr).1

/-- C65, the sets that are in no tie: their relative frequencies are those of the DPP. -/
theorem C65_alpha_ties_free_sets (h : GoodEnv env) (rFunc : ℝ → ℝ) (maxIter : ℕ) (T₁ T₂ : Finset (Fin n))
    (hr : ∀ pc, .ok pc ∈ (alphaPre env.num env.L env.over env.dict).support → 0 < rFunc (nysDeff pc.dict pc.alphaHat) ∧
      NoTieOn env.L pc.dict pc.alphaHat (rFunc (nysDeff pc.dict pc.alphaHat)) T₁ ∧
      NoTieOn env.L pc.dict pc.alphaHat (rFunc (nysDeff pc.dict pc.alphaHat)) T₂) :
    PP (sessCall env .empty (.exactAlpha rFunc maxIter)) (Draws T₂) * ENNReal.ofReal (minor env.L T₁)
      = PP (sessCall env .empty (.exactAlpha rFunc maxIter)) (Draws T₁) * ENNReal.ofReal (minor env.L T₂) :=
  le_antisymm (C65_alpha_ties_bias h rFunc maxIter T₁ T₂ fun pc hpc => ⟨(hr pc hpc).1, (hr pc hpc).2.1⟩)
    (C65_alpha_ties_bias h rFunc maxIter T₂ T₁ fun pc hpc => ⟨(hr pc hpc).1, (hr pc hpc).2.2⟩)

/-- the hypotheses of `C65_alpha_ties_bias` and `C65_alpha_ties_free_sets` are met, for all sets, on three orthogonal points; a case
with ties is `C65_alpha_law_refuted` -/
example : ∃ env : SessEnv 3, GoodEnv env ∧ ∀ T, ∀ pc, .ok pc ∈ (alphaPre env.num env.L env.over env.dict).support →
    0 < id (nysDeff pc.dict pc.alphaHat) ∧ NoTieOn env.L pc.dict pc.alphaHat (id (nysDeff pc.dict pc.alphaHat)) T := by
  obtain ⟨env, h1, h2, -⟩ := C65_alpha_law_example
  exact ⟨env, h1, fun T pc hpc => ⟨(h2 pc hpc).1, fun c hc _ => (h2 pc hpc).2 c hc⟩⟩

/-- C65 does not hold without the hypothesis on the ties: on five orthogonal points with `L = I / 2`, the default `r_func` and an
oversampling of 3/2, a first successful call does not return a sample of the DPP of `L`, whatever `max_iter`: the empty set is returned
too seldom compared with the set of all the points. -/
theorem C65_alpha_law_refuted (num : Numerics) (hn : NumericsSpec num) (hc : 35 * num.eps < 2) (inner : DppSampler)
    (hin : InnerSpec inner) (maxIter : ℕ) (hm : 0 < maxIter) :
    GoodEnv (scalEnv num inner 5 (1 / 2) (3 / 2)) ∧ (scalEnv num inner 5 (1 / 2) (3 / 2)).L = (1 / 2 : ℝ) • 1 ∧
    PP (sessCall (scalEnv num inner 5 (1 / 2) (3 / 2)) .empty (.exactAlpha id maxIter)) (Draws ∅)
        * ENNReal.ofReal (minor ((1 / 2 : ℝ) • (1 : Matrix (Fin 5) (Fin 5) ℝ)) Finset.univ)
      < PP (sessCall (scalEnv num inner 5 (1 / 2) (3 / 2)) .empty (.exactAlpha id maxIter)) (Draws Finset.univ)
        * ENNReal.ofReal (minor ((1 / 2 : ℝ) • (1 : Matrix (Fin 5) (Fin 5) ℝ)) ∅) ∧
    ¬ LawIs (sessCall (scalEnv num inner 5 (1 / 2) (3 / 2)) .empty (.exactAlpha id maxIter))
      (lDppProb ((1 / 2 : ℝ) • (1 : Matrix (Fin 5) (Fin 5) ℝ))) := by
  have hc' : (1 + ((5:ℕ):ℝ) * (1 / 2)) * (5:ℕ) * num.eps < 1 := by push_cast; linarith
  have hgood := scalEnv_good (n := 5) hn hin (x := 1 / 2) (over := 3 / 2) (by norm_num) (by norm_num) hc'
  have heps := eps_of_scal (n := 5) hn (x := 1 / 2) (by norm_num) hc'
  have hp : (3 / 2 : ℝ) * (1 / 2 / (1 / 2 + 1)) = 1 / 2 := by norm_num
  have hmem : ∀ {o : Outcome (AlphaInfo 5)}, _ := fun {o} =>
    alphaPre_sub_mem (o := o) hn inner (n := 5) (x := 1 / 2) (over := 3 / 2) (by norm_num) (by norm_num) (by norm_num) heps
      (by norm_num)
  rw [hp] at hmem
  have hlt := (first_call_compare hgood (rFunc := id) maxIter (T₁ := Finset.univ) ∅ (fun pc hpc => by
    obtain ⟨U, -, h1⟩ := hmem.1 hpc
    by_cases hne : selOnes U = []
    · rw [if_pos hne] at h1
      exact absurd h1 (by simp [Outcome.valueError])
    · rw [if_neg hne, Outcome.ok.injEq] at h1
      subst h1
      refine ⟨?_, noTie_univ hn hne⟩
      change 0 < nysDeff (subNys num (1 / 2) (1 / 2) (3 / 2) U) 1
      rw [nysDeff_sub hn (by norm_num) (by norm_num)]
      have : 0 < (selOnes U).length := List.length_pos_iff.2 hne
      positivity)).2 ⟨alphaInfoOf (scal 5 (1 / 2)) (subNys num (1 / 2) (1 / 2) (3 / 2) four) none 1, ?_, ?_⟩ hm ?_
  · exact ⟨hgood, rfl, hlt, not_lawIs (scal_psd (by norm_num)) hlt⟩
  · refine hmem.2 ⟨four, indep_support _ _ fun i => coin_support (by norm_num) (by norm_num) _, ?_⟩
    rw [if_neg (by decide)]
  · have h2 : nysDeff (subNys num (1 / 2) (1 / 2) (3 / 2) four) 1 = 2 := by
      rw [nysDeff_sub hn (by norm_num) (by norm_num), four_length]; norm_num
    exact loss_four hn h2
  · change 0 < minor ((1 / 2 : ℝ) • (1 : Matrix (Fin 5) (Fin 5) ℝ)) Finset.univ
    rw [minor_smul]
    refine mul_pos (by positivity) ?_
    unfold minor
    rw [submatrix_one _ Subtype.val_injective, det_one]
    exact one_pos

/-- `C65_alpha_nodup` is not void with ties: in this example the call does return -/
example (num : Numerics) (hn : NumericsSpec num) (hc : 35 * num.eps < 2) (inner : DppSampler) (hin : InnerSpec inner) :
    PP (sessCall (scalEnv num inner 5 (1 / 2) (3 / 2)) .empty (.exactAlpha id 1)) (Draws Finset.univ) ≠ 0 := by
  intro h0
  have h1 := (C65_alpha_law_refuted num hn hc inner hin 1 one_pos).2.2.1
  rw [h0, zero_mul] at h1
  exact absurd h1 not_lt_zero

/-- the hypotheses of `C65_alpha_law_refuted` can be met -/
example : ∃ num inner, NumericsSpec num ∧ 35 * num.eps < 2 ∧ InnerSpec inner := by
  obtain ⟨num, h1, h2, -⟩ := exists_numericsSpec_eps (eps := 1 / 100) (by norm_num)
  obtain ⟨inner, h3⟩ := exists_innerSpec
  exact ⟨num, inner, h1, by rw [h2]; norm_num, h3⟩

end Verif.Props
