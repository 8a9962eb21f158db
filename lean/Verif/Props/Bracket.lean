import Verif.Lemmas.Bracket2
import Verif.Spec.Bracket
import Verif.Props.Intermediate

/-!
# C34: where the search of the rescaling starts, with the dictionary of `bless_size`
-/

namespace Verif.Props
open Verif Verif.Spec Verif.Model Matrix

variable {n : ℕ} {num : Numerics} {L : Matrix (Fin n) (Fin n) ℝ}

theorem withR_ok {rFunc : ℝ → ℝ} {p : PMF (Outcome (AlphaInfo n))} {pc : AlphaInfo n} (h : .ok pc ∈ (withR rFunc p).support) :
    ∃ pc', .ok pc' ∈ p.support ∧ pc.alphaHat = pc'.alphaHat ∧ pc.alphaMin = pc'.alphaMin ∧ pc.alphaMax = pc'.alphaMax ∧
      pc.dict = pc'.dict := by
  unfold withR at h
  rw [mem_support_andThen] at h
  rcases h with ⟨a, ha, h⟩ | ⟨e, -, h⟩
  · simp only [PMF.support_pure, Set.mem_singleton_iff, Outcome.ok.injEq] at h
    subst h
    exact ⟨a, ha, rfl, rfl, rfl, rfl⟩
  · exact absurd h (by simp)

/-- C34, the upper end: if BLESS makes at least two iterations (and no eigenvalue is lost in the filter), the search of a first call
starts strictly below the upper end of its interval. -/
theorem C34_start_upper (hn : NumericsSpec num) (hL : L.PosSemidef) {overBless over : ℝ} (hb : 0 < overBless) (ho : 0 < over) (size : ℕ)
    (nbIter : Option ℕ) (hinit : 1 ≤ sizeLamInit L size) (hit : 2 ≤ sizeIters (sizeLamInit L size) nbIter) (rFunc : ℝ → ℝ)
    (pc : AlphaInfo n) (h : .ok pc ∈ (alphaKInfoFor num L over (blessSize num L size overBless nbIter) rFunc size none).support)
    (hall : NothingDiscarded L pc.dict) : pc.alphaHat < pc.alphaMax := by
  obtain ⟨pc', h', e1, -, e3, e4⟩ := withR_ok h
  rw [e1, e3]
  rw [e4] at hall
  have hst : ∀ D, .ok D ∈ (blessSize num L size overBless nbIter).support → 1 ≤ D.lamMin ∧ D.dict.lam = D.lamMin := by
    intro D hD
    rcases blessSize_support hL hb hinit hit hD with h | h | ⟨st, h, h1, -, -, h2, -⟩
    · exact absurd h (by simp)
    · exact absurd h (by simp)
    · simp only [Outcome.ok.injEq] at h
      subst h
      exact ⟨h1, h2⟩
  obtain ⟨D, hD, -, h2, h3⟩ := alphaKPre_lt hn hL ho h' hall (fun D hD => by
    obtain ⟨h1, h2⟩ := hst D hD
    rw [h2]; linarith)
  rw [h2, ← (hst D hD).2]
  exact h3

/-- C34, the lower end: if BLESS makes exactly one iteration (by default: if the trace of `L` is between `k - 1` and `2 (k - 1)`), the
search of a first call that gets there always starts strictly below the lower end of its interval. -/
theorem C34_start_below (hn : NumericsSpec num) (hL : L.PosSemidef) {overBless over : ℝ} (ho : 0 < over) (size : ℕ)
    (nbIter : Option ℕ) (hinit : 0 < sizeLamInit L size) (hit : sizeIters (sizeLamInit L size) nbIter = 1) (rFunc : ℝ → ℝ)
    (pc : AlphaInfo n) (h : .ok pc ∈ (alphaKInfoFor num L over (blessSize num L size overBless nbIter) rFunc size none).support)
    (hall : NothingDiscarded L pc.dict) : pc.alphaHat < pc.alphaMin := by
  obtain ⟨pc', h', e1, e2, -, e4⟩ := withR_ok h
  rw [e1, e2]
  rw [e4] at hall
  obtain ⟨D, hD, h1, -, h3⟩ := alphaKPre_lt hn hL ho h' hall (fun D hD => by
    rw [(blessSize_one hit hD).1]; exact hinit)
  obtain ⟨b1, b2, -⟩ := blessSize_one hit hD
  rw [h1, b2]
  rw [b1] at h3
  exact h3

theorem withR_mem {rFunc : ℝ → ℝ} {p : PMF (Outcome (AlphaInfo n))} {pc : AlphaInfo n} (h : .ok pc ∈ p.support) :
    .ok { pc with r := rFunc (nysDeff pc.dict pc.alphaHat) } ∈ (withR rFunc p).support := by
  unfold withR
  rw [mem_support_andThen]
  exact Or.inl ⟨pc, h, by simp⟩

/-- the hypotheses of `C34_start_upper` are met on ten orthogonal points, `k = 2`, with the default parameters -/
example (rFunc : ℝ → ℝ) : ∃ (num : Numerics) (L : Matrix (Fin 10) (Fin 10) ℝ) (pc : AlphaInfo 10), NumericsSpec num ∧ L.PosSemidef ∧
    1 ≤ sizeLamInit L (2:ℕ) ∧ 2 ≤ sizeIters (sizeLamInit L (2:ℕ)) none ∧
    .ok pc ∈ (alphaKInfoFor num L 4 (blessSize num L (2:ℕ) 4 none) rFunc 2 none).support ∧ NothingDiscarded L pc.dict := by
  obtain ⟨num, h1, h2, h3⟩ := exists_numericsSpec_eps (eps := 1 / 100) (by norm_num)
  obtain ⟨pc, h4, h5⟩ := TenPoints.alphaKPre_two h1 (by rw [h2]; norm_num) h3
  obtain ⟨-, h6, h7⟩ := TenPoints.blessSize_two h1 (by rw [h2]; norm_num)
  exact ⟨num, scal 10 (2 / 5), _, h1, scal_psd (by norm_num), by rw [h6]; norm_num, by rw [h7], withR_mem h4, h5⟩

/-- C34 does not hold for the start of the search: on ten orthogonal points with `L = I / 5`, `k = 2` and the default parameters, a first
call computes with positive probability data whose rescaling is outside of the interval of the search. -/
theorem C34_start_refuted (num : Numerics) (hn : NumericsSpec num) (heps : 40 * num.eps < 1)
    (hb : ∀ f a b, (∃ x, a ≤ x ∧ x ≤ b ∧ f x = 0) → ∃ x, num.brentq f a b = some x) (rFunc : ℝ → ℝ) :
    ∃ pc : AlphaInfo 10, .ok pc ∈ (alphaKInfoFor num ((1 / 5 : ℝ) • 1) 4 (blessSize num ((1 / 5 : ℝ) • 1) (2:ℕ) 4 none) rFunc 2
      none).support ∧ pc.alphaHat < pc.alphaMin := by
  obtain ⟨pc, h4, h5⟩ := TenPoints.alphaKPre_ten hn (by linarith) hb
  obtain ⟨-, h6, h7⟩ := TenPoints.blessSize_ten (num := num)
  have hmem : .ok { pc with r := rFunc (nysDeff pc.dict pc.alphaHat) } ∈ (alphaKInfoFor num ((1 / 5 : ℝ) • 1) 4
      (blessSize num ((1 / 5 : ℝ) • 1) (2:ℕ) 4 none) rFunc 2 none).support := withR_mem h4
  exact ⟨_, hmem, C34_start_below hn (scal_psd (n := 10) (by norm_num)) (by norm_num) 2 none (by
    change 0 < sizeLamInit (scal 10 (1 / 5)) ((2:ℕ):ℝ); rw [h6]; norm_num) h7 rFunc _ hmem h5⟩

/-- the hypotheses of `C34_start_refuted` can be met -/
example : ∃ num : Numerics, NumericsSpec num ∧ 40 * num.eps < 1 ∧
    ∀ f a b, (∃ x, a ≤ x ∧ x ≤ b ∧ f x = 0) → ∃ x, num.brentq f a b = some x := by
  obtain ⟨num, h1, h2, h3⟩ := exists_numericsSpec_eps (eps := 1 / 100) (by norm_num)
  exact ⟨num, h1, by rw [h2]; norm_num, h3⟩

/-- C34, what happens then: if the search is below its interval and the samples were too large at least as often as too small, the update
puts the upper end below the lower one and moves the rescaling up, towards larger samples. -/
theorem C34_wrong_direction (st : KCount n) (a : AlphaInfo n) (h0 : 0 < a.alphaHat) (h1 : a.alphaHat < a.alphaMin)
    (hc : st.under ≤ st.over) :
    (kReset (kBracket st a)).alphaMax < (kReset (kBracket st a)).alphaMin ∧ a.alphaHat < (kReset (kBracket st a)).alphaHat := by
  have hk : kBracket st a = { a with alphaMax := a.alphaHat } := if_neg (not_lt.2 hc)
  rw [hk]
  refine ⟨h1, ?_⟩
  change a.alphaHat < Real.sqrt (a.alphaMin * a.alphaHat)
  rw [Real.lt_sqrt h0.le, sq]
  exact mul_lt_mul_of_pos_right h1 h0

/-- the hypotheses of `C34_wrong_direction` can be met -/
example (st : KCount n) (a : AlphaInfo n) (h : st.under = st.over) :
    (kReset (kBracket st { a with alphaHat := 1 / 4, alphaMin := 1 })).alphaHat = 1 / 2 := by
  have hk : kBracket st { a with alphaHat := 1 / 4, alphaMin := 1 } = { a with alphaHat := 1 / 4, alphaMin := 1, alphaMax := 1 / 4 } :=
    if_neg (by rw [h]; exact lt_irrefl _)
  rw [hk]
  change Real.sqrt (1 * (1 / 4)) = 1 / 2
  rw [show (1 : ℝ) * (1 / 4) = (1 / 2) ^ 2 by norm_num, Real.sqrt_sq (by norm_num)]

end Verif.Props
