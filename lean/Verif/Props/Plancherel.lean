import Verif.Lemmas.Planch2

/-!
# The law of the Poissonised Plancherel sampler
-/

set_option linter.unusedVariables false

namespace Verif.Props
open Verif Verif.Spec Verif.Model Verif.Lemmas
open scoped NNReal ENNReal

/-! ## C95 `RSK` is a bijection and the Plancherel law -/

/-- C95: for every semistandard tableau `P` and every standard tableau `Q` of the same shape there is exactly one
sequence on which `RSK` returns `(P, Q)`. -/
theorem C95_rsk_bijection {α : Type*} [LinearOrder α] (n : ℕ) (P : List (List α)) (Q : List (List ℕ)) (hP : Semistandard P)
    (hQ : Standard n Q) (hs : shape P = shape Q) : ∃! seq : List α, rsk seq = some (P, Q) := by
  obtain ⟨seq, h⟩ := rsk_surj hP hQ hs
  refine ⟨seq, h, fun t ht => ?_⟩
  have ht : rsk t = some (P, Q) := ht
  have hl : ∀ s : List α, rsk s = some (P, Q) → s.length = P.flatten.length := fun s hs => by
    obtain ⟨P', Q', e1, -, -, -, e5⟩ := rsk_spec' s
    rw [hs] at e1
    obtain ⟨rfl, rfl⟩ : P = P' ∧ Q = Q' := by simpa using e1
    exact e5.length_eq.symm
  exact rsk_inj' ((hl t ht).trans (hl seq h).symm) (ht.trans h.symm)

/-- C95: the shape of the tableaux of a uniform permutation of `N` elements is `lam` with probability `f_lam ^ 2 / N!`
(the Plancherel measure of the partitions of `N`), and with probability zero when `lam` is not of size `N`. -/
theorem C95_plancherel_law {R : Type*} [Field R] [CharZero R] (N : ℕ) (lam : List ℕ) :
    (uniformPermutation R N).prob (fun σ => ∃ sampl, plancherelOf σ = some (lam, sampl))
      = if lam.sum = N then (numSYT lam : R) ^ 2 / (N.factorial : R) else 0 := prob_shape N lam

/-- C95: `PoissonizedPlancherel(theta).sample()` records the Young diagram `lam` with probability
`exp(-theta) theta^n / n! * f_lam^2 / n!`, `n` the size of `lam`. -/
theorem C95_poissonized_plancherel_law (theta : ℝ≥0) (lam : List ℕ) :
    PP (plancherelSample theta) (fun o => ∃ sampl, o = some (lam, sampl))
      = ENNReal.ofReal (Real.exp (-theta) * (theta : ℝ) ^ lam.sum / (lam.sum.factorial : ℝ) *
          ((numSYT lam : ℝ) ^ 2 / (lam.sum.factorial : ℝ))) := PP_young theta lam

/-- The hypotheses of the bijection are met: the pair of `RSK([2, 0, 1])`. -/
example : ∃! seq : List ℕ, rsk seq = some ([[0, 1], [2]], [[1, 3], [2]]) := by
  obtain ⟨P, Q, e, h1, h2, h3, -⟩ := rsk_spec' [2, 0, 1]
  have : rsk [2, 0, 1] = some ([[0, 1], [2]], [[1, 3], [2]]) := by decide +kernel
  rw [this] at e
  obtain ⟨rfl, rfl⟩ : [[0, 1], [2]] = P ∧ [[1, 3], [2]] = Q := by simpa using e
  exact C95_rsk_bijection _ _ _ h2 h3 h1

open Classical in
/-- A concrete case of the law: a permutation of 3 elements has tableaux of shape `(2, 1)` with positive probability. -/
example : numSYT [2, 1] ≠ 0 := by
  intro h
  have := card_shape [2, 1]
  rw [h] at this
  have hm : [2, 0, 1] ∈ (List.range [2, 1].sum).permutations.toFinset.filter (fun σ => ∃ s, plancherelOf σ = some ([2, 1], s)) := by
    rw [Finset.mem_filter, List.mem_toFinset, List.mem_permutations]
    refine ⟨by decide, ?_⟩
    have e : rsk [2, 0, 1] = some ([[0, 1], [2]], [[1, 3], [2]]) := by decide +kernel
    simp only [plancherelOf, e]
    exact ⟨_, rfl⟩
  have h0 := Finset.card_pos.2 ⟨_, hm⟩
  rw [this] at h0
  simp at h0

end Verif.Props
