import Verif.Lemmas.Planch1

set_option linter.unusedVariables false

namespace Verif.Lemmas
open Verif Verif.Spec Verif.Model
open scoped NNReal ENNReal

/-- law of the recorded diagram -/
theorem PP_young (theta : ℝ≥0) (lam : List ℕ) :
    PP (plancherelSample theta) (fun o => ∃ sampl, o = some (lam, sampl))
      = ENNReal.ofReal (Real.exp (-theta) * (theta : ℝ) ^ lam.sum / (lam.sum.factorial : ℝ) *
          ((numSYT lam : ℝ) ^ 2 / (lam.sum.factorial : ℝ))) := by
  classical
  have h : ∀ N : ℕ, PE ((Dist.toPMF (uniformPermutation ℝ N) (uniformPermutation_nonneg N) (uniformPermutation_mass N)).map plancherelOf)
      (fun o => if ∃ sampl, o = some (lam, sampl) then 1 else 0)
      = if lam.sum = N then ENNReal.ofReal ((numSYT lam : ℝ) ^ 2 / (N.factorial : ℝ)) else 0 := fun N => by
    rw [PE_map]
    have := Dist.PP_toPMF (uniformPermutation_nonneg N) (uniformPermutation_mass N) (fun σ => ∃ sampl, plancherelOf σ = some (lam, sampl))
    rw [prob_shape] at this
    refine Eq.trans ?_ (this.trans ?_)
    · unfold PP
      congr 1
    · split <;> simp
  unfold PP plancherelSample
  rw [PE_bind]
  rw [show (fun N => PE ((Dist.toPMF (uniformPermutation ℝ N) (uniformPermutation_nonneg N) (uniformPermutation_mass N)).map plancherelOf)
      (fun o => if ∃ sampl, o = some (lam, sampl) then 1 else 0)) = _ from funext h, PE_poisson, tsum_eq_single lam.sum]
  · rw [if_pos rfl, ← ENNReal.ofReal_mul (poissonW_nonneg theta.coe_nonneg _)]
    rfl
  · intro N hN
    rw [if_neg (Ne.symm hN), mul_zero]

theorem plancherel_support (theta : ℝ≥0) {o : Option (List ℕ × List ℚ)} (h : o ∈ (plancherelSample theta).support) :
    ∃ lam s, o = some (lam, s) ∧ IsPartition lam := by
  unfold plancherelSample at h
  rw [PMF.mem_support_bind_iff] at h
  obtain ⟨N, -, h⟩ := h
  rw [PMF.mem_support_map_iff] at h
  obtain ⟨σ, -, rfl⟩ := h
  obtain ⟨P, Q, h1, h2, h3, h4, h5⟩ := rsk_spec' σ
  simp only [plancherelOf, h1]
  exact ⟨_, _, rfl, h3.shape⟩

theorem PP_congr {α : Type*} {p : PMF α} {e f : α → Prop} (h : ∀ a ∈ p.support, e a ↔ f a) : PP p e = PP p f := by
  classical
  unfold PP
  refine PE_congr fun a ha => if_congr (h a ha) rfl rfl

end Verif.Lemmas
