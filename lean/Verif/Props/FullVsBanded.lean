import Verif.Props.HermiteFull
import Verif.Props.LaguerreFull
import Verif.Props.BandedClass

/-!
# The full and the banded models sample the same law (C82, C83)

Stated with the parameters that the full model records in `self.params`: given back to `sample_banded_model`, they sample the same law.
-/

namespace Verif.Lemmas
open MeasureTheory Verif.Spec

/-- a beta ensemble is determined by its density up to a constant -/
theorem isBetaEnsemble_unique {N : ℕ} {μ ν : Measure (Fin N → ℝ)} {beta : ℝ} {weight : ℝ → ℝ} (hμ : IsBetaEnsemble μ beta weight)
    (hν : IsBetaEnsemble ν beta weight) : μ = ν := by
  obtain ⟨h1, K, hK, eμ⟩ := hμ
  obtain ⟨h2, K', hK', eν⟩ := hν
  have e : ν = ENNReal.ofReal (K' / K) • μ := by
    rw [eν, eμ, ← withDensity_smul']
    · congr 1
      funext x
      rw [Pi.smul_apply, smul_eq_mul, ← ENNReal.ofReal_mul (by positivity)]
      congr 1
      field_simp
    · exact ENNReal.ofReal_ne_top
  have hu := congrArg (fun m : Measure (Fin N → ℝ) => m Set.univ) e
  simp only [Measure.smul_apply, measure_univ, smul_eq_mul, mul_one] at hu
  rw [e, ← hu, one_smul]

end Verif.Lemmas

namespace Verif.Props
open MeasureTheory ProbabilityTheory Verif.Model Verif.Spec Verif.Lemmas

/-- **C82**: for `beta` equal to `0`, `1` or `2`, the full Hermite model records the mean and the standard deviation of the reference
measure for which `sample_banded_model` samples the same law, and the number of points; whatever the states of the two objects. -/
theorem C82_full_matches_banded {la : LA} (hla : LAOK la) {st st2 : EnsSt} (hk : st.kind = .hermite) (hk2 : st2.kind = .hermite)
    (hb : st.b = 0 ∨ st.b = 1 ∨ st.b = 2) (hb2 : st2.b = st.b) {N : ℕ} (hN : 1 ≤ N) (M1 M2 : ℕ) (h : Haar) (M1' M2' : Option ℝ) :
    ∃ st' p st2' p2, ensPrep la st (.full N M1 M2 h) = some (st', p) ∧ st'.params.sizeN = N ∧
      ensPrep la st2 (.banded st'.params.loc st'.params.scale st'.params.sizeN M1' M2') = some (st2', p2) ∧
      (p.map (toVecC N)).law = (p2.map (toVecC N)).law := by
  have hd : ∃ st' p, ensPrep la st (.full N M1 M2 h) = some (st', p) ∧ st'.params.sizeN = N ∧ st'.params.loc = 0 ∧
      st'.params.scale = √2 := ⟨_, _, by simp only [ensPrep, hk, hermiteFullPrep]; rfl, rfl, rfl, rfl⟩
  obtain ⟨st', p, e1, e2, e3, e4⟩ := hd
  obtain ⟨s1, p1, f1, f2, f3⟩ := C82_hermite_full_method hla hk hN M1 M2 h
  rw [e1] at f1
  simp only [Option.some.injEq, Prod.mk.injEq] at f1
  obtain ⟨rfl, rfl⟩ := f1
  obtain ⟨s2, p2, g1, g2, g3⟩ := C79_hermite_banded_method hla hk2 0 (scale := √2) (by positivity) hN M1' M2'
  refine ⟨st', p, s2, p2, e1, e2, by rw [e3, e4, e2]; exact g1, ?_⟩
  have e5 : (fun x : ℝ => Real.exp (-(x - 0) ^ 2 / (2 * √2 ^ 2))) = fun x => Real.exp (-x ^ 2 / 4) := by
    funext x
    rw [Real.sq_sqrt zero_le_two, sub_zero]; norm_num
  rw [e5, hb2] at g2
  rw [Real.sq_sqrt zero_le_two, hb2] at g3
  rcases hb with hb | hb
  · rw [f3 hb, g3 hb]
  · exact isBetaEnsemble_unique (f2 hb) (g2 (by rcases hb with h | h <;> rw [h] <;> norm_num))

/-- **C83**: for `beta` equal to `1` or `2`, the full Laguerre model records the shape and the scale of the reference measure for which
`sample_banded_model` samples the same law, and the number of points; whatever the states of the two objects. -/
theorem C83_full_matches_banded {la : LA} (hla : LAOK la) {st st2 : EnsSt} (hk : st.kind = .laguerre) (hk2 : st2.kind = .laguerre)
    (hb : st.b = 1 ∨ st.b = 2) (hb2 : st2.b = st.b) {N M : ℕ} (hN : 1 ≤ N) (hM : N ≤ M) (M2 : ℕ) (h : Haar) (M2' : Option ℝ) :
    ∃ st' p st2' p2, ensPrep la st (.full N M M2 h) = some (st', p) ∧ st'.params.sizeN = N ∧
      ensPrep la st2 (.banded st'.params.shape st'.params.scale st'.params.sizeN none M2') = some (st2', p2) ∧
      (p.map (toVecC N)).law = (p2.map (toVecC N)).law := by
  have hd : ∃ st' p, ensPrep la st (.full N M M2 h) = some (st', p) ∧ st'.params.sizeN = N ∧
      st'.params.shape = 0.5 * st.b * ((M : ℝ) - N + 1) ∧ st'.params.scale = 2 :=
    ⟨_, _, by simp only [ensPrep, hk, laguerreFullPrep, if_pos hM]; rfl, rfl, rfl, rfl⟩
  obtain ⟨st', p, e1, e2, e3, e4⟩ := hd
  obtain ⟨s1, p1, f1, f2⟩ := C83_laguerre_full_method hla hk hb hN hM M2 h
  rw [e1] at f1
  simp only [Option.some.injEq, Prod.mk.injEq] at f1
  obtain ⟨rfl, rfl⟩ := f1
  have hb0 : 0 < st.b := by rcases hb with h | h <;> rw [h] <;> norm_num
  have hsh : 0 < 0.5 * st.b * ((M : ℝ) - N + 1) := by
    have : (N : ℝ) ≤ M := by exact_mod_cast hM
    have h2 : 0 < (M : ℝ) - N + 1 := by linarith
    positivity
  obtain ⟨s2, p2, g1, g2, -⟩ := (C80_laguerre_banded_method hla hk2 hsh two_pos hN M2').1 none (.inl rfl)
  refine ⟨st', p, s2, p2, e1, e2, by rw [e3, e4, e2]; exact g1, ?_⟩
  rw [hb2, show (0.5 : ℝ) * st.b = st.b / 2 by ring] at g2
  exact isBetaEnsemble_unique f2 (g2 hb0)

/-- the hypotheses are met by two new objects with `beta = 2` -/
example : (ensNew .hermite (.int 2)).kind = .hermite ∧ (ensNew .hermite (.int 2)).b = 2 ∧
    (ensNew .laguerre (.int 2)).kind = .laguerre ∧ (ensNew .laguerre (.int 2)).b = 2 := by
  refine ⟨rfl, ?_, rfl, ?_⟩ <;> simp [EnsSt.b, ensNew, BetaVal.val]

end Verif.Props
