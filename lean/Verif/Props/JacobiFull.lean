import Verif.Lemmas.Jaco10
import Verif.Props.JacobiLaw
import Verif.Props.BandedClass
import Verif.Props.LaguerreFull

/-!
# C90: the full Jacobi model has the law of the Jacobi ensemble (beta = 1, 2)
-/

namespace Verif.Lemmas
open Finset Matrix MeasureTheory ProbabilityTheory Verif.Model Verif.Spec
open scoped ComplexConjugate

variable {n M1 M2 : ℕ}

local notation "g₀" => gaussianReal 0 1

theorem gam1_conj : gam1.map (fun z => conj z) = gam1 := by
  have hc : Measurable fun z : ℂ => conj z := Complex.continuous_conj.measurable
  rw [gam1, Measure.map_map hc (by fun_prop)]
  congr 1
  funext x
  exact Complex.conj_ofReal x

theorem jacobiFinish_law {la : LA} {N : ℕ} {κ₁ κ₂ : Type} [Fintype κ₁] [Fintype κ₂] {X : Matrix (Fin N) κ₁ ℂ} {Y : Matrix (Fin N) κ₂ ℂ}
    (h : (X * Xᴴ + Y * Yᴴ).det ≠ 0) : ((jacobiFinish la X Y).map (sortedVec N)).law = Measure.dirac (jacPts la X Y) := by
  rw [jacobiFinish, if_neg h, jacPts, if_neg h]
  rfl

theorem jacobiFull_law_one {la : LA}
    (hm : Measurable (fun p : (Fin (n + 1) × Fin M1 → ℂ) × (Fin (n + 1) × Fin M2 → ℂ) => jacPts la (mat p.1) (mat p.2)))
    (hae : ∀ᵐ p ∂((Measure.pi fun _ : Fin (n + 1) × Fin M1 => gam1).prod (Measure.pi fun _ : Fin (n + 1) × Fin M2 => gam1)),
      (mat p.1 * (mat p.1)ᴴ + mat p.2 * (mat p.2)ᴴ).det ≠ 0) :
    ((jacobiSamplerFull la M1 M2 (n + 1) 1).map (sortedVec (n + 1))).law
      = ((Measure.pi fun _ : Fin (n + 1) × Fin M1 => gam1).prod (Measure.pi fun _ : Fin (n + 1) × Fin M2 => gam1)).map
        (fun p => jacPts la (mat p.1) (mat p.2)) := by
  have hM := measurable_asMat (n + 1) M1
  have hM' := measurable_asMat (n + 1) M2
  have hT : Measurable (Prod.map (fun x => unmat (asMat (n + 1) M1 x)) (fun x => unmat (asMat (n + 1) M2 x))) := hM.prodMap hM'
  have hp : (Measure.pi fun _ : Fin (n + 1) × Fin M1 => gam1).prod (Measure.pi fun _ : Fin (n + 1) × Fin M2 => gam1)
      = ((Measure.pi fun _ : Fin ((n + 1) * M1) => g₀).prod (Measure.pi fun _ : Fin ((n + 1) * M2) => g₀)).map
        (Prod.map (fun x => unmat (asMat (n + 1) M1 x)) (fun x => unmat (asMat (n + 1) M2 x))) := by
    rw [← Measure.map_prod_map _ _ hM hM', law_asMat, law_asMat]
  rw [hp] at hae ⊢
  rw [Measure.map_map hm hT]
  rw [jacobiSamplerFull, ginDraw, if_pos rfl]
  simp only [ginDraw, if_true, RP.map, RP.law, if_neg (show ¬ (1 : ℝ) < 0 by norm_num), one_pow, Real.toNNReal_one]
  refine bind_two_law _ _ (hm.comp hT) ?_
  filter_upwards [ae_of_ae_map hT.aemeasurable hae] with p hp
  exact jacobiFinish_law hp

theorem jacobiFull_law_two {la : LA}
    (hm : Measurable (fun p : (Fin (n + 1) × Fin M1 → ℂ) × (Fin (n + 1) × Fin M2 → ℂ) => jacPts la (mat p.1) (mat p.2)))
    (hae : ∀ᵐ p ∂((Measure.pi fun _ : Fin (n + 1) × Fin M1 => gam2).prod (Measure.pi fun _ : Fin (n + 1) × Fin M2 => gam2)),
      (mat p.1 * (mat p.1)ᴴ + mat p.2 * (mat p.2)ᴴ).det ≠ 0) :
    ((jacobiSamplerFull la M1 M2 (n + 1) 2).map (sortedVec (n + 1))).law
      = ((Measure.pi fun _ : Fin (n + 1) × Fin M1 => gam2).prod (Measure.pi fun _ : Fin (n + 1) × Fin M2 => gam2)).map
        (fun p => jacPts la (mat p.1) (mat p.2)) := by
  have hM := measurable_cplxMat (n + 1) M1
  have hM' := measurable_cplxMat (n + 1) M2
  have hT := hM.prodMap hM'
  have hp : (Measure.pi fun _ : Fin (n + 1) × Fin M1 => gam2).prod (Measure.pi fun _ : Fin (n + 1) × Fin M2 => gam2)
      = (((Measure.pi fun _ : Fin ((n + 1) * M1) => g₀).prod (Measure.pi fun _ : Fin ((n + 1) * M1) => g₀)).prod
        ((Measure.pi fun _ : Fin ((n + 1) * M2) => g₀).prod (Measure.pi fun _ : Fin ((n + 1) * M2) => g₀))).map
        (Prod.map (fun z => unmat (cplxMat (n + 1) M1 z.1 z.2)) (fun z => unmat (cplxMat (n + 1) M2 z.1 z.2))) := by
    rw [← Measure.map_prod_map _ _ hM hM', law_cplxMat, law_cplxMat]
  rw [hp] at hae ⊢
  rw [Measure.map_map hm hT]
  rw [jacobiSamplerFull, ginDraw, if_neg (by norm_num), if_pos rfl]
  simp only [ginDraw, if_true, if_neg (show ¬ (2 : ℝ) = 1 by norm_num), RP.map, RP.law, if_neg (show ¬ (1 : ℝ) < 0 by norm_num), one_pow,
    Real.toNNReal_one]
  refine bind_four_law _ _ _ _ (hm.comp hT) ?_
  filter_upwards [ae_of_ae_map hT.aemeasurable hae] with p hp
  exact jacobiFinish_law hp

theorem betaTridiag_law {la : LA} {beta : ℝ} (hb : 0 < beta) (h1 : n + 1 ≤ M1) (h2 : n + 1 ≤ M2)
    (hm : Measurable (fun p : (Fin (n + 1) → ℝ) × (Fin n → ℝ) => bandPtsJ la n p.1 p.2)) :
    ((betaTridiag la (beta / 2 * ((M1 : ℝ) - ((n + 1 : ℕ) : ℝ) + 1)) (beta / 2 * ((M2 : ℝ) - ((n + 1 : ℕ) : ℝ) + 1)) beta (n + 1)).map
        (toVec (n + 1))).law
      = ((Measure.pi fun i : Fin (n + 1) => betaMeasure (beta / 2 * ((M1 : ℝ) - (i : ℕ))) (beta / 2 * ((M2 : ℝ) - (i : ℕ)))).prod
      (Measure.pi fun i : Fin n => betaMeasure (beta / 2 * ((n : ℝ) - (i : ℕ))) (beta / 2 * ((M1 : ℝ) + M2 - (n + 1) - (i : ℕ))))).map
        (fun p => bandPtsJ la n p.1 p.2) := by
  have e1 : ∀ (M : ℝ) (i : Fin (n + 1)), 0.5 * beta * (((n + 1 : ℕ) : ℝ) - 1 - (i : ℕ)) + beta / 2 * (M - ((n + 1 : ℕ) : ℝ) + 1)
      = beta / 2 * (M - (i : ℕ)) := fun M i => by push_cast; ring
  have e2 : ∀ i : Fin (n + 1 - 1), 0.5 * beta * (((n + 1 : ℕ) : ℝ) - 1 - (i : ℕ)) = beta / 2 * ((n : ℝ) - (i : ℕ)) := fun i => by push_cast; ring
  have e3 : ∀ i : Fin (n + 1 - 1), 0.5 * beta * (((n + 1 : ℕ) : ℝ) - 1 - ((i : ℕ) + 1)) + beta / 2 * ((M1 : ℝ) - ((n + 1 : ℕ) : ℝ) + 1)
        + beta / 2 * ((M2 : ℝ) - ((n + 1 : ℕ) : ℝ) + 1)
      = beta / 2 * ((M1 : ℝ) + M2 - (n + 1) - (i : ℕ)) := fun i => by push_cast; ring
  have hr1 : ((n : ℝ) + 1) ≤ M1 := by exact_mod_cast h1
  have hr2 : ((n : ℝ) + 1) ≤ M2 := by exact_mod_cast h2
  have hpos : ∀ (M : ℝ) (i : Fin (n + 1)), (n : ℝ) + 1 ≤ M → 0 < beta / 2 * (M - (i : ℕ)) := fun M i h => by
    have : ((i : ℕ) : ℝ) < n + 1 := by exact_mod_cast i.2
    have : 0 < M - (i : ℕ) := by linarith
    positivity
  have hpos2 : ∀ i : Fin n, 0 < beta / 2 * ((n : ℝ) - (i : ℕ)) := fun i => by
    have : ((i : ℕ) : ℝ) < n := by exact_mod_cast i.2
    have : 0 < (n : ℝ) - (i : ℕ) := by linarith
    positivity
  have hpos3 : ∀ i : Fin n, 0 < beta / 2 * ((M1 : ℝ) + M2 - (n + 1) - (i : ℕ)) := fun i => by
    have : ((i : ℕ) : ℝ) < n := by exact_mod_cast i.2
    have : 0 < (M1 : ℝ) + M2 - (n + 1) - (i : ℕ) := by linarith
    positivity
  have i1 : ∀ i : Fin (n + 1), IsProbabilityMeasure (betaMeasure (beta / 2 * ((M1 : ℝ) - (i : ℕ))) (beta / 2 * ((M2 : ℝ) - (i : ℕ)))) :=
    fun i => isProbabilityMeasureBeta (hpos _ i hr1) (hpos _ i hr2)
  have i2 : ∀ i : Fin n, IsProbabilityMeasure (betaMeasure (beta / 2 * ((n : ℝ) - (i : ℕ))) (beta / 2 * ((M1 : ℝ) + M2 - (n + 1) - (i : ℕ)))) :=
    fun i => isProbabilityMeasureBeta (hpos2 i) (hpos3 i)
  have c1 : ¬ ∃ i : Fin (n + 1), beta / 2 * ((M1 : ℝ) - (i : ℕ)) ≤ 0 ∨ beta / 2 * ((M2 : ℝ) - (i : ℕ)) ≤ 0 := by
    rintro ⟨i, h | h⟩
    · exact absurd h (not_le.2 (hpos _ i hr1))
    · exact absurd h (not_le.2 (hpos _ i hr2))
  have c2 : ¬ ∃ i : Fin (n + 1 - 1), beta / 2 * ((n : ℝ) - (i : ℕ)) ≤ 0 ∨ beta / 2 * ((M1 : ℝ) + M2 - (n + 1) - (i : ℕ)) ≤ 0 := by
    rintro ⟨i, h | h⟩
    · exact absurd h (not_le.2 (hpos2 i))
    · exact absurd h (not_le.2 (hpos3 i))
  rw [betaTridiag, if_neg (by simpa using hb)]
  simp only [RP.map, RP.law, e1, e2, e3, if_neg c1, if_neg c2]
  rw [← bind_two _ _ (F := fun a b => bandPtsJ la n a b) hm (fun a => Filter.Eventually.of_forall fun b => rfl)]
  rfl

theorem sortedVecC_toC (N : ℕ) (l : List ℝ) : sortedVecC N (toC l) = sortedVec N l := by
  rw [sortedVecC, toC, List.map_map]
  congr 1
  have : Complex.re ∘ (fun x : ℝ => (x : ℂ)) = id := by funext x; simp
  first | rw [this, List.map_id] | (refine (List.map_congr_left fun x _ => ?_).trans (List.map_id l); simp)

end Verif.Lemmas

namespace Verif.Props
open Finset MeasureTheory ProbabilityTheory Verif.Model Verif.Spec Verif.Lemmas

/-- **C90**. For `beta = 1`, `beta = 2` and `1 <= N <= M1, M2` the points returned by the full matrix model, once sorted, have the
same law as the points of the banded model with `a = beta/2 (M1 - N + 1)` and `b = beta/2 (M2 - N + 1)`. -/
theorem C90_jacobi_full_eq_banded {la : LA} (hla : LAOK la) {beta : ℝ} (hb : beta = 1 ∨ beta = 2) {N M1 M2 : ℕ} (hN : 1 ≤ N) (h1 : N ≤ M1)
    (h2 : N ≤ M2) :
    ((jacobiSamplerFull la M1 M2 N beta).map (sortedVec N)).law
      = ((betaTridiag la (beta / 2 * ((M1 : ℝ) - N + 1)) (beta / 2 * ((M2 : ℝ) - N + 1)) beta N).map (toVec N)).law := by
  obtain ⟨n, rfl⟩ : ∃ n, N = n + 1 := ⟨N - 1, by omega⟩
  rcases hb with rfl | rfl
  · obtain ⟨a1, a2, a3, a4⟩ := jacobi_pts_law hla gaussK_one gam1_conj h1 h2
    rw [jacobiFull_law_one a1 a3, betaTridiag_law one_pos h1 h2 a2, a4]
  · obtain ⟨a1, a2, a3, a4⟩ := jacobi_pts_law hla gaussK_two gam2_conj h1 h2
    rw [jacobiFull_law_two a1 a3, betaTridiag_law two_pos h1 h2 a2, a4]

/-- **C90**. For `beta = 1`, `beta = 2` and `1 <= N <= M1, M2` the points returned by the full matrix model, once sorted, follow the beta
ensemble with reference measure `Beta(beta/2 (M1 - N + 1), beta/2 (M2 - N + 1))`. -/
theorem C90_jacobi_full_law {la : LA} (hla : LAOK la) {beta : ℝ} (hb : beta = 1 ∨ beta = 2) {N M1 M2 : ℕ} (hN : 1 ≤ N) (h1 : N ≤ M1)
    (h2 : N ≤ M2) :
    IsBetaEnsemble ((jacobiSamplerFull la M1 M2 N beta).map (sortedVec N)).law beta
      (fun x => if 0 < x ∧ x < 1 then x ^ (beta / 2 * ((M1 : ℝ) - N + 1) - 1) * (1 - x) ^ (beta / 2 * ((M2 : ℝ) - N + 1) - 1) else 0) := by
  have hb0 : 0 < beta := by rcases hb with rfl | rfl <;> norm_num
  have hsh : ∀ M : ℕ, N ≤ M → 0 < beta / 2 * ((M : ℝ) - N + 1) := fun M hM => by
    have : (N : ℝ) ≤ M := by exact_mod_cast hM
    have : 0 < (M : ℝ) - N + 1 := by linarith
    positivity
  rw [C90_jacobi_full_eq_banded hla hb hN h1 h2]
  exact C81_jacobi_banded_law hla (hsh M1 h1) (hsh M2 h2) hb0 hN

/-- **C90** for `JacobiEnsemble.sample_full_model(size_N, size_M1, size_M2)`: whatever calls were made before on the object. -/
theorem C90_jacobi_full_method {la : LA} (hla : LAOK la) {st : EnsSt} (hk : st.kind = .jacobi) (hb : st.b = 1 ∨ st.b = 2) {N M1 M2 : ℕ}
    (hN : 1 ≤ N) (h1 : N ≤ M1) (h2 : N ≤ M2) (h : Haar) :
    ∃ st' p, ensPrep la st (.full N M1 M2 h) = some (st', p) ∧
      IsBetaEnsemble (p.map (sortedVecC N)).law st.b
        (fun x => if 0 < x ∧ x < 1 then x ^ (st.b / 2 * ((M1 : ℝ) - N + 1) - 1) * (1 - x) ^ (st.b / 2 * ((M2 : ℝ) - N + 1) - 1) else 0) := by
  have h0 : st.b ≠ 0 := by rcases hb with h | h <;> rw [h] <;> norm_num
  refine ⟨_, _, by simp only [ensPrep, hk, jacobiFullPrep, if_pos (And.intro h1 h2), if_neg h0]; rfl, ?_⟩
  rw [RP_map_map]
  simp only [sortedVecC_toC]
  exact C90_jacobi_full_law hla hb hN h1 h2

/-- the hypotheses can be met: an exact solver exists; two points of the real model with two matrices of three and four columns -/
example : ∃ la : LA, LAOK la ∧ IsBetaEnsemble ((jacobiSamplerFull la 3 4 2 1).map (sortedVec 2)).law 1
    (fun x => if 0 < x ∧ x < 1 then x ^ ((1 : ℝ) / 2 * (((3 : ℕ) : ℝ) - ((2 : ℕ) : ℝ) + 1) - 1)
      * (1 - x) ^ ((1 : ℝ) / 2 * (((4 : ℕ) : ℝ) - ((2 : ℕ) : ℝ) + 1) - 1) else 0) := by
  obtain ⟨la, hla⟩ := exists_LAOK
  exact ⟨la, hla, C90_jacobi_full_law hla (.inl rfl) (by norm_num) (by norm_num) (by norm_num)⟩

end Verif.Props
