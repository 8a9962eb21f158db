import Verif.Props.JacobiLaw
import Verif.Model.BetaEnsembles

/-!
# C79, C80, C81 for the methods `sample_banded_model`
-/

namespace Verif.Lemmas
open Finset MeasureTheory ProbabilityTheory Verif.Model Verif.Spec

theorem RP_map_map {α β γ : Type} (p : RP α) (f : α → β) (g : β → γ) : (p.map f).map g = p.map (fun x => g (f x)) := by
  induction p with
  | ret a => rfl
  | fail e => rfl
  | normal n l s k ih => simp only [RP.map, ih]
  | gamma n sh sc k ih => simp only [RP.map, ih]
  | beta n a b k ih => simp only [RP.map, ih]
  | unif n k ih => simp only [RP.map, ih]
  | randint n k ih => simp only [RP.map, ih]

theorem toVecC_toC (N : ℕ) (l : List ℝ) : toVecC N (toC l) = toVec N l := by
  funext i
  rw [toVecC, toVec, toC]
  by_cases h : (i : ℕ) < l.length
  · rw [List.getD_eq_getElem _ _ (by simpa using h), List.getD_eq_getElem _ _ h]; simp
  · rw [List.getD_eq_default _ _ (by simpa using h), List.getD_eq_default _ _ (by simpa using h)]; simp

theorem map_toC (N : ℕ) (p : RP (List ℝ)) : (p.map toC).map (toVecC N) = p.map (toVec N) := by
  rw [RP_map_map]; simp only [toVecC_toC]

theorem toVecC_vecC {N : ℕ} (x : Fin N → ℝ) : toVecC N (vecC x) = x := (toVecC_toC N (List.ofFn x)).trans (toVec_ofFn x)

theorem pi_bind_self {N : ℕ} (μ : Fin N → Measure ℝ) : ((Measure.pi μ).bind fun x => Measure.dirac x) = Measure.pi μ :=
  Measure.bind_dirac

end Verif.Lemmas

namespace Verif.Props
open Finset MeasureTheory ProbabilityTheory Verif.Model Verif.Spec Verif.Lemmas

/-- **C79** for `HermiteEnsemble.sample_banded_model(loc, scale, size_N)`: the beta ensemble when `beta > 0`, independent normal
points when `beta = 0`; whatever calls were made before on the object. -/
theorem C79_hermite_banded_method {la : LA} (hla : LAOK la) {st : EnsSt} (hk : st.kind = .hermite) (loc : ℝ) {scale : ℝ}
    (hs : 0 < scale) {N : ℕ} (hN : 1 ≤ N) (M1 M2 : Option ℝ) :
    ∃ st' p, ensPrep la st (.banded loc scale N M1 M2) = some (st', p) ∧
      (0 < st.b → IsBetaEnsemble (p.map (toVecC N)).law st.b (fun x => Real.exp (-(x - loc) ^ 2 / (2 * scale ^ 2)))) ∧
      (st.b = 0 → (p.map (toVecC N)).law = Measure.pi fun _ => gaussianReal loc (Real.toNNReal (scale ^ 2))) := by
  refine ⟨_, _, by simp only [ensPrep, hk, hermiteBandedPrep]; rfl, fun hb => ?_, fun hb => ?_⟩
  · rw [if_neg hb.ne', map_toC]
    exact C79_hermite_banded_law hla loc hs hb hN
  · rw [if_pos hb]
    simp only [RP.map, RP.law, toVecC_vecC, if_neg (not_lt.2 hs.le)]
    exact pi_bind_self _

theorem laguerreBandedProg_law {la : LA} (hla : LAOK la) {beta shape scale : ℝ} (hsh : 0 < shape) (hs : 0 < scale) {N : ℕ}
    (hN : 1 ≤ N) :
    (0 < beta → IsBetaEnsemble ((laguerreBandedProg la beta shape scale N).map (toVecC N)).law beta
      (fun x => if 0 < x then x ^ (shape - 1) * Real.exp (-x / scale) else 0)) ∧
    (beta = 0 → ((laguerreBandedProg la beta shape scale N).map (toVecC N)).law = Measure.pi fun _ => gammaMeasure shape (1 / scale)) := by
  refine ⟨fun hb => ?_, fun hb => ?_⟩
  · rw [laguerreBandedProg, if_neg hb.ne', map_toC]
    exact C80_laguerre_banded_law hla hsh hs hb hN
  · rw [laguerreBandedProg, if_pos hb, if_pos hsh]
    have hc : ¬ ((∃ _ : Fin N, shape < 0) ∨ scale < 0) := by
      rintro (⟨_, h⟩ | h)
      · exact absurd h (not_lt.2 hsh.le)
      · exact absurd h (not_lt.2 hs.le)
    simp only [RP.map, RP.law, toVecC_vecC, if_neg hc]
    rw [pi_bind_self]
    simp only [RP.gammaLaw, if_neg (not_or.2 ⟨hsh.ne', hs.ne'⟩)]

/-- **C80** for `LaguerreEnsemble.sample_banded_model(shape, scale, size_N, size_M)`.  Without `size_M` (or with `size_M = 0`): the
ensemble with reference measure `Gamma(shape, scale)`.  With `size_M >= size_N`: `shape` and `scale` are replaced by
`beta/2 (size_M - size_N + 1)` and `2`. -/
theorem C80_laguerre_banded_method {la : LA} (hla : LAOK la) {st : EnsSt} (hk : st.kind = .laguerre) {shape scale : ℝ}
    (hsh : 0 < shape) (hs : 0 < scale) {N : ℕ} (hN : 1 ≤ N) (M2 : Option ℝ) :
    (∀ M, M = none ∨ M = some 0 → ∃ st' p, ensPrep la st (.banded shape scale N M M2) = some (st', p) ∧
      (0 < st.b → IsBetaEnsemble (p.map (toVecC N)).law st.b (fun x => if 0 < x then x ^ (shape - 1) * Real.exp (-x / scale) else 0)) ∧
      (st.b = 0 → (p.map (toVecC N)).law = Measure.pi fun _ => gammaMeasure shape (1 / scale))) ∧
    (∀ m : ℝ, N ≤ m → 0 < st.b → ∃ st' p, ensPrep la st (.banded shape scale N (some m) M2) = some (st', p) ∧
      IsBetaEnsemble (p.map (toVecC N)).law st.b
        (fun x => if 0 < x then x ^ (st.b / 2 * (m - N + 1) - 1) * Real.exp (-x / 2) else 0)) := by
  refine ⟨fun M hM => ?_, fun m hm hb => ?_⟩
  · have h := laguerreBandedProg_law hla (beta := st.b) hsh hs hN
    rcases hM with rfl | rfl
    · exact ⟨_, _, by simp only [ensPrep, hk, laguerreBandedPrep, laguerreBandedPrep.laguerreBandedPrepNone]; rfl, h⟩
    · exact ⟨_, _, by simp only [ensPrep, hk, laguerreBandedPrep, laguerreBandedPrep.laguerreBandedPrepNone, if_pos]; rfl, h⟩
  · have hN0 : (0 : ℝ) < N := by exact_mod_cast hN
    have hm0 : m ≠ 0 := by linarith
    have hsh' : 0 < 0.5 * st.b * (m - N + 1) := by
      have : 0 < m - N + 1 := by linarith
      positivity
    refine ⟨_, _, by simp only [ensPrep, hk, laguerreBandedPrep, if_neg hm0, if_pos hm]; rfl, ?_⟩
    have h := (laguerreBandedProg_law hla (beta := st.b) hsh' two_pos hN).1 hb
    have e : 0.5 * st.b * (m - N + 1) = st.b / 2 * (m - N + 1) := by ring
    rw [e] at h ⊢
    exact h

theorem jacobiBandedProg_law {la : LA} (hla : LAOK la) {beta a b : ℝ} (ha : 0 < a) (hb : 0 < b) {N : ℕ} (hN : 1 ≤ N) :
    (0 < beta → IsBetaEnsemble ((jacobiBandedProg la beta a b N).map (toVecC N)).law beta
      (fun x => if 0 < x ∧ x < 1 then x ^ (a - 1) * (1 - x) ^ (b - 1) else 0)) ∧
    (beta = 0 → ((jacobiBandedProg la beta a b N).map (toVecC N)).law = Measure.pi fun _ => betaMeasure a b) := by
  refine ⟨fun hbt => ?_, fun hbt => ?_⟩
  · rw [jacobiBandedProg, if_neg hbt.ne', map_toC]
    exact C81_jacobi_banded_law hla ha hb hbt hN
  · rw [jacobiBandedProg, if_pos hbt]
    have hc : ¬ (∃ _ : Fin N, a ≤ 0 ∨ b ≤ 0) := by
      rintro ⟨_, h | h⟩
      · exact absurd h (not_le.2 ha)
      · exact absurd h (not_le.2 hb)
    simp only [RP.map, RP.law, toVecC_vecC, if_neg hc]
    exact pi_bind_self _

/-- **C81** for `JacobiEnsemble.sample_banded_model(a, b, size_N, size_M1, size_M2)`.  Unless both sizes are given and non-zero: the
ensemble with reference measure `Beta(a, b)`.  With both sizes at least `size_N`: `a` and `b` are replaced by
`beta/2 (size_M1 - size_N + 1)` and `beta/2 (size_M2 - size_N + 1)`. -/
theorem C81_jacobi_banded_method {la : LA} (hla : LAOK la) {st : EnsSt} (hk : st.kind = .jacobi) {a b : ℝ}
    (ha : 0 < a) (hb : 0 < b) {N : ℕ} (hN : 1 ≤ N) :
    (∀ M1 M2, M1 = none ∨ M1 = some 0 ∨ M2 = none ∨ M2 = some 0 → ∃ st' p, ensPrep la st (.banded a b N M1 M2) = some (st', p) ∧
      (0 < st.b → IsBetaEnsemble (p.map (toVecC N)).law st.b
        (fun x => if 0 < x ∧ x < 1 then x ^ (a - 1) * (1 - x) ^ (b - 1) else 0)) ∧
      (st.b = 0 → (p.map (toVecC N)).law = Measure.pi fun _ => betaMeasure a b)) ∧
    (∀ m1 m2 : ℝ, N ≤ m1 → N ≤ m2 → 0 < st.b → ∃ st' p, ensPrep la st (.banded a b N (some m1) (some m2)) = some (st', p) ∧
      IsBetaEnsemble (p.map (toVecC N)).law st.b
        (fun x => if 0 < x ∧ x < 1 then x ^ (st.b / 2 * (m1 - N + 1) - 1) * (1 - x) ^ (st.b / 2 * (m2 - N + 1) - 1) else 0)) := by
  refine ⟨fun M1 M2 hM => ?_, fun m1 m2 hm1 hm2 hbt => ?_⟩
  · have hnone : bothSizes M1 M2 = none := by
      rcases hM with rfl | rfl | rfl | rfl
      · rcases M2 <;> rfl
      · rcases M2 <;> simp [bothSizes]
      · rcases M1 <;> rfl
      · rcases M1 <;> simp [bothSizes]
    exact ⟨_, _, by simp only [ensPrep, hk, jacobiBandedPrep, hnone]; rfl, jacobiBandedProg_law hla (beta := st.b) ha hb hN⟩
  · have hN0 : (0 : ℝ) < N := by exact_mod_cast hN
    have hsome : bothSizes (some m1) (some m2) = some (m1, m2) := by
      have h1 : m1 ≠ 0 := by linarith
      have h2 : m2 ≠ 0 := by linarith
      simp [bothSizes, h1, h2]
    have ha' : 0 < 0.5 * st.b * (m1 - N + 1) := by
      have : 0 < m1 - N + 1 := by linarith
      positivity
    have hb' : 0 < 0.5 * st.b * (m2 - N + 1) := by
      have : 0 < m2 - N + 1 := by linarith
      positivity
    refine ⟨_, _, by simp only [ensPrep, hk, jacobiBandedPrep, hsome, if_pos (And.intro hm1 hm2)]; rfl, ?_⟩
    have h := (jacobiBandedProg_law hla (beta := st.b) ha' hb' hN).1 hbt
    have e1 : 0.5 * st.b * (m1 - N + 1) = st.b / 2 * (m1 - N + 1) := by ring
    have e2 : 0.5 * st.b * (m2 - N + 1) = st.b / 2 * (m2 - N + 1) := by ring
    rw [e1, e2] at h ⊢
    exact h

/-- the hypotheses can be met: an ensemble built with `beta = 3`, as the constructor does -/
example : ∃ la : LA, LAOK la ∧ ∃ st, ensInit .jacobi (.int 3) = .ok st ∧ st.kind = .jacobi ∧ 0 < st.b ∧
    ∃ st' p, ensPrep la st (.banded 2 1 5 none none) = some (st', p) ∧ IsBetaEnsemble (p.map (toVecC 5)).law st.b
      (fun x => if 0 < x ∧ x < 1 then x ^ ((2 : ℝ) - 1) * (1 - x) ^ ((1 : ℝ) - 1) else 0) := by
  obtain ⟨la, hla⟩ := exists_LAOK
  have hb : 0 < (ensNew .jacobi (.int 3)).b := by simp [EnsSt.b, ensNew, BetaVal.val]
  refine ⟨la, hla, ensNew .jacobi (.int 3), by simp [ensInit, ensInitBase], rfl, hb, ?_⟩
  obtain ⟨st', p, h, h2, -⟩ := (C81_jacobi_banded_method hla (st := ensNew .jacobi (.int 3)) rfl two_pos one_pos
    (N := 5) (by norm_num)).1 none none (.inl rfl)
  exact ⟨st', p, h, h2 hb⟩

end Verif.Props
