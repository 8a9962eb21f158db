import Verif.Lemmas.Boo4
import Verif.Lemmas.Boo6
import Mathlib.LinearAlgebra.Matrix.Charpoly.Coeff
import Mathlib.Topology.Instances.Matrix
import Mathlib.Probability.ProbabilityMassFunction.Basic

/-!
The point process of the Poissonised Plancherel measure is determinantal.
-/

set_option linter.unusedVariables false

namespace Verif.Lemmas
open Verif Verif.Spec Verif.Model
open scoped InnerProductSpace Topology NNReal ENNReal
open Filter Finset

/-- continuity of a discrete law along increasing events -/
theorem PP_tendsto {α : Type*} (p : PMF α) (e : ℕ → α → Prop) (hm : ∀ m n, m ≤ n → ∀ a, e m a → e n a) :
    Tendsto (fun n => PP p (e n)) atTop (𝓝 (PP p fun a => ∃ n, e n a)) := by
  classical
  letI : MeasurableSpace α := ⊤
  have h : ∀ ev : α → Prop, PP p ev = p.toMeasure {a | ev a} := fun ev => by
    rw [PMF.toMeasure_apply _ (MeasurableSpace.measurableSet_top)]
    unfold PP PE
    refine tsum_congr fun a => ?_
    rw [Set.indicator_apply]
    by_cases ha : ev a
    · simp only [if_pos ha, if_pos (show a ∈ {a | ev a} from ha), mul_one]
    · simp only [if_neg ha, if_neg (show a ∉ {a | ev a} from ha), mul_zero]
  simp_rw [h]
  have := MeasureTheory.tendsto_measure_iUnion_atTop (μ := p.toMeasure) (s := fun n => {a | e n a}) (fun m n hmn a ha => hm m n hmn a ha)
  have e2 : (⋃ n, {a | e n a}) = {a | ∃ n, e n a} := by ext a; simp
  rw [e2] at this
  exact this

/-- no row of the diagram of at most `M` rows has coordinate in `B` -/
def GapM (M : ℕ) (B : Finset ℤ) (o : Option (List ℕ × List ℚ)) : Prop :=
  ∃ lam s, o = some (lam, s) ∧ lam.length ≤ M ∧ ∀ i : ℕ, (lam.getD i 0 : ℤ) - (i : ℤ) ∉ B

/-- no row of the diagram has coordinate in `B` -/
def Gap (B : Finset ℤ) (o : Option (List ℕ × List ℚ)) : Prop :=
  ∃ lam s, o = some (lam, s) ∧ ∀ i : ℕ, (lam.getD i 0 : ℤ) - (i : ℤ) ∉ B

theorem PP_gapM {H : Type*} [NormedAddCommGroup H] [InnerProductSpace ℝ H] [CompleteSpace H] (b : HilbertBasis ℤ ℝ H)
    (θ : ℝ≥0) (M : ℕ) (B : Finset ℤ) (hB : ∀ x ∈ B, 1 - (M : ℤ) ≤ x) :
    PP (plancherelSample θ) (GapM M B) = ENNReal.ofReal (Real.exp (-θ) *
      (gramV b (Real.sqrt θ) M - (valV (Real.sqrt θ) M B).transpose * valV (Real.sqrt θ) M B).det) := by
  have h1 := PP_tendsto (plancherelSample θ) (fun L => GapBox M L B) (fun m n hmn o => by
    rintro ⟨lam, s, e, h1, h2, h3⟩
    exact ⟨lam, s, e, h1, h2.trans hmn, h3⟩)
  have e1 : (fun o => ∃ L, GapBox M L B o) = GapM M B := by
    funext o
    refine propext ⟨?_, ?_⟩
    · rintro ⟨L, lam, s, e, h1, h2, h3⟩; exact ⟨lam, s, e, h1, h3⟩
    · rintro ⟨lam, s, e, h1, h3⟩; exact ⟨lam.getD 0 0, lam, s, e, h1, le_rfl, h3⟩
  rw [e1] at h1
  refine tendsto_nhds_unique h1 ?_
  simp_rw [PP_gapBox θ M _ B hB]
  refine ENNReal.tendsto_ofReal (Tendsto.const_mul _ ?_)
  have hc : Continuous fun A : Matrix (Fin M) (Fin M) ℝ => A.det := Continuous.matrix_det continuous_id
  refine (hc.tendsto _).comp ?_
  refine tendsto_pi_nhds.2 fun i => tendsto_pi_nhds.2 fun j => ?_
  exact gram_tendsto b (Real.sqrt θ) M B i j

/-- the kernel restricted to a finite set -/
noncomputable def kerOn (r : ℝ) (B : Finset ℤ) : Matrix B B ℝ := Matrix.of fun x y => besK r x y

theorem PP_gap (θ : ℝ≥0) (B : Finset ℤ) :
    PP (plancherelSample θ) (Gap B) = ENNReal.ofReal (1 - kerOn (Real.sqrt θ) B).det := by
  obtain b : HilbertBasis ℤ ℝ (lp (fun _ : ℤ => ℝ) 2) := default
  have hlim : ∀ B : Finset ℤ, Tendsto (fun M => PP (plancherelSample θ) (GapM M B)) atTop (𝓝 (PP (plancherelSample θ) (Gap B))) := fun B => by
    have h1 := PP_tendsto (plancherelSample θ) (fun M => GapM M B) (fun m n hmn o => by
      rintro ⟨lam, s, e, h1, h3⟩
      exact ⟨lam, s, e, h1.trans hmn, h3⟩)
    have e1 : (fun o => ∃ M, GapM M B o) = Gap B := by
      funext o
      refine propext ⟨?_, ?_⟩
      · rintro ⟨L, lam, s, e, h1, h3⟩; exact ⟨lam, s, e, h3⟩
      · rintro ⟨lam, s, e, h3⟩; exact ⟨lam.length, lam, s, e, le_rfl, h3⟩
    rw [e1] at h1
    exact h1
  -- normalisation
  have hone : PP (plancherelSample θ) (Gap ∅) = 1 := by
    have : PP (plancherelSample θ) (Gap ∅) = PP (plancherelSample θ) fun _ => True := PP_congr fun o ho => by
      obtain ⟨lam, s, rfl, -⟩ := plancherel_support θ ho
      exact ⟨fun _ => trivial, fun _ => ⟨lam, s, rfl, fun i => by simp⟩⟩
    rw [this]
    unfold PP
    simp only [if_true]
    exact PE_const _ _
  have hG : Tendsto (fun M => Real.exp (-θ) * (gramV b (Real.sqrt θ) M).det) atTop (𝓝 1) := by
    have h := hlim ∅
    rw [hone] at h
    have h2 := (ENNReal.tendsto_toReal (by simp : (1 : ℝ≥0∞) ≠ ⊤)).comp h
    rw [ENNReal.toReal_one] at h2
    refine h2.congr fun M => ?_
    rw [Function.comp_apply, PP_gapM b θ M ∅ (by simp)]
    have e : (valV (Real.sqrt θ) M ∅).transpose * valV (Real.sqrt θ) M ∅ = 0 := by
      ext i j; simp [Matrix.mul_apply]
    rw [e, sub_zero, ENNReal.toReal_ofReal]
    exact mul_nonneg (Real.exp_pos _).le (gramV_det_pos b _ M).le
  have hK : Tendsto (fun M => (1 - valV (Real.sqrt θ) M B * (gramV b (Real.sqrt θ) M)⁻¹ * (valV (Real.sqrt θ) M B).transpose).det) atTop
      (𝓝 (1 - kerOn (Real.sqrt θ) B).det) := by
    have hc : Continuous fun A : Matrix B B ℝ => (1 - A).det := Continuous.matrix_det (continuous_const.sub continuous_id)
    refine (hc.tendsto _).comp ?_
    exact tendsto_pi_nhds.2 fun x => tendsto_pi_nhds.2 fun y => ker_tendsto b (Real.sqrt θ) B x y
  have hGK := hG.mul hK
  rw [one_mul] at hGK
  refine tendsto_nhds_unique (hlim B) ((ENNReal.tendsto_ofReal hGK).congr' ?_)
  obtain ⟨M₀, hM₀⟩ : ∃ M₀ : ℕ, ∀ x ∈ B, 1 - (M₀ : ℤ) ≤ x := by
    refine ⟨∑ x ∈ B, x.natAbs + 1, fun x hx => ?_⟩
    have := single_le_sum (f := fun x : ℤ => x.natAbs) (fun _ _ => Nat.zero_le _) hx
    omega
  refine (eventually_ge_atTop M₀).mono fun M hM => ?_
  change _ = PP (plancherelSample θ) (GapM M B)
  rw [PP_gapM b θ M B (fun x hx => by have := hM₀ x hx; omega), det_gram_sub, ← mul_assoc]

theorem det_compl_nonneg (r : ℝ) (B : Finset ℤ) : 0 ≤ (1 - kerOn r B).det := by
  obtain b : HilbertBasis ℤ ℝ (lp (fun _ : ℤ => ℝ) 2) := default
  obtain ⟨K, hK⟩ : ∃ K, K = (Submodule.span ℝ (Set.range (vv b r))).topologicalClosure := ⟨_, rfl⟩
  have e : 1 - kerOn r B = Matrix.gram ℝ (fun x : B => b (x : ℤ) - (Submodule.span ℝ (Set.range (vv b r))).topologicalClosure.starProjection (b (x : ℤ))) := by
    ext x y
    rw [Matrix.gram_apply, inner_sub_right, Submodule.starProjection_inner_eq_zero _ _ (Submodule.starProjection_apply_mem _ _), sub_zero,
      inner_sub_left, Matrix.sub_apply, real_inner_comm _ (Submodule.starProjection _ _), real_inner_comm, ← besK_eq b r y x]
    rw [Matrix.one_apply, orthonormal_iff_ite.1 b.orthonormal, kerOn, Matrix.of_apply]
    congr 1
    · exact if_congr (by rw [Subtype.ext_iff, eq_comm]) rfl rfl
    · unfold besK
      exact tsum_congr fun j => mul_comm _ _
  rw [e]
  exact (Matrix.posSemidef_gram (𝕜 := ℝ) _).det_nonneg

/-- expansion of a determinant into principal minors of the complement -/
theorem det_eq_sum_compl {ι : Type*} [Fintype ι] [DecidableEq ι] (K : Matrix ι ι ℝ) :
    K.det = ∑ s : Finset ι, (-1 : ℝ) ^ s.card * ((1 - K).submatrix (Subtype.val : s → ι) (Subtype.val : s → ι)).det := by
  have h := (Matrix.detRowAlternating : (ι → ℝ) [⋀^ι]→ₗ[ℝ] ℝ).map_add_univ (fun i => (K - 1) i) (fun i => (1 : Matrix ι ι ℝ) i)
  have e : ((fun i => (K - 1) i) + fun i => (1 : Matrix ι ι ℝ) i) = K := by
    funext i j; simp [Matrix.sub_apply]
  rw [e] at h
  refine h.trans (sum_congr rfl fun s _ => ?_)
  refine (Matrix.det_piecewise_one_eq_submatrix_det (K - 1) s).trans ?_
  rw [show (K - 1).submatrix (Subtype.val : s → ι) (Subtype.val : s → ι) = -(1 - K).submatrix (Subtype.val : s → ι) (Subtype.val : s → ι) by
    ext i j; simp, Matrix.det_neg, Fintype.card_coe]

/-- the rows of the diagram occupy every point of `A` -/
def Occ (A : Finset ℤ) (o : Option (List ℕ × List ℚ)) : Prop :=
  ∃ lam s, o = some (lam, s) ∧ ∀ a ∈ A, ∃ i : ℕ, (lam.getD i 0 : ℤ) - (i : ℤ) = a

/-- inclusion and exclusion for a set of points -/
theorem incl_excl (A : Finset ℤ) (c : ℤ → Prop) [DecidablePred c] :
    (if ∀ a ∈ A, c a then (1 : ℝ) else 0) = ∑ B ∈ A.powerset, (-1 : ℝ) ^ B.card * (if ∀ a ∈ B, ¬ c a then 1 else 0) := by
  have h1 : ∀ (B : Finset ℤ) (d : ℤ → Prop) [DecidablePred d], (if ∀ a ∈ B, d a then (1 : ℝ) else 0) = ∏ a ∈ B, if d a then 1 else 0 := by
    intro B d _
    rw [prod_ite_zero]; simp
  rw [h1]
  simp_rw [h1]
  have h2 : ∀ a ∈ A, (if c a then (1 : ℝ) else 0) = (-(if ¬ c a then (1 : ℝ) else 0)) + 1 := fun a _ => by split_ifs <;> simp
  rw [prod_congr rfl h2, prod_add]
  refine sum_congr rfl fun B _ => ?_
  rw [prod_const_one, mul_one, prod_neg]

open Classical in
/-- the determinantal formula -/
theorem PP_occ (θ : ℝ≥0) (A : Finset ℤ) :
    PP (plancherelSample θ) (Occ A) = ENNReal.ofReal (kerOn (Real.sqrt θ) A).det := by
  -- real expectations of bounded functions
  have hlt : ∀ ev, PP (plancherelSample θ) ev ≠ ⊤ := fun ev => ne_top_of_le_ne_top ENNReal.one_ne_top (PP_le_one _ _)
  have key : PP (plancherelSample θ) (Occ A) + ∑ B ∈ A.powerset.filter (fun B => ¬ Even B.card), PP (plancherelSample θ) (Gap B)
      = ∑ B ∈ A.powerset.filter (fun B => Even B.card), PP (plancherelSample θ) (Gap B) := by
    unfold PP
    rw [← PE_sum, ← PE_sum, ← PE_add]
    refine PE_congr fun o ho => ?_
    obtain ⟨lam, s, rfl, -⟩ := plancherel_support θ ho
    obtain ⟨c, hc⟩ : ∃ c : ℤ → Prop, c = fun a => ∃ i : ℕ, (lam.getD i 0 : ℤ) - (i : ℤ) = a := ⟨_, rfl⟩
    have h1 : Occ A (some (lam, s)) ↔ ∀ a ∈ A, c a := by
      subst hc
      constructor
      · rintro ⟨lam', s', e, h⟩
        obtain ⟨rfl, rfl⟩ : lam = lam' ∧ s = s' := by simpa using e
        exact h
      · intro h; exact ⟨lam, s, rfl, h⟩
    have h2 : ∀ B, Gap B (some (lam, s)) ↔ ∀ a ∈ B, ¬ c a := fun B => by
      subst hc
      constructor
      · rintro ⟨lam', s', e, h⟩ a ha ⟨i, hi⟩
        obtain ⟨rfl, rfl⟩ : lam = lam' ∧ s = s' := by simpa using e
        exact h i (hi ▸ ha)
      · intro h; exact ⟨lam, s, rfl, fun i hi => h _ hi ⟨i, rfl⟩⟩
    simp only [h1, h2]
    have h3 := incl_excl A c
    rw [← sum_filter_add_sum_filter_not A.powerset (fun B => Even B.card)] at h3
    have h4 : ∑ B ∈ A.powerset.filter (fun B => Even B.card), (-1 : ℝ) ^ B.card * (if ∀ a ∈ B, ¬ c a then 1 else 0)
        = ∑ B ∈ A.powerset.filter (fun B => Even B.card), (if ∀ a ∈ B, ¬ c a then 1 else 0) :=
      sum_congr rfl fun B hB => by rw [(mem_filter.1 hB).2.neg_one_pow, one_mul]
    have h5 : ∑ B ∈ A.powerset.filter (fun B => ¬ Even B.card), (-1 : ℝ) ^ B.card * (if ∀ a ∈ B, ¬ c a then 1 else 0)
        = -∑ B ∈ A.powerset.filter (fun B => ¬ Even B.card), (if ∀ a ∈ B, ¬ c a then 1 else 0) := by
      rw [← sum_neg_distrib]
      exact sum_congr rfl fun B hB => by rw [(Nat.not_even_iff_odd.1 (mem_filter.1 hB).2).neg_one_pow, neg_one_mul]
    rw [h4, h5] at h3
    have h6 : (((if ∀ a ∈ A, c a then 1 else 0) + ∑ B ∈ A.powerset.filter (fun B => ¬ Even B.card), (if ∀ a ∈ B, ¬ c a then 1 else 0) : ℕ) : ℝ)
        = ((∑ B ∈ A.powerset.filter (fun B => Even B.card), (if ∀ a ∈ B, ¬ c a then 1 else 0) : ℕ) : ℝ) := by
      push_cast
      linarith
    have h7 := congrArg (fun n : ℕ => (n : ℝ≥0∞)) (Nat.cast_injective h6)
    push_cast at h7
    exact h7
  have hr : (PP (plancherelSample θ) (Occ A)).toReal = ∑ B ∈ A.powerset, (-1 : ℝ) ^ B.card * (PP (plancherelSample θ) (Gap B)).toReal := by
    have h := congrArg ENNReal.toReal key
    rw [ENNReal.toReal_add (hlt _) (ENNReal.sum_ne_top.2 fun B _ => hlt _), ENNReal.toReal_sum fun B _ => hlt _, ENNReal.toReal_sum fun B _ => hlt _] at h
    rw [← sum_filter_add_sum_filter_not A.powerset (fun B => Even B.card)]
    have h4 : ∑ B ∈ A.powerset.filter (fun B => Even B.card), (-1 : ℝ) ^ B.card * (PP (plancherelSample θ) (Gap B)).toReal
        = ∑ B ∈ A.powerset.filter (fun B => Even B.card), (PP (plancherelSample θ) (Gap B)).toReal :=
      sum_congr rfl fun B hB => by rw [(mem_filter.1 hB).2.neg_one_pow, one_mul]
    have h5 : ∑ B ∈ A.powerset.filter (fun B => ¬ Even B.card), (-1 : ℝ) ^ B.card * (PP (plancherelSample θ) (Gap B)).toReal
        = -∑ B ∈ A.powerset.filter (fun B => ¬ Even B.card), (PP (plancherelSample θ) (Gap B)).toReal := by
      rw [← sum_neg_distrib]
      exact sum_congr rfl fun B hB => by rw [(Nat.not_even_iff_odd.1 (mem_filter.1 hB).2).neg_one_pow, neg_one_mul]
    rw [h4, h5]
    linarith
  rw [← ENNReal.ofReal_toReal (hlt (Occ A)), hr, det_eq_sum_compl]
  congr 1
  have hs : ∀ f : Finset ℤ → ℝ, ∑ B ∈ A.powerset, f B = ∑ s : Finset A, f (s.map (Function.Embedding.subtype _)) := fun f => by
    symm
    refine sum_bij (fun s _ => s.map (Function.Embedding.subtype _)) (fun s _ => ?_) (fun s _ t _ h => ?_) (fun B hB => ?_) (fun s _ => rfl)
    · rw [mem_powerset]; intro x hx
      obtain ⟨y, -, rfl⟩ := mem_map.1 hx
      exact y.2
    · exact map_injective _ h
    · exact ⟨B.subtype _, mem_univ _, by rw [subtype_map, filter_true_of_mem fun x hx => mem_powerset.1 hB hx]⟩
  rw [hs]
  refine sum_congr rfl fun s _ => ?_
  rw [card_map, PP_gap]
  rw [ENNReal.toReal_ofReal (det_compl_nonneg _ _)]
  congr 1
  obtain ⟨w, hw⟩ : ∃ w : s ≃ (s.map (Function.Embedding.subtype fun x => x ∈ A)), ∀ x, ((w x : ℤ)) = ((x : A) : ℤ) :=
    ⟨Equiv.ofBijective (fun x => ⟨((x : A) : ℤ), mem_map.2 ⟨x, x.2, rfl⟩⟩) ⟨fun x y h => Subtype.ext (Subtype.ext (by simpa using h)),
      fun ⟨y, hy⟩ => by
        obtain ⟨z, hz, rfl⟩ := mem_map.1 hy
        exact ⟨⟨z, hz⟩, rfl⟩⟩, fun x => rfl⟩
  rw [← Matrix.det_submatrix_equiv_self w]
  congr 1
  ext x y
  simp only [Matrix.submatrix_apply, Matrix.sub_apply, Matrix.one_apply, kerOn, Matrix.of_apply, hw]
  congr 1
  refine if_congr ?_ rfl rfl
  rw [EmbeddingLike.apply_eq_iff_eq, Subtype.ext_iff]

end Verif.Lemmas
