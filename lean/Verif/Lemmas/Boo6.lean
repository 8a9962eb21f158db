import Verif.Lemmas.Boo5
import Mathlib.Analysis.InnerProductSpace.Projection.Submodule
import Mathlib.Analysis.InnerProductSpace.Projection.FiniteDimensional
import Mathlib.LinearAlgebra.Matrix.NonsingularInverse
import Mathlib.LinearAlgebra.Matrix.SchurComplement

/-!
Projection kernels on the spans of the exponential vectors converge to the discrete Bessel kernel.
-/

set_option linter.unusedVariables false

namespace Verif.Lemmas
open scoped InnerProductSpace Topology
open Filter Finset

variable {H : Type*} [NormedAddCommGroup H] [InnerProductSpace ℝ H] [CompleteSpace H]

/-- span of the first vectors of a sequence -/
def spanTo (w : ℕ → H) (M : ℕ) : Submodule ℝ H := Submodule.span ℝ (Set.range fun j : Fin M => w j)

instance (w : ℕ → H) (M : ℕ) : FiniteDimensional ℝ (spanTo w M) := FiniteDimensional.span_of_finite ℝ (Set.finite_range _)

theorem spanTo_mono (w : ℕ → H) : Monotone (spanTo w) := fun m n h =>
  Submodule.span_mono (by rintro _ ⟨j, rfl⟩; exact ⟨Fin.castLE h j, rfl⟩)

theorem iSup_spanTo (w : ℕ → H) : ⨆ M, spanTo w M = Submodule.span ℝ (Set.range w) := by
  refine le_antisymm (iSup_le fun M => Submodule.span_mono (by rintro _ ⟨j, rfl⟩; exact ⟨j, rfl⟩)) ?_
  rw [Submodule.span_le]
  rintro _ ⟨j, rfl⟩
  exact (le_iSup (spanTo w) (j + 1)) (Submodule.subset_span ⟨⟨j, by omega⟩, rfl⟩)

theorem proj_tendsto (w : ℕ → H) (y : H) :
    Tendsto (fun M => (spanTo w M).starProjection y) atTop (𝓝 ((Submodule.span ℝ (Set.range w)).topologicalClosure.starProjection y)) := by
  have h := Submodule.starProjection_tendsto_closure_iSup (spanTo w) (spanTo_mono w) y
  have key : ∀ (K K' : Submodule ℝ H) [K.HasOrthogonalProjection] [K'.HasOrthogonalProjection], K = K' → K.starProjection y = K'.starProjection y := by
    intro K K' _ _ hK; subst hK; rfl
  rwa [key _ (Submodule.span ℝ (Set.range w)).topologicalClosure (by rw [iSup_spanTo])] at h

/-- projection in terms of the inverse Gram matrix -/
theorem proj_gram {M : ℕ} (w : ℕ → H) (y : H) (G : Matrix (Fin M) (Fin M) ℝ) (hG : ∀ i j, G i j = ⟪w i, w j⟫_ℝ) (hdet : IsUnit G.det) :
    (spanTo w M).starProjection y = ∑ j : Fin M, (∑ k : Fin M, G⁻¹ j k * ⟪w k, y⟫_ℝ) • w j := by
  refine Submodule.eq_starProjection_of_mem_of_inner_eq_zero (Submodule.sum_mem _ fun j _ => Submodule.smul_mem _ _ (Submodule.subset_span ⟨j, rfl⟩)) ?_
  intro z hz
  refine Submodule.span_induction (p := fun z _ => ⟪y - ∑ j : Fin M, (∑ k : Fin M, G⁻¹ j k * ⟪w k, y⟫_ℝ) • w j, z⟫_ℝ = 0) ?_ ?_ ?_ ?_ hz
  · rintro _ ⟨i, rfl⟩
    rw [inner_sub_left, sum_inner]
    simp only [inner_smul_left, RCLike.conj_to_real]
    have h1 : G * G⁻¹ = 1 := Matrix.mul_nonsing_inv G hdet
    have h2 : ∑ j : Fin M, (∑ k : Fin M, G⁻¹ j k * ⟪w k, y⟫_ℝ) * ⟪w j, w i⟫_ℝ = ∑ k : Fin M, (G * G⁻¹) i k * ⟪w k, y⟫_ℝ := by
      simp_rw [sum_mul, Matrix.mul_apply, sum_mul]
      rw [sum_comm]
      refine sum_congr rfl fun k _ => sum_congr rfl fun j _ => ?_
      rw [hG, real_inner_comm (w i) (w j)]; ring
    rw [h2, h1]
    simp only [Matrix.one_apply, ite_mul, one_mul, zero_mul, sum_ite_eq, mem_univ, if_true]
    rw [real_inner_comm, sub_self]
  · exact inner_zero_right _
  · intro a c _ _ ha hc; rw [inner_add_right, ha, hc, add_zero]
  · intro t a _ ha; rw [inner_smul_right, ha, mul_zero]

/-- Bessel function `J_k(2 r)` -/
noncomputable def besJ (r : ℝ) (k : ℤ) : ℝ := ∑' m : ℕ, (-r) ^ m / (m.factorial : ℝ) * pw r (k + m)

theorem inner_uu (b : HilbertBasis ℤ ℝ H) (r : ℝ) (x : ℤ) (j : ℕ) : ⟪b x, uu b r j⟫_ℝ = besJ r (x + j) :=
  (hasSum_inner_uu b r x j).tsum_eq.symm

/-- discrete Bessel kernel -/
noncomputable def besK (r : ℝ) (x y : ℤ) : ℝ := ∑' j : ℕ, besJ r (x + j) * besJ r (y + j)

theorem closure_eq (b : HilbertBasis ℤ ℝ H) (r : ℝ) :
    (Submodule.span ℝ (Set.range (vv b r))).topologicalClosure = (Submodule.span ℝ (Set.range (uu b r))).topologicalClosure := by
  have key : ∀ (f g : ℕ → H) (c : ℕ → ℝ), (∀ j, HasSum (fun m : ℕ => c m • g (j + m)) (f j)) →
      (Submodule.span ℝ (Set.range f)).topologicalClosure ≤ (Submodule.span ℝ (Set.range g)).topologicalClosure := by
    intro f g c h
    refine Submodule.topologicalClosure_minimal _ ?_ (Submodule.isClosed_topologicalClosure _)
    rw [Submodule.span_le]
    rintro _ ⟨j, rfl⟩
    refine (Submodule.isClosed_topologicalClosure _).mem_of_tendsto (h j) (Eventually.of_forall fun s => ?_)
    refine Submodule.sum_mem _ fun m _ => Submodule.smul_mem _ _ ?_
    exact Submodule.le_topologicalClosure _ (Submodule.subset_span ⟨_, rfl⟩)
  exact le_antisymm (key _ _ _ (hasSum_vv b r)) (key _ _ _ (hasSum_uu b r))

theorem summable_besJ (r : ℝ) (x y : ℤ) : Summable fun j : ℕ => besJ r (x + j) * besJ r (y + j) := by
  obtain b : HilbertBasis ℤ ℝ (lp (fun _ : ℤ => ℝ) 2) := default
  have hs : ∀ x : ℤ, Summable fun j : ℕ => besJ r (x + j) ^ 2 := fun x => by
    have := (orthonormal_uu b r).inner_products_summable (b x)
    refine this.congr fun j => ?_
    rw [real_inner_comm, inner_uu, Real.norm_eq_abs, sq_abs]
  refine Summable.of_norm_bounded ((hs x).add (hs y)) fun j => ?_
  rw [Real.norm_eq_abs, abs_mul]
  nlinarith [sq_abs (besJ r (x + j)), sq_abs (besJ r (y + j)), sq_nonneg (|besJ r (x + j)| - |besJ r (y + j)|), abs_nonneg (besJ r (x + j)),
    abs_nonneg (besJ r (y + j))]

/-- Gram matrix of the first `M` exponential vectors -/
noncomputable def gramV (b : HilbertBasis ℤ ℝ H) (r : ℝ) (M : ℕ) : Matrix (Fin M) (Fin M) ℝ := Matrix.of fun i j => ⟪vv b r i, vv b r j⟫_ℝ

theorem gramV_det_pos (b : HilbertBasis ℤ ℝ H) (r : ℝ) (M : ℕ) : 0 < (gramV b r M).det := by
  have h : LinearIndependent ℝ (fun j : Fin M => vv b r j) := (linearIndependent_vv b r).comp _ Fin.val_injective
  have h2 := (Matrix.posDef_gram_iff_linearIndependent (𝕜 := ℝ)).2 h
  exact h2.det_pos

/-- values of the exponential vectors on `B` -/
noncomputable def valV (r : ℝ) (M : ℕ) (B : Finset ℤ) : Matrix B (Fin M) ℝ := Matrix.of fun x j => pw r ((x : ℤ) + ((j : ℕ) : ℤ))

/-- the discrete Bessel kernel is the kernel of the orthogonal projection on the closed span of the exponential vectors -/
theorem besK_eq (b : HilbertBasis ℤ ℝ H) (r : ℝ) (x y : ℤ) :
    besK r x y = ⟪b x, (Submodule.span ℝ (Set.range (vv b r))).topologicalClosure.starProjection (b y)⟫_ℝ := by
  have h3 : Tendsto (fun M => ⟪b x, (spanTo (uu b r) M).starProjection (b y)⟫_ℝ) atTop
      (𝓝 ⟪b x, (Submodule.span ℝ (Set.range (uu b r))).topologicalClosure.starProjection (b y)⟫_ℝ) :=
    Filter.Tendsto.inner tendsto_const_nhds (proj_tendsto _ _)
  have h4 : ∀ M, ⟪b x, (spanTo (uu b r) M).starProjection (b y)⟫_ℝ = ∑ j ∈ range M, besJ r (x + j) * besJ r (y + j) := fun M => by
    rw [proj_gram (uu b r) (b y) 1 (fun i j => ?_) (by simp), inner_sum, ← Fin.sum_univ_eq_sum_range (fun j => besJ r (x + j) * besJ r (y + j))]
    · refine sum_congr rfl fun j _ => ?_
      rw [inner_smul_right, inner_uu]
      simp only [inv_one, Matrix.one_apply, ite_mul, one_mul, zero_mul, sum_ite_eq, mem_univ, if_true]
      rw [real_inner_comm, inner_uu, mul_comm]
    · rw [orthonormal_iff_ite.1 (orthonormal_uu b r), Matrix.one_apply]
      exact if_congr (by rw [Fin.ext_iff]) rfl rfl
  simp_rw [h4] at h3
  have h5 := (summable_besJ r x y).hasSum.tendsto_sum_nat
  have h6 := tendsto_nhds_unique h3 h5
  have key : ∀ (K K' : Submodule ℝ H) [K.HasOrthogonalProjection] [K'.HasOrthogonalProjection], K = K' →
      K.starProjection (b y) = K'.starProjection (b y) := by
    intro K K' _ _ hK; subst hK; rfl
  rw [key _ _ (closure_eq b r), h6]; rfl

theorem ker_tendsto (b : HilbertBasis ℤ ℝ H) (r : ℝ) (B : Finset ℤ) (x y : B) :
    Tendsto (fun M => (valV r M B * (gramV b r M)⁻¹ * (valV r M B).transpose) x y) atTop (𝓝 (besK r x y)) := by
  have h1 : ∀ M, (valV r M B * (gramV b r M)⁻¹ * (valV r M B).transpose) x y = ⟪b (x : ℤ), (spanTo (vv b r) M).starProjection (b (y : ℤ))⟫_ℝ := fun M => by
    rw [proj_gram (vv b r) (b (y : ℤ)) (gramV b r M) (fun i j => rfl) (isUnit_iff_ne_zero.2 (gramV_det_pos b r M).ne'), inner_sum]
    rw [Matrix.mul_assoc, Matrix.mul_apply]
    refine sum_congr rfl fun j _ => ?_
    rw [inner_smul_right, inner_vv, Matrix.mul_apply, mul_comm]
    congr 1
    refine sum_congr rfl fun k _ => ?_
    rw [real_inner_comm, inner_vv]
    rfl
  have h2 : Tendsto (fun M => ⟪b (x : ℤ), (spanTo (vv b r) M).starProjection (b (y : ℤ))⟫_ℝ) atTop
      (𝓝 ⟪b (x : ℤ), (Submodule.span ℝ (Set.range (vv b r))).topologicalClosure.starProjection (b (y : ℤ))⟫_ℝ) :=
    Filter.Tendsto.inner tendsto_const_nhds (proj_tendsto _ _)
  rw [besK_eq b]
  simp_rw [h1]
  exact h2

/-- determinant of the Gram matrix with the points of `B` removed -/
theorem det_gram_sub (b : HilbertBasis ℤ ℝ H) (r : ℝ) (M : ℕ) (B : Finset ℤ) :
    (gramV b r M - (valV r M B).transpose * valV r M B).det
      = (gramV b r M).det * (1 - valV r M B * (gramV b r M)⁻¹ * (valV r M B).transpose).det := by
  have hu : IsUnit (gramV b r M).det := isUnit_iff_ne_zero.2 (gramV_det_pos b r M).ne'
  have e : gramV b r M - (valV r M B).transpose * valV r M B = gramV b r M * (1 - ((gramV b r M)⁻¹ * (valV r M B).transpose) * valV r M B) := by
    rw [mul_sub, mul_one, ← Matrix.mul_assoc, ← Matrix.mul_assoc, Matrix.mul_nonsing_inv _ hu, Matrix.one_mul]
  rw [e, Matrix.det_mul, Matrix.det_one_sub_mul_comm, Matrix.mul_assoc]

/-- Parseval -/
theorem hasSum_gram (b : HilbertBasis ℤ ℝ H) (r : ℝ) (i j : ℕ) :
    HasSum (fun s : ℤ => pw r (s + i) * pw r (s + j)) ⟪vv b r i, vv b r j⟫_ℝ := by
  have h := b.hasSum_inner_mul_inner (vv b r i) (vv b r j)
  refine h.congr_fun ?_ |> fun x => x
  intro s
  rw [real_inner_comm, inner_vv, inner_vv]

theorem gram_tendsto (b : HilbertBasis ℤ ℝ H) (r : ℝ) (M : ℕ) (B : Finset ℤ) (i j : Fin M) :
    Tendsto (fun L : ℕ => ∑ s ∈ Icc (1 - (M : ℤ)) L, (if s ∈ B then 0 else 1) * pw r (s + (i : ℤ)) * pw r (s + (j : ℤ))) atTop
      (𝓝 ((gramV b r M - (valV r M B).transpose * valV r M B) i j)) := by
  have h1 : HasSum (fun s : ℤ => (if s ∈ B then 0 else 1) * pw r (s + (i : ℤ)) * pw r (s + (j : ℤ))) ((gramV b r M - (valV r M B).transpose * valV r M B) i j) := by
    have a := hasSum_gram b r i j
    have c : HasSum (fun s : ℤ => if s ∈ B then pw r (s + (i : ℤ)) * pw r (s + (j : ℤ)) else 0)
        (∑ s ∈ B, if s ∈ B then pw r (s + (i : ℤ)) * pw r (s + (j : ℤ)) else 0) := hasSum_sum_of_ne_finset_zero fun s hs => if_neg hs
    have d := a.sub c
    have e : (gramV b r M - (valV r M B).transpose * valV r M B) i j
        = ⟪vv b r i, vv b r j⟫_ℝ - ∑ s ∈ B, (if s ∈ B then pw r (s + (i : ℤ)) * pw r (s + (j : ℤ)) else 0) := by
      rw [Matrix.sub_apply, Matrix.mul_apply]
      congr 1
      rw [← sum_coe_sort B (fun s : ℤ => if s ∈ B then pw r (s + (i : ℤ)) * pw r (s + (j : ℤ)) else 0)]
      refine sum_congr rfl fun s _ => ?_
      rw [if_pos s.2]; rfl
    rw [e]
    refine d.congr_fun ?_ |> fun x => x
    intro s
    split_ifs <;> ring
  have h2 : Tendsto (fun L : ℕ => Icc (-((L : ℤ) + M)) (L : ℤ)) atTop atTop := by
    refine tendsto_atTop_finset_of_monotone (fun m n h => Icc_subset_Icc (by omega) (by omega)) fun s => ⟨s.natAbs, ?_⟩
    rw [mem_Icc]; omega
  have h3 := h1.comp h2
  refine h3.congr fun L => ?_
  simp only [Function.comp_apply]
  symm
  refine sum_subset (Icc_subset_Icc (by omega) le_rfl) fun s hs hn => ?_
  rw [mem_Icc] at hs hn
  have : pw r (s + (i : ℤ)) = 0 := by
    unfold pw
    rw [ifac_neg (by have := i.2; omega), mul_zero]
  rw [this]; ring

end Verif.Lemmas
