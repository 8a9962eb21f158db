import Verif.Lemmas.OneDep2
import Mathlib.LinearAlgebra.Matrix.Determinant.Basic
import Mathlib.Data.Fintype.BigOperators

/-!
Andréief's identity for sums over decreasing sequences.
-/

set_option linter.unusedVariables false

namespace Verif.Lemmas
open Finset

variable {X : Type*} [LinearOrder X] {M : ℕ} {R : Type*} [CommRing R]

open Classical in
/-- strictly decreasing sequences with values in `I` -/
noncomputable def antiSeqs (M : ℕ) (I : Finset X) : Finset (Fin M → X) := (Fintype.piFinset fun _ => I).filter StrictAnti

theorem mem_antiSeqs {I : Finset X} {t : Fin M → X} : t ∈ antiSeqs M I ↔ (∀ i, t i ∈ I) ∧ StrictAnti t := by
  classical
  rw [antiSeqs, mem_filter, Fintype.mem_piFinset]

theorem det_perm_mul (φ : Fin M → X → R) (u : Fin M → X) :
    ∑ τ : Equiv.Perm (Fin M), (∏ j, φ j (u (τ j))) * (Matrix.of fun j k : Fin M => φ k (u (τ j))).det
      = (Matrix.of fun j k : Fin M => φ k (u j)).det ^ 2 := by
  have h : ∀ τ : Equiv.Perm (Fin M), (Matrix.of fun j k : Fin M => φ k (u (τ j))).det
      = ((Equiv.Perm.sign τ : ℤ) : R) * (Matrix.of fun j k : Fin M => φ k (u j)).det := fun τ =>
    Matrix.det_permute τ (Matrix.of fun j k : Fin M => φ k (u j))
  simp_rw [h]
  have e : (Matrix.of fun j k : Fin M => φ k (u j)).det = ∑ τ : Equiv.Perm (Fin M), ((Equiv.Perm.sign τ : ℤ) : R) * ∏ j, φ j (u (τ j)) := by
    rw [Matrix.det_apply']; rfl
  calc _ = (∑ τ : Equiv.Perm (Fin M), ((Equiv.Perm.sign τ : ℤ) : R) * ∏ j, φ j (u (τ j))) * (Matrix.of fun j k : Fin M => φ k (u j)).det := by
        rw [sum_mul]; exact sum_congr rfl fun τ _ => by ring
    _ = _ := by rw [← e, sq]

theorem andreief (I : Finset X) (h : X → R) (φ : Fin M → X → R) :
    ∑ t ∈ antiSeqs M I, (∏ i, h (t i)) * (Matrix.of fun j k : Fin M => φ k (t j)).det ^ 2
      = (Matrix.of fun j k : Fin M => ∑ s ∈ I, h s * φ j s * φ k s).det := by
  classical
  have e1 : (Matrix.of fun j k : Fin M => ∑ s ∈ I, h s * φ j s * φ k s).det
      = ∑ t ∈ Fintype.piFinset fun _ : Fin M => I, (∏ i, h (t i)) * ((∏ j, φ j (t j)) * (Matrix.of fun j k : Fin M => φ k (t j)).det) := by
    rw [← Matrix.det_transpose, Matrix.det_apply']
    simp only [Matrix.transpose_apply, Matrix.of_apply]
    simp_rw [Finset.prod_univ_sum, mul_sum]
    rw [sum_comm]
    refine sum_congr rfl fun t _ => ?_
    rw [← Matrix.det_transpose (Matrix.of fun j k : Fin M => φ k (t j)), Matrix.det_apply', mul_sum, mul_sum]
    refine sum_congr rfl fun σ _ => ?_
    simp only [Matrix.transpose_apply, Matrix.of_apply, prod_mul_distrib]
    ring
  have e2 : ∑ t ∈ Fintype.piFinset fun _ : Fin M => I, (∏ i, h (t i)) * ((∏ j, φ j (t j)) * (Matrix.of fun j k : Fin M => φ k (t j)).det)
      = ∑ t ∈ (Fintype.piFinset fun _ : Fin M => I).filter Function.Injective,
          (∏ i, h (t i)) * ((∏ j, φ j (t j)) * (Matrix.of fun j k : Fin M => φ k (t j)).det) := by
    symm
    refine sum_subset (filter_subset _ _) fun t ht hn => ?_
    have hni : ¬ Function.Injective t := fun hc => hn (mem_filter.2 ⟨ht, hc⟩)
    rw [Function.not_injective_iff] at hni
    obtain ⟨a, b, hab, hne⟩ := hni
    rw [Matrix.det_zero_of_row_eq hne (by funext k; simp [hab]), mul_zero, mul_zero]
  rw [e1, e2]
  have e3 : ∑ t ∈ (Fintype.piFinset fun _ : Fin M => I).filter Function.Injective,
          (∏ i, h (t i)) * ((∏ j, φ j (t j)) * (Matrix.of fun j k : Fin M => φ k (t j)).det)
      = ∑ p ∈ antiSeqs M I ×ˢ (univ : Finset (Equiv.Perm (Fin M))),
          (∏ i, h (p.1 (p.2 i))) * ((∏ j, φ j (p.1 (p.2 j))) * (Matrix.of fun j k : Fin M => φ k (p.1 (p.2 j))).det) := by
    symm
    refine sum_bij (fun p _ => p.1 ∘ p.2) ?_ ?_ ?_ ?_
    · rintro ⟨u, τ⟩ hp
      rw [mem_product, mem_antiSeqs] at hp
      rw [mem_filter, Fintype.mem_piFinset]
      exact ⟨fun i => hp.1.1 _, hp.1.2.injective.comp τ.injective⟩
    · rintro ⟨u, τ⟩ hp ⟨u', τ'⟩ hp' heq
      rw [mem_product, mem_antiSeqs] at hp hp'
      simp only at heq hp hp'
      have hinj : Function.Injective (u ∘ τ) := hp.1.2.injective.comp τ.injective
      obtain ⟨τ0, -, huniq⟩ := exists_unique_anti hinj
      have a1 : τ⁻¹ = τ0 := huniq _ (by
        have : (u ∘ τ) ∘ (τ⁻¹ : Equiv.Perm (Fin M)) = u := by funext i; simp
        change StrictAnti ((u ∘ τ) ∘ (τ⁻¹ : Equiv.Perm (Fin M))); rw [this]; exact hp.1.2)
      have a2 : τ'⁻¹ = τ0 := huniq _ (by
        have : (u ∘ τ) ∘ (τ'⁻¹ : Equiv.Perm (Fin M)) = u' := by rw [heq]; funext i; simp
        change StrictAnti ((u ∘ τ) ∘ (τ'⁻¹ : Equiv.Perm (Fin M))); rw [this]; exact hp'.1.2)
      have hτ : τ = τ' := inv_injective (a1.trans a2.symm)
      subst hτ
      have hu : u = u' := by
        funext i
        have := congrFun heq (τ⁻¹ i)
        simpa using this
      rw [hu]
    · intro t ht
      rw [mem_filter, Fintype.mem_piFinset] at ht
      obtain ⟨τ0, h1, -⟩ := exists_unique_anti ht.2
      refine ⟨(t ∘ τ0, τ0⁻¹), ?_, ?_⟩
      · rw [mem_product, mem_antiSeqs]
        exact ⟨⟨fun i => ht.1 _, h1⟩, mem_univ _⟩
      · funext i; simp
    · rintro ⟨u, τ⟩ hp; rfl
  rw [e3, sum_product]
  refine sum_congr rfl fun u _ => ?_
  simp only
  rw [← det_perm_mul, mul_sum]
  refine sum_congr rfl fun τ _ => ?_
  rw [Equiv.prod_comp τ (fun i => h (u i))]

end Verif.Lemmas
