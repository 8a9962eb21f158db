import Verif.Lemmas.Spectral
import Verif.Lemmas.Selection
import Verif.Model.Spectral

/-!
Laws of the two-step samplers.
-/

set_option linter.unusedSectionVars false

namespace Verif.Model
open Verif Verif.Spec Matrix

variable {N M r : ℕ}

/-- law of the projection sampler on every set -/
theorem eig_exact_law {qr : QR N} (hqr : QRSpec qr) {V : Matrix (Fin N) (Fin r) ℝ} (hV : Vᵀ * V = 1)
    (mode : String) (hmode : mode = "GS" ∨ mode = "GS_bis" ∨ mode = "KuTa12") (S : Finset (Fin N)) :
    (projDppSamplerEig qr V mode none).prob (fun o => ∃ l, o = .ok l ∧ l.toFinset = S)
      = exactProb (V * Vᵀ) S := by
  classical
  have hP := isProjection_of_orthonormal hV
  have ht := trace_of_orthonormal hV
  rw [exactProb_proj hP ht, (eig_lawEq hqr hV none le_rfl mode hmode).prob]
  split
  · rename_i hS
    refine (projChain_prob_set (r : ℤ) r 0 r _ _ (chainInv_init hP ht) le_rfl S hS).trans ?_
    simp
  · rename_i hS
    rw [Dist.prob_eq]
    refine (Dist.E_congr_possible (g := fun _ => 0) ?_).trans (Dist.E_zero _)
    intro o ho
    obtain ⟨l, h1, h2, h3, _⟩ := projChain_possible (r : ℤ) _ 0 r _ _ (chainInv_init hP ht) le_rfl o ho
    rw [if_neg]
    rintro ⟨l', h4, rfl⟩
    rw [h1] at h4
    cases h4
    exact hS (by rw [List.toFinset_card_of_nodup h3, h2])

/-- subsets of `range M` and of `Fin M` -/
theorem sum_powerset_range {R : Type*} [AddCommMonoid R] (F : Finset ℕ → R) :
    ∑ J ∈ (Finset.range M).powerset, F J = ∑ J : Finset (Fin M), F (J.map Fin.valEmbedding) := by
  refine Finset.sum_bij' (fun J _ => Finset.univ.filter (fun a : Fin M => a.val ∈ J))
    (fun J _ => J.map Fin.valEmbedding) (by simp) ?_ ?_ ?_ ?_
  · intro J _
    rw [Finset.mem_powerset]
    intro x hx
    obtain ⟨a, _, rfl⟩ := Finset.mem_map.1 hx
    exact Finset.mem_range.2 a.isLt
  · intro J hJ
    ext x
    simp only [Finset.mem_map, Finset.mem_filter, Finset.mem_univ, true_and, Fin.valEmbedding_apply]
    constructor
    · rintro ⟨a, ha, rfl⟩; exact ha
    · intro hx
      exact ⟨⟨x, Finset.mem_range.1 (Finset.mem_powerset.1 hJ hx)⟩, hx, rfl⟩
  · intro J _
    ext a
    simp only [Finset.mem_map, Finset.mem_filter, Finset.mem_univ, true_and, Fin.valEmbedding_apply]
    exact ⟨fun ⟨b, hb, hab⟩ => Fin.ext hab ▸ hb, fun h => ⟨a, h, rfl⟩⟩
  · intro J hJ
    congr 1
    ext x
    simp only [Finset.mem_map, Finset.mem_filter, Finset.mem_univ, true_and, Fin.valEmbedding_apply]
    constructor
    · intro hx
      exact ⟨⟨x, Finset.mem_range.1 (Finset.mem_powerset.1 hJ hx)⟩, hx, rfl⟩
    · rintro ⟨a, ha, rfl⟩; exact ha

theorem vecNat_val (v : Fin M → ℝ) (a : Fin M) : vecNat v a.val = v a := by
  rw [vecNat, dif_pos a.isLt]

theorem prod_vecNat (v : Fin M → ℝ) (J : Finset (Fin M)) :
    ∏ j ∈ J.map Fin.valEmbedding, vecNat v j = ∏ a ∈ J, v a := by
  rw [Finset.prod_map]
  exact Finset.prod_congr rfl (fun a _ => vecNat_val v a)

theorem range_sdiff_map (J : Finset (Fin M)) :
    Finset.range M \ J.map Fin.valEmbedding = Jᶜ.map Fin.valEmbedding := by
  ext x
  simp only [Finset.mem_sdiff, Finset.mem_range, Finset.mem_map, Fin.valEmbedding_apply,
    Finset.mem_compl, not_exists, not_and]
  constructor
  · rintro ⟨h1, h2⟩
    exact ⟨⟨x, h1⟩, fun hh => h2 _ hh rfl, rfl⟩
  · rintro ⟨a, ha, rfl⟩
    exact ⟨a.isLt, fun b hb hab => ha (by rwa [← Fin.ext hab])⟩

theorem prod_one_sub_vecNat (v : Fin M → ℝ) (J : Finset (Fin M)) :
    ∏ j ∈ Finset.range M \ J.map Fin.valEmbedding, (1 - vecNat v j) = ∏ a ∈ Jᶜ, (1 - v a) := by
  rw [range_sdiff_map, Finset.prod_map]
  exact Finset.prod_congr rfl (fun a _ => by rw [Fin.valEmbedding_apply, vecNat_val])

theorem sl_map_lt (J : Finset (Fin M)) (k : Fin (sl (J.map Fin.valEmbedding)).length) :
    (sl (J.map Fin.valEmbedding)).get k < M := by
  have h := (Finset.mem_sort (· ≤ ·)).1 (List.get_mem (sl (J.map Fin.valEmbedding)) k)
  obtain ⟨a, _, ha⟩ := Finset.mem_map.1 h
  rw [← ha]; exact a.isLt

/-- sums over the selected columns -/
theorem sum_cols (J : Finset (Fin M)) (F : Fin M → ℝ) :
    ∑ k : Fin (sl (J.map Fin.valEmbedding)).length,
      F ⟨(sl (J.map Fin.valEmbedding)).get k, sl_map_lt J k⟩ = ∑ a ∈ J, F a := by
  have h1 : ∀ x ∈ J.map Fin.valEmbedding, x < M := by
    intro x hx
    obtain ⟨a, _, ha⟩ := Finset.mem_map.1 hx
    rw [← ha]; exact a.isLt
  have h2 : ∑ a ∈ J, F a = ∑ x ∈ J.map Fin.valEmbedding, vecNat F x := by
    rw [Finset.sum_map]
    exact Finset.sum_congr rfl (fun a _ => by rw [Fin.valEmbedding_apply, vecNat_val])
  rw [h2]
  have h3 : ((sl (J.map Fin.valEmbedding)).map (vecNat F)).sum
      = ∑ x ∈ J.map Fin.valEmbedding, vecNat F x := by
    rw [← List.sum_toFinset _ (Finset.sort_nodup _ _), Finset.sort_toFinset]
  rw [← h3, ← List.ofFn_get ((sl (J.map Fin.valEmbedding)).map (vecNat F)), List.sum_ofFn]
  refine Finset.sum_bij' (fun k _ => Fin.cast (by simp) k) (fun k _ => Fin.cast (by simp) k)
    (by simp) (by simp) (by simp) (by simp) ?_
  intro k _
  simp only [List.get_eq_getElem, List.getElem_map, Fin.val_cast]
  exact (vecNat_val F ⟨_, sl_map_lt J k⟩).symm

theorem cols_eq (U : Fin N → Fin M → ℝ) (J : Finset (Fin M)) (i : Fin N)
    (k : Fin (sl (J.map Fin.valEmbedding)).length) :
    cols U (sl (J.map Fin.valEmbedding)) i k
      = U i ⟨(sl (J.map Fin.valEmbedding)).get k, sl_map_lt J k⟩ := by
  rw [cols, dif_pos (sl_map_lt J k)]

theorem sl_map_mem (J : Finset (Fin M)) (k : Fin (sl (J.map Fin.valEmbedding)).length) :
    (⟨(sl (J.map Fin.valEmbedding)).get k, sl_map_lt J k⟩ : Fin M) ∈ J := by
  have h := (Finset.mem_sort (· ≤ ·)).1 (List.get_mem (sl (J.map Fin.valEmbedding)) k)
  obtain ⟨a, ha, hb⟩ := Finset.mem_map.1 h
  have : (⟨(sl (J.map Fin.valEmbedding)).get k, sl_map_lt J k⟩ : Fin M) = a := Fin.ext hb.symm
  rw [this]; exact ha

theorem cols_orth {U : Fin N → Fin M → ℝ} (J : Finset (Fin M))
    (hU : ∀ a ∈ J, ∀ b ∈ J, ∑ i, U i a * U i b = if a = b then 1 else 0) :
    (Matrix.of (cols U (sl (J.map Fin.valEmbedding))))ᵀ *
      Matrix.of (cols U (sl (J.map Fin.valEmbedding))) = 1 := by
  ext k l
  rw [Matrix.mul_apply]
  simp only [Matrix.transpose_apply, Matrix.of_apply, cols_eq]
  rw [hU _ (sl_map_mem J k) _ (sl_map_mem J l), Matrix.one_apply]
  by_cases hkl : k = l
  · subst hkl; simp
  · rw [if_neg hkl, if_neg]
    intro hc
    apply hkl
    have h4 : (sl (J.map Fin.valEmbedding)).get k = (sl (J.map Fin.valEmbedding)).get l := by
      simpa using hc
    exact (List.nodup_iff_injective_get.1 (Finset.sort_nodup _ _)) h4

theorem cols_ker (U : Fin N → Fin M → ℝ) (J : Finset (Fin M)) :
    Matrix.of (cols U (sl (J.map Fin.valEmbedding))) *
      (Matrix.of (cols U (sl (J.map Fin.valEmbedding))))ᵀ = ker U (ind J) := by
  ext i j
  rw [Matrix.mul_apply]
  simp only [Matrix.transpose_apply, Matrix.of_apply, cols_eq, ker]
  rw [sum_cols J (fun a => U i a * U j a)]
  simp only [ind, ite_mul, one_mul, zero_mul]
  rw [← Finset.sum_filter]
  simp

/-- law of the projection sampler on the selected columns -/
theorem cols_law {qr : QR N} (hqr : QRSpec qr) {U : Fin N → Fin M → ℝ} (J : Finset (Fin M))
    (hU : ∀ a ∈ J, ∀ b ∈ J, ∑ i, U i a * U i b = if a = b then 1 else 0)
    (mode : String) (hmode : mode = "GS" ∨ mode = "GS_bis" ∨ mode = "KuTa12")
    (S : Finset (Fin N)) :
    (projDppSamplerEig qr (cols U (sl (J.map Fin.valEmbedding))) mode none).prob
        (fun o => ∃ l, o = .ok l ∧ l.toFinset = S)
      = exactProb (ker U (ind J)) S := by
  rw [← cols_ker, ← eig_exact_law hqr (cols_orth J hU) mode hmode S]
  rfl

theorem sampleExactEig_prob {qr : QR N} (hqr : QRSpec qr) {U : Fin N → Fin M → ℝ}
    (lam : Fin M → ℝ) (hU : ∀ a b, lam a ≠ 0 → lam b ≠ 0 → ∑ i, U i a * U i b = if a = b then 1 else 0)
    (hlam : ∀ a, 0 ≤ lam a ∧ lam a ≤ 1) (mode : String)
    (hmode : mode = "GS" ∨ mode = "GS_bis" ∨ mode = "KuTa12") (S : Finset (Fin N)) :
    (sampleExactEig qr lam U mode).prob (fun o => ∃ l, o = .ok l ∧ l.toFinset = S)
      = exactProb (ker U lam) S := by
  classical
  unfold sampleExactEig
  rw [Dist.prob_eq, Dist.E_bind, dppEigVecsSelector_E _ _ (fun i hi => by
    have := hlam ⟨i, hi⟩
    simpa [vecNat, hi] using this), sum_powerset_range, ← sum_exactProb_ker]
  apply Finset.sum_congr rfl
  intro J _
  rw [prod_vecNat, prod_one_sub_vecNat]
  by_cases hJ : ∀ a ∈ J, lam a ≠ 0
  · rw [← cols_law hqr J (fun a ha b hb => hU a b (hJ a ha) (hJ b hb)) mode hmode S, Dist.prob_eq]
  · push Not at hJ
    obtain ⟨a, ha, h0⟩ := hJ
    rw [Finset.prod_eq_zero ha h0, zero_mul, zero_mul, zero_mul]

end Verif.Model
